import Verif.Props.OneOrbit

/-! # C26, C60: the velocities of `pan2016` without exception -/

set_option autoImplicit false

namespace Lamberthub
open Spec LC Pan

/-- **C60** for `pan2016`, for all inputs: also when the eccentricity was rounded to 1, the two velocities lie on
one orbit, run in the requested sense. -/
theorem pan_oneOrbit {brentq : Brent} (hb : BrentSpec brentq) (he : BrentEvaluates brentq)
    {mu : ℝ} {r1 r2 : V3} {tof : ℝ} {M : ℤ} {pro low : Bool} {maxiter : ℕ} {atol rtol : ℝ} {full : Bool}
    {clock : ℝ} {out : Output} (hatol : 0 ≤ atol)
    (h : pan2016 brentq mu r1 r2 tof M pro low maxiter atol rtol full clock = .ok out) :
    OneOrbit mu r1 out.v1 r2 out.v2 ∧ (NotPolar r1 r2 → Sense pro r1 out.v1) := by
  unfold pan2016 at h
  simp only [bind_ok, raiseIf_ok, assertTransferAngleNotZero, assertTransferAngleNotPi] at h
  obtain ⟨_, hM, _, hv, θ, hθ, _, h0, _, hpi, h⟩ := h
  obtain ⟨hmu, -, -, htof, hM0⟩ := assertParameters_iff.1 hv
  have hna : NotAligned r1 r2 := notAligned_of_angle hθ h0 hpi
  have hA := angle_of_eq hna hθ
  have hval : vallado2013 mu r1 r2 tof M pro low maxiter atol rtol full clock = .ok out →
      OneOrbit mu r1 out.v1 r2 out.v2 ∧ (NotPolar r1 r2 → Sense pro r1 out.v1) := by
    intro h
    obtain ⟨⟨T, hT, -⟩, hs⟩ := vallado_kepler_transfer h hna
    exact ⟨arc_oneOrbit hmu hna hT, hs⟩
  split at h
  · exact hval h
  rename_i hclose
  rw [bind_ok] at h
  obtain ⟨g, hg, h⟩ := h
  obtain ⟨g', hg', hP⟩ := planarGeometry_eq hA hna
  rw [hg] at hg'
  obtain rfl := Except.ok.inj hg'
  split at h
  · rename_i ω n hfind
    obtain ⟨-, T, hT⟩ := find_ok hb he hfind
    simp only [finish, bind_ok] at h
    obtain ⟨tpi, -, el, hel, ⟨v1, v2⟩, hrec, h⟩ := h
    obtain rfl := (Except.ok.inj h).symm
    simp only [mkOutput_v1, mkOutput_v2] at *
    have hne : V3.norm r1 ≠ V3.norm r2 := by
      intro h1
      apply hclose
      rw [h1, sub_self, abs_zero]
      positivity
    have hR1 := norm_pos_of_notAligned_left hna
    have hR2 := norm_pos_of_notAligned_right hna
    obtain ⟨a1, -, -⟩ := pan_time_of_flight_partial hmu hna (by rwa [len_eq_norm, len_eq_norm]) hθ hg hel hT hrec
    refine ⟨?_, a1⟩
    obtain ⟨he0, he1, hf1, hf2, e1, e2⟩ := elements_ok hP hR1 hR2 hne hel
    rw [tofAtOmega, hel, ok_bind] at hT
    obtain ⟨hp, -⟩ := tofFromElements_ok hmu hR1 hR2 he0 he1 (twoPoints hA hR1 hR2 he0 hf1 hf2 e1 e2) hT
    obtain ⟨rfl, rfl⟩ := reconstruct_eq hmu hA hna hP hf1 hf2 e1 e2 hp hrec
    obtain ⟨σ, h2⟩ := twoPoints hA hR1 hR2 he0 hf1 hf2 e1 e2 hp
    obtain ⟨hG, -⟩ := hA.halfGeo hna
    exact hG.oneOrbit hmu h2.V_pos
  · exact hval h
  · cases h

end Lamberthub
