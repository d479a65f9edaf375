import Verif.Proofs.ValladoLemmas

/-! # C16: what `vallado2013` returns is a true Kepler transfer -/

set_option autoImplicit false

namespace Lamberthub
open Spec LC Vallado

/-- **C16.** Whenever `vallado2013` returns, for positions not aligned with the centre,
the velocities belong to one and the same Kepler orbit that goes from `r1` to `r2` in
less than one revolution; the time this orbit takes agrees with the requested one up to
the relative tolerance; and the motion turns in the requested sense. -/
theorem vallado_kepler_transfer {mu : ℝ} {r1 r2 : V3} {tof : ℝ} {M : ℤ} {pro low : Bool}
    {maxiter : ℕ} {atol rtol : ℝ} {fo : Bool} {clock : ℝ} {out : Output}
    (h : vallado2013 mu r1 r2 tof M pro low maxiter atol rtol fo clock = .ok out)
    (hna : NotAligned r1 r2) :
    (∃ T, LambertArc mu r1 r2 out.v1 out.v2 T 0 ∧ |T - tof| < rtol * tof) ∧
      (NotPolar r1 r2 → Sense pro r1 out.v1) := by
  unfold vallado2013 at h
  simp only [bind_ok, raiseIf_ok] at h
  obtain ⟨_, ha, θ, hθ, A, hA, _, hA0, ⟨y, p, k⟩, hl, h⟩ := h
  obtain ⟨hmu, -, -, htof, -⟩ := assertParameters_ok ha
  have hang := angle_of_eq hna hθ
  have hR1 := norm_pos_of_notAligned_left hna
  have hR2 := norm_pos_of_notAligned_right hna
  obtain ⟨hA2, hAs⟩ := getA_ok hA (by
    have := Real.neg_one_le_cos θ
    have h1 : 0 ≤ 1 + Real.cos θ := by linarith
    positivity)
  have hG := hang.geo hna hA2
  have hpi := Real.pi_pos
  have hpi2 : 0 < Real.pi ^ 2 := by positivity
  obtain ⟨hp, hy, hy0, he, -, -⟩ := loop_ok hR1 hR2 hG.A2_lt (by norm_num; linarith)
    (by linarith) le_rfl hl
  simp only [bind_ok, pdiv_ok, psqrt_ok, vdiv_ok] at h
  obtain ⟨_, ⟨_, rfl⟩, _, ⟨_, rfl⟩, _, ⟨_, rfl⟩, _, ⟨_, rfl⟩, v1, ⟨hg, rfl⟩, v2, ⟨_, rfl⟩, h⟩ := h
  have hyp : 0 < y := by
    rcases hy0.lt_or_eq with h1 | h1
    · exact h1
    · exfalso; apply hg; rw [← h1]; simp
  have hout := (Except.ok.inj h).symm
  subst hout
  simp only [mkOutput_v1, mkOutput_v2]
  refine ⟨⟨uvT mu (V3.norm r1 + V3.norm r2) A p, ?_, ?_⟩, ?_⟩
  · rw [hy] at hyp ⊢; exact (uv_path hmu hp hyp).arc hmu hG
  · rw [abs_div, abs_of_pos htof, div_lt_iff₀ htof] at he; exact he
  · intro hnp
    exact sense_of_sign hmu hyp hG.hA hnp ((hAs hG.hA).trans hang.short)

end Lamberthub

namespace Lamberthub
open Spec LC Vallado

/-- The signed geometry constant for non-aligned positions. -/
noncomputable def signedA (pro : Bool) (r1 r2 : V3) : ℝ :=
  (if ShortWay pro r1 r2 then 1 else -1) * Real.sqrt (V3.norm r1 * V3.norm r2 + V3.dot r1 r2)

theorem getA_signedA {pro : Bool} {r1 r2 : V3} {θ : ℝ} (h : Angle pro r1 r2 θ)
    (hna : NotAligned r1 r2) :
    getA (V3.norm r1) (V3.norm r2) θ = .ok (signedA pro r1 r2) ∧ Geo r1 r2 (signedA pro r1 r2) := by
  have e : V3.norm r1 * V3.norm r2 * (1 + Real.cos θ) =
      V3.norm r1 * V3.norm r2 + V3.dot r1 r2 := by rw [← h.cos_eq]; ring
  have h0 : 0 ≤ V3.norm r1 * V3.norm r2 + V3.dot r1 r2 := by
    linarith [(abs_lt.1 (abs_dot_lt hna)).1]
  have h1 : getA (V3.norm r1) (V3.norm r2) θ = .ok (signedA pro r1 r2) := by
    unfold getA signedA
    simp only [h.short, e]
    rw [psqrt_eq h0, ok_bind]
  exact ⟨h1, h.geo hna (getA_ok h1 (by rw [e]; exact h0)).1⟩

/-- The flight time of the parabola is accepted at the first pass. -/
theorem vallado_first_pass {mu : ℝ} (hmu : 0 < mu) {r1 r2 : V3} (h1 : 0 < V3.norm r1) (h2 : 0 < V3.norm r2)
    (h12 : r1 ≠ r2) {pro : Bool} {θ A : ℝ} (hθ : getTransferAngle r1 r2 pro = .ok θ)
    (hA : getA (V3.norm r1) (V3.norm r2) θ = .ok A) (hA0 : A ≠ 0)
    (hA2 : 2 * A ^ 2 < (V3.norm r1 + V3.norm r2) ^ 2) (hT : 0 < uvT mu (V3.norm r1 + V3.norm r2) A 0)
    (low : Bool) (n : ℕ) (atol : ℝ) {rtol : ℝ} (hr : 0 < rtol) (fo : Bool) (clock : ℝ) :
    ∃ out, vallado2013 mu r1 r2 (uvT mu (V3.norm r1 + V3.norm r2) A 0) 0 pro low
      (n + 1) atol rtol fo clock = .ok out := by
  have hpi := Real.pi_pos
  have hy : 0 < uvY (V3.norm r1 + V3.norm r2) A 0 := uvY_pos_of h1 h2 hA2 le_rfl (by positivity)
  have hc2 : 0 < stumpffSeries 2 0 := by rw [series2_zero]; norm_num
  unfold vallado2013
  simp only [assertParameters_eq hmu (norm_pos_iff.1 h1) h12 hT le_rfl, ok_bind, hθ, hA]
  rw [raiseIf_neg _ (by norm_num; exact hA0), ok_bind]
  have hloop : loop mu (V3.norm r1) (V3.norm r2) A
      (uvT mu (V3.norm r1 + V3.norm r2) A 0) rtol (n + 1) 1 0.0
      (-4 * Real.pi ^ 2) (4 * Real.pi ^ 2) =
      .ok (uvY (V3.norm r1 + V3.norm r2) A 0, 0, 1) := by
    unfold loop
    rw [show (0.0 : ℝ) = 0 by norm_num, yAtPsi_eq hc2]
    simp only [ok_bind]
    have hre : readjust (V3.norm r1) (V3.norm r2) A
        ⟨-4 * Real.pi ^ 2, 0, uvY (V3.norm r1 + V3.norm r2) A 0⟩ =
        .ok ⟨-4 * Real.pi ^ 2, 0, uvY (V3.norm r1 + V3.norm r2) A 0⟩ := by
      unfold readjust
      split
      · exact whileLoop_false (not_lt.2 hy.le)
      · rfl
    rw [hre]
    simp only [ok_bind, xAtPsi, c2_eq, tofVallado, c3_eq]
    rw [pdiv_eq hc2.ne']
    simp only [ok_bind]
    rw [psqrt_eq (by positivity)]
    simp only [ok_bind]
    rw [psqrt_eq hy.le, psqrt_eq hmu.le]
    simp only [ok_bind]
    rw [pdiv_eq (by positivity)]
    simp only [ok_bind]
    have : (Real.sqrt (uvY (V3.norm r1 + V3.norm r2) A 0 / stumpffSeries 2 0) ^ 3 *
        stumpffSeries 3 0 + A *
        Real.sqrt (uvY (V3.norm r1 + V3.norm r2) A 0)) / Real.sqrt mu =
        uvT mu (V3.norm r1 + V3.norm r2) A 0 := rfl
    rw [this, sub_self, pdiv_eq hT.ne', ok_bind, zero_div, abs_zero, if_pos hr]
  rw [hloop]
  simp only [ok_bind]
  rw [pdiv_eq h1.ne', ok_bind, pdiv_eq hmu.ne', ok_bind, psqrt_eq (by positivity), ok_bind,
    pdiv_eq h2.ne', ok_bind]
  have hg : A *
      Real.sqrt (uvY (V3.norm r1 + V3.norm r2) A 0 / mu) ≠ 0 :=
    mul_ne_zero hA0 (by positivity)
  simp only [vdiv, if_neg hg, ok_bind]
  exact ⟨_, rfl⟩

/-- `vallado2013` does return: for every pair of non-aligned positions and either sense,
the time of flight of the parabolic transfer is accepted at the first pass. -/
theorem vallado_returns_parabolic {mu : ℝ} (hmu : 0 < mu) {r1 r2 : V3} (hna : NotAligned r1 r2)
    (pro low : Bool) (n : ℕ) (atol : ℝ) {rtol : ℝ} (hr : 0 < rtol) (fo : Bool) (clock : ℝ) :
    0 < uvT mu (V3.norm r1 + V3.norm r2) (signedA pro r1 r2) 0 ∧
    ∃ out, vallado2013 mu r1 r2 (uvT mu (V3.norm r1 + V3.norm r2) (signedA pro r1 r2) 0) 0 pro low
      (n + 1) atol rtol fo clock = .ok out := by
  have hang := angle_of_eq hna (transferAngle_eq hna pro)
  obtain ⟨hA, hG⟩ := getA_signedA hang hna
  have hpi := Real.pi_pos
  have hy : 0 < uvY (V3.norm r1 + V3.norm r2) (signedA pro r1 r2) 0 :=
    uvY_pos hG.R1 hG.R2 hG.A2_lt le_rfl (by positivity)
  have hT : 0 < uvT mu (V3.norm r1 + V3.norm r2) (signedA pro r1 r2) 0 :=
    ((uv_path hmu (by positivity) hy).arc hmu hG).1
  refine ⟨hT, ?_⟩
  have h12 : r1 ≠ r2 := by
    rintro rfl; apply hna; refine ⟨?_, ?_, ?_⟩ <;> ring
  exact vallado_first_pass hmu hG.R1 hG.R2 h12 (transferAngle_eq hna pro) hA hG.hA (sum_sq_gt hG.A2_lt) hT low n atol hr fo
    clock

/-- Non-vacuity of `vallado_kepler_transfer`: a quarter turn in the equatorial plane. -/
example : ∃ tof out, vallado2013 1 ⟨1, 0, 0⟩ ⟨0, 1, 0⟩ tof 0 true true 35 1e-5 1e-7 false 0 = .ok out ∧
    NotAligned ⟨1, 0, 0⟩ ⟨0, 1, 0⟩ ∧ NotPolar ⟨1, 0, 0⟩ ⟨0, 1, 0⟩ := by
  have hna : NotAligned ⟨1, 0, 0⟩ ⟨0, 1, 0⟩ := by simp [NotAligned]
  obtain ⟨_, out, h⟩ := vallado_returns_parabolic one_pos hna true true 34 1e-5
    (rtol := 1e-7) (by norm_num) false 0
  exact ⟨_, out, h, hna, by simp [NotPolar]⟩

end Lamberthub
