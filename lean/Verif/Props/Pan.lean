import Verif.Proofs.PanLemmas
import Verif.Proofs.Conserved
import Verif.Proofs.AssertLemmas
import Verif.Props.Vallado
import Verif.Props.Angles

/-! # C26: what `pan2016` returns is a true Kepler transfer -/

set_option autoImplicit false

namespace Lamberthub
open Spec LC

/-- The orbit through `r` with velocity `v` is a hyperbola so close to a parabola that the
code measures it with its parabolic time of flight: eccentricity in `[1, 1 + 1.001e-5]`. -/
def Spec.BarelyHyperbolic (mu : ℝ) (r v : V3) : Prop :=
  1 ≤ len (eccVec mu r v) ∧ len (eccVec mu r v) ≤ 1 + (1e-8 + 1e-5)

/-- A root finder only returns points at which it has evaluated the function
(scipy's `brentq.c` returns `xcur`, `xpre` or an end of the bracket, after `f` was called on it). -/
def BrentEvaluates (b : Brent) : Prop :=
  ∀ {f : ℝ → Py ℝ} {lo hi xtol rtol : ℝ} {maxiter : ℕ} {x : ℝ} {n : ℕ},
    b f lo hi xtol rtol maxiter = .ok (x, n) → ∃ y, f x = .ok y

theorem exactBrent_evaluates : BrentEvaluates exactBrent := by
  intro f lo hi xtol rtol maxiter x n h
  unfold exactBrent at h
  split at h
  · cases h
  · split at h
    · rename_i hh
      simp only [Except.ok.injEq, Prod.mk.injEq] at h
      obtain ⟨h1, -⟩ := h
      have := (Classical.choose_spec hh.1).2
      rw [h1] at this
      exact ⟨0, this⟩
    · cases h

namespace Pan

theorem clip_mem {x lo hi : ℝ} (h : lo ≤ hi) : clip x lo hi ∈ Set.Icc lo hi := by
  unfold clip
  exact ⟨le_min h (le_max_right _ _), min_le_left _ _⟩

/-- What the interval search returns: a point of the starting interval where the function
has a value, after at most `maxiter` passes; the search stopped because the value is within
`atol` of zero, or because two successive points are within the tolerance, or the point comes
from `brentq`. -/
theorem bezierLoop_ok {brentq : Brent} (hb : BrentSpec brentq) (he : BrentEvaluates brentq) {f : ℝ → Py ℝ}
    {maxiter : ℕ} {atol rtol : ℝ} : ∀ (rem k : ℕ) {prev lo hi flo fhi x : ℝ} {n : ℕ}, lo ≤ hi →
    prev ∈ Set.Icc lo hi → k + rem = maxiter + 1 →
    bezierLoop brentq f maxiter atol rtol rem k prev lo hi flo fhi = .ok (x, n) →
    x ∈ Set.Icc lo hi ∧ n ≤ maxiter ∧ ∃ y, f x = .ok y ∧
      (|y| ≤ atol ∨ (∃ x' ∈ Set.Icc lo hi, |x - x'| ≤ atol + rtol * |x|) ∨
        ∃ lo' hi' m, lo ≤ lo' ∧ lo' ≤ hi' ∧ hi' ≤ hi ∧ brentq f lo' hi' atol rtol maxiter = .ok (x, m))
  | 0, k, prev, lo, hi, flo, fhi, x, n, hlh, hprev, hk, h => by
    simp only [bezierLoop, bind_ok] at h
    obtain ⟨⟨x', m⟩, hbr, h⟩ := h
    simp only [Except.ok.injEq, Prod.mk.injEq] at h
    obtain ⟨rfl, rfl⟩ := h
    obtain ⟨y, hy⟩ := he hbr
    exact ⟨(hb.mem hlh hbr).1, le_rfl, y, hy, .inr (.inr ⟨lo, hi, m, le_rfl, hlh, le_rfl, hbr⟩)⟩
  | rem + 1, k, prev, lo, hi, flo, fhi, x, n, hlh, hprev, hk, h => by
    simp only [bezierLoop, bind_ok] at h
    obtain ⟨est, -, y, hy, h⟩ := h
    have hm := clip_mem (x := est) hlh
    generalize clip est lo hi = root at *
    split at h
    · rename_i hstop
      simp only [Except.ok.injEq, Prod.mk.injEq] at h
      obtain ⟨rfl, rfl⟩ := h
      refine ⟨hm, by omega, y, hy, ?_⟩
      rcases hstop with h1 | h1
      · exact .inl h1
      · exact .inr (.inl ⟨prev, hprev, h1⟩)
    split at h
    · obtain ⟨a1, a2, y', a3, a4⟩ := bezierLoop_ok hb he rem (k + 1) hm.1 ⟨hm.1, le_rfl⟩ (by omega) h
      refine ⟨⟨a1.1, a1.2.trans hm.2⟩, a2, y', a3, ?_⟩
      rcases a4 with b | ⟨x', b1, b2⟩ | ⟨lo', hi', m, b1, b2, b3, b4⟩
      · exact .inl b
      · exact .inr (.inl ⟨x', ⟨b1.1, b1.2.trans hm.2⟩, b2⟩)
      · exact .inr (.inr ⟨lo', hi', m, b1, b2, b3.trans hm.2, b4⟩)
    · obtain ⟨a1, a2, y', a3, a4⟩ := bezierLoop_ok hb he rem (k + 1) hm.2 ⟨le_rfl, hm.2⟩ (by omega) h
      refine ⟨⟨hm.1.trans a1.1, a1.2⟩, a2, y', a3, ?_⟩
      rcases a4 with b | ⟨x', b1, b2⟩ | ⟨lo', hi', m, b1, b2, b3, b4⟩
      · exact .inl b
      · exact .inr (.inl ⟨x', ⟨hm.1.trans b1.1, b1.2⟩, b2⟩)
      · exact .inr (.inr ⟨lo', hi', m, hm.1.trans b1, b2, b3, b4⟩)

theorem bracket_le {mu tof : ℝ} {g : Geometry} {b : ℝ × ℝ} (h : b ∈ getOmegaBrackets mu g tof) : b.1 ≤ b.2 := by
  have heps : 0 < eps := by unfold eps; positivity
  have hstep : ∀ i, sample i ≤ sample (i + 1) := by
    intro i
    unfold sample
    have : eps ≤ 1 := by unfold eps; norm_num
    have := Real.pi_gt_three
    push_cast
    nlinarith
  unfold getOmegaBrackets at h
  obtain ⟨i, -, hi⟩ := List.mem_filterMap.1 h
  unfold bracketAt at hi
  split at hi
  · split at hi
    · obtain rfl := Option.some.inj hi; simp only []; linarith
    · split at hi
      · obtain rfl := Option.some.inj hi; exact hstep i
      · cases hi
  · cases hi

theorem find_ok {brentq : Brent} (hb : BrentSpec brentq) (he : BrentEvaluates brentq) {mu tof atol rtol ω : ℝ}
    {g : Geometry} {maxiter n : ℕ}
    (h : findArgumentOfPeriapsis brentq mu g tof maxiter atol rtol = .ok (ω, n)) :
    n ≤ maxiter ∧ ∃ T, tofAtOmega mu g ω = .ok T := by
  unfold findArgumentOfPeriapsis at h
  split at h
  · cases h
  · rename_i b l hl
    have hle := bracket_le (b := b) (by rw [hl]; exact List.mem_cons_self)
    simp only [bezierRoot, bind_ok] at h
    obtain ⟨flo, -, fhi, -, h⟩ := h
    obtain ⟨-, hn, y, hy, -⟩ := bezierLoop_ok hb he maxiter 1 hle ⟨hle, le_rfl⟩ (by omega) h
    simp only [residual, bind_ok] at hy
    obtain ⟨T, hT, -⟩ := hy
    exact ⟨hn, T, hT⟩

theorem ortho {pro : Bool} {r1 r2 : V3} {θ : ℝ} {g : Geometry} (hA : Angle pro r1 r2 θ) (hna : NotAligned r1 r2)
    (hP : Plane r1 r2 θ g) : Orthonormal g.ix g.iy := by
  have hR1 := norm_pos_of_notAligned_left hna
  have hR2 := norm_pos_of_notAligned_right hna
  have hS : Real.sin θ ≠ 0 := by
    have := sin_cross hA hna
    have hW := cross_norm_pos hna
    intro h0
    rw [h0, mul_zero] at this
    split at this <;> linarith
  have hc := hA.cos_eq
  have t := Real.sin_sq_add_cos_sq θ
  have q1 : V3.norm r1 ^ 2 = inner r1 r1 := by rw [← len_eq_norm, len, Real.sq_sqrt (by positivity)]; unfold inner; ring
  have q2 : V3.norm r2 ^ 2 = inner r2 r2 := by rw [← len_eq_norm, len, Real.sq_sqrt (by positivity)]; unfold inner; ring
  rw [← inner_eq_dot] at hc
  have p1 := hP.p1
  have p2 := hP.p2
  generalize V3.norm r1 = R1 at *
  generalize V3.norm r2 = R2 at *
  generalize Real.cos θ = C at *
  generalize Real.sin θ = S at *
  generalize g.ix = i at *
  generalize g.iy = j at *
  have e1 : inner r1 r1 = R1 ^ 2 * inner i i := by
    rw [p1]; simp only [inner, V3.smul_x, V3.smul_y, V3.smul_z]; ring
  have hii : inner i i = 1 := by
    have : R1 ^ 2 * inner i i = R1 ^ 2 * 1 := by rw [← e1, q1, mul_one]
    exact mul_left_cancel₀ (by positivity) this
  have e2 : inner r1 r2 = R1 * R2 * C * inner i i + R1 * R2 * S * inner i j := by
    rw [p1, p2]; simp only [inner, V3.smul_x, V3.smul_y, V3.smul_z, V3.add_x, V3.add_y, V3.add_z]; ring
  have hij : inner i j = 0 := by
    have : R1 * R2 * S * inner i j = 0 := by rw [hii] at e2; linarith
    exact (mul_eq_zero.1 this).resolve_left (by positivity)
  have e3 : inner r2 r2 = R2 ^ 2 * (C ^ 2 * inner i i + 2 * C * S * inner i j + S ^ 2 * inner j j) := by
    rw [p2]; simp only [inner, V3.smul_x, V3.smul_y, V3.smul_z, V3.add_x, V3.add_y, V3.add_z]; ring
  refine ⟨hii, ?_, hij⟩
  rw [hii, hij, ← q2] at e3
  have h4 : C ^ 2 * 1 + 2 * C * S * 0 + S ^ 2 * inner j j = 1 :=
    (mul_left_cancel₀ (a := R2 ^ 2) (by positivity) (by linarith)).symm
  exact mul_left_cancel₀ (a := S ^ 2) (by positivity) (by linarith)

/-- The eccentricity of the returned orbit is that of the elements. -/
theorem reconstruct_ecc {pro : Bool} {r1 r2 : V3} {θ mu : ℝ} {g : Geometry} {el : Elements} {v1 v2 : V3}
    (hmu : 0 < mu) (hA : Angle pro r1 r2 θ) (hna : NotAligned r1 r2) (hP : Plane r1 r2 θ g) (he0 : 0 < el.ecc)
    (h1 : el.f1 = -el.omega)
    (e1 : V3.norm r1 * (1 + el.ecc * Real.cos el.omega) = el.a * (1 - el.ecc ^ 2))
    (hp : 0 < el.a * (1 - el.ecc ^ 2)) (h : reconstruct mu g el = .ok (v1, v2)) :
    len (eccVec mu r1 v1) = el.ecc := by
  have hR1 := norm_pos_of_notAligned_left hna
  obtain ⟨o1, o2, o3⟩ := ortho hA hna hP
  unfold reconstruct semiLatus at h
  simp only [if_neg (not_le.2 hp), bind_ok, raiseIf_ok, pdiv_ok, psqrt_ok] at h
  obtain ⟨_, -, _, ⟨-, rfl⟩, _, ⟨-, rfl⟩, h⟩ := h
  simp only [Except.ok.injEq, Prod.mk.injEq] at h
  obtain ⟨hv, -⟩ := h
  rw [h1, Real.sin_neg, Real.cos_neg] at hv
  have hs2 : Real.sqrt (mu / (el.a * (1 - el.ecc ^ 2))) ^ 2 * (el.a * (1 - el.ecc ^ 2)) = mu := by
    rw [Real.sq_sqrt (by positivity), div_mul_cancel₀ _ hp.ne']
  have t := Real.sin_sq_add_cos_sq el.omega
  have p1 := hP.p1
  have hl : len r1 = V3.norm r1 := len_eq_norm r1
  generalize Real.sqrt (mu / (el.a * (1 - el.ecc ^ 2))) = s at *
  rw [← e1] at hs2
  have hsq : len (eccVec mu r1 v1) ^ 2 = el.ecc ^ 2 := by
    unfold eccVec
    rw [hl]
    generalize V3.norm r1 = R1 at *
    generalize Real.cos el.omega = c at *
    generalize Real.sin el.omega = w at *
    generalize el.ecc = e at *
    generalize g.ix = i at *
    generalize g.iy = j at *
    have hv' : v1 = (-(s * (e * w))) • i + (s * (1 + e * c)) • j := by
      rw [← hv]
      ext <;> simp only [V3.add_x, V3.add_y, V3.add_z, V3.smul_x, V3.smul_y, V3.smul_z]
      · linear_combination s * j.x * t
      · linear_combination s * j.y * t
      · linear_combination s * j.z * t
    have hE : (1 / mu) • outer v1 (outer r1 v1) - (1 / R1) • r1 = (e * c) • i + (e * w) • j := by
      have hout : outer v1 (outer r1 v1) = (inner v1 v1) • r1 - (inner r1 v1) • v1 := by
        ext <;> simp only [outer, inner, V3.sub_x, V3.sub_y, V3.sub_z, V3.smul_x, V3.smul_y, V3.smul_z] <;> ring
      have i1 : inner v1 v1 = s ^ 2 * ((e * w) ^ 2 + (1 + e * c) ^ 2) := by
        have : inner v1 v1 = s ^ 2 * ((e * w) ^ 2 * inner i i + (1 + e * c) ^ 2 * inner j j - 2 * (e * w) * (1 + e * c) * inner i j) := by
          rw [hv']; simp only [inner, V3.add_x, V3.add_y, V3.add_z, V3.smul_x, V3.smul_y, V3.smul_z]; ring
        rw [this, o1, o2, o3]; ring
      have i2 : inner r1 v1 = -(R1 * s * (e * w)) := by
        have : inner r1 v1 = R1 * (-(s * (e * w)) * inner i i + s * (1 + e * c) * inner i j) := by
          rw [hv', p1]; simp only [inner, V3.add_x, V3.add_y, V3.add_z, V3.smul_x, V3.smul_y, V3.smul_z]; ring
        rw [this, o1, o3]; ring
      rw [hout, i1, i2, hv', p1, ← hs2]
      have h1c : s ^ 2 * (R1 * (1 + e * c)) ≠ 0 := by rw [hs2]; exact hmu.ne'
      have hs0 : s ≠ 0 := by rintro rfl; apply h1c; ring
      have hc0 : 1 + e * c ≠ 0 := by intro h0; apply h1c; rw [h0]; ring
      ext <;> simp only [V3.add_x, V3.add_y, V3.add_z, V3.sub_x, V3.sub_y, V3.sub_z, V3.smul_x, V3.smul_y, V3.smul_z] <;>
        field_simp <;> ring
    rw [hE, len, Real.sq_sqrt (by positivity)]
    have : ((e * c) • i + (e * w) • j).x ^ 2 + ((e * c) • i + (e * w) • j).y ^ 2 + ((e * c) • i + (e * w) • j).z ^ 2 =
        e ^ 2 * (c ^ 2 * inner i i + 2 * c * w * inner i j + w ^ 2 * inner j j) := by
      simp only [inner, V3.add_x, V3.add_y, V3.add_z, V3.smul_x, V3.smul_y, V3.smul_z]; ring
    rw [this, o1, o2, o3]
    linear_combination e ^ 2 * t
  have hlen : 0 ≤ len (eccVec mu r1 v1) := Real.sqrt_nonneg _
  exact (pow_left_inj₀ hlen he0.le two_ne_zero).1 hsq

end Pan

open Pan

/-- **C48 (partial).** The time of flight that Pan's search compares with `tof` is the true
one: for every argument of periapsis, if the code computes a time `T` and velocities, then
(unless the orbit is a hyperbola with eccentricity at most `1 + 1.001e-5`) these velocities
belong to a Kepler orbit that goes from `r1` to `r2` in exactly the time `T`, in the requested
sense.

Missing: the hyperbolas next to the parabola; for them only the transfer is shown, when the
computed time is positive, and the time is wrong (`pan_parabolic_time_wrong`). -/
theorem pan_time_of_flight_partial {mu : ℝ} {r1 r2 v1 v2 : V3} {pro : Bool} {θ ω T : ℝ} {g : Geometry}
    {el : Elements} (hmu : 0 < mu) (hna : NotAligned r1 r2) (hne : len r1 ≠ len r2)
    (hθ : getTransferAngle r1 r2 pro = .ok θ) (hg : getPlanarGeometry r1 r2 θ pro = .ok g)
    (hel : elementsAtOmega g ω = .ok el) (hT : tofAtOmega mu g ω = .ok T)
    (hrec : reconstruct mu g el = .ok (v1, v2)) :
    (NotPolar r1 r2 → Sense pro r1 v1) ∧
    (¬ BarelyHyperbolic mu r1 v1 → LambertArc mu r1 r2 v1 v2 T 0) ∧
    (0 < T → ∃ T', LambertArc mu r1 r2 v1 v2 T' 0) := by
  have hA := angle_of_eq hna hθ
  have hR1 := norm_pos_of_notAligned_left hna
  have hR2 := norm_pos_of_notAligned_right hna
  obtain ⟨g', hg', hP⟩ := planarGeometry_eq hA hna
  rw [hg] at hg'
  obtain rfl := Except.ok.inj hg'
  rw [len_eq_norm, len_eq_norm] at hne
  obtain ⟨he0, he1, hf1, hf2, e1, e2⟩ := elements_ok hP hR1 hR2 hne hel
  rw [tofAtOmega, hel, ok_bind] at hT
  obtain ⟨hp, hpath, hpath'⟩ := tofFromElements_ok hmu hR1 hR2 he0 he1
    (twoPoints hA hR1 hR2 he0 hf1 hf2 e1 e2) hT
  have hecc := reconstruct_ecc hmu hA hna hP he0 hf1 e1 hp hrec
  obtain ⟨rfl, rfl⟩ := reconstruct_eq hmu hA hna hP hf1 hf2 e1 e2 hp hrec
  obtain ⟨σ, h2⟩ := twoPoints hA hR1 hR2 he0 hf1 hf2 e1 e2 hp
  obtain ⟨hG, hsh⟩ := hA.halfGeo hna
  refine ⟨fun hnp => ?_, fun hnb => ?_, fun h0 => ?_⟩
  · exact sense_of_sign hmu h2.V_pos hG.hA hnp hsh
  · refine (hpath fun hno => hnb ?_).arc hmu hG
    unfold BarelyHyperbolic
    rw [hecc]
    exact hno
  · obtain ⟨T', h'⟩ := hpath' h0
    exact ⟨T', h'.arc hmu hG⟩

/-- **C26 (partial).** Whenever `pan2016` returns, the number of revolutions is zero and,
unless the returned orbit is a hyperbola with eccentricity at most `1 + 1.001e-5`, the
returned velocities belong to one and the same Kepler orbit, which goes from `r1` to `r2` in
a positive time without completing a revolution, in the requested sense.  `brentq` is any
function that satisfies its documentation and only returns points it evaluated.

Missing: the hyperbolas next to the parabola, for which the code uses a wrong time of flight
(`pan_parabolic_time_wrong`), and the distance between the elapsed time and `tof`: the search
may stop because two successive points agree (`Pan.bezierLoop_ok`), far from `tof`
(`pan_wrong_time`). -/
theorem pan_kepler_transfer_partial {brentq : Brent} (hb : BrentSpec brentq) (he : BrentEvaluates brentq)
    {mu : ℝ} {r1 r2 : V3} {tof : ℝ} {M : ℤ} {pro low : Bool} {maxiter : ℕ} {atol rtol : ℝ} {full : Bool}
    {clock : ℝ} {out : Output} (hatol : 0 ≤ atol)
    (h : pan2016 brentq mu r1 r2 tof M pro low maxiter atol rtol full clock = .ok out) :
    M = 0 ∧ (¬ BarelyHyperbolic mu r1 out.v1 →
      ∃ T, LambertArc mu r1 r2 out.v1 out.v2 T 0 ∧ (NotPolar r1 r2 → Sense pro r1 out.v1)) := by
  unfold pan2016 at h
  simp only [bind_ok, raiseIf_ok, assertTransferAngleNotZero, assertTransferAngleNotPi] at h
  obtain ⟨_, hM, _, hv, θ, hθ, _, h0, _, hpi, h⟩ := h
  obtain ⟨hmu, -, -, htof, hM0⟩ := assertParameters_iff.1 hv
  have hna : NotAligned r1 r2 := notAligned_of_angle hθ h0 hpi
  have hA := angle_of_eq hna hθ
  have hval : vallado2013 mu r1 r2 tof M pro low maxiter atol rtol full clock = .ok out →
      ∃ T, LambertArc mu r1 r2 out.v1 out.v2 T 0 ∧ (NotPolar r1 r2 → Sense pro r1 out.v1) := by
    intro h
    obtain ⟨⟨T, hT, -⟩, hs⟩ := vallado_kepler_transfer h hna
    exact ⟨T, hT, hs⟩
  refine ⟨by omega, fun hnb => ?_⟩
  split at h
  · exact hval h
  rename_i hclose
  rw [bind_ok] at h
  obtain ⟨g, hg, h⟩ := h
  obtain ⟨g', hg', hP⟩ := planarGeometry_eq hA hna
  rw [hg] at hg'
  obtain rfl := Except.ok.inj hg'
  split at h
  · rename_i ω n hfind
    obtain ⟨-, T, hT⟩ := find_ok hb he hfind
    simp only [finish, bind_ok] at h
    obtain ⟨tpi, -, el, hel, ⟨v1, v2⟩, hrec, h⟩ := h
    obtain rfl := (Except.ok.inj h).symm
    simp only [mkOutput_v1, mkOutput_v2] at *
    have hne : len r1 ≠ len r2 := by
      intro h1
      rw [len_eq_norm, len_eq_norm] at h1
      apply hclose
      rw [h1, sub_self, abs_zero]
      positivity
    obtain ⟨a1, a2, -⟩ := pan_time_of_flight_partial hmu hna hne hθ hg hel hT hrec
    exact ⟨T, a2 hnb, a1⟩
  · exact hval h
  · cases h

/-- The hypotheses are satisfiable: between positions at equal distance, `pan2016` returns. -/
example : ∃ tof out, pan2016 exactBrent 1 ⟨1, 0, 0⟩ ⟨0, 1, 0⟩ tof 0 true true 35 1e-5 1e-7 false 0 = .ok out := by
  have hna : NotAligned ⟨1, 0, 0⟩ ⟨0, 1, 0⟩ := by simp [NotAligned]
  obtain ⟨hT, out, hout⟩ := vallado_returns_parabolic (mu := 1) one_pos hna true true 34 1e-5 (rtol := 1e-7)
    (by norm_num) false 0
  refine ⟨uvT 1 (V3.norm ⟨1, 0, 0⟩ + V3.norm ⟨0, 1, 0⟩) (signedA true ⟨1, 0, 0⟩ ⟨0, 1, 0⟩) 0, out, ?_⟩
  have hA := angle_of_eq hna (transferAngle_eq hna true)
  unfold pan2016
  rw [raiseIf_neg _ (by norm_num), ok_bind, assertParameters_eq one_pos (by rintro h; simpa using congrArg V3.x h)
    (by intro h; simpa using congrArg V3.x h) hT le_rfl, ok_bind, transferAngle_eq hna true, ok_bind]
  simp only [assertTransferAngleNotZero, assertTransferAngleNotPi]
  rw [raiseIf_neg _ hA.pos.ne', ok_bind, raiseIf_neg _ hA.ne_pi, ok_bind, if_pos]
  · exact hout
  · norm_num [V3.norm, V3.dot]

/-- The hypotheses of `pan_time_of_flight_partial` are satisfiable: from `(1, 0, 0)` to
`(0, 2, 0)` with the periapsis at the angle of cosine `4/5` and sine `-3/5`, the orbit is an
ellipse of eccentricity `1/2`. -/
example : ∃ θ g el ω T v, getTransferAngle ⟨1, 0, 0⟩ ⟨0, 2, 0⟩ true = .ok θ ∧
    getPlanarGeometry ⟨1, 0, 0⟩ ⟨0, 2, 0⟩ θ true = .ok g ∧
    elementsAtOmega g ω = .ok el ∧ el.ecc = 1 / 2 ∧ tofAtOmega 1 g ω = .ok T ∧ reconstruct 1 g el = .ok v := by
  have hna : NotAligned ⟨1, 0, 0⟩ ⟨0, 2, 0⟩ := by simp [NotAligned]
  have hθ := transferAngle_eq hna true
  generalize (if ShortWay true (⟨1, 0, 0⟩ : V3) ⟨0, 2, 0⟩ then _ else _ : ℝ) = θ at hθ
  have hA := angle_of_eq hna hθ
  obtain ⟨g, hg, hP⟩ := planarGeometry_eq hA hna
  have n1 : V3.norm ⟨1, 0, 0⟩ = 1 := by norm_num [V3.norm, V3.dot]
  have n2 : V3.norm ⟨0, 2, 0⟩ = 2 := by
    rw [V3.norm, show V3.dot ⟨0, 2, 0⟩ ⟨0, 2, 0⟩ = (2 : ℝ) ^ 2 by norm_num [V3.dot], Real.sqrt_sq (by norm_num)]
  have hcos : Real.cos θ = 0 := by
    have := hA.cos_eq
    rw [n1, n2] at this
    norm_num [V3.dot] at this
    exact this
  have hsin : Real.sin θ = 1 := by
    have := sin_cross hA hna
    rw [n1, n2, if_pos (by norm_num [ShortWay, crossZ]), V3.norm,
      show V3.dot (V3.cross ⟨1, 0, 0⟩ ⟨0, 2, 0⟩) (V3.cross ⟨1, 0, 0⟩ ⟨0, 2, 0⟩) = (2 : ℝ) ^ 2 by
        norm_num [V3.dot, V3.cross], Real.sqrt_sq (by norm_num)] at this
    linarith
  have hc : Real.cos (-Real.arccos (4 / 5)) = 4 / 5 := by
    rw [Real.cos_neg, Real.cos_arccos (by norm_num) (by norm_num)]
  have hs : Real.sin (-Real.arccos (4 / 5)) = -3 / 5 := by
    rw [Real.sin_neg, Real.sin_arccos, show 1 - (4 / 5 : ℝ) ^ 2 = (3 / 5) ^ 2 by norm_num, Real.sqrt_sq (by norm_num)]
    norm_num
  have hel : ∃ f1 f2 ω, elementsAtOmega g (-Real.arccos (4 / 5)) = .ok ⟨28 / 15, 1 / 2, ω, f1, f2⟩ := by
    unfold elementsAtOmega
    simp only [hP.n1, hP.n2, hP.xc, hP.yc, hP.x1, hP.x2, hP.y1, hP.y2, n1, n2, hcos, hsin, hc, hs]
    rw [raiseIf_neg _ (by norm_num [abs_le]), ok_bind, pdiv_eq (by norm_num), ok_bind,
      raiseIf_neg _ (by norm_num [abs_le]), ok_bind, pdiv_eq (by norm_num), ok_bind]
    unfold fixEcc
    rw [if_neg (by norm_num)]
    refine ⟨arctan2 0 1 - -Real.arccos (4 / 5), arctan2 (2 * 1) (2 * 0) - -Real.arccos (4 / 5),
      -Real.arccos (4 / 5), ?_⟩
    simp only [Except.ok.injEq, Elements.mk.injEq]
    refine ⟨by norm_num, by norm_num, trivial, trivial, trivial⟩
  obtain ⟨f1, f2, ω, hel⟩ := hel
  have hT : ∃ T, tofAtOmega 1 g (-Real.arccos (4 / 5)) = .ok T := by
    rw [tofAtOmega, hel, ok_bind]
    unfold tofFromElements
    simp only []
    rw [if_pos (by norm_num), raiseIf_neg _ (by norm_num), ok_bind]
    unfold ellipticTof trueToEccentric
    rw [psqrt_eq (by norm_num), psqrt_eq (by norm_num)]
    simp only [ok_bind]
    rw [pdiv_eq (by norm_num), ok_bind, psqrt_eq (by norm_num), ok_bind]
    exact ⟨_, rfl⟩
  obtain ⟨T, hT⟩ := hT
  have hv : ∃ v, reconstruct 1 g ⟨28 / 15, 1 / 2, ω, f1, f2⟩ = .ok v := by
    unfold reconstruct semiLatus
    simp only []
    rw [if_neg (by norm_num), raiseIf_neg _ (by norm_num), ok_bind, pdiv_eq (by norm_num), ok_bind,
      psqrt_eq (by norm_num), ok_bind]
    exact ⟨_, rfl⟩
  obtain ⟨v, hv⟩ := hv
  exact ⟨θ, g, _, _, T, v, hθ, hg, hel, rfl, hT, hv⟩

/-- **Finding.** On an exact parabola through the two positions (`f1`, `f2` are the true
anomalies, `p` the semi-latus rectum), the time computed by `_parabolic_tof` is `√2` times the
true elapsed time of the transfer.  The orbit is identified by its zero energy and its angular
momentum `√(μ p)`. -/
theorem pan_parabolic_time_wrong {mu : ℝ} {r1 r2 : V3} {pro : Bool} {θ p f1 f2 σ : ℝ} (hmu : 0 < mu)
    (hna : NotAligned r1 r2) (hθ : getTransferAngle r1 r2 pro = .ok θ)
    (h2 : TwoPoints p 1 (len r1) (len r2) f1 f2 θ σ) (ht : Real.tan (f1 / 2) < Real.tan (f2 / 2)) :
    ∃ T v1 v2, LambertArc mu r1 r2 v1 v2 T 0 ∧ len v1 ^ 2 / 2 - mu / len r1 = 0 ∧
      len (outer r1 v1) ^ 2 = mu * p ∧ parabolicTof mu p f1 f2 = .ok (Real.sqrt 2 * T) := by
  have hA := angle_of_eq hna hθ
  obtain ⟨hG, -⟩ := hA.halfGeo hna
  rw [len_eq_norm, len_eq_norm] at h2
  obtain ⟨hV, hpath⟩ := h2.par hmu ht
  have hp := h2.hp
  have hV0 := h2.V_pos
  have hr2 : Real.sqrt 2 ^ 2 = 2 := Real.sq_sqrt (by norm_num)
  have hsq : ∀ v : V3, len v ^ 2 = V3.dot v v := by
    intro v; rw [len, Real.sq_sqrt (by positivity)]; unfold V3.dot; ring
  refine ⟨_, _, _, hpath.arc hmu hG, ?_, ?_, ?_⟩
  · rw [hsq, len_eq_norm, fgV1_energy hmu hV0 hG]
    have : (V3.norm r1 + V3.norm r2 - conicV p (V3.norm r1) (V3.norm r2) θ) ^ 2 -
        2 * halfA (V3.norm r1) (V3.norm r2) θ ^ 2 = 0 := by
      rw [hV]; linear_combination halfA (V3.norm r1) (V3.norm r2) θ ^ 2 * hr2
    rw [this]; simp
  · have hA2 := halfA_sq (R1 := V3.norm r1) (R2 := V3.norm r2) (θ := θ) (mul_pos hG.R1 hG.R2).le
    have hcr : V3.dot (V3.cross r1 r2) (V3.cross r1 r2) = (V3.norm r1 * V3.norm r2) ^ 2 * (1 - Real.cos θ ^ 2) := by
      have h1 := norm_mul_self r1
      have h3 := norm_mul_self r2
      have hc := hA.cos_eq
      have : V3.dot (V3.cross r1 r2) (V3.cross r1 r2) = V3.dot r1 r1 * V3.dot r2 r2 - V3.dot r1 r2 ^ 2 := by
        unfold V3.dot V3.cross; ring
      rw [this, ← h1, ← h3, ← hc]; ring
    have ho : outer r1 (fgV1 mu r1 r2 (halfA (V3.norm r1) (V3.norm r2) θ) (conicV p (V3.norm r1) (V3.norm r2) θ)) =
        (halfA (V3.norm r1) (V3.norm r2) θ * Real.sqrt (conicV p (V3.norm r1) (V3.norm r2) θ / mu))⁻¹ • V3.cross r1 r2 := by
      unfold fgV1
      ext <;> simp only [outer, V3.cross, V3.smul_x, V3.smul_y, V3.smul_z, V3.sub_x, V3.sub_y, V3.sub_z] <;> ring
    have hds : ∀ (k : ℝ) (v : V3), V3.dot (k • v) (k • v) = k ^ 2 * V3.dot v v := by
      intro k v; simp only [V3.dot, V3.smul_x, V3.smul_y, V3.smul_z]; ring
    rw [ho, hsq, hds, hcr, inv_pow, mul_pow, Real.sq_sqrt (by positivity), hA2]
    unfold conicV
    have hc1 := hA.cos_lt_one
    have hc2 : 0 < 1 + Real.cos θ := by
      have := hG.hA
      have h0 : 0 < halfA (V3.norm r1) (V3.norm r2) θ ^ 2 := by positivity
      rw [hA2] at h0
      exact pos_of_mul_pos_right h0 (mul_pos hG.R1 hG.R2).le
    have hR1 := hG.R1
    have hR2 := hG.R2
    have : 0 < 1 - Real.cos θ := by linarith
    field_simp
    ring
  · unfold parabolicTof
    have c1 : Real.cos (f1 / 2) ≠ 0 := by
      intro h0
      have := h2.half1
      rw [h0] at this
      norm_num at this
      exact (div_pos hp hG.R1).ne this
    have c2 : Real.cos (f2 / 2) ≠ 0 := by
      intro h0
      have := h2.half2
      rw [h0] at this
      norm_num at this
      exact (div_pos hp hG.R2).ne this
    rw [raiseIf_neg _ (not_le.2 hp), ok_bind, ptan_ok.2 ⟨c1, rfl⟩, ok_bind, ptan_ok.2 ⟨c2, rfl⟩, ok_bind,
      pdiv_eq (by positivity), ok_bind, psqrt_eq (by positivity), ok_bind]
    congr 1
    rw [show p ^ 3 / (2 * mu) = p ^ 3 / mu / 2 by field_simp, Real.sqrt_div (by positivity)]
    have h0 : Real.sqrt 2 ≠ 0 := by positivity
    field_simp
    rw [hr2]

/-- Such parabolas exist: `p = 1`, from the periapsis at distance `1/2` to the distance `1`, a
quarter of a turn later. -/
example : TwoPoints 1 1 (len ⟨1 / 2, 0, 0⟩) (len ⟨0, 1, 0⟩) 0 (Real.pi / 2) (Real.pi / 2) 1 ∧
    Real.tan (0 / 2) < Real.tan (Real.pi / 2 / 2) := by
  have e : Real.pi / 2 / 2 = Real.pi / 4 := by ring
  have l1 : len ⟨1 / 2, 0, 0⟩ = 1 / 2 := by
    rw [len, show (1 / 2 : ℝ) ^ 2 + 0 ^ 2 + 0 ^ 2 = (1 / 2) ^ 2 by norm_num, Real.sqrt_sq (by norm_num)]
  have l2 : len ⟨0, 1, 0⟩ = 1 := by norm_num [len]
  rw [l1, l2]
  refine ⟨⟨by norm_num, by norm_num, by norm_num, by norm_num, by norm_num, by simp, ?_, .inl rfl, ?_, ?_⟩, ?_⟩
  · rw [e]; exact Real.sin_pos_of_pos_of_lt_pi (by positivity) (by linarith [Real.pi_pos])
  · simp
  · simp
  · rw [e, Real.tan_pi_div_four]; simp

end Lamberthub
