import Verif.Proofs.ThorneGeo
import Verif.Proofs.AssertLemmas
import Mathlib.Analysis.SpecialFunctions.Trigonometric.DerivHyp
import Mathlib.Analysis.Calculus.Deriv.MeanValue

/-! # C20: what `thorne2004` returns is a true Kepler transfer -/

set_option autoImplicit false

namespace Lamberthub
open Spec LC

namespace Thorne

/-- What `get_semimajor_axis` returns, given the contract of `brentq`. -/
theorem getSemimajorAxis_ok {brentq : Brent} (hb : BrentSpec brentq) {mu s c tof tP tMin mp atol rtol : ℝ}
    {maxiter : ℕ} {a : ℝ} {br : Branch} {n : ℕ} (hmu : 0 < mu) (hs : 0 < s) (hc0 : 0 ≤ c) (hc : c ≤ s)
    (h : getSemimajorAxis brentq mu s c tof tP tMin mp maxiter atol rtol = .ok (a, br, n)) :
    (br = .P ∧ n = 1 ∧ |tof - tP| ≤ atol + rtol * |tP|) ∨
    (a ∈ Dom s br ∧ n ≤ maxiter ∧ ∃ a0 ∈ Dom s br, lagF mu s c mp br a0 = tof ∧
      |a - a0| ≤ atol + rtol * |a0|) := by
  have heps := eps_pos
  have main : ∀ {br' : Branch} {lo hi : ℝ}, lo ≤ hi → Set.Icc lo hi ⊆ Dom s br' →
      solveBranch brentq mu s c tof mp br' lo hi maxiter atol rtol = .ok (a, br, n) →
      (a ∈ Dom s br ∧ n ≤ maxiter ∧ ∃ a0 ∈ Dom s br, lagF mu s c mp br a0 = tof ∧
        |a - a0| ≤ atol + rtol * |a0|) := by
    intro br' lo hi hlh hsub h
    unfold solveBranch at h
    simp only [bind_ok, Except.ok.injEq, Prod.mk.injEq] at h
    obtain ⟨⟨a', n'⟩, hbr, rfl, rfl, rfl⟩ := h
    obtain ⟨hm1, hm2⟩ := hb.mem hlh hbr
    obtain ⟨x0, hx0, hr, hd⟩ := hb.root (g := fun t => lagF mu s c mp br' t - tof) hlh
      (((lagF_continuousOn hs br').mono hsub).sub continuousOn_const)
      (fun t ht => by rw [lagrangeTof_eq hmu hs hc0 hc (hsub ht), ok_bind]) hbr
    exact ⟨hsub hm1, hm2, x0, hsub hx0, by linarith, hd⟩
  have hell : ∀ {k : ℕ}, s / 2 * (1 + eps) ≤ s * 2 ^ k := by
    intro k
    have h1 : (1 : ℝ) ≤ 2 ^ k := one_le_pow₀ (by norm_num)
    have h2 : eps ≤ 1 := by unfold eps; norm_num
    nlinarith
  unfold getSemimajorAxis at h
  split at h
  · rename_i hcl
    simp only [Except.ok.injEq, Prod.mk.injEq] at h
    obtain ⟨-, rfl, rfl⟩ := h
    exact .inl ⟨rfl, rfl, hcl⟩
  right
  split at h
  · rw [bind_ok] at h
    obtain ⟨lo, hlo, h⟩ := h
    obtain ⟨k, rfl, -⟩ := expandBound_ok hlo
    have h1 : (1 : ℝ) ≤ 2 ^ k := one_le_pow₀ (by norm_num)
    have h2 : eps ≤ 1 / 2 := by unfold eps; norm_num
    exact main (br' := .H) (by nlinarith) (fun x hx => by
      have : x ≤ -eps * s := hx.2
      exact lt_of_le_of_lt this (by nlinarith)) h
  split at h <;>
  · rw [bind_ok] at h
    obtain ⟨hi, hhi, h⟩ := h
    simp only [expandUpperEllipticBound] at hhi
    obtain ⟨k, rfl, -⟩ := expandBound_ok hhi
    refine main hell (fun x hx => ?_) h
    exact (lt_of_lt_of_le (by nlinarith : s / 2 < s / 2 * (1 + eps)) hx.1 : s / 2 < x)

end Thorne

open Thorne

theorem thorne_ok_split {brentq : Brent} {mu : ℝ} {r1 r2 : V3} {tof : ℝ} {M : ℤ} {pro low : Bool} {maxiter : ℕ}
    {atol rtol : ℝ} {full : Bool} {clock : ℝ} {out : Output}
    (h : thorne2004 brentq mu r1 r2 tof M pro low maxiter atol rtol full clock = .ok out) :
    M = 0 ∧ 0 < mu ∧ 0 < tof ∧ NotAligned r1 r2 ∧ ∃ θ tP tMin a br n tpi x y v1 v2,
      getTransferAngle r1 r2 pro = .ok θ ∧
      getParabolicTof mu ((V3.norm r1 + V3.norm r2 + V3.norm (r2 - r1)) / 2) (V3.norm (r2 - r1))
        (if θ < Real.pi then -1 else 1) = .ok tP ∧
      getSemimajorAxis brentq mu ((V3.norm r1 + V3.norm r2 + V3.norm (r2 - r1)) / 2) (V3.norm (r2 - r1))
        tof tP tMin (if θ < Real.pi then -1 else 1) maxiter atol rtol = .ok (a, br, n) ∧
      getX a ((V3.norm r1 + V3.norm r2 + V3.norm (r2 - r1)) / 2) br = .ok x ∧
      getYFromX x r1 r2 ((V3.norm r1 + V3.norm r2 + V3.norm (r2 - r1)) / 2) (V3.norm (r2 - r1)) pro = .ok y ∧
      reconstruct x y mu r1 r2 ((V3.norm r1 + V3.norm r2 + V3.norm (r2 - r1)) / 2) (V3.norm (r2 - r1)) pro =
        .ok (v1, v2) ∧
      timePerIter full clock n = .ok tpi ∧
      out = mkOutput full v1 v2 n tpi := by
  unfold thorne2004 at h
  simp only [bind_ok, raiseIf_ok] at h
  obtain ⟨_, hM, _, hv, θ, hθ, tP, htP, tMin, -, ⟨a, br, n⟩, hsa, tpi, htpi, x, hx, y, hy, ⟨v1, v2⟩, hrec, h⟩ := h
  obtain ⟨h1, -, -, h3, h4⟩ := assertParameters_iff.1 hv
  have hna : NotAligned r1 r2 := by
    have := hy
    unfold getYFromX at this
    rw [bind_ok] at this
    obtain ⟨ll, hll, -⟩ := this
    exact getLambda_notAligned hll
  exact ⟨by omega, h1, h3, hna, θ, tP, tMin, a, br, n, tpi, x, y, v1, v2, hθ, htP, hsa, hx, hy, hrec, htpi,
    (Except.ok.inj h).symm⟩

/-- The direction `mp` agrees with the sign of `ll`, except for prograde motion in a plane
through the polar axis. -/
theorem Thorne.mp_eq {r1 r2 : V3} {pro : Bool} {θ ll : ℝ} (hθ : Angle pro r1 r2 θ)
    (hsg : 0 < ll ↔ if pro = true then 0 ≤ crossZ r1 r2 else crossZ r1 r2 < 0)
    (hp : NotPolar r1 r2 ∨ pro = false) :
    (if θ < Real.pi then -1 else 1 : ℝ) = if 0 < ll then -1 else 1 := by
  have e : θ < Real.pi ↔ 0 < ll := by
    rw [hθ.short, hsg]
    unfold ShortWay
    cases pro with
    | false => simp
    | true =>
      have hnp : crossZ r1 r2 ≠ 0 := by
        rcases hp with h | h
        · exact h
        · cases h
      simp only [if_true]
      exact ⟨fun h => h.le, fun h => lt_of_le_of_ne h hnp.symm⟩
  simp only [e]

/-- **C20 (partial).** Whenever `thorne2004` returns, the number of revolutions is zero and
the returned velocities belong to one and the same Kepler orbit, which goes from `r1` to
`r2` without completing a revolution, in the requested sense.  Either the elapsed time is
within `atol + rtol * T` of `tof` (parabolic shortcut), or there is an exact solution of the
problem (elapsed time `tof`) whose semi-major axis differs from that of the returned orbit
by no more than the tolerance given to the root finder.  `brentq` is any function that
satisfies its documentation.

Missing: prograde motion in planes that contain the polar axis, where the statement is
false (`thorne_polar_wrong_time`). -/
theorem thorne_kepler_transfer_partial {brentq : Brent} (hb : BrentSpec brentq) {mu : ℝ} {r1 r2 : V3} {tof : ℝ}
    {M : ℤ} {pro low : Bool} {maxiter : ℕ} {atol rtol : ℝ} {full : Bool} {clock : ℝ} {out : Output}
    (h : thorne2004 brentq mu r1 r2 tof M pro low maxiter atol rtol full clock = .ok out)
    (hp : NotPolar r1 r2 ∨ pro = false) :
    M = 0 ∧ ∃ T, LambertArc mu r1 r2 out.v1 out.v2 T 0 ∧ (NotPolar r1 r2 → Sense pro r1 out.v1) ∧
      (|tof - T| ≤ atol + rtol * |T| ∨
        ∃ a a0 w1 w2, HasSemiMajor mu r1 out.v1 a ∧ LambertArc mu r1 r2 w1 w2 tof 0 ∧
          (NotPolar r1 r2 → Sense pro r1 w1) ∧ HasSemiMajor mu r1 w1 a0 ∧
          |a - a0| ≤ atol + rtol * |a0|) := by
  obtain ⟨hM, hmu, htof, hna, θ, tP, tMin, a, br, n, tpi, x, y, v1, v2, hθ, htP, hsa, hx, hy, hrec, -, rfl⟩ :=
    thorne_ok_split h
  refine ⟨hM, ?_⟩
  obtain ⟨ll, hG, hS, hll, hsg, hlam, hrc⟩ := geo hna pro
  have hs := hS.spos
  have hmp := mp_eq (angle_of_eq hna hθ) hsg hp
  rw [hmp] at htP hsa
  unfold getYFromX at hy
  rw [hlam, ok_bind] at hy
  set s := (V3.norm r1 + V3.norm r2 + V3.norm (r2 - r1)) / 2 with hsdef
  have hcs : V3.norm (r2 - r1) ≤ s := by rw [hS.chord]; nlinarith [sq_nonneg ll]
  have hax := getSemimajorAxis_ok hb hmu hs hS.cpos.le hcs hsa
  have hdom : br = .P ∨ a ∈ Dom s br := hax.imp (fun h => h.1) (fun h => h.1)
  rw [getX_eq hs hdom] at hx
  obtain rfl := Except.ok.inj hx
  have hL : Lanc ll (xOf s a br) y := lanc_of_sqrt hS.lam_lt (psqrt_ok.1 hy).2
  rw [hrc hmu hL] at hrec
  simp only [Except.ok.injEq, Prod.mk.injEq] at hrec
  obtain ⟨rfl, rfl⟩ := hrec
  have hx1 := xOf_gt s a br hs hdom
  refine ⟨Real.sqrt (s ^ 3 / (2 * mu)) * lancT ll (xOf s a br) y 0, ?_, ?_, ?_⟩
  · rw [mkOutput_v1, mkOutput_v2]; exact arc hmu hG hS hL hx1
  · intro hnp; rw [mkOutput_v1]; exact sense hmu hG hs hL hsg hnp
  have hmajor : ∀ {a : ℝ} {y : ℝ}, a ∈ Dom s br → Lanc ll (xOf s a br) y →
      HasSemiMajor mu r1 (fgV1 mu r1 r2 (Real.sqrt 2 * s * ll) (s * (y - ll * xOf s a br) ^ 2)) a := by
    intro a y ha hL
    refine ⟨dom_ne hs ha, ?_⟩
    rw [hL.energy hmu hs hG hS.sum, xOf_sq hs ha]
    have := dom_ne hs ha
    field_simp
    ring
  rcases hax with ⟨rfl, -, hcl⟩ | ⟨ha, -, a0, ha0, hroot, hd⟩
  · left
    rw [getParabolicTof_eq hmu hs hll hS.chord rfl hL] at htP
    rw [show xOf s a .P = 1 from rfl, Except.ok.inj htP]
    exact hcl
  · right
    have hL0 := lancy_of (x := xOf s a0 br) hS.lam_lt
    have := arc hmu hG hS hL0 (xOf_gt s a0 br hs (.inr ha0))
    rw [← lagF_eq hmu hs hS.lam_lt hS.chord rfl ha0 hL0, hroot] at this
    exact ⟨a, a0, _, _, by rw [mkOutput_v1]; exact hmajor ha hL, this,
      fun hnp => sense hmu hG hs hL0 hsg hnp, hmajor ha0 hL0, hd⟩

namespace Thorne

/-- `sinh β - β` as a function of `sinh (β/2)`. -/
noncomputable def exc (w : ℝ) : ℝ := Real.sinh (2 * Real.arsinh w) - 2 * Real.arsinh w

theorem exc_strictMono : StrictMono exc := fun a b h =>
  Real.sinh_sub_id_strictMono (by have := Real.arsinh_strictMono h; linarith)

theorem exc_zero : exc 0 = 0 := by simp [exc]

theorem cube_sub_exc_strictMonoOn : StrictMonoOn (fun w => 4 / 3 * w ^ 3 - exc w) (Set.Ici 0) := by
  have h : StrictMonoOn (fun A : ℝ => 4 / 3 * Real.sinh A ^ 3 - (Real.sinh (2 * A) - 2 * A)) (Set.Ici 0) := by
    have hd : ∀ A : ℝ, HasDerivAt (fun A : ℝ => 4 / 3 * Real.sinh A ^ 3 - (Real.sinh (2 * A) - 2 * A))
        (4 * Real.sinh A ^ 2 * (Real.cosh A - 1)) A := by
      intro A
      have h1 := ((Real.hasDerivAt_sinh A).pow 3).const_mul (4 / 3 : ℝ)
      have h2 : HasDerivAt (fun A : ℝ => 2 * A) 2 A := by simpa using (hasDerivAt_id A).const_mul (2 : ℝ)
      have h3 := h2.sinh
      refine (h1.sub (h3.sub h2)).congr_deriv ?_
      rw [Real.cosh_two_mul, Real.cosh_sq]
      push_cast
      ring
    refine strictMonoOn_of_deriv_pos (convex_Ici 0) (fun A _ => (hd A).continuousAt.continuousWithinAt) ?_
    intro A hA
    rw [interior_Ici] at hA
    have hA : 0 < A := hA
    rw [(hd A).deriv]
    have h1 : 0 < Real.sinh A := Real.sinh_pos_iff.2 hA
    have h2 : 1 < Real.cosh A := Real.one_lt_cosh.2 hA.ne'
    have : 0 < Real.cosh A - 1 := by linarith
    positivity
  intro a ha b hb hab
  have := h (a := Real.arsinh a) (b := Real.arsinh b) (Real.arsinh_nonneg_iff.2 ha) (Real.arsinh_nonneg_iff.2 hb)
    (Real.arsinh_strictMono hab)
  simpa only [Real.sinh_arsinh, exc] using this

variable {mu s c ll mp : ℝ}

theorem getParabolicTof_val (hmu : 0 < mu) (hs : 0 < s) (hl0 : ll ≠ 0) (hc : c = s * (1 - ll ^ 2)) :
    getParabolicTof mu s c mp =
      .ok (Real.sqrt (s ^ 3 / (2 * mu)) * (2 / 3 * (1 + mp * |ll| ^ 3))) := by
  have hk : (s - c) / s = ll ^ 2 := by rw [hc]; field_simp; ring
  have hll : 0 < |ll| := abs_pos.2 hl0
  have hpow : (ll ^ 2) ^ ((3 : ℝ) / 2) = |ll| ^ 3 := by
    rw [← sq_abs, ← Real.rpow_natCast, ← Real.rpow_mul hll.le, ← Real.rpow_natCast]
    norm_num
  unfold getParabolicTof
  rw [pdiv_eq hs.ne', ok_bind, pdiv_eq hmu.ne', ok_bind, psqrt_eq (by positivity), ok_bind, hk, prpow,
    if_pos (Or.inl (by positivity)), ok_bind, hpow]
  congr 1
  have e2 : Real.sqrt (s ^ 3 / mu) = Real.sqrt 2 * Real.sqrt (s ^ 3 / (2 * mu)) := by
    rw [← Real.sqrt_mul (by norm_num)]; congr 1; field_simp
  have hr2 : Real.sqrt 2 ^ 2 = 2 := Real.sq_sqrt (by norm_num)
  rw [e2]
  linear_combination (Real.sqrt (s ^ 3 / (2 * mu)) / 3 * (1 + mp * |ll| ^ 3)) * hr2

theorem getMinimumEnergyTof_ok (hmu : 0 < mu) (hs : 0 < s) (hl : ll ^ 2 < 1) (hc : c = s * (1 - ll ^ 2)) :
    ∃ t, getMinimumEnergyTof mu s c mp = .ok t := by
  have hk : (s - c) / s = ll ^ 2 := by rw [hc]; field_simp; ring
  have h1 : |ll| ≤ 1 := ((sq_lt_one_iff_abs_lt_one _).1 hl).le
  have h2 := abs_nonneg ll
  unfold getMinimumEnergyTof
  rw [pdiv_eq hs.ne', ok_bind, hk, psqrt_eq (by positivity), ok_bind, Real.sqrt_sq_eq_abs,
    pasin_eq (by linarith) h1, ok_bind, pdiv_eq hmu.ne', ok_bind, psqrt_eq (by positivity), ok_bind]
  exact ⟨_, rfl⟩

/-- The hyperbolic branch in terms of `exc`. -/
theorem lagF_H (hmu : 0 < mu) (hs : 0 < s) (hc : c = s * (1 - ll ^ 2)) {a : ℝ} (ha : a < 0) :
    ∃ w, 0 < w ∧ w ^ 2 = -s / (2 * a) ∧
      lagF mu s c mp .H a = Real.sqrt (s ^ 3 / (2 * mu)) / (2 * w ^ 3) * (exc w + mp * exc (|ll| * w)) := by
  have h2 : 0 < -s / (2 * a) := div_pos_of_neg_of_neg (by linarith) (by linarith)
  obtain ⟨w, hw, hw2⟩ : ∃ w, 0 < w ∧ w ^ 2 = -s / (2 * a) :=
    ⟨Real.sqrt (-s / (2 * a)), by positivity, Real.sq_sqrt h2.le⟩
  have e1 : Real.sqrt (-s / (2 * a)) = w := by rw [← hw2, Real.sqrt_sq hw.le]
  have e2 : Real.sqrt ((c - s) / (2 * a)) = |ll| * w := by
    rw [show (c - s) / (2 * a) = (|ll| * w) ^ 2 by rw [mul_pow, sq_abs, hw2, hc]; ring,
      Real.sqrt_sq (by positivity)]
  have e3 : Real.sqrt ((-a) ^ 3 / mu) = Real.sqrt (s ^ 3 / (2 * mu)) / (2 * w ^ 3) := by
    rw [← sqrt_cube_div hmu hs hw]
    congr 3
    rw [hw2]; have := ha.ne; field_simp
  refine ⟨w, hw, hw2, ?_⟩
  simp only [lagF]
  rw [e1, e2, e3]
  rfl

end Thorne

theorem thorne_fwd {brentq : Brent} {mu : ℝ} {r1 r2 : V3} {tof : ℝ} {pro low : Bool} {maxiter : ℕ}
    {atol rtol : ℝ} {full : Bool} {clock : ℝ} (hmu : 0 < mu) (hna : NotAligned r1 r2) (htof : 0 < tof)
    {θ tP tMin a tpi x y : ℝ} {br : Branch} {n : ℕ} {v1 v2 : V3} (hθ : getTransferAngle r1 r2 pro = .ok θ)
    (htP : getParabolicTof mu ((V3.norm r1 + V3.norm r2 + V3.norm (r2 - r1)) / 2) (V3.norm (r2 - r1))
        (if θ < Real.pi then -1 else 1) = .ok tP)
    (htMin : getMinimumEnergyTof mu ((V3.norm r1 + V3.norm r2 + V3.norm (r2 - r1)) / 2) (V3.norm (r2 - r1))
        (if θ < Real.pi then -1 else 1) = .ok tMin)
    (hsma : getSemimajorAxis brentq mu ((V3.norm r1 + V3.norm r2 + V3.norm (r2 - r1)) / 2) (V3.norm (r2 - r1))
        tof tP tMin (if θ < Real.pi then -1 else 1) maxiter atol rtol = .ok (a, br, n))
    (hx : getX a ((V3.norm r1 + V3.norm r2 + V3.norm (r2 - r1)) / 2) br = .ok x)
    (hy : getYFromX x r1 r2 ((V3.norm r1 + V3.norm r2 + V3.norm (r2 - r1)) / 2) (V3.norm (r2 - r1)) pro = .ok y)
    (hrec : reconstruct x y mu r1 r2 ((V3.norm r1 + V3.norm r2 + V3.norm (r2 - r1)) / 2) (V3.norm (r2 - r1)) pro =
        .ok (v1, v2))
    (htpi : timePerIter full clock n = .ok tpi) :
    thorne2004 brentq mu r1 r2 tof 0 pro low maxiter atol rtol full clock = .ok (mkOutput full v1 v2 n tpi) := by
  have h1 : r1 ≠ 0 := by rintro rfl; exact (norm_pos_of_notAligned_left hna).ne' (by simp [V3.norm, V3.dot])
  have h2 : r1 ≠ r2 := by rintro rfl; exact hna ⟨by ring, by ring, by ring⟩
  unfold thorne2004
  rw [raiseIf_neg _ (by norm_num), ok_bind, assertParameters_eq hmu h1 h2 htof le_rfl, ok_bind, hθ, ok_bind]
  simp only []
  rw [htP, ok_bind, htMin, ok_bind, hsma, ok_bind]
  simp only []
  rw [htpi, ok_bind, hx, ok_bind, hy, ok_bind, hrec, ok_bind]

set_option maxHeartbeats 1000000 in
/-- Hyperbolic transfers are found: for every pair of non-aligned positions there is a time
of flight, below the parabolic one, for which `thorne2004` (with an exact root finder)
returns for all sufficiently small tolerances.  In a plane through the polar axis the
transfer returned for prograde motion takes less than the requested time. -/
theorem thorne_returns {mu : ℝ} (hmu : 0 < mu) {r1 r2 : V3} (hna : NotAligned r1 r2) (pro low : Bool) :
    ∃ tof δ, 0 < tof ∧ 0 < δ ∧ ∀ (maxiter : ℕ) (atol rtol : ℝ), 1 ≤ maxiter → 0 ≤ atol → atol < δ → 0 ≤ rtol →
      rtol < δ → ∀ full clock, ∃ out,
        thorne2004 exactBrent mu r1 r2 tof 0 pro low maxiter atol rtol full clock = .ok out ∧
        (¬ NotPolar r1 r2 → pro = true → ∃ T, LambertArc mu r1 r2 out.v1 out.v2 T 0 ∧ T < tof) := by
  obtain ⟨ll, hG, hS, hll, hsg, hlam, hrc⟩ := geo hna pro
  have hs := hS.spos
  have hθ := transferAngle_eq hna pro
  have hA := angle_of_eq hna hθ
  obtain ⟨θ, hθe⟩ : ∃ θ, θ = (if ShortWay pro r1 r2 then theta0 r1 r2 else 2 * Real.pi - theta0 r1 r2) := ⟨_, rfl⟩
  rw [← hθe] at hθ hA
  obtain ⟨mp, hmp⟩ : ∃ mp : ℝ, mp = if θ < Real.pi then -1 else 1 := ⟨_, rfl⟩
  have hmp2 : mp = -1 ∨ mp = 1 := by rw [hmp]; split <;> simp
  set s := (V3.norm r1 + V3.norm r2 + V3.norm (r2 - r1)) / 2 with hsdef
  have hcs : V3.norm (r2 - r1) ≤ s := by rw [hS.chord]; nlinarith [sq_nonneg ll]
  have hl1 : |ll| < 1 := (sq_lt_one_iff_abs_lt_one _).1 hS.lam_lt
  have hl0 : 0 < |ll| := abs_pos.2 hll
  obtain ⟨w, hw, hw2, hF⟩ := lagF_H (mp := mp) hmu hs hS.chord (a := -s / 2) (by linarith)
  have hw1 : w = 1 := by
    have : w ^ 2 = 1 := by rw [hw2]; field_simp
    nlinarith
  rw [hw1, mul_one] at hF
  obtain ⟨K, hK, hKp⟩ : ∃ K, K = Real.sqrt (s ^ 3 / (2 * mu)) ∧ 0 < K := ⟨_, rfl, by positivity⟩
  rw [← hK] at hF
  have hm := exc_strictMono hl1
  have hm0 := exc_strictMono hl0
  rw [exc_zero] at hm0
  have hd := cube_sub_exc_strictMonoOn (Set.mem_Ici.2 hl0.le) (Set.mem_Ici.2 zero_le_one) hl1
  have hd0 := cube_sub_exc_strictMonoOn Set.self_mem_Ici (Set.mem_Ici.2 hl0.le) hl0
  simp only [exc_zero] at hd hd0
  obtain ⟨tP, htPe⟩ : ∃ tP, tP = K * (2 / 3 * (1 + mp * |ll| ^ 3)) := ⟨_, rfl⟩
  obtain ⟨tof, htofe⟩ : ∃ tof, tof = lagF mu s (V3.norm (r2 - r1)) mp .H (-s / 2) := ⟨_, rfl⟩
  have htof : 0 < tof := by
    rw [htofe, hF]
    rcases hmp2 with h | h <;> rw [h] <;> apply mul_pos (by positivity) <;> linarith
  have hlt : tof < tP := by
    rw [htofe, hF, htPe]
    rcases hmp2 with h | h <;> rw [h] <;> nlinarith
  have htP := getParabolicTof_val (mp := mp) hmu hs hll hS.chord
  rw [← hK, ← htPe] at htP
  obtain ⟨tMin, htMin⟩ := getMinimumEnergyTof_ok (mp := mp) hmu hs hS.lam_lt hS.chord
  have htPp : 0 < tP := htof.trans hlt
  refine ⟨tof, (tP - tof) / (1 + tP), htof, div_pos (by linarith) (by linarith), ?_⟩
  intro maxiter atol rtol hmax ha0 ha hr0 hr full clock
  have hncl : ¬ |tof - tP| ≤ atol + rtol * |tP| := by
    rw [abs_of_neg (by linarith), abs_of_pos htPp, not_le]
    have h1 : (tP - tof) / (1 + tP) * (1 + tP) = tP - tof := by field_simp
    nlinarith
  have heps := eps_pos
  have heps2 : eps ≤ 1 / 2 := by unfold eps; norm_num
  have hmem : -s / 2 ∈ Dom s .H := (by linarith : -s / 2 < 0)
  have hexp : expandLowerHyperbolicBound mu s (V3.norm (r2 - r1)) tof mp (-s / 2) = .ok (-s / 2) := by
    unfold expandLowerHyperbolicBound expandBound
    simp only []
    rw [lagrangeTof_eq hmu hs hS.cpos.le hcs hmem, ok_bind, ok_bind, ← htofe, whileLoop_false (by simp), ok_bind]
  have hf : ∀ a ∈ Set.Icc (-s / 2) (-eps * s), (do
      let v ← lagrangeTof mu s (V3.norm (r2 - r1)) a mp .H
      (.ok (v - tof) : Py ℝ)) = .ok (lagF mu s (V3.norm (r2 - r1)) mp .H a - tof) := by
    intro a ha
    rw [lagrangeTof_eq hmu hs hS.cpos.le hcs (lt_of_le_of_lt ha.2 (by nlinarith) : a < 0), ok_bind]
  have hlo : -s / 2 ∈ Set.Icc (-s / 2) (-eps * s) := ⟨le_rfl, by nlinarith⟩
  have hhi : -eps * s ∈ Set.Icc (-s / 2) (-eps * s) := ⟨by nlinarith, le_rfl⟩
  obtain ⟨a, han, haroot, hbr⟩ : ∃ a, a < 0 ∧ lagF mu s (V3.norm (r2 - r1)) mp .H a = tof ∧
      exactBrent (fun a => do
        let v ← lagrangeTof mu s (V3.norm (r2 - r1)) a mp .H
        .ok (v - tof)) (-s / 2) (-eps * s) atol rtol maxiter = .ok (a, 1) := by
    have hex : (∃ x ∈ Set.Icc (-s / 2) (-eps * s), (fun a => do
        let v ← lagrangeTof mu s (V3.norm (r2 - r1)) a mp .H
        (.ok (v - tof) : Py ℝ)) x = .ok 0) ∧ 1 ≤ maxiter ∧ 0 ≤ atol ∧ 0 ≤ rtol :=
      ⟨⟨-s / 2, hlo, by simp only []; rw [hf _ hlo, ← htofe, sub_self]⟩, hmax, ha0, hr0⟩
    have hspec := Classical.choose_spec hex.1
    refine ⟨Classical.choose hex.1, lt_of_le_of_lt hspec.1.2 (by nlinarith), ?_, ?_⟩
    · have := hspec.2
      simp only [] at this
      rw [hf _ hspec.1] at this
      linarith [Except.ok.inj this]
    · unfold exactBrent
      rw [if_neg, dif_pos hex]
      rintro ⟨flo, fhi, h1, -, h3⟩
      simp only [] at h1
      rw [hf _ hlo, ← htofe, sub_self] at h1
      rw [← Except.ok.inj h1, zero_mul] at h3
      exact lt_irrefl _ h3
  have hsma : getSemimajorAxis exactBrent mu s (V3.norm (r2 - r1)) tof tP tMin mp maxiter atol rtol =
      .ok (a, .H, 1) := by
    unfold getSemimajorAxis
    rw [if_neg hncl, if_pos hlt, hexp, ok_bind]
    unfold solveBranch
    rw [hbr, ok_bind]
  have hadom : a ∈ Dom s .H := han
  have hL := lancy_of (x := xOf s a .H) hS.lam_lt
  obtain ⟨tpi, htpi⟩ : ∃ tpi, timePerIter full clock 1 = .ok tpi := by
    unfold timePerIter; split
    · rw [pdiv_eq (by norm_num)]; exact ⟨_, rfl⟩
    · exact ⟨_, rfl⟩
  have hy0 : 0 ≤ 1 - ll ^ 2 * (1 - xOf s a .H ^ 2) := by
    nlinarith [sq_nonneg ll, sq_nonneg (ll * xOf s a .H), hS.lam_lt]
  rw [hmp] at htP htMin hsma
  have hout := thorne_fwd (low := low) hmu hna htof hθ htP htMin hsma (getX_eq hs (.inr hadom))
    (by rw [getYFromX, hlam, ok_bind, psqrt_eq hy0]) (hrc hmu hL) htpi
  refine ⟨_, hout, ?_⟩
  · intro hpol hpro
    rw [mkOutput_v1, mkOutput_v2]
    refine ⟨_, arc hmu hG hS hL (xOf_gt s a .H hs (.inr hadom)), ?_⟩
    have hz : crossZ r1 r2 = 0 := not_not.1 hpol
    have hllp : 0 < ll := by rw [hsg, hpro, if_pos rfl, hz]
    have hmp1 : mp = 1 := by
      rw [hmp, if_neg]
      rw [hA.short, hpro]; simp [ShortWay, hz]
    rw [← lagF_eq hmu hs hS.lam_lt hS.chord rfl hadom hL, ← haroot, if_pos hllp, hmp1]
    obtain ⟨w, hw, hw2, hF⟩ := lagF_H (mp := 1) hmu hs hS.chord han
    obtain ⟨w', hw', hw2', hF'⟩ := lagF_H (mp := -1) hmu hs hS.chord han
    have hww : w' = w := by
      rw [← Real.sqrt_sq hw'.le, hw2', ← hw2, Real.sqrt_sq hw.le]
    rw [hF, hF', hww]
    have hp := exc_strictMono (by positivity : 0 < |ll| * w)
    rw [exc_zero] at hp
    apply mul_lt_mul_of_pos_left (by linarith)
    positivity

/-- **C20, negation on polar planes.** For prograde motion in a plane that contains the
polar axis `thorne2004` (with an exact root finder, and all sufficiently small tolerances)
returns velocities of a transfer that reaches `r2` before the requested time. -/
theorem thorne_polar_wrong_time {mu : ℝ} (hmu : 0 < mu) {r1 r2 : V3} (hna : NotAligned r1 r2)
    (hpol : ¬ NotPolar r1 r2) (low : Bool) :
    ∃ tof δ, 0 < tof ∧ 0 < δ ∧ ∀ (maxiter : ℕ) (atol rtol : ℝ), 1 ≤ maxiter → 0 ≤ atol → atol < δ → 0 ≤ rtol →
      rtol < δ → ∀ full clock, ∃ out,
        thorne2004 exactBrent mu r1 r2 tof 0 true low maxiter atol rtol full clock = .ok out ∧
        ∃ T, LambertArc mu r1 r2 out.v1 out.v2 T 0 ∧ T < tof := by
  obtain ⟨tof, δ, h1, h2, h⟩ := thorne_returns hmu hna true low
  refine ⟨tof, δ, h1, h2, fun m a r hm ha ha' hr hr' full clock => ?_⟩
  obtain ⟨out, ho, hT⟩ := h m a r hm ha ha' hr hr' full clock
  exact ⟨out, ho, hT hpol rfl⟩

example : NotAligned ⟨1, 0, 0⟩ ⟨0, 0, 1⟩ ∧ ¬ NotPolar ⟨1, 0, 0⟩ ⟨0, 0, 1⟩ := by
  simp [NotAligned, NotPolar]

/-- Non-vacuity of `thorne_kepler_transfer_partial`: a quarter turn in the equatorial plane. -/
example : ∃ tof atol rtol out, 0 < atol ∧ 0 < rtol ∧ BrentSpec exactBrent ∧ NotPolar ⟨1, 0, 0⟩ ⟨0, 1, 0⟩ ∧
    thorne2004 exactBrent 1 ⟨1, 0, 0⟩ ⟨0, 1, 0⟩ tof 0 true true 35 atol rtol true 1 = .ok out := by
  have hna : NotAligned ⟨1, 0, 0⟩ ⟨0, 1, 0⟩ := by simp [NotAligned]
  obtain ⟨tof, δ, -, hδ, h⟩ := thorne_returns one_pos hna true true
  obtain ⟨out, ho, -⟩ := h 35 (δ / 2) (δ / 2) (by norm_num) (by linarith) (by linarith) (by linarith) (by linarith) true 1
  exact ⟨tof, δ / 2, δ / 2, out, by linarith, by linarith, exactBrent_spec, by simp [NotPolar], ho⟩

end Lamberthub
