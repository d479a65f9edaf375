import Verif.Props.Der
import Verif.Props.ThorneSolves

/-! # C69: which problems `der2011` solves -/

set_option autoImplicit false

namespace Lamberthub
open Spec LC Thorne

/-- The energy of the orbit through `r1` with velocity `v` is at most that of the path parameter `1 - ε`, where `ε`
is the literal `2.220446049250313e-16` of the code. -/
def Spec.Bound (mu : ℝ) (r1 r2 v : V3) : Prop :=
  semiPerimeter r1 r2 * energyOf mu r1 v ≤ -(1 - (1 - 2.220446049250313e-16) ^ 2) * mu

/-- The energy of the orbit through `r1` with velocity `v` is at least that of the path parameter `1 + √ε`, where `√ε`
is the literal `1.4901161193847656e-08` of the code. -/
def Spec.Escaping (mu : ℝ) (r1 r2 v : V3) : Prop :=
  ((1 + 1.4901161193847656e-08) ^ 2 - 1) * mu ≤ semiPerimeter r1 r2 * energyOf mu r1 v

namespace Der

section
variable {σ : ℝ} (hl : σ ^ 2 < 1) (h0 : σ ≠ 0)
include hl h0

theorem computeY_ne (x : ℝ) : computeY σ x ≠ 0 := by
  rw [computeY_eq hl h0]
  have := (lanc_lancY hl x).y_pos
  rcases sg_cases σ with h | h <;> rw [h]
  · simp; exact this.ne'
  · simp; exact this.ne'

/-- The elliptic iteration never stops with an error. -/
theorem ellipticLoop_returns {tau x0 : ℝ} {M maxiter : ℕ} {atol rtol : ℝ} :
    ∀ (k m : ℕ) {z : ℝ}, -1 < z → z < 1 → ∃ r, ellipticLoop σ tau M x0 maxiter atol rtol k m z = .ok r
  | 0, m, z, _, _ => ⟨_, by rw [ellipticLoop]⟩
  | k + 1, m, z, hz1, hz2 => by
    rw [ellipticLoop]
    simp only []
    rw [tofElliptic_eq hl h0 hz1 hz2, ok_bind]
    split
    · exact ⟨_, rfl⟩
    have hy := computeY_ne hl h0 z
    have hq : 1 - z ^ 2 ≠ 0 := by nlinarith
    unfold tofEllipticPrime
    rw [pdiv_eq hy, ok_bind, pdiv_eq hq, ok_bind]
    unfold tofEllipticSecond
    simp only []
    rw [pdiv_eq (pow_ne_zero 3 hy), ok_bind]
    have hxs : (if z ≠ 0 then z else eps) * (1 - (if z ≠ 0 then z else eps) ^ 2) ≠ 0 := by
      split
      · rename_i h; exact mul_ne_zero h hq
      · have := eps_pos; have := eps_lt
        exact mul_ne_zero (by linarith) (by nlinarith)
    rw [pdiv_eq hxs, ok_bind]
    generalize laguerreStep _ _ _ _ = xn
    split
    · exact ⟨_, rfl⟩
    · rename_i h
      rw [not_le, abs_lt] at h
      exact ellipticLoop_returns k (m + 1) h.1 h.2

/-- The elliptic search succeeds when the fallback bracket contains the solution. -/
theorem solveElliptic_returns {b : Brent} (hbc : BrentComplete b) {tau x0 : ℝ} {M : ℕ} {atol rtol : ℝ} (ha : 0 < atol)
    (hr : 1 / 2 ^ 50 ≤ rtol) (hx1 : -1 < x0) (hx2 : x0 < 1)
    (hs : if x0 < 0 then (lancT σ (-1 + eps) (lancY σ (-1 + eps)) M - tau) * (lancT σ 0 (lancY σ 0) M - tau) ≤ 0
      else (lancT σ 0 (lancY σ 0) M - tau) * (lancT σ (1 - eps) (lancY σ (1 - eps)) M - tau) ≤ 0) :
    ∃ N0 : ℕ, ∀ N ≥ N0, ∃ x y n, 1 ≤ n ∧ solveElliptic b σ tau M x0 N atol rtol = .ok (x, y, n) := by
  have he := eps_pos
  have he1 := eps_lt
  have main : ∃ N0 : ℕ, ∀ N ≥ N0, ∃ x y, solveEllipticBracketed b σ tau M x0 N atol rtol = .ok (x, y, N) := by
    unfold solveEllipticBracketed
    by_cases hx : x0 < 0
    · rw [if_pos hx] at hs
      simp only [if_pos hx]
      obtain ⟨N0, h⟩ := hbc (f := ellipticEquation σ tau M) (g := fun x => lancT σ x (lancY σ x) M - tau)
        (lo := -1 + eps) (hi := 0) (by linarith)
        (((lancT_cont_ell hl h0 M).mono fun t ht => ⟨by linarith [ht.1], by linarith [ht.2]⟩).sub continuousOn_const)
        (fun t ht => ellipticEquation_eq hl h0 (by linarith [ht.1]) (by linarith [ht.2])) hs ha hr
      refine ⟨N0, fun N hN => ?_⟩
      obtain ⟨x, n, e⟩ := h N hN
      refine ⟨x, computeY σ x, ?_⟩
      rw [show (0.0 : ℝ) = 0 by norm_num, e]
      rfl
    · rw [if_neg hx] at hs
      simp only [if_neg hx]
      obtain ⟨N0, h⟩ := hbc (f := ellipticEquation σ tau M) (g := fun x => lancT σ x (lancY σ x) M - tau)
        (lo := 0) (hi := 1 - eps) (by linarith)
        (((lancT_cont_ell hl h0 M).mono fun t ht => ⟨by linarith [ht.1], by linarith [ht.2]⟩).sub continuousOn_const)
        (fun t ht => ellipticEquation_eq hl h0 (by linarith [ht.1]) (by linarith [ht.2])) hs ha hr
      refine ⟨N0, fun N hN => ?_⟩
      obtain ⟨x, n, e⟩ := h N hN
      refine ⟨x, computeY σ x, ?_⟩
      rw [show (0.0 : ℝ) = 0 by norm_num, e]
      rfl
  obtain ⟨N0, h⟩ := main
  refine ⟨max N0 1, fun N hN => ?_⟩
  obtain ⟨x, y, e⟩ := h N (le_of_max_le_left hN)
  have hN1 : 1 ≤ N := le_of_max_le_right hN
  unfold solveElliptic solveEllipticJit
  obtain ⟨⟨x', y', n, fb⟩, e'⟩ := ellipticLoop_returns hl h0 (tau := tau) (x0 := x0) (M := M) (maxiter := N)
    (atol := atol) (rtol := rtol) N 0 hx1 hx2
  rw [e', ok_bind]
  cases fb
  · have := ellipticLoop_ok hl h0 hx1 hx2 e'
    refine ⟨x', y', n, by omega, ?_⟩
    simp
  · refine ⟨x, y, N, hN1, ?_⟩
    simp only [if_true]
    exact e

omit h0 in
/-- The minimum-energy time of the code. -/
theorem minimumEnergyTime_eq (M : ℕ) : computeMinimumEnergyTime σ M = .ok (lancT σ 0 (lancY σ 0) M) := by
  have h1 := abs_lt.1 ((sq_lt_one_iff_abs_lt_one _).1 hl)
  have hq : 0 < 1 - σ ^ 2 := by linarith
  unfold computeMinimumEnergyTime
  rw [clamp1_eq h1.1.le h1.2.le, pacos_eq h1.1.le h1.2.le, ok_bind,
    max_eq_right (show (0.0 : ℝ) ≤ 1 - σ ^ 2 by rw [show (0.0 : ℝ) = 0 by norm_num]; exact hq.le), psqrt_eq hq.le, ok_bind]
  congr 1
  rw [lancT, if_pos one_pos, lancY]
  norm_num
  ring

/-- The doubling of the upper end stops. -/
theorem expandUpper_stops {tau X : ℝ} (hX : 1 < X) (hXt : lancT σ X (lancY σ X) 0 = tau) :
    ∃ u, expandUpper σ tau = .ok u := by
  unfold expandUpper
  rw [hyperbolicEquation_eq hl h0 (by norm_num), ok_bind]
  have key : ∀ (k : ℕ) (u : ℝ), 1 < u → X ≤ u * 2 ^ k → ∃ r,
      whileLoop (fun s : ℝ × ℝ => s.2 > 0)
        (fun s => do
          let u := s.1 * 2
          let f ← hyperbolicEquation σ tau u
          .ok (u, f)) (u, lancT σ u (lancY σ u) 0 - tau) = .ok r := by
    intro k
    induction k with
    | zero =>
      intro u hu hXu
      rw [pow_zero, mul_one] at hXu
      refine ⟨_, whileLoop_false ?_⟩
      simp only [gt_iff_lt, not_lt]
      have := (lancT_strictAnti hl h0).antitoneOn (show X ∈ Set.Ioi (-1) by simp; linarith)
        (show u ∈ Set.Ioi (-1) by simp; linarith) hXu
      simp only [hXt] at this
      linarith
    | succ k ih =>
      intro u hu hXu
      by_cases hc : 0 < lancT σ u (lancY σ u) 0 - tau
      · rw [whileLoop_true (s' := (u * 2, lancT σ (u * 2) (lancY σ (u * 2)) 0 - tau)) hc (by
          simp only []
          rw [hyperbolicEquation_eq hl h0 (by linarith), ok_bind])]
        exact ih (u * 2) (by linarith) (by rw [pow_succ] at hXu; linarith)
      · exact ⟨_, whileLoop_false hc⟩
  obtain ⟨k, hk⟩ := pow_unbounded_of_one_lt X (one_lt_two)
  obtain ⟨r, hr⟩ := key k 2.0 (by norm_num) (by norm_num; nlinarith)
  rw [hr, ok_bind]
  exact ⟨_, rfl⟩

/-- The hyperbolic iteration stops with a value or by dividing by zero. -/
theorem hyperbolicLoop_returns {tau : ℝ} {maxiter : ℕ} {atol rtol : ℝ} :
    ∀ (k m : ℕ) {z : ℝ}, 1 < z → (∃ r, hyperbolicLoop σ tau maxiter atol rtol k m z = .ok r) ∨
      hyperbolicLoop σ tau maxiter atol rtol k m z = .error .undefined
  | 0, m, z, _ => .inl ⟨_, by rw [hyperbolicLoop]⟩
  | k + 1, m, z, hz => by
    rw [hyperbolicLoop]
    simp only []
    rw [tofHyperbolic_eq hl h0 hz, ok_bind]
    split
    · exact .inl ⟨_, rfl⟩
    have he := eps_pos
    have hse := sqrtEps_pos
    have hst : 0 < sqrtEps * max 1.0 |z| := mul_pos hse (lt_max_of_lt_left (by norm_num))
    have hm1 : 1 < max (1.0 + eps) (z - sqrtEps * max 1.0 |z|) := lt_max_of_lt_left (by norm_num; exact he)
    unfold hyperbolicNumericalDerivatives
    simp only []
    rw [tofHyperbolic_eq hl h0 hm1, ok_bind, tofHyperbolic_eq hl h0 hz, ok_bind,
      tofHyperbolic_eq hl h0 (by linarith : 1 < z + sqrtEps * max 1.0 |z|), ok_bind]
    have hgap : max (1.0 + eps) (z - sqrtEps * max 1.0 |z|) < z + sqrtEps * max 1.0 |z| := by
      apply max_lt _ (by linarith)
      have : sqrtEps ≤ sqrtEps * max 1.0 |z| := by
        have : (1 : ℝ) ≤ max 1.0 |z| := le_max_of_le_left (by norm_num)
        nlinarith
      have : eps < sqrtEps := by unfold eps sqrtEps; norm_num
      norm_num; linarith
    rw [pdiv_eq (sub_pos.2 hgap).ne', ok_bind, pdiv_eq (by simpa using hst.ne'), ok_bind]
    by_cases hzz : z - max (1.0 + eps) (z - sqrtEps * max 1.0 |z|) = 0
    · right
      rw [pdiv, if_pos hzz]
      rfl
    · rw [pdiv_eq hzz, ok_bind, pdiv_eq (sub_pos.2 hgap).ne', ok_bind, ok_bind]
      simp only []
      generalize laguerreStep _ _ _ _ = xn
      split
      · exact .inl ⟨_, rfl⟩
      · exact hyperbolicLoop_returns k (m + 1) (lt_max_of_lt_left (by norm_num; exact he))

/-- The hyperbolic search. -/
theorem solveHyperbolic_returns {b : Brent} (hbc : BrentComplete b) {tau x0 X : ℝ} {atol rtol : ℝ} (ha : 0 < atol)
    (hr : 1 / 2 ^ 50 ≤ rtol) (hX : 1 + sqrtEps ≤ X) (hXt : lancT σ X (lancY σ X) 0 = tau) :
    ∃ N0 : ℕ, ∀ N ≥ N0, (∃ x y n, 1 ≤ n ∧ solveHyperbolic b σ tau x0 N atol rtol = .ok (x, y, n)) ∨
      solveHyperbolic b σ tau x0 N atol rtol = .error .undefined := by
  have he := sqrtEps_pos
  have hm := (lancT_strictAnti hl h0).antitoneOn
  obtain ⟨u, hu⟩ := expandUpper_stops hl h0 (by linarith) hXt
  obtain ⟨hu2, hut⟩ := expandUpper_ok hl h0 hu
  have hlo : tau ≤ lancT σ (1.0 + sqrtEps) (lancY σ (1.0 + sqrtEps)) 0 := by
    rw [← hXt, show (1.0 : ℝ) = 1 by norm_num]
    exact hm (show 1 + sqrtEps ∈ Set.Ioi (-1) by simp; linarith) (show X ∈ Set.Ioi (-1) by simp; linarith) hX
  have main : ∃ N0 : ℕ, ∀ N ≥ N0, ∃ x y, solveHyperbolicBracketed b σ tau N atol rtol = .ok (x, y, N) := by
    unfold solveHyperbolicBracketed
    have hlt : (1.0 : ℝ) + sqrtEps ≤ u := by have := sqrtEps_lt; norm_num; linarith
    have h10 : (1 : ℝ) < 1.0 + sqrtEps := by norm_num; exact he
    obtain ⟨N0, h⟩ := hbc (f := hyperbolicEquation σ tau) (g := fun x => lancT σ x (lancY σ x) 0 - tau)
      (lo := 1.0 + sqrtEps) (hi := u) hlt
      (((lancT_cont_hyp hl h0 0).mono fun t ht => lt_of_lt_of_le h10 ht.1).sub continuousOn_const)
      (fun t ht => hyperbolicEquation_eq hl h0 (lt_of_lt_of_le h10 ht.1))
      (mul_nonpos_of_nonneg_of_nonpos (by linarith) (by linarith)) ha hr
    refine ⟨N0, fun N hN => ?_⟩
    obtain ⟨x, n, e⟩ := h N hN
    refine ⟨x, computeY σ x, ?_⟩
    simp only []
    rw [hu, ok_bind, e]
    rfl
  obtain ⟨N0, h⟩ := main
  refine ⟨max N0 1, fun N hN => ?_⟩
  obtain ⟨x, y, e⟩ := h N (le_of_max_le_left hN)
  have hN1 : 1 ≤ N := le_of_max_le_right hN
  unfold solveHyperbolic solveHyperbolicJit
  have hz : 1 < max 1.1 (x0 + 1.0) := lt_max_of_lt_left (by norm_num)
  rcases hyperbolicLoop_returns hl h0 (tau := tau) (maxiter := N) (atol := atol) (rtol := rtol) N 0 hz with
    ⟨⟨x', y', n, fb⟩, e'⟩ | e'
  · left
    rw [e', ok_bind]
    cases fb
    · have := hyperbolicLoop_ok hl h0 hz e'
      refine ⟨x', y', n, by omega, ?_⟩
      simp
    · refine ⟨x, y, N, hN1, ?_⟩
      simp only [if_true]
      exact e
  · right
    rw [e']
    rfl

end

/-- The transfer of the requested time and sense in the variables of the code. -/
theorem transfer {mu s σ : ℝ} {r1 r2 : V3} {pro : Bool} (hmu : 0 < mu) (hG : Geo r1 r2 (Real.sqrt 2 * s * σ))
    (hS : Semi (V3.norm r1) (V3.norm r2) (V3.norm (r2 - r1)) s σ) (h0 : σ ≠ 0)
    (hsg : 0 < σ ↔ ShortWay pro r1 r2) (hnp : NotPolar r1 r2) {T : ℝ} {w1 w2 : V3}
    (h : LambertArc mu r1 r2 w1 w2 T 0) (hs : Sense pro r1 w1) :
    ∃ x, -1 < x ∧ lancT σ x (lancY σ x) 0 = T / Real.sqrt (s ^ 3 / (2 * mu)) ∧
      semiPerimeter r1 r2 * energyOf mu r1 w1 = -(1 - x ^ 2) * mu := by
  have hna : NotAligned r1 r2 := fun h => hnp h.2.2
  have hs0 := hS.spos
  have hU : 0 < Real.sqrt (s ^ 3 / (2 * mu)) := by positivity
  obtain ⟨x, hx, hxT⟩ := timeOf_surj hmu hs0 hS.lam_lt h0 h.1
  refine ⟨x, hx, by rw [eq_div_iff hU.ne', mul_comm]; exact hxT, ?_⟩
  have hL := lanc_lancY hS.lam_lt x
  have ha := lancArc hmu hG hS hL hx (M := 0) (.inl rfl)
  rw [show Real.sqrt (_ / (2 * mu)) * lancT σ x (lancY σ x) 0 = T from hxT] at ha
  obtain ⟨e, -⟩ := zero_rev_unique_sense hmu hna h ha hs (sense hmu hG hs0 hL hsg hnp)
  have hsp : semiPerimeter r1 r2 = s := by rw [semiPerimeter_eq, hS.hs]
  rw [e, energyOf, hL.energy hmu hs0 hG hS.sum, hsp]
  field_simp

/-- Whatever the search does, the solver does. -/
theorem run {b : Brent} {mu : ℝ} (hmu : 0 < mu) {r1 r2 : V3} {s σ : ℝ} {pro : Bool}
    (hna : NotAligned r1 r2) {tof : ℝ} (htof : 0 < tof) {ψ : ℝ} (hψ : getTransferAngle r1 r2 pro = .ok ψ)
    (hG : Geo r1 r2 (Real.sqrt 2 * s * σ)) (hS : Semi (V3.norm r1) (V3.norm r2) (V3.norm (r2 - r1)) s σ) (h0 : σ ≠ 0)
    (hcs : computeSigma (V3.norm r1) (V3.norm r2) (V3.norm r1 + V3.norm r2 + V3.norm (r2 - r1)) ψ = .ok σ)
    {tau : ℝ} (hnt : computeNormalizedTime mu (V3.norm r1 + V3.norm r2 + V3.norm (r2 - r1)) tof = .ok tau)
    {low : Bool} {N : ℕ} {atol rtol : ℝ} {full : Bool} {clock : ℝ} {x y : ℝ} {n : ℕ} (hn : 1 ≤ n)
    (hf : findPathParameter b σ tau (computeParabolicTime σ) 0 low N atol rtol = .ok (x, y, n)) :
    ∃ out, der2011 b mu r1 r2 tof 0 pro low N atol rtol full clock = .ok out := by
  obtain ⟨tpi, htpi⟩ := timePerIter_pos full clock hn
  exact ⟨_, der_fwd (low := low) hmu hna htof le_rfl hψ hcs hnt
    (by unfold checkFeasible; rw [if_neg (by norm_num)]) hf htpi (reconstruct_eq hmu h0 hG hS _ _)⟩

theorem run_undefined {b : Brent} {mu : ℝ} (hmu : 0 < mu) {r1 r2 : V3} {σ : ℝ} {pro : Bool}
    (hna : NotAligned r1 r2) {tof : ℝ} (htof : 0 < tof) {ψ : ℝ} (hψ : getTransferAngle r1 r2 pro = .ok ψ)
    (hcs : computeSigma (V3.norm r1) (V3.norm r2) (V3.norm r1 + V3.norm r2 + V3.norm (r2 - r1)) ψ = .ok σ)
    {tau : ℝ} (hnt : computeNormalizedTime mu (V3.norm r1 + V3.norm r2 + V3.norm (r2 - r1)) tof = .ok tau)
    {low : Bool} {N : ℕ} {atol rtol : ℝ} {full : Bool} {clock : ℝ} {e : PyErr}
    (hf : findPathParameter b σ tau (computeParabolicTime σ) 0 low N atol rtol = .error e) :
    der2011 b mu r1 r2 tof 0 pro low N atol rtol full clock = .error e := by
  have h1 : r1 ≠ 0 := by rintro rfl; exact (norm_pos_of_notAligned_left hna).ne' (by simp [V3.norm, V3.dot])
  have h2 : r1 ≠ r2 := by rintro rfl; exact hna ⟨by ring, by ring, by ring⟩
  have hA := angle_of_eq hna hψ
  unfold der2011
  rw [assertParameters_eq hmu h1 h2 htof le_rfl, ok_bind, hψ, ok_bind]
  simp only []
  rw [assertTransferAngleNotZero, raiseIf_neg _ hA.pos.ne', ok_bind, assertTransferAngleNotPi,
    raiseIf_neg _ hA.ne_pi, ok_bind, hcs, ok_bind, hnt, ok_bind,
    show checkFeasible b σ tau (computeParabolicTime σ) 0 N atol rtol = .ok () by
      unfold checkFeasible; rw [if_neg (by norm_num)], ok_bind, hf]
  rfl

end Der

open Der

/-- **C69.** The elliptic transfers that `der2011` finds: if the orbit of the requested time and sense has at most the
energy of the path parameter `1 - ε` and its path parameter is at least `-1 + ε`, then `der2011` returns for every
large enough `maxiter`.  The two conditions are one: the energy is at most `-(1 - (1 - ε)²) μ / s`. -/
theorem der_solves_elliptic {b : Brent} (hbc : BrentComplete b) {mu : ℝ} (hmu : 0 < mu) {r1 r2 : V3}
    (hnp : NotPolar r1 r2) {pro : Bool} {tof : ℝ} {w1 w2 : V3} (h : LambertArc mu r1 r2 w1 w2 tof 0)
    (hs : Sense pro r1 w1) {atol rtol : ℝ} (ha : 0 < atol) (hr : 1 / 2 ^ 50 ≤ rtol) (hE : Bound mu r1 r2 w1)
    (low full : Bool) (clock : ℝ) :
    ∃ N0 : ℕ, ∀ N ≥ N0, ∃ out, der2011 b mu r1 r2 tof 0 pro low N atol rtol full clock = .ok out := by
  have hna : NotAligned r1 r2 := fun h => hnp h.2.2
  have hψ := transferAngle_eq hna pro
  obtain ⟨s, σ, hG, hS, h0, hsg, hcs, hnt⟩ := geo hna (angle_of_eq hna hψ)
  have hl := hS.lam_lt
  obtain ⟨x, hx, hxT, hxe⟩ := Der.transfer hmu hG hS h0 hsg hnp h hs
  have he := Der.eps_pos
  have he1 := eps_lt
  have hxb : |x| ≤ 1 - Der.eps := by
    unfold Bound at hE
    rw [hxe, show (2.220446049250313e-16 : ℝ) = Der.eps from rfl] at hE
    apply abs_le_of_sq_le_sq _ (by linarith)
    nlinarith
  obtain ⟨hx1, hx2⟩ := abs_le.1 hxb
  have hm := (lancT_strictAnti hl h0)
  have hP : computeParabolicTime σ < tof / Real.sqrt (s ^ 3 / (2 * mu)) := by
    rw [← hxT, ← parabolic_time]
    exact hm (show x ∈ Set.Ioi (-1) from hx) (show (1 : ℝ) ∈ Set.Ioi (-1) by norm_num) (by linarith)
  have hr0 : (0 : ℝ) ≤ rtol := le_trans (by norm_num) hr
  by_cases hcl : |tof / Real.sqrt (s ^ 3 / (2 * mu)) - computeParabolicTime σ| ≤ atol + rtol * |computeParabolicTime σ|
  · refine ⟨0, fun N _ => run hmu hna h.1 hψ hG hS h0 hcs (hnt mu tof hmu) (x := 1.0) (y := σ) le_rfl ?_⟩
    unfold findPathParameter
    rw [if_pos ⟨rfl, hcl⟩]
  have hstart : ∀ low, startX σ (tof / Real.sqrt (s ^ 3 / (2 * mu))) (computeParabolicTime σ) 0 low =
      .ok (if tof / Real.sqrt (s ^ 3 / (2 * mu)) > lancT σ 0 (lancY σ 0) 0 then -0.5 else 0.5) := by
    intro low
    unfold startX
    have := minimumEnergyTime_eq hl 0
    rw [Nat.cast_zero] at this
    rw [if_pos rfl, if_pos hP, this, ok_bind]
  obtain ⟨x0, hx0⟩ : ∃ x0 : ℝ, x0 = if tof / Real.sqrt (s ^ 3 / (2 * mu)) > lancT σ 0 (lancY σ 0) 0 then -0.5 else 0.5 :=
    ⟨_, rfl⟩
  have hma := hm.antitoneOn
  have mem0 : (0 : ℝ) ∈ Set.Ioi (-1 : ℝ) := by norm_num
  obtain ⟨N0, hN0⟩ := solveElliptic_returns hl h0 hbc (tau := tof / Real.sqrt (s ^ 3 / (2 * mu))) (x0 := x0) (M := 0)
    ha hr (by rw [hx0]; split <;> norm_num) (by rw [hx0]; split <;> norm_num) (by
      rw [hx0]
      by_cases hc : tof / Real.sqrt (s ^ 3 / (2 * mu)) > lancT σ 0 (lancY σ 0) 0
      · rw [if_pos hc, if_pos (by norm_num)]
        have := hma (show -1 + Der.eps ∈ Set.Ioi (-1) by simpa using he) (show x ∈ Set.Ioi (-1) from hx) (by linarith)
        simp only [hxT] at this
        exact mul_nonpos_of_nonneg_of_nonpos (by linarith) (by linarith)
      · rw [if_neg hc, if_neg (by norm_num)]
        have := hma (show x ∈ Set.Ioi (-1) from hx) (show 1 - Der.eps ∈ Set.Ioi (-1) by simp; linarith) (by linarith)
        simp only [hxT] at this
        exact mul_nonpos_of_nonneg_of_nonpos (by linarith) (by linarith))
  refine ⟨N0, fun N hN => ?_⟩
  obtain ⟨x', y', n, hn, e⟩ := hN0 N hN
  refine run hmu hna h.1 hψ hG hS h0 hcs (hnt mu tof hmu) hn (x := x') (y := y') ?_
  unfold findPathParameter
  rw [if_neg (fun h => hcl h.2), hstart, ← hx0, ok_bind, if_pos (.inr hP)]
  exact_mod_cast e

/-- **C69.** The hyperbolic transfers: if the orbit of the requested time and sense has at least the energy of
the path parameter `1 + √ε`, then for every large enough `maxiter` `der2011` either returns or divides by zero in the
finite differences of l.388; it never raises `ValueError`, and the search for the upper end of the bracket terminates.

The division by zero happens when an iterate is exactly `1 + ε`, to which the code clamps iterates (l.418); for every
geometry there is a time of flight for which it does (`der_divides_by_zero`). -/
theorem der_solves_hyperbolic {b : Brent} (hbc : BrentComplete b) {mu : ℝ} (hmu : 0 < mu) {r1 r2 : V3}
    (hnp : NotPolar r1 r2) {pro : Bool} {tof : ℝ} {w1 w2 : V3} (h : LambertArc mu r1 r2 w1 w2 tof 0)
    (hs : Sense pro r1 w1) {atol rtol : ℝ} (ha : 0 < atol) (hr : 1 / 2 ^ 50 ≤ rtol) (hE : Escaping mu r1 r2 w1)
    (low full : Bool) (clock : ℝ) :
    ∃ N0 : ℕ, ∀ N ≥ N0, (∃ out, der2011 b mu r1 r2 tof 0 pro low N atol rtol full clock = .ok out) ∨
      der2011 b mu r1 r2 tof 0 pro low N atol rtol full clock = .error .undefined := by
  have hna : NotAligned r1 r2 := fun h => hnp h.2.2
  have hψ := transferAngle_eq hna pro
  obtain ⟨s, σ, hG, hS, h0, hsg, hcs, hnt⟩ := geo hna (angle_of_eq hna hψ)
  have hl := hS.lam_lt
  obtain ⟨x, hx, hxT, hxe⟩ := Der.transfer hmu hG hS h0 hsg hnp h hs
  have he := sqrtEps_pos
  have hxb : 1 + sqrtEps ≤ x := by
    unfold Escaping at hE
    rw [hxe, show (1.4901161193847656e-08 : ℝ) = sqrtEps from rfl] at hE
    have h2 : (1 + sqrtEps) ^ 2 ≤ x ^ 2 := by nlinarith
    have h3 := sq_le_sq.1 h2
    rw [abs_of_pos (by linarith)] at h3
    rcases abs_cases x with ⟨h4, -⟩ | ⟨h4, -⟩ <;> linarith
  have hm := (lancT_strictAnti hl h0)
  have hP : tof / Real.sqrt (s ^ 3 / (2 * mu)) < computeParabolicTime σ := by
    rw [← hxT, ← parabolic_time]
    exact hm (show (1 : ℝ) ∈ Set.Ioi (-1) by norm_num) (show x ∈ Set.Ioi (-1) from hx) (by linarith)
  by_cases hcl : |tof / Real.sqrt (s ^ 3 / (2 * mu)) - computeParabolicTime σ| ≤ atol + rtol * |computeParabolicTime σ|
  · refine ⟨0, fun N _ => .inl (run hmu hna h.1 hψ hG hS h0 hcs (hnt mu tof hmu) (x := 1.0) (y := σ) le_rfl ?_)⟩
    unfold findPathParameter
    rw [if_pos ⟨rfl, hcl⟩]
  have hfind : ∀ N, findPathParameter b σ (tof / Real.sqrt (s ^ 3 / (2 * mu))) (computeParabolicTime σ) 0 low N atol rtol =
      solveHyperbolic b σ (tof / Real.sqrt (s ^ 3 / (2 * mu))) 0.5 N atol rtol := by
    intro N
    unfold findPathParameter startX
    rw [if_neg (fun h => hcl h.2), if_pos rfl, if_neg (by linarith), ok_bind,
      if_neg (by rintro (h | h); · exact lt_irrefl _ h
                 · linarith)]
  obtain ⟨N0, hN0⟩ := solveHyperbolic_returns hl h0 hbc (x0 := 0.5) ha hr hxb hxT
  refine ⟨N0, fun N hN => ?_⟩
  rcases hN0 N hN with ⟨x', y', n, hn, e⟩ | e
  · exact .inl (run hmu hna h.1 hψ hG hS h0 hcs (hnt mu tof hmu) hn (by rw [hfind, e]))
  · exact .inr (run_undefined hmu hna h.1 hψ hcs (hnt mu tof hmu) (by rw [hfind, e]))

/-- The theorems at a quarter turn of the unit circle: both kinds of problem exist. -/
example : (∃ tof, 0 < tof ∧ ∃ N0 : ℕ, ∀ N ≥ N0, ∃ out,
      der2011 exactBrent 1 ⟨1, 0, 0⟩ ⟨0, 1, 0⟩ tof 0 true true N 1e-5 1e-7 true 1 = .ok out) ∧
    (∃ tof w1 w2, LambertArc 1 ⟨1, 0, 0⟩ ⟨0, 1, 0⟩ w1 w2 tof 0 ∧ Sense true ⟨1, 0, 0⟩ w1 ∧
      Escaping 1 ⟨1, 0, 0⟩ ⟨0, 1, 0⟩ w1) := by
  have hnp : NotPolar ⟨1, 0, 0⟩ ⟨0, 1, 0⟩ := by simp [NotPolar]
  obtain ⟨ll, hp⟩ := problem one_pos hnp true
  have hs0 := hp.semi.spos
  constructor
  · have hL := lanc_lancY hp.semi.lam_lt (1 / 2)
    have h := Thorne.arc one_pos hp.geo hp.semi hL (by norm_num)
    refine ⟨_, h.1, der_solves_elliptic exactBrent_complete one_pos hnp h (hp.sense hL) (by norm_num)
      (by norm_num) ?_ true true 1⟩
    unfold Bound
    rw [energyOf, hL.energy one_pos hs0 hp.geo hp.semi.sum, semiPerimeter_eq]
    rw [mul_div_cancel₀ _ hs0.ne']
    norm_num
  · have hL := lanc_lancY hp.semi.lam_lt 2
    have h := Thorne.arc one_pos hp.geo hp.semi hL (by norm_num)
    refine ⟨_, _, _, h, hp.sense hL, ?_⟩
    unfold Escaping
    rw [energyOf, hL.energy one_pos hs0 hp.geo hp.semi.sum, semiPerimeter_eq]
    rw [mul_div_cancel₀ _ hs0.ne']
    norm_num

end Lamberthub
