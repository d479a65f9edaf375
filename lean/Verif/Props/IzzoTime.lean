import Verif.Proofs.IzzoDeriv
import Verif.Props.Izzo
import Mathlib.Analysis.SpecialFunctions.Log.Basic
import Mathlib.Analysis.Real.Pi.Bounds

/-! # C42 (Izzo): derivatives of the time equation; the series; the parabolic time -/

set_option autoImplicit false

namespace Lamberthub
open Spec LC Izzo

/-- **C42 (Izzo).** For every geometry parameter `|λ| < 1`, every number of revolutions and
every admissible `x ≠ 1`: the functions `_tof_equation_p`, `_p2`, `_p3`, fed as in
`_householder` with the value of the time equation and of the lower derivatives, return
the first, second and third derivative of the time equation. -/
theorem izzo_derivatives {ll : ℝ} (hl : ll ^ 2 < 1) (M : ℕ) :
    ∃ Y T T1 T2 T3 : ℝ → ℝ, ∀ x, -1 < x → x ≠ 1 → (M = 0 ∨ x < 1) →
      computeY x ll = .ok (Y x) ∧
      tofEquation x 0 ll (M : ℤ) = .ok (T x) ∧
      tofP x (Y x) (T x) ll = .ok (T1 x) ∧
      tofP2 x (Y x) (T x) (T1 x) ll = .ok (T2 x) ∧
      tofP3 x (Y x) (T1 x) (T2 x) ll = .ok (T3 x) ∧
      HasDerivAt T (T1 x) x ∧ HasDerivAt T1 (T2 x) x ∧ HasDerivAt T2 (T3 x) x := by
  refine ⟨lancY ll, fun t => lancT ll t (lancY ll t) M,
    fun t => lancT1 ll t (lancY ll t) (lancT ll t (lancY ll t) M),
    fun t => lancT2 ll t (lancY ll t) (lancT ll t (lancY ll t) M)
      (lancT1 ll t (lancY ll t) (lancT ll t (lancY ll t) M)),
    fun t => lancT3 ll t (lancY ll t) (lancT1 ll t (lancY ll t) (lancT ll t (lancY ll t) M))
      (lancT2 ll t (lancY ll t) (lancT ll t (lancY ll t) M)
        (lancT1 ll t (lancY ll t) (lancT ll t (lancY ll t) M))), fun x h1 h2 h3 => ?_⟩
  have hL := lanc_lancY hl x
  have hy := hL.y_pos
  have h0 : 1 - x ^ 2 ≠ 0 := by
    intro h
    have : (1 - x) * (1 + x) = 0 := by linear_combination h
    rcases mul_eq_zero.1 this with h | h
    · exact h2 (by linarith)
    · linarith
  have hY : computeY x ll = .ok (lancY ll x) := by
    obtain ⟨y, hy1, -⟩ := computeY_eq (x := x) hl
    rw [hy1]; congr 1; exact (psqrt_ok.1 hy1).2
  have d1 := lancT_hasDerivAt hl h1 h2 M
  have d2 := lancT1_hasDerivAt hl h0 d1
  have d3 := lancT2_hasDerivAt hl h0 (T1 := fun t => lancT1 ll t (lancY ll t)
    (lancT ll t (lancY ll t) M)) d1 d2
  refine ⟨hY, ?_, ?_, ?_, ?_, d1, d2, d3⟩
  · rw [tofEquation, hY, ok_bind, tofEquationY_eq hL h1 h3, sub_zero]
  · rw [tofP, pdiv_eq hy.ne', ok_bind, pdiv_eq h0]; rfl
  · rw [tofP2, pdiv_eq (by positivity), ok_bind, pdiv_eq h0]; rfl
  · rw [tofP3, pdiv_eq (by positivity), ok_bind, pdiv_eq h0]; rfl

/-- Non-vacuity: geometry parameter `1/2`, zero and two revolutions. -/
example : ((1 / 2 : ℝ) ^ 2 < 1) ∧ (-1 < (0.3 : ℝ)) ∧ (0.3 : ℝ) ≠ 1 ∧ (2 = 0 ∨ (0.3 : ℝ) < 1) := by
  norm_num

/-- The loop of `hyp2f1b`: stopping after `n` passes leaves an error of at most
`|x|^(n+1) ((n+2) - (n+1)|x|)/(1-|x|)²`. -/
theorem hyp2f1b_loop_error {x : ℝ} (hx : |x| < 1) (n : ℕ) :
    ∃ F, hyp2f1b x = .ok F ∧
      |F - hypPartial x n| ≤ |x| ^ (n + 1) * ((n + 2) - (n + 1) * |x|) / (1 - |x|) ^ 2 := by
  have hx' := abs_lt.1 hx
  refine ⟨∑' n, hypTerm x n, ?_, ?_⟩
  · rw [hyp2f1b, if_neg (not_le.2 hx'.2), if_neg (not_le.2 hx'.1)]
  set r := |x| with hr
  have hr0 : 0 ≤ r := abs_nonneg x
  have h1r : 0 < 1 - r := by linarith
  let S : ℕ → ℝ := fun n => r ^ n * ((n + 1) - n * r) / (1 - r) ^ 2
  have hS : ∀ n, S n = (n + 1) * r ^ n + S (n + 1) := by
    intro n
    simp only [S]
    push_cast
    field_simp
    ring
  have hS0 : ∀ n, 0 ≤ S n := by
    intro n
    simp only [S]
    have : (0 : ℝ) ≤ (n + 1) - n * r := by
      have : (n : ℝ) * r ≤ n := mul_le_of_le_one_right (by positivity) hx.le
      linarith
    positivity
  have hpart : ∀ m, |hypPartial x (n + m) - hypPartial x n| ≤ S (n + 1) - S (n + m + 1) := by
    intro m
    induction m with
    | zero => simp
    | succ m ih =>
      have e1 : hypPartial x (n + (m + 1)) = hypPartial x (n + m) + hypTerm x (n + m + 1) := rfl
      have e2 : |hypTerm x (n + m + 1)| ≤ ((n + m + 1 : ℕ) + 1) * r ^ (n + m + 1) := by
        rw [hypTerm_eq, abs_mul, abs_pow, abs_of_pos (hypCoef_pos _)]
        exact mul_le_mul_of_nonneg_right (hypCoef_le _) (by positivity)
      have e3 := hS (n + m + 1)
      rw [e1, show n + (m + 1) + 1 = n + m + 1 + 1 by ring]
      calc |hypPartial x (n + m) + hypTerm x (n + m + 1) - hypPartial x n|
          = |(hypPartial x (n + m) - hypPartial x n) + hypTerm x (n + m + 1)| := by congr 1; ring
        _ ≤ _ := abs_add_le _ _
        _ ≤ (S (n + 1) - S (n + m + 1)) + ((n + m + 1 : ℕ) + 1) * r ^ (n + m + 1) :=
            add_le_add ih e2
        _ = S (n + 1) - S (n + m + 1 + 1) := by rw [e3]; ring
  have hlim : Filter.Tendsto (fun m => hypPartial x (n + m)) Filter.atTop
      (nhds (∑' n, hypTerm x n)) := by
    have h1 := (summable_hypTerm hx).hasSum.tendsto_sum_nat
    have h2 : ∀ m, hypPartial x m = ∑ i ∈ Finset.range (m + 1), hypTerm x i := by
      intro m
      induction m with
      | zero => simp [hypPartial, hypTerm]
      | succ m ih => rw [hypPartial, ih, Finset.sum_range_succ (n := m + 1)]
    have h3 := h1.comp (Filter.tendsto_add_atTop_nat (n + 1))
    refine h3.congr fun m => ?_
    simp only [Function.comp]
    rw [h2]; congr 2; ring
  have hle : |∑' n, hypTerm x n - hypPartial x n| ≤ S (n + 1) := by
    refine le_of_tendsto ((hlim.sub_const _).abs) (Filter.Eventually.of_forall fun m => ?_)
    exact (hpart m).trans (by linarith [hS0 (n + m + 1)])
  refine hle.trans (le_of_eq ?_)
  simp only [S]
  push_cast
  ring

/-- Non-vacuity. -/
example : |(0.1 : ℝ)| < 1 := by rw [abs_lt]; norm_num

/-- The parabolic time is shorter than the minimum-energy time. -/
theorem Izzo.T1_lt_T0 {ll : ℝ} (h : ll ^ 2 < 1) :
    2 * (1 - ll ^ 3) / 3 < Real.arccos ll + ll * Real.sqrt (1 - ll ^ 2) := by
  have hl := abs_lt.1 ((sq_lt_one_iff_abs_lt_one _).1 h)
  have h0 : 0 < Real.arccos ll := Real.arccos_pos.2 hl.2
  have h1 : Real.arccos ll < Real.pi := by
    rcases (Real.arccos_le_pi ll).lt_or_eq with h3 | h3
    · exact h3
    · rw [Real.arccos_eq_pi] at h3; linarith
  rw [← Real.sin_arccos]
  have hc : Real.cos (Real.arccos ll) = ll := Real.cos_arccos hl.1.le hl.2.le
  conv_lhs => rw [← hc]
  conv_rhs => rw [show ll * Real.sin (Real.arccos ll) =
    Real.cos (Real.arccos ll) * Real.sin (Real.arccos ll) by rw [hc]]
  generalize Real.arccos ll = a at *
  -- g(t) = t + cos t sin t - 2(1 - cos³ t)/3 has derivative 2 cos² t (1 - sin t) ≥ 0
  have hd : ∀ t : ℝ, HasDerivAt (fun t => t + Real.cos t * Real.sin t - 2 * (1 - Real.cos t ^ 3) / 3)
      (2 * Real.cos t ^ 2 * (1 - Real.sin t)) t := by
    intro t
    have d := ((hasDerivAt_id t).add ((Real.hasDerivAt_cos t).mul (Real.hasDerivAt_sin t))).sub
      (((((Real.hasDerivAt_cos t).pow 3).const_sub 1).const_mul 2).div_const 3)
    refine HasDerivAt.congr_of_eventuallyEq (d.congr_deriv ?_)
      (Filter.Eventually.of_forall fun t => rfl)
    have := Real.sin_sq_add_cos_sq t
    push_cast
    linear_combination (-1 : ℝ) * this
  have hmono : Monotone fun t => t + Real.cos t * Real.sin t - 2 * (1 - Real.cos t ^ 3) / 3 :=
    monotone_of_hasDerivAt_nonneg hd fun t => by
      have := Real.sin_le_one t
      have : 0 ≤ 1 - Real.sin t := by linarith
      positivity
  -- strict between 0 and min(a, 1)
  have hstrict : StrictMonoOn (fun t => t + Real.cos t * Real.sin t - 2 * (1 - Real.cos t ^ 3) / 3)
      (Set.Icc 0 1) := by
    refine strictMonoOn_of_deriv_pos (convex_Icc 0 1)
      (fun t _ => (hd t).continuousAt.continuousWithinAt) fun t ht => ?_
    rw [interior_Icc] at ht
    rw [(hd t).deriv]
    have hpi := Real.pi_gt_three
    have hc : 0 < Real.cos t := Real.cos_pos_of_mem_Ioo ⟨by linarith [ht.1], by linarith [ht.2]⟩
    have hs : Real.sin t < 1 := by linarith [Real.sin_lt ht.1, ht.2]
    have : 0 < 1 - Real.sin t := by linarith
    positivity
  have e1 := hstrict (a := 0) (b := min a 1) ⟨le_rfl, by norm_num⟩
    ⟨by positivity, min_le_right _ _⟩ (by positivity)
  have e2 := hmono (min_le_left a 1)
  simp only [Real.cos_zero, Real.sin_zero] at e1 e2
  norm_num at e1
  linarith

/-- **Finding (C18).** For every geometry the parabolic time of flight makes `izzo2015`
divide by zero: the initial guess is then exactly `x = 1`, where the derivative formulas
have the denominator `1 - x² = 0`. -/
theorem izzo_parabolic_undefined {mu : ℝ} (hmu : 0 < mu) {r1 r2 : V3}
    (hna : NotAligned r1 r2) (pro low : Bool) (n : ℕ) (atol rtol : ℝ) :
    ∃ tof v1 v2, LambertArc mu r1 r2 v1 v2 tof 0 ∧
      izzo2015 mu r1 r2 tof 0 pro low (n + 1) atol rtol = .error .undefined := by
  obtain ⟨s, ll, it1, it2, hgeo⟩ := geometry_eq hna pro
  obtain ⟨ε, hε, hG, hS, hεl, h1, h2, hsw⟩ := geometry_ok hgeo
  have hs := hS.spos
  have hl := hS.lam_lt
  have hl' := abs_lt.1 ((sq_lt_one_iff_abs_lt_one _).1 hl)
  obtain ⟨hT0, hTpi⟩ := T00_bounds hl
  have hT1 := T1_lt_T0 hl
  have hq : 0 < Real.sqrt (2 * mu / s ^ 3) := by positivity
  obtain ⟨y, hy, hL⟩ := computeY_eq (x := 1) hl
  have hy1 : y = 1 := by
    have := (psqrt_ok.1 hy).2
    rw [this]; norm_num
  obtain ⟨tof, hpath, htof⟩ := hL.path hmu hs (M := 0) (by norm_num) (Or.inl rfl)
  rw [← hS.sum] at hpath
  have hTv : Real.sqrt (2 * mu / s ^ 3) * tof = 2 * (1 - ll ^ 3) / 3 := by
    rw [htof, lancT, if_neg (lt_irrefl _), if_pos rfl, hy1]; ring
  refine ⟨tof, _, _, hpath.arc hmu hG, ?_⟩
  have hc3 : ll ^ 3 < 1 := by nlinarith
  set T := 2 * (1 - ll ^ 3) / 3 with hT
  have hTp : 0 < T := by rw [hT]; linarith
  have hfl : ⌊T / Real.pi⌋ = 0 := by
    rw [Int.floor_eq_zero_iff]
    exact ⟨by have := Real.pi_pos; positivity, by rw [div_lt_one Real.pi_pos]; linarith⟩
  have hgue : initialGuess T ll 0 low = .ok 1 := by
    unfold initialGuess initialGuess0
    rw [if_pos rfl, pacos, if_pos ⟨hl'.1.le, hl'.2.le⟩, ok_bind, psqrt_eq (by linarith), ok_bind]
    have e : Real.arccos ll + ll * Real.sqrt (1 - ll ^ 2) + ((0 : ℤ) : ℝ) * Real.pi =
      Real.arccos ll + ll * Real.sqrt (1 - ll ^ 2) := by push_cast; ring
    simp only [e]
    generalize Real.arccos ll + ll * Real.sqrt (1 - ll ^ 2) = T0 at *
    have hr : 0 < T / T0 := by positivity
    have hlog : Real.log (T / T0) ≠ 0 :=
      (Real.log_neg hr (by rw [div_lt_one hT0]; exact hT1)).ne
    rw [if_neg (not_le.2 hT1), if_neg (lt_irrefl _), pdiv_eq hT0.ne', ok_bind, plog, if_pos hr, ok_bind,
      ok_bind, plog, if_pos hr, ok_bind, pdiv_eq hlog, ok_bind,
      mul_div_cancel_right₀ _ hlog, Real.exp_log (by norm_num)]
    norm_num
  have hstep : householderStep 1 T ll 0 = .error .undefined := by
    unfold householderStep
    have h0 := tofEquationY_eq (T0 := T) hL (M := 0) (by norm_num) (Or.inl rfl)
    rw [Nat.cast_zero] at h0
    rw [hy, ok_bind, h0, ok_bind]
    simp only [tofP]
    rw [pdiv_eq hL.y_pos.ne', ok_bind]
    norm_num [pdiv]
  unfold izzo2015
  rw [hgeo]
  simp only [ok_bind]
  rw [pdiv_eq (by positivity), ok_bind, psqrt_eq (by positivity), ok_bind, hTv]
  unfold findXY
  rw [raiseIf_neg _ (not_not.2 (abs_lt.2 hl')), ok_bind, pacos, if_pos ⟨hl'.1.le, hl'.2.le⟩, ok_bind,
    psqrt_eq (by linarith), ok_bind]
  simp only [refineMMax, hfl]
  rw [if_neg (by simp), ok_bind, raiseIf_neg _ (by simp), ok_bind, hgue, ok_bind, householder, hstep]
  rfl

end Lamberthub
