import Verif.Props.DelatorreMulti
import Mathlib.Analysis.Calculus.MeanValue

/-!
# C42: the difference quotient of `delatorre2018`
-/

set_option autoImplicit false

namespace Lamberthub
open Spec LC Set Delatorre

/-- **C42, `_tof_derivative` of `delatorre2018`.**  Strictly inside the bracket the returned number is
the symmetric difference quotient of the time of flight, hence its derivative at some point within
the step; the step is the documented one, cut so that both points stay in the bracket. -/
theorem delatorre_difference {F : ℝ → Py ℝ} {g g' : ℝ → ℝ} {lo hi z : ℝ} (hz : z ∈ Ioo lo hi)
    (hF : ∀ t ∈ Ioo lo hi, F t = .ok (g t)) (hd : ∀ t ∈ Ioo lo hi, HasDerivAt g (g' t) t) :
    ∃ h, 0 < h ∧ h = min (max 1e-7 (2 ^ (-26 : ℤ) * max 1 |z|)) (min (z - lo) (hi - z) / 4) ∧
      tofDerivative F z lo hi = .ok ((g (z + h) - g (z - h)) / (2 * h)) ∧
      ∃ t ∈ Ioo (z - h) (z + h), (g (z + h) - g (z - h)) / (2 * h) = g' t := by
  obtain ⟨h, hh⟩ : ∃ h, h = min (max 1e-7 (2 ^ (-26 : ℤ) * max 1 |z|)) (min (z - lo) (hi - z) / 4) := ⟨_, rfl⟩
  have a : 0 < z - lo := sub_pos.2 hz.1
  have b : 0 < hi - z := sub_pos.2 hz.2
  have hm : 0 < min (z - lo) (hi - z) := lt_min a b
  have hh0 : 0 < h := by
    rw [hh]
    refine lt_min (lt_of_lt_of_le (by norm_num) (le_max_left _ _)) (by linarith)
  have h4 : h ≤ min (z - lo) (hi - z) / 4 := by rw [hh]; exact min_le_right _ _
  have hlo : h < z - lo := by linarith [min_le_left (z - lo) (hi - z)]
  have hhi : h < hi - z := by linarith [min_le_right (z - lo) (hi - z)]
  have hsub : ∀ t ∈ Icc (z - h) (z + h), t ∈ Ioo lo hi := fun t ht => ⟨by linarith [ht.1], by linarith [ht.2]⟩
  refine ⟨h, hh0, hh, ?_, ?_⟩
  · have hs : Real.sqrt (2 ^ (-52 : ℤ)) = 2 ^ (-26 : ℤ) := by
      rw [show (2 : ℝ) ^ (-52 : ℤ) = (2 ^ (-26 : ℤ)) ^ 2 by norm_num, Real.sqrt_sq (by positivity)]
    have e : min (min (max 1e-7 (Real.sqrt (2 ^ (-52 : ℤ)) * max 1.0 |z|)) (0.25 * (z - lo))) (0.25 * (hi - z)) = h := by
      rw [hs, show (1.0 : ℝ) = 1 by norm_num, min_assoc, hh]
      congr 1
      rw [show (0.25 : ℝ) = 1 / 4 by norm_num, ← mul_min_of_nonneg _ _ (by norm_num)]
      ring
    unfold tofDerivative
    simp only []
    rw [e, if_neg (not_le.2 hh0), hF _ (hsub _ ⟨by linarith, le_rfl⟩), ok_bind, hF _ (hsub _ ⟨le_rfl, by linarith⟩), ok_bind,
      pdiv_eq (by positivity)]
  · obtain ⟨t, ht, e⟩ := exists_hasDerivAt_eq_slope g g' (by linarith : z - h < z + h)
      (fun t ht => (hd t (hsub t ht)).continuousAt.continuousWithinAt) (fun t ht => hd t (hsub t ⟨ht.1.le, ht.2.le⟩))
    exact ⟨t, ht, by rw [e]; congr 1; ring⟩

/-- The hypotheses on `F` hold for the time equation of the code on the elliptic range. -/
theorem delatorre_time_differentiable {P A mu : ℝ} {M : ℤ} (hmu : 0 < mu) (hP : |Real.sqrt 2 * A| < P) {g : ℝ → ℝ}
    (hg : ∀ t ∈ Ioo 0 (Real.pi ^ 2), tofEquation P (Real.sqrt 2 * A) mu t M = .ok (g t)) :
    ∀ t ∈ Ioo 0 (Real.pi ^ 2), HasDerivAt g (deriv g t) t := by
  intro z hz
  have hc : DifferentiableAt ℝ (fun z => tE P (Real.sqrt 2 * A) (Real.sqrt z) / (Real.sqrt 2 * Real.sqrt mu) +
      (if M = 0 then 0 else M * Real.pi * Real.sqrt ((P - Real.sqrt 2 * A * Real.cos (Real.sqrt z)) ^ 3 / (2 * mu * z ^ 3)) /
        (Real.sin (Real.sqrt z) / Real.sqrt z) ^ 3)) z := by
    have hz0 := hz.1
    have hsz := Real.sqrt_pos.2 hz0
    have hsin : 0 < Real.sin (Real.sqrt z) := Real.sin_pos_of_pos_of_lt_pi hsz ((Real.sqrt_lt' Real.pi_pos).2 hz.2)
    have hV := V_pos_ell hP (Real.sqrt z)
    have ds : DifferentiableAt ℝ Real.sqrt z := (Real.hasDerivAt_sqrt hz0.ne').differentiableAt
    have dsin : DifferentiableAt ℝ (fun z => Real.sin (Real.sqrt z)) z := Real.differentiable_sin.differentiableAt.comp z ds
    have dsin2 : DifferentiableAt ℝ (fun z => Real.sin (2 * Real.sqrt z)) z :=
      Real.differentiable_sin.differentiableAt.comp z (ds.const_mul 2)
    have dV : DifferentiableAt ℝ (fun z => P - Real.sqrt 2 * A * Real.cos (Real.sqrt z)) z :=
      ((Real.differentiable_cos.differentiableAt.comp z ds).const_mul _).const_sub _
    refine DifferentiableAt.add ?_ ?_
    · unfold tE
      refine DifferentiableAt.div_const (DifferentiableAt.mul (dV.sqrt hV.ne') ?_) _
      refine DifferentiableAt.add_const _ (DifferentiableAt.div (dV.mul ((ds.const_mul 2).sub dsin2)) ((dsin.pow 3).const_mul 2) ?_)
      exact mul_ne_zero two_ne_zero (pow_pos hsin 3).ne'
    · split
      · exact differentiableAt_const _
      · refine DifferentiableAt.div (DifferentiableAt.const_mul (DifferentiableAt.sqrt ?_ ?_) _) ?_ (by positivity)
        · exact DifferentiableAt.div (dV.pow 3) (by fun_prop) (by positivity)
        · exact (div_pos (pow_pos hV 3) (by positivity)).ne'
        · exact (dsin.div ds hsz.ne').pow 3
  refine DifferentiableAt.hasDerivAt (hc.congr_of_eventuallyEq ?_)
  filter_upwards [Ioo_mem_nhds hz.1 hz.2] with t ht
  have ht0 := ht.1
  have hst := Real.sqrt_pos.2 ht0
  have hp : Real.sqrt t < Real.pi := (Real.sqrt_lt' Real.pi_pos).2 ht.2
  have e : t = Real.sqrt t ^ 2 := (Real.sq_sqrt ht0.le).symm
  have e1 : VofZ P (Real.sqrt 2 * A) t = P - Real.sqrt 2 * A * Real.cos (Real.sqrt t) := by
    conv_lhs => rw [e, VofZ_sq]
  have e2 : stumpffSeries 1 t = Real.sin (Real.sqrt t) / Real.sqrt t := by
    conv_lhs => rw [e, series1_sq hst.ne']
  rw [(tofEquation_ok hmu (hg t ht)).2.2, (T0_uvT hmu ht.2 (VofZ_pos hP ht0).le).2, ← uvT_ell hmu hP hst hp,
    mul_div_cancel_left₀ _ (kappa_pos hmu).ne', show (2 * Real.sqrt t) ^ 2 = 4 * t by rw [mul_pow, Real.sq_sqrt ht0.le]; norm_num]
  congr 1
  split
  · rfl
  · unfold T1; rw [e1, e2]

/-- Concrete case: the time function of the quarter turn with one revolution, on the bracket
`(1, 4)` at `z = 2`. -/
example : ∃ d, tofDerivative (fun z => tofEquation (1 * (1 + (1 / 2) ^ 2)) (Real.sqrt 2 * (Real.sqrt 2 * 1 * (1 / 2))) 1 z (1 : ℕ)) 2 1 4 =
    .ok d := by
  have hpi := Real.pi_gt_three
  obtain ⟨X, hX, -, -⟩ := param (mu := 1) (s := 1) (lam := 1 / 2) (M := 1) one_pos one_pos (by norm_num) (by norm_num) le_rfl
  have hb := lam_bound (s := 1) (lam := 1 / 2) one_pos (by norm_num)
  have hd := delatorre_time_differentiable (M := (1 : ℕ)) one_pos hb (fun t ht => (hX t ht).2.2)
  have hin : ∀ t ∈ Ioo (1 : ℝ) 4, t ∈ Ioo 0 (Real.pi ^ 2) := fun t ht => ⟨by linarith [ht.1], by nlinarith [ht.2]⟩
  obtain ⟨h, -, -, e, -⟩ := delatorre_difference (z := 2) (by norm_num) (fun t ht => (hX t (hin t ht)).2.2) (fun t ht => hd t (hin t ht))
  exact ⟨_, e⟩

end Lamberthub
