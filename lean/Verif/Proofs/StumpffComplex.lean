import Verif.Proofs.NegreteLemmas
import Mathlib.Analysis.Complex.LocallyUniformLimit
import Mathlib.Analysis.SpecialFunctions.Trigonometric.Series

/-! # The Stumpff functions of a complex argument -/

set_option autoImplicit false

namespace Lamberthub
namespace Negrete
open McElreath

/-- Stumpff's series of order `j`. -/
noncomputable def S (j : ℕ) (z : ℂ) : ℂ := ∑' k : ℕ, (-z) ^ k / ((2 * k + j).factorial : ℂ)

theorem S_term_le (j : ℕ) {z : ℂ} {r : ℝ} (hz : ‖z‖ ≤ r) (k : ℕ) :
    ‖(-z) ^ k / ((2 * k + j).factorial : ℂ)‖ ≤ r ^ k / (k.factorial : ℝ) := by
  rw [norm_div, norm_pow, norm_neg, Complex.norm_natCast]
  have h1 : (k.factorial : ℝ) ≤ ((2 * k + j).factorial : ℝ) := by exact_mod_cast Nat.factorial_le (by omega)
  have h0 : (0 : ℝ) < (k.factorial : ℝ) := by exact_mod_cast Nat.factorial_pos k
  have h2 : ‖z‖ ^ k ≤ r ^ k := pow_le_pow_left₀ (norm_nonneg z) hz k
  exact div_le_div₀ (le_trans (by positivity) h2) h2 h0 h1

theorem S_summable (j : ℕ) (z : ℂ) : Summable fun k : ℕ => (-z) ^ k / ((2 * k + j).factorial : ℂ) :=
  Summable.of_norm_bounded (Real.summable_pow_div_factorial ‖z‖) fun k => S_term_le j le_rfl k

theorem S_succ (j : ℕ) (z : ℂ) : S j z = 1 / (j.factorial : ℂ) - z * S (j + 2) z := by
  have h := (S_summable j z).tsum_eq_zero_add
  unfold S
  rw [h, ← tsum_mul_left, sub_eq_add_neg, ← tsum_neg]
  congr 1
  · simp
  · refine tsum_congr fun k => ?_
    rw [show 2 * (k + 1) + j = 2 * k + (j + 2) by ring]
    ring

theorem S_differentiableOn (j : ℕ) (r : ℝ) : DifferentiableOn ℂ (S j) (Metric.ball 0 r) := by
  refine Complex.differentiableOn_tsum_of_summable_norm (u := fun k => r ^ k / (k.factorial : ℝ))
    (Real.summable_pow_div_factorial r) (fun k => by fun_prop) Metric.isOpen_ball fun k w hw => ?_
  exact S_term_le j (mem_ball_zero_iff.1 hw).le k

theorem factorial_ge {j : ℕ} (hj : 8 ≤ j) : ∀ k : ℕ, j.factorial * 90 ^ k ≤ (2 * k + j).factorial
  | 0 => by simp
  | k + 1 => by
    have ih := factorial_ge hj k
    rw [show 2 * (k + 1) + j = (2 * k + j + 1) + 1 by ring, Nat.factorial_succ, Nat.factorial_succ, pow_succ]
    have : 90 ≤ (2 * k + j + 1 + 1) * (2 * k + j + 1) := by
      calc 90 = 10 * 9 := by norm_num
        _ ≤ _ := Nat.mul_le_mul (by omega) (by omega)
    calc j.factorial * (90 ^ k * 90) = 90 * (j.factorial * 90 ^ k) := by ring
      _ ≤ (2 * k + j + 1 + 1) * (2 * k + j + 1) * (2 * k + j).factorial := Nat.mul_le_mul this ih
      _ = _ := by ring

theorem S_bound {j : ℕ} (hj : 8 ≤ j) {z : ℂ} (hz : ‖z‖ ≤ 2) : ‖S j z‖ ≤ 45 / 44 / (j.factorial : ℝ) := by
  have hj0 : (0 : ℝ) < (j.factorial : ℝ) := by exact_mod_cast Nat.factorial_pos j
  have hg : HasSum (fun k : ℕ => (2 / 90 : ℝ) ^ k / (j.factorial : ℝ)) (45 / 44 / (j.factorial : ℝ)) := by
    have := (hasSum_geometric_of_lt_one (r := (2 / 90 : ℝ)) (by norm_num) (by norm_num)).div_const (j.factorial : ℝ)
    rwa [show (1 - 2 / 90 : ℝ)⁻¹ = 45 / 44 by norm_num] at this
  refine tsum_of_norm_bounded hg fun k => ?_
  rw [norm_div, norm_pow, norm_neg, Complex.norm_natCast, div_pow, div_div]
  have h1 : (90 : ℝ) ^ k * (j.factorial : ℝ) ≤ ((2 * k + j).factorial : ℝ) := by
    rw [mul_comm]; exact_mod_cast factorial_ge hj k
  exact div_le_div₀ (by positivity) (pow_le_pow_left₀ (norm_nonneg z) hz k) (by positivity) h1

theorem csqrt_pow (z : ℂ) : csqrt z ^ 2 = z := by
  unfold csqrt
  rw [← Complex.cpow_nat_mul]; norm_num

theorem cos_csqrt (z : ℂ) : Complex.cos (csqrt z) = S 0 z := by
  have h := Complex.hasSum_cos (csqrt z)
  unfold S
  rw [← h.tsum_eq]
  refine tsum_congr fun k => ?_
  rw [pow_mul, csqrt_pow, ← mul_pow, Nat.add_zero]
  congr 2; ring

theorem sin_csqrt (z : ℂ) : Complex.sin (csqrt z) = csqrt z * S 1 z := by
  have h := Complex.hasSum_sin (csqrt z)
  unfold S
  rw [← h.tsum_eq, ← tsum_mul_left]
  refine tsum_congr fun k => ?_
  rw [pow_succ, pow_mul, csqrt_pow, show (-z) ^ k = (-1) ^ k * z ^ k by rw [← mul_pow]; congr 1; ring]
  ring

theorem c2_S {z : ℂ} (hz : 1e-8 ≤ ‖z‖) : c2 z = .ok (S 2 z) := by
  have h0 : z ≠ 0 := by rintro rfl; rw [norm_zero] at hz; norm_num at hz
  unfold c2
  rw [if_neg (not_lt.2 hz), cdiv_eq h0, cos_csqrt, S_succ 0]
  congr 1
  rw [div_eq_iff h0]
  simp
  ring

theorem c3_S {z : ℂ} (hz : 1e-8 ≤ ‖z‖) : c3 z = .ok (S 3 z) := by
  have h0 : z ≠ 0 := by rintro rfl; rw [norm_zero] at hz; norm_num at hz
  have h1 : csqrt z ≠ 0 := fun h => h0 (by rw [← csqrt_pow z, h]; ring)
  unfold c3
  rw [if_neg (not_lt.2 hz), cdiv_eq (mul_ne_zero h0 h1), sin_csqrt, S_succ 1]
  congr 1
  rw [div_eq_iff (mul_ne_zero h0 h1)]
  simp
  ring

end Negrete
end Lamberthub
