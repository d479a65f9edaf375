import Verif.Proofs.StumpffLemmas
import Mathlib.Analysis.SpecificLimits.Normed
import Mathlib.Topology.Algebra.InfiniteSum.NatInt
import Mathlib.Analysis.Normed.Group.FunctionSeries

/-! # Continuity and truncation of the Stumpff series -/

set_option autoImplicit false

namespace Lamberthub

theorem stumpffTerm_bound {j : ℕ} {psi R : ℝ} (h : |psi| ≤ R) (k : ℕ) :
    ‖stumpffTerm j psi k‖ ≤ R ^ k / (k.factorial : ℝ) := by
  unfold stumpffTerm
  rw [norm_div, norm_pow, norm_neg, Real.norm_eq_abs, Real.norm_natCast]
  have h0 := abs_nonneg psi
  have h1 : (k.factorial : ℝ) ≤ ((2 * k + j).factorial : ℝ) := by
    exact_mod_cast Nat.factorial_le (by omega)
  have h2 : (0 : ℝ) < k.factorial := by exact_mod_cast Nat.factorial_pos k
  have h3 : 0 ≤ R := le_trans h0 h
  have h4 : 0 ≤ R ^ k := pow_nonneg h3 k
  gcongr

theorem summable_stumpffTerm (j : ℕ) (psi : ℝ) : Summable (stumpffTerm j psi) :=
  Summable.of_norm_bounded (Real.summable_pow_div_factorial |psi|)
    (fun k => stumpffTerm_bound le_rfl k)

theorem stumpffSeries_continuous (j : ℕ) : Continuous (stumpffSeries j) := by
  rw [continuous_iff_continuousAt]
  intro x
  have hc : ContinuousOn (stumpffSeries j) (Metric.closedBall 0 (|x| + 1)) := by
    have hf : ∀ k, ContinuousOn (fun y => stumpffTerm j y k) (Metric.closedBall 0 (|x| + 1)) := by
      intro k
      have : Continuous fun y : ℝ => (-y) ^ k / ((2 * k + j).factorial : ℝ) :=
        (continuous_neg.pow k).div_const _
      exact this.continuousOn
    have hb : ∀ (k : ℕ) (y : ℝ), y ∈ Metric.closedBall (0 : ℝ) (|x| + 1) →
        ‖stumpffTerm j y k‖ ≤ (|x| + 1) ^ k / (k.factorial : ℝ) := by
      intro k y hy
      rw [mem_closedBall_zero_iff, Real.norm_eq_abs] at hy
      exact stumpffTerm_bound hy k
    exact continuousOn_tsum hf (Real.summable_pow_div_factorial _) hb
  refine hc.continuousAt (Metric.closedBall_mem_nhds_of_mem ?_)
  simp

/-- Error made by stopping the accumulation after `n` passes. -/
theorem stumpff_truncation {j : ℕ} {psi : ℝ} (h : |psi| ≤ 1) (n : ℕ) :
    |stumpffSeries j psi - stumpffPartial j psi n| ≤ 2 * |stumpffTerm j psi (n + 1)| := by
  have hp : ∀ n, stumpffPartial j psi n = ∑ k ∈ Finset.range (n + 1), stumpffTerm j psi k := by
    intro n
    induction n with
    | zero => simp [stumpffPartial]
    | succ n ih => rw [stumpffPartial, ih, ← Finset.sum_range_succ]
  have hs := summable_stumpffTerm j psi
  have h1 := hs.sum_add_tsum_nat_add (n + 1)
  have h2 : stumpffSeries j psi - stumpffPartial j psi n = ∑' k, stumpffTerm j psi (k + (n + 1)) := by
    rw [hp, stumpffSeries, ← h1]; ring
  rw [h2]
  have hstep : ∀ m, |stumpffTerm j psi (m + 1)| ≤ |stumpffTerm j psi m| * (1 / 2) := by
    intro m
    unfold stumpffTerm
    rw [abs_div, abs_div, abs_pow, abs_pow, abs_neg, Nat.abs_cast, Nat.abs_cast]
    have hf : ((2 * (m + 1) + j).factorial : ℝ) =
        ((2 * m + j + 2 : ℕ) : ℝ) * (((2 * m + j + 1 : ℕ) : ℝ) * ((2 * m + j).factorial : ℝ)) := by
      rw [show 2 * (m + 1) + j = (2 * m + j + 1) + 1 by ring, Nat.factorial_succ, Nat.factorial_succ]
      push_cast; ring
    rw [hf]
    have hF : (0 : ℝ) < ((2 * m + j).factorial : ℝ) := by exact_mod_cast Nat.factorial_pos _
    have ha : (2 : ℝ) ≤ ((2 * m + j + 2 : ℕ) : ℝ) := by exact_mod_cast (by omega)
    have hb : (1 : ℝ) ≤ ((2 * m + j + 1 : ℕ) : ℝ) := by exact_mod_cast (by omega)
    generalize ((2 * m + j + 2 : ℕ) : ℝ) = a at *
    generalize ((2 * m + j + 1 : ℕ) : ℝ) = b at *
    generalize ((2 * m + j).factorial : ℝ) = F at *
    have hx : 0 ≤ |psi| ^ m := by positivity
    rw [pow_succ, div_mul_eq_mul_div, div_le_div_iff₀ (by positivity) hF]
    have h5 : |psi| ^ m * |psi| ≤ |psi| ^ m := mul_le_of_le_one_right hx h
    have h6 : 1 ≤ 1 / 2 * (a * b) := by nlinarith
    calc |psi| ^ m * |psi| * F ≤ |psi| ^ m * F := by gcongr
      _ = |psi| ^ m * F * 1 := by ring
      _ ≤ |psi| ^ m * F * (1 / 2 * (a * b)) := by gcongr
      _ = _ := by ring
  have hgeo : ∀ k, |stumpffTerm j psi (k + (n + 1))| ≤ |stumpffTerm j psi (n + 1)| * (1 / 2) ^ k := by
    intro k
    induction k with
    | zero => simp
    | succ k ih =>
      rw [show k + 1 + (n + 1) = k + (n + 1) + 1 by ring]
      calc _ ≤ _ := hstep _
        _ ≤ |stumpffTerm j psi (n + 1)| * (1 / 2) ^ k * (1 / 2) := by gcongr
        _ = _ := by ring
  have hgs : HasSum (fun k => |stumpffTerm j psi (n + 1)| * (1 / 2 : ℝ) ^ k)
      (|stumpffTerm j psi (n + 1)| * 2) := by
    have := (hasSum_geometric_of_lt_one (r := (1 / 2 : ℝ)) (by norm_num) (by norm_num)).mul_left
      (|stumpffTerm j psi (n + 1)|)
    rwa [show (1 - 1 / 2 : ℝ)⁻¹ = 2 by norm_num] at this
  have := tsum_of_norm_bounded hgs (f := fun k => stumpffTerm j psi (k + (n + 1))) (fun k => hgeo k)
  rw [Real.norm_eq_abs] at this
  linarith

end Lamberthub
