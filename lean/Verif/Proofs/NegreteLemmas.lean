import Verif.Model.Negrete
import Verif.Proofs.McElreathLemmas
import Verif.Proofs.Path

/-! # The complex Stumpff functions of the Negrete solver at real arguments -/

set_option autoImplicit false

namespace Lamberthub
namespace Negrete
open McElreath LC

theorem csqrt_sq {t : ℝ} (ht : 0 < t) : csqrt ((t ^ 2 : ℝ) : ℂ) = (t : ℂ) := by
  rw [csqrt_ofReal (by positivity), Real.sqrt_sq ht.le]

theorem csqrt_neg_sq {t : ℝ} (ht : 0 < t) : csqrt ((-t ^ 2 : ℝ) : ℂ) = Complex.I * t := by
  have hpi := Real.pi_pos
  have harg : (Complex.I * (t : ℂ)).arg = Real.pi / 2 := by
    rw [mul_comm, Complex.arg_real_mul _ ht, Complex.arg_I]
  have h := Complex.pow_cpow_nat_inv (x := Complex.I * t) (n := 2) (by norm_num)
    (by rw [harg]; push_cast; linarith) (by rw [harg]; push_cast; linarith)
  unfold csqrt
  rw [← h, mul_pow, Complex.I_sq]
  push_cast
  norm_num

theorem norm_real (z : ℝ) : ‖(z : ℂ)‖ = |z| := by rw [Complex.norm_real, Real.norm_eq_abs]

theorem c2_large {z : ℝ} (hz : 1e-8 ≤ |z|) : c2 (z : ℂ) = .ok ((stumpffSeries 2 z : ℝ) : ℂ) := by
  unfold c2
  rw [norm_real, if_neg (not_lt.2 hz)]
  have hz0 : z ≠ 0 := by rintro rfl; norm_num at hz
  rw [cdiv_eq (by exact_mod_cast hz0)]
  congr 1
  rcases lt_or_gt_of_ne hz0 with h | h
  · obtain ⟨φ, hφ, rfl⟩ := half_sqrt_neg h
    rw [csqrt_neg_sq (by positivity), mul_comm Complex.I, Complex.cos_mul_I, series2_neg_sq (by positivity)]
    push_cast
    rw [div_neg, ← neg_div]
    ring
  · obtain ⟨φ, hφ, rfl⟩ := half_sqrt h
    rw [csqrt_sq (by positivity), series2_sq (by positivity)]
    push_cast
    rfl

theorem c3_large {z : ℝ} (hz : 1e-8 ≤ |z|) : c3 (z : ℂ) = .ok ((stumpffSeries 3 z : ℝ) : ℂ) := by
  unfold c3
  rw [norm_real, if_neg (not_lt.2 hz)]
  have hz0 : z ≠ 0 := by rintro rfl; norm_num at hz
  have hzc : (z : ℂ) ≠ 0 := by exact_mod_cast hz0
  rcases lt_or_gt_of_ne hz0 with h | h
  · obtain ⟨φ, hφ, rfl⟩ := half_sqrt_neg h
    have hφc : ((2 * φ : ℝ) : ℂ) ≠ 0 := by
      have : 2 * φ ≠ 0 := by positivity
      exact_mod_cast this
    rw [csqrt_neg_sq (by positivity), cdiv_eq (mul_ne_zero hzc (mul_ne_zero Complex.I_ne_zero hφc)),
      mul_comm Complex.I, Complex.sin_mul_I, series3_neg_sq (by positivity)]
    congr 1
    rw [Complex.ofReal_div, Complex.ofReal_sub, Complex.ofReal_pow, Complex.ofReal_neg, Complex.ofReal_pow,
      Complex.ofReal_sinh]
    have hI := Complex.I_ne_zero
    field_simp
    ring
  · obtain ⟨φ, hφ, rfl⟩ := half_sqrt h
    have hφc : ((2 * φ : ℝ) : ℂ) ≠ 0 := by
      have : 2 * φ ≠ 0 := by positivity
      exact_mod_cast this
    rw [csqrt_sq (by positivity), cdiv_eq (mul_ne_zero hzc hφc), series3_sq (by positivity)]
    congr 1
    rw [Complex.ofReal_div, Complex.ofReal_sub, Complex.ofReal_pow, Complex.ofReal_pow, Complex.ofReal_sin, ← pow_succ]

theorem seriesLoop_real (j : ℕ) (z : ℝ) : ∀ n k : ℕ,
    seriesLoop j (-(z : ℂ)) n (k + 1) ((-(z : ℂ)) ^ k) ((stumpffPartial j z k : ℝ) : ℂ) =
      ((stumpffPartial j z (k + n) : ℝ) : ℂ)
  | 0, k => rfl
  | n + 1, k => by
    rw [seriesLoop, ← pow_succ]
    have e : ((stumpffPartial j z k : ℝ) : ℂ) + (-(z : ℂ)) ^ (k + 1) * (1 / ((2 * (k + 1) + j).factorial : ℂ)) =
        ((stumpffPartial j z (k + 1) : ℝ) : ℂ) := by
      rw [stumpffPartial, stumpffTerm]; push_cast; ring
    rw [e, seriesLoop_real j z n (k + 1), show k + 1 + n = k + (n + 1) by omega]

theorem stumpffSeriesC_real (j : ℕ) (z : ℝ) : stumpffSeriesC (z : ℂ) j = ((stumpffPartial j z 19 : ℝ) : ℂ) := by
  have := seriesLoop_real j z 19 0
  rw [pow_zero, zero_add, zero_add] at this
  rw [← this]
  unfold stumpffSeriesC
  congr 1
  simp [stumpffPartial, stumpffTerm]

theorem partial_bound (j : ℕ) {z : ℝ} (hz : |z| ≤ 1) : ∀ n : ℕ, |stumpffPartial j z n - 1 / (j.factorial : ℝ)| ≤ n * |z|
  | 0 => by simp [stumpffPartial, stumpffTerm]
  | n + 1 => by
    have ih := partial_bound j hz n
    have ht : |stumpffTerm j z (n + 1)| ≤ |z| := by
      unfold stumpffTerm
      rw [abs_div, abs_pow, abs_neg, pow_succ]
      have h1 : (1 : ℝ) ≤ ((2 * (n + 1) + j).factorial : ℝ) := by
        exact_mod_cast Nat.factorial_pos _
      rw [abs_of_pos (by linarith : (0 : ℝ) < ((2 * (n + 1) + j).factorial : ℝ))]
      calc |z| ^ n * |z| / ((2 * (n + 1) + j).factorial : ℝ) ≤ |z| ^ n * |z| / 1 := by gcongr
        _ ≤ 1 * |z| := by
          rw [div_one]; exact mul_le_mul_of_nonneg_right (pow_le_one₀ (abs_nonneg _) hz) (abs_nonneg _)
        _ = |z| := one_mul _
    rw [stumpffPartial]
    calc |stumpffPartial j z n + stumpffTerm j z (n + 1) - 1 / (j.factorial : ℝ)|
        = |(stumpffPartial j z n - 1 / (j.factorial : ℝ)) + stumpffTerm j z (n + 1)| := by congr 1; ring
      _ ≤ _ := abs_add_le _ _
      _ ≤ n * |z| + |z| := add_le_add ih ht
      _ = _ := by push_cast; ring

/-- `y` at a real argument away from zero. -/
theorem yAtZ_large {z R1 R2 A : ℝ} (hz : 1e-8 ≤ |z|) {y : ℂ} (h : yAtZ z R1 R2 A = .ok y) :
    0 < stumpffSeries 2 z ∧ y = ((uvY (R1 + R2) A z : ℝ) : ℂ) := by
  have h2 := series2_nonneg z
  unfold yAtZ at h
  rw [c3_large hz, ok_bind, c2_large hz, ok_bind, csqrt_ofReal h2, bind_ok] at h
  obtain ⟨q, hq, h⟩ := h
  obtain ⟨hne, rfl⟩ := cdiv_ok.1 hq
  have hp : 0 < stumpffSeries 2 z := by
    rcases h2.lt_or_eq with h | h
    · exact h
    · exact absurd (by rw [← h, Real.sqrt_zero, Complex.ofReal_zero]) hne
  refine ⟨hp, ?_⟩
  rw [← Except.ok.inj h]
  unfold uvY
  push_cast
  rfl

theorem yAtZ_large_eq {z R1 R2 A : ℝ} (hz : 1e-8 ≤ |z|) (h2 : 0 < stumpffSeries 2 z) :
    yAtZ z R1 R2 A = .ok ((uvY (R1 + R2) A z : ℝ) : ℂ) := by
  have hne : ((Real.sqrt (stumpffSeries 2 z) : ℝ) : ℂ) ≠ 0 := by exact_mod_cast (Real.sqrt_pos.2 h2).ne'
  unfold yAtZ
  rw [c3_large hz, ok_bind, c2_large hz, ok_bind, csqrt_ofReal h2.le, cdiv_eq hne, ok_bind]
  unfold uvY
  push_cast
  rfl

/-- `y` at a real argument close to zero: `y = P - √2 A c` with `c > 0`. -/
theorem yAtZ_small {z R1 R2 A : ℝ} (hz : |z| < 1e-8) :
    ∃ c, 0 < c ∧ yAtZ z R1 R2 A = .ok ((R1 + R2 - Real.sqrt 2 * A * c : ℝ) : ℂ) := by
  norm_num at hz
  have b2 := abs_le.1 (partial_bound 2 (by linarith : |z| ≤ 1) 19)
  have b3 := abs_le.1 (partial_bound 3 (by linarith : |z| ≤ 1) 19)
  norm_num [Nat.factorial] at b2 b3
  have p2 : 0 < stumpffPartial 2 z 19 := by linarith [b2.1]
  have p3 : |stumpffPartial 3 z 19| ≤ 1 := by rw [abs_le]; constructor <;> linarith [b3.1, b3.2]
  have hq : z * stumpffPartial 3 z 19 < 1 := by
    have := le_abs_self (z * stumpffPartial 3 z 19)
    rw [abs_mul] at this
    nlinarith [abs_nonneg z, abs_nonneg (stumpffPartial 3 z 19)]
  have hs2 := Real.sqrt_pos.2 p2
  have hr2 : 0 < Real.sqrt 2 := by positivity
  refine ⟨(1 - z * stumpffPartial 3 z 19) / (Real.sqrt (stumpffPartial 2 z 19) * Real.sqrt 2),
    div_pos (by linarith) (by positivity), ?_⟩
  have hlt : ‖(z : ℂ)‖ < 1e-8 := by rw [norm_real]; norm_num; exact hz
  have hne : ((Real.sqrt (stumpffPartial 2 z 19) : ℝ) : ℂ) ≠ 0 := by exact_mod_cast hs2.ne'
  unfold yAtZ c3 c2
  rw [if_pos hlt, if_pos hlt, ok_bind, ok_bind, stumpffSeriesC_real, stumpffSeriesC_real, csqrt_ofReal p2.le,
    cdiv_eq hne, ok_bind]
  congr 1
  have e : R1 + R2 - Real.sqrt 2 * A * ((1 - z * stumpffPartial 3 z 19) /
      (Real.sqrt (stumpffPartial 2 z 19) * Real.sqrt 2)) =
      R1 + R2 + A * (z * stumpffPartial 3 z 19 - 1) / Real.sqrt (stumpffPartial 2 z 19) := by
    field_simp
    ring
  rw [e]
  push_cast
  rfl

/-- `y` at zero. -/
theorem at_zero : (c2 ((0 : ℝ) : ℂ) = .ok ((1 / 2 : ℝ) : ℂ)) ∧ (c3 ((0 : ℝ) : ℂ) = .ok ((1 / 6 : ℝ) : ℂ)) := by
  have h : ∀ j, ∀ n, stumpffPartial j 0 n = 1 / (j.factorial : ℝ) := by
    intro j n
    have := partial_bound j (z := 0) (by simp) n
    rw [abs_zero, mul_zero] at this
    linarith [abs_nonpos_iff.1 this]
  have hlt : ‖((0 : ℝ) : ℂ)‖ < 1e-8 := by simp; norm_num
  unfold c2 c3
  rw [if_pos hlt, if_pos hlt, stumpffSeriesC_real, stumpffSeriesC_real, h, h]
  norm_num [Nat.factorial]

theorem yAtZ_zero {R1 R2 A : ℝ} : yAtZ ((0 : ℝ) : ℂ) R1 R2 A = .ok ((uvY (R1 + R2) A 0 : ℝ) : ℂ) := by
  have h2 : ((Real.sqrt (1 / 2) : ℝ) : ℂ) ≠ 0 := by
    have : Real.sqrt (1 / 2) ≠ 0 := by positivity
    exact_mod_cast this
  unfold yAtZ
  rw [at_zero.1, at_zero.2, ok_bind, ok_bind, csqrt_ofReal (by norm_num), cdiv_eq h2, ok_bind]
  unfold uvY
  rw [series2_zero, series3_zero]
  push_cast
  rfl

theorem tofAtZ_zero {mu R1 R2 A : ℝ} (hmu : 0 < mu) (hy : 0 ≤ uvY (R1 + R2) A 0) :
    tofAtZ 0 mu R1 R2 A = .ok (uvT mu (R1 + R2) A 0) := by
  unfold tofAtZ
  rw [yAtZ_zero, ok_bind, at_zero.1, ok_bind, cdiv_eq (by norm_num), ok_bind, at_zero.2, ok_bind,
    psqrt_eq hmu.le, ok_bind, cdiv_eq (by exact_mod_cast (Real.sqrt_pos.2 hmu).ne'), ok_bind,
    ← Complex.ofReal_div, csqrt_ofReal (by positivity), csqrt_ofReal hy]
  congr 1
  unfold uvT
  rw [series2_zero, series3_zero, ← Complex.ofReal_re
    ((Real.sqrt (uvY (R1 + R2) A 0 / (1 / 2)) ^ 3 * (1 / 6) + A * Real.sqrt (uvY (R1 + R2) A 0)) / Real.sqrt mu)]
  push_cast
  rfl

end Negrete
end Lamberthub
