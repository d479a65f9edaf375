import Verif.Model.Stumpff
import Verif.Proofs.PyLemmas
import Mathlib.Analysis.SpecialFunctions.Trigonometric.Series
import Mathlib.Analysis.SpecialFunctions.Trigonometric.DerivHyp
import Mathlib.Analysis.SpecialFunctions.Trigonometric.Bounds

/-! # Lemmas about the Stumpff functions -/

set_option autoImplicit false

namespace Lamberthub

theorem hasSum_cos2 {x : ℝ} (hx : x ≠ 0) :
    HasSum (stumpffTerm 2 (x ^ 2)) ((1 - Real.cos x) / x ^ 2) := by
  have h := Real.hasSum_cos x
  rw [← hasSum_nat_add_iff' 1] at h
  have h2 := h.mul_left (-(x ^ 2)⁻¹)
  have e1 : stumpffTerm 2 (x ^ 2) =
      fun n => -(x ^ 2)⁻¹ * ((-1) ^ (n + 1) * x ^ (2 * (n + 1)) / ((2 * (n + 1)).factorial : ℝ)) := by
    funext n
    unfold stumpffTerm
    rw [show 2 * (n + 1) = 2 * n + 2 by ring, neg_pow, pow_add x, pow_mul x, pow_add (-1 : ℝ)]
    field_simp
  have e2 : (1 - Real.cos x) / x ^ 2 = -(x ^ 2)⁻¹ * (Real.cos x - ∑ i ∈ Finset.range 1,
      (-1) ^ i * x ^ (2 * i) / ((2 * i).factorial : ℝ)) := by
    simp; field_simp; ring
  rw [e1, e2]; exact h2

theorem hasSum_cosh2 {x : ℝ} (hx : x ≠ 0) :
    HasSum (stumpffTerm 2 (-x ^ 2)) ((Real.cosh x - 1) / x ^ 2) := by
  have h := Real.hasSum_cosh x
  rw [← hasSum_nat_add_iff' 1] at h
  have h2 := h.mul_left ((x ^ 2)⁻¹)
  have e1 : stumpffTerm 2 (-x ^ 2) =
      fun n => (x ^ 2)⁻¹ * (x ^ (2 * (n + 1)) / ((2 * (n + 1)).factorial : ℝ)) := by
    funext n
    unfold stumpffTerm
    rw [show 2 * (n + 1) = 2 * n + 2 by ring, neg_neg, pow_add x, pow_mul x]
    field_simp
  have e2 : (Real.cosh x - 1) / x ^ 2 = (x ^ 2)⁻¹ * (Real.cosh x - ∑ i ∈ Finset.range 1,
      x ^ (2 * i) / ((2 * i).factorial : ℝ)) := by
    simp; field_simp
  rw [e1, e2]; exact h2

theorem hasSum_sin3 {x : ℝ} (hx : x ≠ 0) :
    HasSum (stumpffTerm 3 (x ^ 2)) ((x - Real.sin x) / x ^ 3) := by
  have h := Real.hasSum_sin x
  rw [← hasSum_nat_add_iff' 1] at h
  have h2 := h.mul_left (-(x ^ 3)⁻¹)
  have e1 : stumpffTerm 3 (x ^ 2) =
      fun n => -(x ^ 3)⁻¹ * ((-1) ^ (n + 1) * x ^ (2 * (n + 1) + 1) /
        ((2 * (n + 1) + 1).factorial : ℝ)) := by
    funext n
    unfold stumpffTerm
    rw [show 2 * (n + 1) + 1 = 2 * n + 3 by ring, neg_pow, pow_add x, pow_mul x, pow_add (-1 : ℝ)]
    field_simp
  have e2 : (x - Real.sin x) / x ^ 3 = -(x ^ 3)⁻¹ * (Real.sin x - ∑ i ∈ Finset.range 1,
      (-1) ^ i * x ^ (2 * i + 1) / ((2 * i + 1).factorial : ℝ)) := by
    simp; field_simp; ring
  rw [e1, e2]; exact h2

theorem hasSum_sinh3 {x : ℝ} (hx : x ≠ 0) :
    HasSum (stumpffTerm 3 (-x ^ 2)) ((Real.sinh x - x) / x ^ 3) := by
  have h := Real.hasSum_sinh x
  rw [← hasSum_nat_add_iff' 1] at h
  have h2 := h.mul_left ((x ^ 3)⁻¹)
  have e1 : stumpffTerm 3 (-x ^ 2) =
      fun n => (x ^ 3)⁻¹ * (x ^ (2 * (n + 1) + 1) / ((2 * (n + 1) + 1).factorial : ℝ)) := by
    funext n
    unfold stumpffTerm
    rw [show 2 * (n + 1) + 1 = 2 * n + 3 by ring, neg_neg, pow_add x, pow_mul x]
    field_simp
  have e2 : (Real.sinh x - x) / x ^ 3 = (x ^ 3)⁻¹ * (Real.sinh x - ∑ i ∈ Finset.range 1,
      x ^ (2 * i + 1) / ((2 * i + 1).factorial : ℝ)) := by
    simp; field_simp
  rw [e1, e2]; exact h2

theorem hasSum_zero (j : ℕ) : HasSum (stumpffTerm j 0) (1 / (j.factorial : ℝ)) := by
  have := hasSum_single (f := stumpffTerm j 0) 0 (by
    intro b hb; unfold stumpffTerm; simp [hb])
  simpa [stumpffTerm] using this

/-! ### values of the series -/

theorem series2_sq {x : ℝ} (hx : x ≠ 0) : stumpffSeries 2 (x ^ 2) = (1 - Real.cos x) / x ^ 2 :=
  (hasSum_cos2 hx).tsum_eq
theorem series2_neg_sq {x : ℝ} (hx : x ≠ 0) :
    stumpffSeries 2 (-x ^ 2) = (Real.cosh x - 1) / x ^ 2 := (hasSum_cosh2 hx).tsum_eq
theorem series3_sq {x : ℝ} (hx : x ≠ 0) : stumpffSeries 3 (x ^ 2) = (x - Real.sin x) / x ^ 3 :=
  (hasSum_sin3 hx).tsum_eq
theorem series3_neg_sq {x : ℝ} (hx : x ≠ 0) :
    stumpffSeries 3 (-x ^ 2) = (Real.sinh x - x) / x ^ 3 := (hasSum_sinh3 hx).tsum_eq
theorem series2_zero : stumpffSeries 2 0 = 1 / 2 := by
  have := (hasSum_zero 2).tsum_eq; simpa [stumpffSeries] using this
theorem series3_zero : stumpffSeries 3 0 = 1 / 6 := by
  have := (hasSum_zero 3).tsum_eq
  rw [stumpffSeries, this]; norm_num [Nat.factorial]

/-- Every real is a square, minus a square, or zero. -/
theorem sq_cases (psi : ℝ) :
    (∃ x : ℝ, 0 < x ∧ psi = x ^ 2) ∨ psi = 0 ∨ (∃ x : ℝ, 0 < x ∧ psi = -x ^ 2) := by
  rcases lt_trichotomy psi 0 with h | h | h
  · exact .inr (.inr ⟨Real.sqrt (-psi), Real.sqrt_pos.2 (by linarith), by
      rw [Real.sq_sqrt (by linarith)]; ring⟩)
  · exact .inr (.inl h)
  · exact .inl ⟨Real.sqrt psi, Real.sqrt_pos.2 h, (Real.sq_sqrt h.le).symm⟩

theorem summable_stumpff (psi : ℝ) :
    Summable (stumpffTerm 2 psi) ∧ Summable (stumpffTerm 3 psi) := by
  rcases sq_cases psi with ⟨x, hx, rfl⟩ | rfl | ⟨x, hx, rfl⟩
  · exact ⟨(hasSum_cos2 hx.ne').summable, (hasSum_sin3 hx.ne').summable⟩
  · exact ⟨(hasSum_zero 2).summable, (hasSum_zero 3).summable⟩
  · exact ⟨(hasSum_cosh2 hx.ne').summable, (hasSum_sinh3 hx.ne').summable⟩

theorem c2_eq (psi : ℝ) : c2 psi = .ok (stumpffSeries 2 psi) := by
  unfold c2
  split
  · rename_i h
    have h0 : 0 < psi := by linarith
    have hs := Real.sqrt_pos.2 h0
    rw [psqrt_eq h0.le, ok_bind, pdiv_eq h0.ne']
    congr 1
    conv_rhs => rw [← Real.sq_sqrt h0.le, series2_sq hs.ne', Real.sq_sqrt h0.le]
  · split
    · rename_i h
      have h0 : 0 < -psi := by linarith
      have hs := Real.sqrt_pos.2 h0
      rw [psqrt_eq h0.le, ok_bind, pdiv_eq h0.ne']
      congr 1
      have h1 : psi = -(Real.sqrt (-psi)) ^ 2 := by rw [Real.sq_sqrt h0.le]; ring
      conv_rhs => rw [h1, series2_neg_sq hs.ne', Real.sq_sqrt h0.le]
    · rfl

theorem c3_eq (psi : ℝ) : c3 psi = .ok (stumpffSeries 3 psi) := by
  unfold c3
  split
  · rename_i h
    have h0 : 0 < psi := by linarith
    have hs := Real.sqrt_pos.2 h0
    rw [psqrt_eq h0.le, ok_bind, pdiv_eq (by positivity)]
    congr 1
    conv_rhs => rw [← Real.sq_sqrt h0.le, series3_sq hs.ne']
    rw [pow_succ, Real.sq_sqrt h0.le]
  · split
    · rename_i h
      have h0 : 0 < -psi := by linarith
      have hs := Real.sqrt_pos.2 h0
      rw [psqrt_eq h0.le, ok_bind, pdiv_eq (by positivity)]
      congr 1
      have h1 : psi = -(Real.sqrt (-psi)) ^ 2 := by rw [Real.sq_sqrt h0.le]; ring
      conv_rhs => rw [h1, series3_neg_sq hs.ne', pow_succ, Real.sq_sqrt h0.le]
    · rfl

/-! ### half-angle forms -/

theorem series2_half {φ : ℝ} (h : φ ≠ 0) :
    stumpffSeries 2 ((2 * φ) ^ 2) = Real.sin φ ^ 2 / (2 * φ ^ 2) := by
  rw [series2_sq (by positivity), Real.cos_two_mul, Real.cos_sq']
  field_simp; ring

theorem series2_neg_half {φ : ℝ} (h : φ ≠ 0) :
    stumpffSeries 2 (-(2 * φ) ^ 2) = Real.sinh φ ^ 2 / (2 * φ ^ 2) := by
  rw [series2_neg_sq (by positivity), Real.cosh_two_mul, Real.cosh_sq]
  field_simp; ring

/-! ### signs -/

theorem series2_nonneg (psi : ℝ) : 0 ≤ stumpffSeries 2 psi := by
  rcases sq_cases psi with ⟨x, hx, rfl⟩ | rfl | ⟨x, hx, rfl⟩
  · rw [series2_sq hx.ne']
    have := Real.cos_le_one x
    apply div_nonneg <;> [linarith; positivity]
  · rw [series2_zero]; norm_num
  · rw [series2_neg_sq hx.ne']
    have := Real.one_le_cosh x
    apply div_nonneg <;> [linarith; positivity]

theorem series2_pos_of_lt {psi : ℝ} (h : psi < 4 * Real.pi ^ 2) : 0 < stumpffSeries 2 psi := by
  rcases sq_cases psi with ⟨x, hx, rfl⟩ | rfl | ⟨x, hx, rfl⟩
  · rw [series2_sq hx.ne']
    have hx2 : x < 2 * Real.pi := by
      have hpi := Real.pi_pos
      have : x ^ 2 < (2 * Real.pi) ^ 2 := by linarith
      exact lt_of_pow_lt_pow_left₀ 2 (by positivity) this
    have : Real.cos x < 1 := by
      rcases (Real.cos_le_one x).lt_or_eq with h1 | h1
      · exact h1
      · obtain ⟨k, hk⟩ := (Real.cos_eq_one_iff x).1 h1
        have hpi := Real.pi_pos
        have hk0 : 0 < (k : ℝ) * (2 * Real.pi) := by rw [hk]; exact hx
        have hk1 : (k : ℝ) * (2 * Real.pi) < 1 * (2 * Real.pi) := by rw [hk]; linarith
        have h2 : (0 : ℝ) < k := pos_of_mul_pos_left hk0 (by positivity)
        have h3 : (k : ℝ) < 1 := lt_of_mul_lt_mul_right hk1 (by positivity)
        have h4 : 0 < k := by exact_mod_cast h2
        have h5 : k < 1 := by exact_mod_cast h3
        omega
    apply div_pos <;> [linarith; positivity]
  · rw [series2_zero]; norm_num
  · rw [series2_neg_sq hx.ne']
    have := Real.one_lt_cosh.2 hx.ne'
    apply div_pos <;> [linarith; positivity]

theorem series3_pos (psi : ℝ) : 0 < stumpffSeries 3 psi := by
  rcases sq_cases psi with ⟨x, hx, rfl⟩ | rfl | ⟨x, hx, rfl⟩
  · rw [series3_sq hx.ne']
    have := Real.sin_lt hx
    apply div_pos <;> [linarith; positivity]
  · rw [series3_zero]; norm_num
  · rw [series3_neg_sq hx.ne']
    have := Real.self_lt_sinh_iff.2 hx
    apply div_pos <;> [linarith; positivity]

/-- for non-positive arguments `c3 ≥ 1/6` -/
theorem series3_ge_of_nonpos {psi : ℝ} (h : psi ≤ 0) : 1 / 6 ≤ stumpffSeries 3 psi := by
  have h1 := (summable_stumpff psi).2
  have h2 : ∀ k, 0 ≤ stumpffTerm 3 psi k := by
    intro k
    unfold stumpffTerm
    have : 0 ≤ -psi := by linarith
    positivity
  have h3 := h1.le_tsum 0 (fun j _ => h2 j)
  have h4 : stumpffTerm 3 psi 0 = 1 / 6 := by simp [stumpffTerm, Nat.factorial]
  rw [← h4]; exact h3

end Lamberthub
