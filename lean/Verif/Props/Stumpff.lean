import Verif.Proofs.StumpffCont

/-! # C15: the Stumpff functions -/

set_option autoImplicit false

namespace Lamberthub

/-- **C15.** The Stumpff functions of the code are, for every real argument, the sums of
the entire series `Σ (-ψ)^k/(2k+2)!` and `Σ (-ψ)^k/(2k+3)!`; they are continuous (the
branches join without a jump), have the textbook closed forms on both sides of zero, `c3`
is positive, `c2` is non-negative and vanishes exactly at the squares of the non-zero
multiples of `2π`, and they satisfy the Stumpff identity. -/
theorem stumpff_functions :
    ∃ f g : ℝ → ℝ, Continuous f ∧ Continuous g ∧ ∀ psi : ℝ,
      c2 psi = .ok (f psi) ∧ c3 psi = .ok (g psi) ∧
      HasSum (fun k : ℕ => (-psi) ^ k / ((2 * k + 2).factorial : ℝ)) (f psi) ∧
      HasSum (fun k : ℕ => (-psi) ^ k / ((2 * k + 3).factorial : ℝ)) (g psi) ∧
      (0 < psi → f psi = (1 - Real.cos (Real.sqrt psi)) / psi ∧
        g psi = (Real.sqrt psi - Real.sin (Real.sqrt psi)) / Real.sqrt psi ^ 3) ∧
      (psi = 0 → f psi = 1 / 2 ∧ g psi = 1 / 6) ∧
      (psi < 0 → f psi = (Real.cosh (Real.sqrt (-psi)) - 1) / (-psi) ∧
        g psi = (Real.sinh (Real.sqrt (-psi)) - Real.sqrt (-psi)) / Real.sqrt (-psi) ^ 3) ∧
      0 < g psi ∧ 0 ≤ f psi ∧
      (f psi = 0 ↔ ∃ n : ℕ, n ≠ 0 ∧ psi = (2 * Real.pi * n) ^ 2) ∧
      (1 - psi * f psi) ^ 2 + psi * (1 - psi * g psi) ^ 2 = 1 ∧
      (1 - psi * g psi) ^ 2 = 2 * f psi - psi * f psi ^ 2 := by
  refine ⟨stumpffSeries 2, stumpffSeries 3, stumpffSeries_continuous 2, stumpffSeries_continuous 3, ?_⟩
  intro psi
  refine ⟨c2_eq psi, c3_eq psi, (summable_stumpffTerm 2 psi).hasSum, (summable_stumpffTerm 3 psi).hasSum,
    ?_, ?_, ?_, series3_pos psi, series2_nonneg psi, ?_, ?_⟩
  · intro h
    have hs := Real.sqrt_pos.2 h
    have e := Real.sq_sqrt h.le
    constructor
    · conv_lhs => rw [← e]
      rw [series2_sq hs.ne', e]
    · conv_lhs => rw [← e]
      rw [series3_sq hs.ne']
  · rintro rfl; exact ⟨series2_zero, series3_zero⟩
  · intro h
    have h' : 0 < -psi := by linarith
    have hs := Real.sqrt_pos.2 h'
    have e := Real.sq_sqrt h'.le
    have e' : psi = -(Real.sqrt (-psi)) ^ 2 := by rw [e]; ring
    constructor
    · conv_lhs => rw [e']
      rw [series2_neg_sq hs.ne', e]
    · conv_lhs => rw [e']
      rw [series3_neg_sq hs.ne']
  · constructor
    · intro h0
      rcases sq_cases psi with ⟨x, hx, rfl⟩ | rfl | ⟨x, hx, rfl⟩
      · rw [series2_sq hx.ne', div_eq_zero_iff] at h0
        have hc : Real.cos x = 1 := by
          rcases h0 with h | h
          · linarith
          · exact absurd h (by positivity)
        obtain ⟨k, hk⟩ := (Real.cos_eq_one_iff x).1 hc
        have hpi := Real.pi_pos
        have hk0 : 0 < k := by
          have : (0 : ℝ) < k := by
            by_contra hn
            have : (k : ℝ) * (2 * Real.pi) ≤ 0 :=
              mul_nonpos_of_nonpos_of_nonneg (not_lt.1 hn) (by positivity)
            linarith
          exact_mod_cast this
        refine ⟨k.toNat, by omega, ?_⟩
        have : ((k.toNat : ℕ) : ℝ) = (k : ℝ) := by exact_mod_cast Int.toNat_of_nonneg hk0.le
        rw [this, ← hk]; ring
      · rw [series2_zero] at h0; norm_num at h0
      · rw [series2_neg_sq hx.ne', div_eq_zero_iff] at h0
        have := Real.one_lt_cosh.2 hx.ne'
        rcases h0 with h | h
        · linarith
        · exact absurd h (by positivity)
    · rintro ⟨n, hn, rfl⟩
      have hpi := Real.pi_pos
      have hn' : (0 : ℝ) < n := by exact_mod_cast Nat.pos_of_ne_zero hn
      rw [series2_sq (by positivity), show 2 * Real.pi * n = n * (2 * Real.pi) by ring,
        Real.cos_nat_mul_two_pi]
      simp
  · have key : (1 - psi * stumpffSeries 3 psi) ^ 2 =
        2 * stumpffSeries 2 psi - psi * stumpffSeries 2 psi ^ 2 := by
      rcases sq_cases psi with ⟨x, hx, rfl⟩ | rfl | ⟨x, hx, rfl⟩
      · rw [series2_sq hx.ne', series3_sq hx.ne']
        have := Real.sin_sq_add_cos_sq x
        field_simp
        linear_combination this
      · rw [series2_zero, series3_zero]; norm_num
      · rw [series2_neg_sq hx.ne', series3_neg_sq hx.ne']
        have := Real.cosh_sq x
        field_simp
        linear_combination -this
    refine ⟨?_, key⟩
    rw [key]; ring

/-- The accumulation loops stop when rounding absorbs the next term: however many passes
`n` were made, the accumulated value is within twice the absorbed term of the exact one. -/
theorem stumpff_loop_error {psi : ℝ} (h : |psi| ≤ 1) (n : ℕ) :
    (∃ x, c2 psi = .ok x ∧
      |x - stumpffPartial 2 psi n| ≤ 2 * |(-psi) ^ (n + 1) / ((2 * (n + 1) + 2).factorial : ℝ)|) ∧
    ∃ x, c3 psi = .ok x ∧
      |x - stumpffPartial 3 psi n| ≤ 2 * |(-psi) ^ (n + 1) / ((2 * (n + 1) + 3).factorial : ℝ)| :=
  ⟨⟨_, c2_eq psi, stumpff_truncation h n⟩, ⟨_, c3_eq psi, stumpff_truncation h n⟩⟩

example : |(-1 / 2 : ℝ)| ≤ 1 := by rw [abs_le]; constructor <;> norm_num

end Lamberthub
