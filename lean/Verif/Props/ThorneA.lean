import Verif.Model.ThorneSeries
import Verif.Model.Thorne
import Verif.Proofs.PSeries
import Verif.Proofs.ThorneLemmas
import Verif.Props.ThorneSeries

/-! # C56: Thorne's coefficients `A_n` expand the time of flight -/

set_option autoImplicit false

namespace Lamberthub
namespace Thorne

theorem poch_pos {x : ℝ} (hx : 0 < x) (n : ℕ) : 0 < poch x n := by
  induction n with
  | zero => simp [poch]
  | succ n ih => rw [poch]; positivity

/-- The hypergeometric coefficients of `α - sin α`. -/
theorem poch_sigC (n : ℕ) :
    poch (1 / 2) n * poch (3 / 2) n / (poch (5 / 2) n * (Nat.factorial n : ℝ)) = 3 / 4 * sigC n := by
  have h5 : ∀ n : ℕ, poch (5 / 2) n = poch (3 / 2) n * (2 * n + 3) / 3 := by
    intro n
    induction n with
    | zero => simp [poch]
    | succ n ih => rw [poch, poch, ih]; push_cast; ring
  have hb : ∀ n : ℕ, poch (1 / 2) n = binC n * (Nat.factorial n : ℝ) := by
    intro n
    induction n with
    | zero => simp [poch, binC]
    | succ n ih =>
      rw [poch, ih, binC, Nat.factorial_succ]
      push_cast
      field_simp
      ring
  have h3 := poch_pos (x := 3 / 2) (by norm_num) n
  have hf : (0 : ℝ) < Nat.factorial n := by exact_mod_cast Nat.factorial_pos n
  rw [h5, hb, sigC]
  field_simp

/-- The coefficient `A_{n}`. -/
noncomputable def aCoef (k mp : ℝ) (n : ℕ) : ℝ :=
  3 / 4 * sigC n * (1 + mp * k ^ ((n : ℝ) + 3 / 2)) / (1 + mp * k ^ (3 / 2 : ℝ))

theorem den_ne {k mp : ℝ} (hk0 : 0 ≤ k) (hk1 : k < 1) (hmp : mp = 1 ∨ mp = -1) :
    1 + mp * k ^ (3 / 2 : ℝ) ≠ 0 := by
  have h1 : k ^ (3 / 2 : ℝ) < 1 := Real.rpow_lt_one hk0 hk1 (by norm_num)
  have h0 : 0 ≤ k ^ (3 / 2 : ℝ) := Real.rpow_nonneg hk0 _
  rcases hmp with rfl | rfl
  · intro h; linarith
  · intro h; linarith

theorem aEntry_eq {s c mp : ℝ} (hc : 0 < c) (hcs : c ≤ s) (hmp : mp = 1 ∨ mp = -1) (n : ℕ) :
    aEntry s c mp n = .ok (aCoef ((s - c) / s) mp n) := by
  have hs : 0 < s := by linarith
  have hk0 : 0 ≤ (s - c) / s := div_nonneg (by linarith) hs.le
  have hk1 : (s - c) / s < 1 := by rw [div_lt_one hs]; linarith
  have hp : ∀ b : ℝ, 0 < b → prpow ((s - c) / s) b = .ok (((s - c) / s) ^ b) := by
    intro b hb
    refine prpow_ok.2 ⟨?_, rfl⟩
    rcases hk0.lt_or_eq with h | h
    · exact .inl h
    · exact .inr ⟨h.symm, hb⟩
  have hd := den_ne hk0 hk1 hmp
  have h5 := poch_pos (x := 5 / 2) (by norm_num) n
  have hf : (0 : ℝ) < Nat.factorial n := by exact_mod_cast Nat.factorial_pos n
  unfold aEntry
  rw [pdiv_eq hs.ne', ok_bind, hp _ (by positivity), ok_bind, hp _ (by norm_num), ok_bind]
  simp only []
  rw [pdiv_eq (by positivity)]
  congr 1
  rw [aCoef, ← poch_sigC]
  generalize ((s - c) / s) ^ ((n : ℝ) + 3 / 2) = x at *
  generalize 1 + mp * ((s - c) / s) ^ (3 / 2 : ℝ) = d at *
  field_simp

theorem getAArray_eq {s c mp : ℝ} (hc : 0 < c) (hcs : c ≤ s) (hmp : mp = 1 ∨ mp = -1) (N : ℕ) :
    ∃ A, getAArray s c mp N = .ok A ∧ (∀ i < N, A i = aCoef ((s - c) / s) mp (i + 1)) ∧
      ∀ i, N ≤ i → A i = 0 := by
  induction N with
  | zero => exact ⟨_, rfl, by simp, by simp⟩
  | succ N ih =>
    obtain ⟨A, hA, h1, h2⟩ := ih
    refine ⟨fun i => if i = N then aCoef ((s - c) / s) mp (N + 1) else A i, ?_, ?_, ?_⟩
    · rw [getAArray, hA, ok_bind, aEntry_eq hc hcs hmp, ok_bind]
    · intro i hi
      by_cases h : i = N
      · subst h; simp
      · simp only [if_neg h]; exact h1 i (by omega)
    · intro i hi
      simp only [if_neg (show i ≠ N by omega)]
      exact h2 i (by omega)

/-- Sum of the series. -/
theorem aCoef_hasSum {k mp u : ℝ} (hk0 : 0 ≤ k) (hk1 : k < 1) (hmp : mp = 1 ∨ mp = -1) (hu : |u| < 1) :
    HasSum (fun n : ℕ => aCoef k mp n * u ^ n)
      (3 / 4 * (ps sigC u + mp * k ^ (3 / 2 : ℝ) * ps sigC (k * u)) / (1 + mp * k ^ (3 / 2 : ℝ))) := by
  have hku : |k * u| < 1 := by
    rw [abs_mul, abs_of_nonneg hk0]
    calc k * |u| ≤ 1 * |u| := mul_le_mul_of_nonneg_right hk1.le (abs_nonneg _)
      _ < 1 := by rw [one_mul]; exact hu
  have h1 : HasSum (fun n => sigC n * u ^ n) (ps sigC u) := (sigC_bdd.summable hu).hasSum
  have h2 : HasSum (fun n => sigC n * (k * u) ^ n) (ps sigC (k * u)) := (sigC_bdd.summable hku).hasSum
  have h3 := (h1.add (h2.mul_left (mp * k ^ (3 / 2 : ℝ)))).mul_left (3 / 4 / (1 + mp * k ^ (3 / 2 : ℝ)))
  have e : (fun n : ℕ => aCoef k mp n * u ^ n) = fun n => 3 / 4 / (1 + mp * k ^ (3 / 2 : ℝ)) *
      (sigC n * u ^ n + mp * k ^ (3 / 2 : ℝ) * (sigC n * (k * u) ^ n)) := by
    funext n
    have hk : k ^ ((n : ℝ) + 3 / 2) = k ^ n * k ^ (3 / 2 : ℝ) := by
      rcases hk0.lt_or_eq with h | h
      · rw [Real.rpow_add h, Real.rpow_natCast]
      · rw [← h, Real.zero_rpow (by positivity), Real.zero_rpow (by norm_num), mul_zero]
    rw [aCoef, hk, mul_pow]
    ring
  rw [e, show 3 / 4 * (ps sigC u + mp * k ^ (3 / 2 : ℝ) * ps sigC (k * u)) / (1 + mp * k ^ (3 / 2 : ℝ)) =
    3 / 4 / (1 + mp * k ^ (3 / 2 : ℝ)) * (ps sigC u + mp * k ^ (3 / 2 : ℝ) * ps sigC (k * u)) by ring]
  exact h3

/-- The scale of the time. -/
theorem scale_eq {mu s a u : ℝ} (hmu : 0 < mu) (hs : 0 < s) (hu : 0 < u) (ha : a * u = s / 2) :
    Real.sqrt (a ^ 3 / mu) * (u * Real.sqrt u) * 4 = Real.sqrt 2 * Real.sqrt (s ^ 3 / mu) := by
  have ha0 : 0 < a := by
    by_contra h
    have := mul_nonpos_of_nonpos_of_nonneg (not_lt.1 h) hu.le
    linarith
  have h1 : u * Real.sqrt u = Real.sqrt (u ^ 3) := by
    rw [show u ^ 3 = u ^ 2 * u by ring, Real.sqrt_mul (by positivity), Real.sqrt_sq hu.le]
  rw [h1, ← Real.sqrt_mul (by positivity), ← Real.sqrt_mul (by norm_num)]
  have h4 : (4 : ℝ) = Real.sqrt (4 ^ 2) := by rw [Real.sqrt_sq (by norm_num)]
  nth_rewrite 1 [h4]
  rw [← Real.sqrt_mul (by positivity)]
  congr 1
  have : (a * u) ^ 3 = (s / 2) ^ 3 := by rw [ha]
  rw [show a ^ 3 / mu * u ^ 3 * 4 ^ 2 = 16 * (a * u) ^ 3 / mu by ring, this]
  ring

theorem rpow_three_half {k : ℝ} (hk : 0 ≤ k) : k ^ (3 / 2 : ℝ) = k * Real.sqrt k := by
  rcases hk.lt_or_eq with h | h
  · rw [show (3 / 2 : ℝ) = 1 + 1 / 2 by norm_num, Real.rpow_add h, Real.rpow_one, Real.sqrt_eq_rpow]
  · rw [← h, Real.zero_rpow (by norm_num), zero_mul]

/-- `α - sin α` as a series. -/
theorem arcsin_series {u : ℝ} (h0 : 0 ≤ u) (h1 : u < 1) :
    2 * Real.arcsin (Real.sqrt u) - Real.sin (2 * Real.arcsin (Real.sqrt u)) =
      u * Real.sqrt u * ps sigC u := by
  have hq : Real.sqrt u < 1 := by rw [Real.sqrt_lt' one_pos]; simpa using h1
  have hq0 := Real.sqrt_nonneg u
  have hs : Real.sin (Real.arcsin (Real.sqrt u)) = Real.sqrt u :=
    Real.sin_arcsin (by linarith) hq.le
  have h := sigC_sin (a := Real.arcsin (Real.sqrt u))
    (Real.neg_pi_div_two_lt_arcsin.2 (by linarith)) (Real.arcsin_lt_pi_div_two.2 hq)
  rw [Real.sin_two_mul]
  have h3 : Real.sqrt u ^ 2 = u := Real.sq_sqrt h0
  rw [hs, h3] at h
  rw [hs]
  calc _ = 2 * (Real.arcsin (Real.sqrt u) - Real.sqrt u * Real.cos (Real.arcsin (Real.sqrt u))) := by ring
    _ = Real.sqrt u ^ 2 * Real.sqrt u * ps sigC u := by rw [← h]; ring
    _ = _ := by rw [h3]

/-- `sinh α - α` as a series. -/
theorem arsinh_series {u : ℝ} (h0 : 0 ≤ u) (h1 : u < 1) :
    Real.sinh (2 * Real.arsinh (Real.sqrt u)) - 2 * Real.arsinh (Real.sqrt u) =
      u * Real.sqrt u * ps sigC (-u) := by
  have hs : Real.sinh (Real.arsinh (Real.sqrt u)) = Real.sqrt u := Real.sinh_arsinh _
  have h3 : Real.sqrt u ^ 2 = u := Real.sq_sqrt h0
  have h := sigC_sinh (a := Real.arsinh (Real.sqrt u)) (by rw [hs, h3]; exact h1)
  rw [Real.sinh_two_mul]
  rw [hs, h3] at h
  rw [hs]
  calc _ = 2 * (Real.sqrt u * Real.cosh (Real.arsinh (Real.sqrt u)) - Real.arsinh (Real.sqrt u)) := by ring
    _ = Real.sqrt u ^ 2 * Real.sqrt u * ps sigC (-u) := by rw [← h]; ring
    _ = _ := by rw [h3]

end Thorne

open Thorne in
/-- **C56.** `get_A_array` returns, for every order, the coefficients of one and the same power
series, and this series is the expansion of the time of flight in powers of `s / (2a)`:
for every ellipse of semi-major axis above the least one `s / 2` on the fast branch `"A"`, and for
every hyperbola with `a < -s / 2`,
`T(a) / T_parabolic = 1 + Σ_{n ≥ 1} A_n (s / 2a)^n`. -/
theorem thorne_A_series {mu s c mp : ℝ} (hmu : 0 < mu) (hc : 0 < c) (hcs : c ≤ s)
    (hmp : mp = 1 ∨ mp = -1) :
    ∃ coef : ℕ → ℝ,
      (∀ N : ℕ, ∃ A, getAArray s c mp N = .ok A ∧ ∀ i < N, A i = coef (i + 1)) ∧
      ∃ Tp, getParabolicTof mu s c mp = .ok Tp ∧ 0 < Tp ∧
      (∀ a, s / 2 < a → ∃ T, lagrangeTof mu s c a mp .A = .ok T ∧
        HasSum (fun n : ℕ => coef (n + 1) * (s / (2 * a)) ^ (n + 1)) (T / Tp - 1)) ∧
      (∀ a, a < -(s / 2) → ∃ T, lagrangeTof mu s c a mp .H = .ok T ∧
        HasSum (fun n : ℕ => coef (n + 1) * (s / (2 * a)) ^ (n + 1)) (T / Tp - 1)) := by
  have hs : 0 < s := by linarith
  obtain ⟨k, hk⟩ : ∃ k, k = (s - c) / s := ⟨_, rfl⟩
  have hk0 : 0 ≤ k := by rw [hk]; exact div_nonneg (by linarith) hs.le
  have hk1 : k < 1 := by rw [hk, div_lt_one hs]; linarith
  have hks : s - c = k * s := by rw [hk]; field_simp
  have hd := den_ne hk0 hk1 hmp
  have hr := rpow_three_half hk0
  have hdp : 0 < 1 + mp * k ^ (3 / 2 : ℝ) := by
    have h1 : k ^ (3 / 2 : ℝ) < 1 := Real.rpow_lt_one hk0 hk1 (by norm_num)
    have h0 : 0 ≤ k ^ (3 / 2 : ℝ) := Real.rpow_nonneg hk0 _
    rcases hmp with rfl | rfl <;> linarith
  have hshift : ∀ (u L : ℝ), HasSum (fun n : ℕ => aCoef k mp n * u ^ n) L →
      HasSum (fun n : ℕ => aCoef k mp (n + 1) * u ^ (n + 1)) (L - 1) := by
    intro u L h
    have h0 : aCoef k mp 0 = 1 := by
      rw [aCoef, sigC, binC]
      simp only [Nat.cast_zero, zero_add, mul_zero, mul_one]
      field_simp
    have := (hasSum_nat_add_iff' (f := fun n : ℕ => aCoef k mp n * u ^ n) 1).2 h
    simpa [h0] using this
  have hsq : 0 < Real.sqrt (s ^ 3 / mu) := Real.sqrt_pos.2 (by positivity)
  have h2 : 0 < Real.sqrt 2 := Real.sqrt_pos.2 (by norm_num)
  have h22 : Real.sqrt 2 * Real.sqrt 2 = 2 := Real.mul_self_sqrt (by norm_num)
  refine ⟨aCoef k mp, fun N => ?_, Real.sqrt 2 / 3 * Real.sqrt (s ^ 3 / mu) * (1 + mp * k ^ (3 / 2 : ℝ)),
    ?_, by positivity, fun a ha => ?_, fun a ha => ?_⟩
  · obtain ⟨A, hA, h, -⟩ := getAArray_eq hc hcs hmp N
    exact ⟨A, hA, by rw [hk]; exact h⟩
  · unfold getParabolicTof
    rw [pdiv_eq hs.ne', ok_bind, pdiv_eq hmu.ne', ok_bind, psqrt_eq (by positivity), ok_bind, ← hk,
      prpow_ok.2 ⟨?_, rfl⟩, ok_bind]
    rcases hk0.lt_or_eq with h | h
    · exact .inl h
    · exact .inr ⟨h.symm, by norm_num⟩
  · have ha0 : 0 < a := by linarith
    obtain ⟨u, hu⟩ : ∃ u, u = s / (2 * a) := ⟨_, rfl⟩
    have hu0 : 0 < u := by rw [hu]; positivity
    have hu1 : u < 1 := by rw [hu, div_lt_one (by positivity)]; linarith
    have hau : a * u = s / 2 := by rw [hu]; field_simp
    have hkb : (s - c) / (2 * a) = k * u := by rw [hks, hu]; ring
    have hku0 : 0 ≤ k * u := by positivity
    have hku1 : k * u < 1 := by nlinarith
    have hq1 : Real.sqrt u ≤ 1 := by rw [Real.sqrt_le_left zero_le_one]; linarith
    have hq2 : Real.sqrt (k * u) ≤ 1 := by rw [Real.sqrt_le_left zero_le_one]; linarith
    have hn1 := Real.sqrt_nonneg u
    have hn2 := Real.sqrt_nonneg (k * u)
    refine ⟨Real.sqrt (a ^ 3 / mu) *
        (2 * Real.arcsin (Real.sqrt u) - Real.sin (2 * Real.arcsin (Real.sqrt u)) +
        mp * (2 * Real.arcsin (Real.sqrt (k * u)) - Real.sin (2 * Real.arcsin (Real.sqrt (k * u))))), ?_, ?_⟩
    · simp only [lagrangeTof]
      rw [pdiv_eq (by positivity), ok_bind, ← hu, psqrt_eq hu0.le, ok_bind,
        pasin_eq (by linarith) hq1, ok_bind, pdiv_eq (by positivity), ok_bind, hkb, psqrt_eq hku0, ok_bind,
        pasin_eq (by linarith) hq2, ok_bind]
      rw [pdiv_eq hmu.ne', ok_bind, psqrt_eq (by positivity), ok_bind]
    · rw [← hu]
      apply hshift
      have h := aCoef_hasSum hk0 hk1 hmp (u := u) (by rw [abs_of_pos hu0]; exact hu1)
      convert h using 1
      have hsc := scale_eq hmu hs hu0 hau
      rw [arcsin_series hu0.le hu1, arcsin_series hku0 hku1, Real.sqrt_mul hk0, hr]
      rw [hr] at hd
      generalize Real.sqrt (a ^ 3 / mu) = S at *
      generalize Real.sqrt (s ^ 3 / mu) = P at *
      rw [div_eq_div_iff (by positivity) hd]
      have e1 : S * (u * Real.sqrt u * ps sigC u + mp * (k * u * (Real.sqrt k * Real.sqrt u) * ps sigC (k * u))) * 4 =
          Real.sqrt 2 * P * (ps sigC u + mp * (k * Real.sqrt k) * ps sigC (k * u)) := by
        rw [← hsc]; ring
      linear_combination (1 + mp * (k * Real.sqrt k)) / 4 * e1
  · have ha0 : a < 0 := by linarith
    obtain ⟨u, hu⟩ : ∃ u, u = -s / (2 * a) := ⟨_, rfl⟩
    have hu0 : 0 < u := by rw [hu]; exact div_pos_of_neg_of_neg (by linarith) (by linarith)
    have hau : -a * u = s / 2 := by
      have := ha0.ne
      rw [hu]; field_simp
    have hu1 : u < 1 := by
      by_contra h
      have h1 := not_lt.1 h
      nlinarith
    have huu : s / (2 * a) = -u := by rw [hu]; ring
    have hkb : (c - s) / (2 * a) = k * u := by rw [show c - s = -(s - c) by ring, hks, hu]; ring
    have hku0 : 0 ≤ k * u := by positivity
    have hku1 : k * u < 1 := by nlinarith
    have ha3 : 0 ≤ (-a) ^ 3 / mu := by
      have : 0 < -a := by linarith
      positivity
    refine ⟨Real.sqrt ((-a) ^ 3 / mu) *
        (Real.sinh (2 * Real.arsinh (Real.sqrt u)) - 2 * Real.arsinh (Real.sqrt u) +
        mp * (Real.sinh (2 * Real.arsinh (Real.sqrt (k * u))) - 2 * Real.arsinh (Real.sqrt (k * u)))), ?_, ?_⟩
    · simp only [lagrangeTof, lagrangeTofH]
      have h2a : 2 * a ≠ 0 := by linarith
      rw [pdiv_eq h2a, ok_bind, ← hu, psqrt_eq hu0.le, ok_bind,
        pdiv_eq h2a, ok_bind, hkb, psqrt_eq hku0, ok_bind, pdiv_eq hmu.ne', ok_bind, psqrt_eq ha3, ok_bind]
    · rw [huu]
      apply hshift
      have h := aCoef_hasSum hk0 hk1 hmp (u := -u) (by rw [abs_neg, abs_of_pos hu0]; exact hu1)
      convert h using 1
      have hsc := scale_eq hmu hs hu0 hau
      rw [arsinh_series hu0.le hu1, arsinh_series hku0 hku1, Real.sqrt_mul hk0, hr, mul_neg]
      rw [hr] at hd
      generalize Real.sqrt ((-a) ^ 3 / mu) = S at *
      generalize Real.sqrt (s ^ 3 / mu) = P at *
      rw [div_eq_div_iff (by positivity) hd]
      have e1 : S * (u * Real.sqrt u * ps sigC (-u) + mp * (k * u * (Real.sqrt k * Real.sqrt u) * ps sigC (-(k * u)))) * 4 =
          Real.sqrt 2 * P * (ps sigC (-u) + mp * (k * Real.sqrt k) * ps sigC (-(k * u))) := by
        rw [← hsc]; ring
      linear_combination (1 + mp * (k * Real.sqrt k)) / 4 * e1

open Thorne in
/-- Non-vacuity: semi-perimeter 3, chord 2, and the ellipse with `a = 2`. -/
example : ∃ T, lagrangeTof 1 3 2 2 (-1) .A = .ok T := by
  obtain ⟨coef, hA, Tp, hp, h0, h, h'⟩ := thorne_A_series (mu := 1) (s := 3) (c := 2) (mp := -1) one_pos (by norm_num)
    (by norm_num) (.inr rfl)
  obtain ⟨T, h, -⟩ := h 2 (by norm_num)
  exact ⟨T, h⟩

open Thorne in
/-- The first coefficient for `k = 1 / 4` on the short way: `A_1 = (1 - 1/32)/(1 - 1/8) * 3/10`. -/
example : ∃ A, getAArray 4 3 (-1) 1 = .ok A ∧ A 0 = 93 / 280 := by
  obtain ⟨A, hA, h, -⟩ := getAArray_eq (s := 4) (c := 3) (mp := -1) (by norm_num) (by norm_num) (.inr rfl) 1
  refine ⟨A, hA, ?_⟩
  have hq : Real.sqrt (1 / 4) = 1 / 2 := by
    rw [show (1 / 4 : ℝ) = (1 / 2) ^ 2 by norm_num, Real.sqrt_sq (by norm_num)]
  have e : ((1 : ℝ) / 4) ^ (3 / 2 : ℝ) = 1 / 8 := by rw [rpow_three_half (by norm_num), hq]; norm_num
  have e2 : ((1 : ℝ) / 4) ^ ((1 : ℝ) + 3 / 2) = 1 / 32 := by
    rw [Real.rpow_add (by norm_num), e, Real.rpow_one]; norm_num
  rw [h 0 (by norm_num), aCoef, show ((4 : ℝ) - 3) / 4 = 1 / 4 by norm_num, zero_add, Nat.cast_one, e, e2, sigC]
  norm_num [binC]

end Lamberthub
