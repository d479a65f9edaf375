import Verif.Props.AroraSolves

/-! # C90: the starting values of `arora2013` without revolutions -/

set_option autoImplicit false

namespace Lamberthub
open Filter Topology Spec LC Arora

namespace Arora

/-! ## The interpolations -/

/-- `_get_x` is the rational interpolation which is 0 at `F0`, 1 at `F1` and `Z ^ n` at `Fi`, written with positive terms. -/
theorem getX_frac {F0 F1 Fi Fs Z : ℝ} {n : ℕ} (hA : 0 ≤ (F0 - Fs) * (Fi - F1)) (hB : 0 ≤ (F0 - Fi) * (Fs - F1))
    (hAB : 0 < (F0 - Fs) * (Fi - F1) + (F0 - Fi) * (Fs - F1)) (hZ : 0 < Z) (hZ1 : Z < 1) :
    0 < Z * ((F0 - Fs) * (Fi - F1)) + (1 - Z) * ((F0 - Fi) * (Fs - F1)) ∧
    getX F0 F1 Fi Fs Z n = .ok ((Z * ((F0 - Fs) * (Fi - F1)) /
      (Z * ((F0 - Fs) * (Fi - F1)) + (1 - Z) * ((F0 - Fi) * (Fs - F1)))) ^ n) := by
  have hpos : 0 < Z * ((F0 - Fs) * (Fi - F1)) + (1 - Z) * ((F0 - Fi) * (Fs - F1)) := by
    have h1 : 0 < 1 - Z := by linarith
    rcases hA.lt_or_eq with h | h
    · have : 0 < Z * ((F0 - Fs) * (Fi - F1)) := mul_pos hZ h
      have : 0 ≤ (1 - Z) * ((F0 - Fi) * (Fs - F1)) := mul_nonneg h1.le hB
      linarith
    · rw [← h] at hAB ⊢
      have : 0 < (1 - Z) * ((F0 - Fi) * (Fs - F1)) := mul_pos h1 (by linarith)
      linarith
  have e : (Fi - Fs) * (F1 - F0) * Z + (F0 - Fi) * (F1 - Fs) =
      -(Z * ((F0 - Fs) * (Fi - F1)) + (1 - Z) * ((F0 - Fi) * (Fs - F1))) := by ring
  refine ⟨hpos, ?_⟩
  rw [getX_eq (by rw [e]; exact neg_ne_zero.2 hpos.ne'), e,
    show Z * (F0 - Fs) * (F1 - Fi) = -(Z * ((F0 - Fs) * (Fi - F1))) by ring, neg_div_neg_eq]

/-- Values of the interpolation between decreasing nodes. -/
theorem getX_mem {F0 F1 Fi Fs Z : ℝ} {n : ℕ} (h1 : F1 < Fi) (h2 : Fi < F0) (h3 : F1 ≤ Fs) (h4 : Fs ≤ F0) (hZ : 0 < Z) (hZ1 : Z < 1) :
    ∃ x, getX F0 F1 Fi Fs Z n = .ok (x ^ n) ∧ 0 ≤ x ∧ x ≤ 1 ∧ (F1 < Fs → x < 1) ∧ (Fs < F0 → 0 < x) := by
  have hA : 0 ≤ (F0 - Fs) * (Fi - F1) := mul_nonneg (by linarith) (by linarith)
  have hB : 0 ≤ (F0 - Fi) * (Fs - F1) := mul_nonneg (by linarith) (by linarith)
  have hAB : 0 < (F0 - Fs) * (Fi - F1) + (F0 - Fi) * (Fs - F1) := by
    rcases h3.lt_or_eq with h | h
    · have : 0 < (F0 - Fi) * (Fs - F1) := mul_pos (by linarith) (by linarith)
      linarith
    · have : 0 < (F0 - Fs) * (Fi - F1) := mul_pos (by linarith) (by linarith)
      linarith
  obtain ⟨hp, e⟩ := getX_frac (n := n) hA hB hAB hZ hZ1
  have k1 : 0 ≤ (1 - Z) * ((F0 - Fi) * (Fs - F1)) := mul_nonneg (by linarith) hB
  refine ⟨_, e, div_nonneg (mul_nonneg hZ.le hA) hp.le, ?_, fun h => ?_, fun h => ?_⟩
  · rw [div_le_one hp]; linarith
  · rw [div_lt_one hp]
    have : 0 < (1 - Z) * ((F0 - Fi) * (Fs - F1)) := mul_pos (by linarith) (mul_pos (by linarith) (by linarith))
    linarith
  · exact div_pos (mul_pos hZ (mul_pos (by linarith) (by linarith))) hp

/-- Values of the interpolation between increasing nodes. -/
theorem getX_mem' {F0 F1 Fi Fs Z : ℝ} {n : ℕ} (h1 : F0 < Fi) (h2 : Fi < F1) (h3 : F0 ≤ Fs) (h4 : Fs ≤ F1) (hZ : 0 < Z) (hZ1 : Z < 1) :
    ∃ x, getX F0 F1 Fi Fs Z n = .ok (x ^ n) ∧ 0 ≤ x ∧ x ≤ 1 := by
  have hA : 0 ≤ (F0 - Fs) * (Fi - F1) := mul_nonneg_of_nonpos_of_nonpos (by linarith) (by linarith)
  have hB : 0 ≤ (F0 - Fi) * (Fs - F1) := mul_nonneg_of_nonpos_of_nonpos (by linarith) (by linarith)
  have hAB : 0 < (F0 - Fs) * (Fi - F1) + (F0 - Fi) * (Fs - F1) := by
    rcases h3.lt_or_eq with h | h
    · have : 0 < (F0 - Fs) * (Fi - F1) := mul_pos_of_neg_of_neg (by linarith) (by linarith)
      linarith
    · have : 0 < (F0 - Fi) * (Fs - F1) := mul_pos_of_neg_of_neg (by linarith) (by linarith)
      linarith
  obtain ⟨hp, e⟩ := getX_frac (n := n) hA hB hAB hZ hZ1
  have k1 : 0 ≤ (1 - Z) * ((F0 - Fi) * (Fs - F1)) := mul_nonneg (by linarith) hB
  refine ⟨_, e, div_nonneg (mul_nonneg hZ.le hA) hp.le, ?_⟩
  rw [div_le_one hp]; linarith

/-- The rational start of the last two regions is a power of a mean of `c3` and `c1`. -/
theorem rational_mem {c1 c2 c3 c4 alpha tofN tofI tof : ℝ} (h0 : 0 < tofN) (h1 : tofN < tofI) (h2 : tofN ≤ tof) (h3 : tof ≤ tofI)
    (hc : 0 < c3) (hc1 : c3 < c1) (hc2 : c1 < c2) :
    ∃ q, guessRational c1 c2 c3 c4 alpha tofN tofI tof = .ok (-c4 * q ^ (1 / alpha)) ∧ c3 ≤ q ∧ q ≤ c1 := by
  have ht : 0 < tof := by linarith
  have hI : 0 < tofI := by linarith
  unfold guessRational
  rw [pdiv_eq h0.ne', ok_bind, pdiv_eq hI.ne', ok_bind, pdiv_eq ht.ne', ok_bind]
  unfold getGammas
  simp only []
  have i1 : 1 / tofI < 1 / tofN := one_div_lt_one_div_of_lt h0 h1
  have i2 : 1 / tofI ≤ 1 / tof := one_div_le_one_div_of_le ht h3
  have i3 : 1 / tof ≤ 1 / tofN := one_div_le_one_div_of_le h0 h2
  have i4 : 0 < 1 / tofI := by positivity
  generalize 1 / tofI = Fi at *
  generalize 1 / tofN = Fn at *
  generalize 1 / tof = F at *
  obtain ⟨a, ha⟩ : ∃ a, a = Fi * (Fn - F) * (c2 - c3) := ⟨_, rfl⟩
  obtain ⟨b, hb⟩ : ∃ b, b = Fn * (F - Fi) * (c2 - c1) := ⟨_, rfl⟩
  have ha0 : 0 ≤ a := by rw [ha]; exact mul_nonneg (mul_nonneg i4.le (by linarith)) (by linarith)
  have hb0 : 0 ≤ b := by rw [hb]; exact mul_nonneg (mul_nonneg (by linarith) (by linarith)) (by linarith)
  have hab : 0 < a + b := by
    rcases i3.lt_or_eq with h | h
    · have : 0 < a := by rw [ha]; exact mul_pos (mul_pos i4 (by linarith)) (by linarith)
      linarith
    · have : 0 < b := by rw [hb]; exact mul_pos (mul_pos (by linarith) (by linarith)) (by linarith)
      linarith
  have ed : Fn * (F - Fi) * c1 - c3 * (Fi * (F - Fn)) - F * (Fn - Fi) * c2 = -(a + b) := by rw [ha, hb]; ring
  have en : (Fi * (F - Fn) * c1 - c3 * (Fn * (F - Fi))) * c2 + c3 * c1 * (F * (Fn - Fi)) = -(a * c1 + b * c3) := by
    rw [ha, hb]; ring
  rw [ed, en, pdiv_eq (neg_ne_zero.2 hab.ne'), ok_bind, neg_div_neg_eq]
  have g1 : c3 ≤ (a * c1 + b * c3) / (a + b) := by rw [le_div_iff₀ hab]; nlinarith
  have g2 : (a * c1 + b * c3) / (a + b) ≤ c1 := by rw [div_le_iff₀ hab]; nlinarith
  refine ⟨_, ?_, g1, g2⟩
  rw [prpow_ok.2 ⟨Or.inl (by linarith), rfl⟩, ok_bind]

/-! ## The order of the sampled times -/

theorem sqrt2_fine : (1.41421 : ℝ) < Real.sqrt 2 := by
  rw [Real.lt_sqrt (by norm_num)]; norm_num

theorem tau_fine {tau : ℝ} (h : |Real.sqrt 2 * tau| < 1) : -(0.70711 : ℝ) < tau ∧ tau < 0.70711 := by
  have h2 := sqrt2_fine
  norm_num at h2
  obtain ⟨a, b⟩ := abs_lt.1 h
  constructor <;> by_contra hc <;> rw [not_lt] at hc <;> norm_num at hc <;> nlinarith

theorem time_lt_of_sq {S c c' g g' : ℝ} (hS : 0 < S) (hc : 0 ≤ c) (hc' : 0 ≤ c') (hg : 0 ≤ g') (h : c * g ^ 2 < c' * g' ^ 2) :
    S * Real.sqrt c * g < S * Real.sqrt c' * g' := by
  rw [mul_assoc, mul_assoc]
  refine mul_lt_mul_of_pos_left ?_ hS
  refine lt_of_pow_lt_pow_left₀ 2 (by positivity) ?_
  rw [mul_pow, mul_pow, Real.sq_sqrt hc, Real.sq_sqrt hc']
  exact h

/-- The sampled times of the elliptic region, in order. -/
theorem sampled_order {tau S : ℝ} (htau : |Real.sqrt 2 * tau| < 1) (hS : 0 < S) :
    0 < S * Real.sqrt (1 - Real.sqrt 2 * tau) * (tau + Real.sqrt 2) / 3 ∧
    S * Real.sqrt (1 - Real.sqrt 2 * tau) * (tau + Real.sqrt 2) / 3 <
      S * Real.sqrt (1 - 1 / Real.sqrt 2 * tau) * (tau + (1 - 1 / Real.sqrt 2 * tau) * 0.6686397730) ∧
    S * Real.sqrt (1 - 1 / Real.sqrt 2 * tau) * (tau + (1 - 1 / Real.sqrt 2 * tau) * 0.6686397730) <
      S * Real.sqrt (1 - 0 * tau) * (tau + (1 - 0 * tau) * 1.110720735) ∧
    S * Real.sqrt (1 - 0 * tau) * (tau + (1 - 0 * tau) * 1.110720735) <
      S * Real.sqrt (1 - -1 / 2 * tau) * (tau + (1 - -1 / 2 * tau) * 1.954946607) ∧
    S * Real.sqrt (1 - -1 / 2 * tau) * (tau + (1 - -1 / 2 * tau) * 1.954946607) <
      S * Real.sqrt (1 - -1.00 * tau) * (tau + (1 - -1.00 * tau) * 5.712388981) ∧
    S * Real.sqrt (1 - -1.00 * tau) * (tau + (1 - -1.00 * tau) * 5.712388981) <
      S * Real.sqrt (1 - -1.38 * tau) * (tau + (1 - -1.38 * tau) * 212.087279879) ∧
    S * Real.sqrt (1 - -1.38 * tau) * (tau + (1 - -1.38 * tau) * 212.087279879) <
      S * Real.sqrt (1 - -1.41 * tau) * (tau + (1 - -1.41 * tau) * 4839.684497246) := by
  obtain ⟨ta, tb⟩ := tau_fine htau
  norm_num at ta tb
  have hl := sqrt2_fine
  have hu := sqrt2_lt
  have hs := sqrt2_sq
  norm_num at hl hu
  obtain ⟨ha, hb⟩ := abs_lt.1 htau
  obtain ⟨σ, hσ⟩ : ∃ σ, σ = Real.sqrt 2 * tau / 2 := ⟨_, rfl⟩
  have e1 : 1 / Real.sqrt 2 * tau = σ := by
    have hp := sqrt2_pos
    rw [hσ]; field_simp; linear_combination (-tau) * hs
  have e2 : Real.sqrt 2 * tau = 2 * σ := by rw [hσ]; ring
  have e3 : tau = Real.sqrt 2 * σ := by rw [hσ]; linear_combination (-tau / 2) * hs
  have s1 : -(1 / 2) < σ := by linarith
  have s2 : σ < 1 / 2 := by linarith
  obtain ⟨u, hu'⟩ : ∃ u, u = σ + 1 / 2 := ⟨_, rfl⟩
  have u0 : 0 < u := by linarith
  have u1 : u < 1 := by linarith
  have hσu : σ = u - 1 / 2 := by linarith
  obtain ⟨s, hs'⟩ : ∃ s, s = tau + 70711 / 100000 := ⟨_, rfl⟩
  have s0 : 0 < s := by linarith
  have hts : tau = s - 70711 / 100000 := by linarith
  have hp2 : 0 < s ^ 2 := by positivity
  have hp3 : 0 < s ^ 3 := by positivity
  have hq2 : 0 < u ^ 2 := by positivity
  have hq3 : 0 < u ^ 3 := by positivity
  refine ⟨?_, ?_, ?_, ?_, ?_, ?_, ?_⟩
  · have h1 : 0 < 1 - Real.sqrt 2 * tau := by linarith
    have h2 : 0 < tau + Real.sqrt 2 := by linarith
    positivity
  · rw [mul_div_assoc]
    have w1 : 0.4727 ≤ Real.sqrt 2 * 0.6686397730 / 2 := by norm_num; linarith
    norm_num at w1
    have g0 : 0 < σ + (1 - σ) * 0.4727 := by norm_num; linarith
    refine lt_of_lt_of_le (time_lt_of_sq hS (c' := 1 - 1 / Real.sqrt 2 * tau) (g' := Real.sqrt 2 * (σ + (1 - σ) * 0.4727))
      (by linarith) (by linarith) (by positivity) ?_) (mul_le_mul_of_nonneg_left ?_ (by positivity))
    · rw [e1, e2, show (tau + Real.sqrt 2) / 3 = Real.sqrt 2 * ((σ + 1) / 3) by rw [e3]; ring, mul_pow, mul_pow, hs, hσu]
      norm_num
      have : u ^ 3 ≤ u ^ 2 := by nlinarith
      nlinarith
    · rw [e1]
      have e4 : tau + (1 - σ) * 0.6686397730 = Real.sqrt 2 * (σ + (1 - σ) * (Real.sqrt 2 * 0.6686397730 / 2)) := by
        linear_combination e3 - (1 - σ) * 0.6686397730 / 2 * hs
      rw [e4]
      refine mul_le_mul_of_nonneg_left ?_ (by positivity)
      have : (1 - σ) * 0.4727 ≤ (1 - σ) * (Real.sqrt 2 * 0.6686397730 / 2) :=
        mul_le_mul_of_nonneg_left (by norm_num; linarith) (by linarith)
      linarith
  · have w2 : Real.sqrt 2 * 0.6686397730 / 2 ≤ 0.4729 := by norm_num; linarith
    norm_num at w2
    have w3 : 0.7853 ≤ Real.sqrt 2 * 1.110720735 / 2 := by norm_num; linarith
    norm_num at w3
    have g0 : 0 < σ + 0.7853 := by norm_num; linarith
    have e4 : tau + (1 - σ) * 0.6686397730 = Real.sqrt 2 * (σ + (1 - σ) * (Real.sqrt 2 * 0.6686397730 / 2)) := by
      linear_combination e3 - (1 - σ) * 0.6686397730 / 2 * hs
    have e5 : tau + (1 - 0 * tau) * 1.110720735 = Real.sqrt 2 * (σ + Real.sqrt 2 * 1.110720735 / 2) := by
      linear_combination e3 - 1.110720735 / 2 * hs
    have l1 : tau + (1 - σ) * 0.6686397730 ≤ Real.sqrt 2 * (σ + (1 - σ) * 0.4729) := by
      rw [e4]
      refine mul_le_mul_of_nonneg_left ?_ (by positivity)
      have : (1 - σ) * (Real.sqrt 2 * 0.6686397730 / 2) ≤ (1 - σ) * 0.4729 :=
        mul_le_mul_of_nonneg_left (by norm_num; linarith) (by linarith)
      linarith
    have l2 : Real.sqrt 2 * (σ + 0.7853) ≤ tau + (1 - 0 * tau) * 1.110720735 := by
      rw [e5]
      refine mul_le_mul_of_nonneg_left ?_ (by positivity)
      norm_num; linarith
    rw [e1]
    refine lt_of_le_of_lt (mul_le_mul_of_nonneg_left l1 (by positivity)) (lt_of_lt_of_le (time_lt_of_sq hS
      (c' := 1 - 0 * tau) (g' := Real.sqrt 2 * (σ + 0.7853)) (by linarith) (by linarith) (by positivity) ?_)
      (mul_le_mul_of_nonneg_left l2 (by positivity)))
    rw [mul_pow, mul_pow, hs, hσu]
    norm_num
    nlinarith
  all_goals
    refine time_lt_of_sq hS (by norm_num <;> linarith) (by norm_num <;> linarith) (by norm_num <;> linarith) ?_
    rw [hts]
    norm_num
    nlinarith

/-! ## The starts -/

/-- Elliptic starts up to the time sampled at -1.41. -/
theorem elliptic_guess {tau S tofP tof : ℝ} (htau : |Real.sqrt 2 * tau| < 1) (hS : 0 < S)
    (htofP : tofP = S * Real.sqrt (1 - Real.sqrt 2 * tau) * (tau + Real.sqrt 2) / 3) (h1 : tofP < tof)
    (h2 : tof ≤ S * Real.sqrt (1 + 1.41 * tau) * (tau + (1 + 1.41 * tau) * 4839.684497246)) :
    ∃ k, guessElliptic tof tofP tau S = .ok k ∧ -1.4101 ≤ k ∧ k < Real.sqrt 2 ∧
      (tof ≤ S * (tau + 1.110720735) → 0 ≤ k) ∧
      (S * (tau + 1.110720735) < tof → tof ≤ S * Real.sqrt (1 + tau) * (tau + (1 + tau) * 5.712388981) → -1 ≤ k ∧ k ≤ 0) ∧
      (S * Real.sqrt (1 + tau) * (tau + (1 + tau) * 5.712388981) < tof →
        tof ≤ S * Real.sqrt (1 + 1.38 * tau) * (tau + (1 + 1.38 * tau) * 212.087279879) → -1.3801 ≤ k ∧ k ≤ -1) ∧
      (S * Real.sqrt (1 + 1.38 * tau) * (tau + (1 + 1.38 * tau) * 212.087279879) < tof → -1.4101 ≤ k ∧ k ≤ -1.3799) := by
  have hp := sqrt2_pos
  have hl := lt_sqrt2
  norm_num at hl
  obtain ⟨o0, o1, o2, o3, o4, o5, o6⟩ := sampled_order htau hS
  obtain ⟨ta, tb⟩ := tau_fine htau
  norm_num at ta tb
  have hk : 0 ≤ 1 - 1 / Real.sqrt 2 * tau := by
    have e : 1 / Real.sqrt 2 * tau = (Real.sqrt 2 * tau) / 2 := by
      have := sqrt2_sq
      field_simp; linear_combination (-tau) * this
    rw [e]; linarith [(abs_lt.1 htau).2]
  rw [← htofP] at o0 o1
  rw [show S * Real.sqrt (1 + 1.41 * tau) * (tau + (1 + 1.41 * tau) * 4839.684497246) =
      S * Real.sqrt (1 - -1.41 * tau) * (tau + (1 - -1.41 * tau) * 4839.684497246) by
        rw [show 1 + 1.41 * tau = 1 - -1.41 * tau by ring]] at h2
  rw [show S * Real.sqrt (1 + 1.38 * tau) * (tau + (1 + 1.38 * tau) * 212.087279879) =
      S * Real.sqrt (1 - -1.38 * tau) * (tau + (1 - -1.38 * tau) * 212.087279879) by
        rw [show 1 + 1.38 * tau = 1 - -1.38 * tau by ring],
    show S * Real.sqrt (1 + tau) * (tau + (1 + tau) * 5.712388981) =
      S * Real.sqrt (1 - -1.00 * tau) * (tau + (1 - -1.00 * tau) * 5.712388981) by
        rw [show 1 + tau = 1 - -1.00 * tau by norm_num],
    show S * (tau + 1.110720735) = S * Real.sqrt (1 - 0 * tau) * (tau + (1 - 0 * tau) * 1.110720735) by
        rw [zero_mul, sub_zero, Real.sqrt_one, mul_one, one_mul]]
  unfold guessElliptic
  rw [pdiv_eq hp.ne', ok_bind, getTOF_eq (by norm_num; linarith), ok_bind, getTOF_eq (by norm_num; linarith), ok_bind,
    getTOF_eq (by norm_num; linarith), ok_bind, getTOF_eq (by norm_num; linarith), ok_bind, getTOF_eq (by norm_num), ok_bind,
    getTOF_eq hk, ok_bind]
  generalize S * Real.sqrt (1 - -1.41 * tau) * (tau + (1 - -1.41 * tau) * 4839.684497246) = f1 at *
  generalize S * Real.sqrt (1 - -1.38 * tau) * (tau + (1 - -1.38 * tau) * 212.087279879) = f2 at *
  generalize S * Real.sqrt (1 - -1.00 * tau) * (tau + (1 - -1.00 * tau) * 5.712388981) = f3 at *
  generalize S * Real.sqrt (1 - -1 / 2 * tau) * (tau + (1 - -1 / 2 * tau) * 1.954946607) = f4 at *
  generalize S * Real.sqrt (1 - 0 * tau) * (tau + (1 - 0 * tau) * 1.110720735) = f5 at *
  generalize S * Real.sqrt (1 - 1 / Real.sqrt 2 * tau) * (tau + (1 - 1 / Real.sqrt 2 * tau) * 0.6686397730) = f6 at *
  by_cases c1 : tof ≤ f5
  · rw [if_pos c1]
    obtain ⟨x, e, x0, -, x1, -⟩ := getX_mem (n := 1) o1 o2 h1.le c1 (by norm_num : (0 : ℝ) < 1 / 2) (by norm_num)
    rw [e, ok_bind, pow_one]
    have x1' := x1 h1
    refine ⟨_, rfl, ?_, ?_, fun _ => ?_, fun h _ => absurd c1 (not_le.2 h), fun h _ => by linarith, fun h => by linarith⟩
    · have : 0 ≤ Real.sqrt 2 * x := by positivity
      norm_num; linarith
    · nlinarith
    · have : 0 ≤ Real.sqrt 2 * x := by positivity
      linarith
  rw [if_neg c1]
  rw [not_le] at c1
  by_cases c2 : tof ≤ f3
  · rw [if_pos ⟨c1.le, c2⟩]
    obtain ⟨x, e, x0, x1⟩ := getX_mem' (n := 1) o3 o4 c1.le c2 (by norm_num : (0 : ℝ) < 1 / 2) (by norm_num)
    rw [e, ok_bind, pow_one]
    refine ⟨_, rfl, ?_, ?_, fun h => absurd c1 (not_lt.2 h), fun _ _ => ⟨?_, ?_⟩, fun h _ => by linarith, fun h => by linarith⟩
    · norm_num; linarith
    · linarith
    · linarith
    · linarith
  rw [if_neg (fun h => c2 h.2)]
  rw [not_le] at c2
  by_cases c3 : tof ≤ f2
  · rw [if_pos ⟨c2.le, c3⟩]
    obtain ⟨q, e, q0, q1⟩ := rational_mem (c1 := 540649 / 3125) (c2 := 256) (c3 := 1) (c4 := 1) (alpha := 16) (by linarith : 0 < f3) o5
      c2.le c3 (by norm_num) (by norm_num) (by norm_num)
    have b1 : (1 : ℝ) ≤ q ^ (1 / 16 : ℝ) := Real.one_le_rpow q0 (by norm_num)
    have b2 : q ^ (1 / 16 : ℝ) ≤ 1.3801 := by
      rw [one_div, Real.rpow_inv_le_iff_of_pos (by linarith) (by norm_num) (by norm_num),
        show (16 : ℝ) = ((16 : ℕ) : ℝ) by norm_num, Real.rpow_natCast]
      refine q1.trans ?_
      norm_num
    norm_num at b2
    rw [e]
    refine ⟨_, rfl, ?_, ?_, fun h => by linarith, fun _ h => by linarith, fun _ _ => ⟨?_, ?_⟩, fun h => by linarith⟩
    · norm_num; linarith
    · linarith
    · norm_num; linarith
    · linarith
  rw [if_neg (fun h => c3 h.2)]
  rw [not_le] at c3
  obtain ⟨q, e, q0, q1⟩ := rational_mem (c1 := 49267 / 27059) (c2 := 67286 / 17897) (c3 := 2813 / 287443) (c4 := 4439 / 3156)
    (alpha := 243) (by linarith : 0 < f2) o6 c3.le h2 (by norm_num) (by norm_num) (by norm_num)
  have hq : 0 < q := lt_of_lt_of_le (by norm_num) q0
  have b1 : 1.3799 * 3156 / 4439 ≤ q ^ (1 / 243 : ℝ) := by
    rw [one_div, Real.le_rpow_inv_iff_of_pos (by norm_num) hq.le (by norm_num),
      show (243 : ℝ) = ((243 : ℕ) : ℝ) by norm_num, Real.rpow_natCast]
    refine le_trans ?_ q0
    norm_num
  have b2 : q ^ (1 / 243 : ℝ) ≤ 1.4101 * 3156 / 4439 := by
    rw [one_div, Real.rpow_inv_le_iff_of_pos hq.le (by norm_num) (by norm_num),
      show (243 : ℝ) = ((243 : ℕ) : ℝ) by norm_num, Real.rpow_natCast]
    refine q1.trans ?_
    norm_num
  norm_num at b1 b2
  rw [e]
  generalize q ^ (1 / 243 : ℝ) = y at *
  refine ⟨_, rfl, ?_, ?_, fun h => by linarith, fun _ h => by linarith, fun _ h => by linarith, fun _ => ⟨?_, ?_⟩⟩
  · norm_num; linarith
  · linarith
  · norm_num; linarith
  · norm_num; linarith

/-- `W` at the middle node of region H1. -/
theorem hypW_mid : 0.124 ≤ hypW ((2 * Real.sqrt 2 + 20) / 3) := by
  have hl := sqrt2_fine
  have hu := sqrt2_lt
  have hs := sqrt2_sq
  have hp := sqrt2_pos
  norm_num at hl hu
  have k1 : 7.609 < (2 * Real.sqrt 2 + 20) / 3 := by norm_num; linarith
  have k2 : (2 * Real.sqrt 2 + 20) / 3 < 7.61 := by norm_num; linarith
  have k3 : Real.sqrt 2 * ((2 * Real.sqrt 2 + 20) / 3) ≤ 10.77 := by norm_num; nlinarith
  unfold hypW
  generalize (2 * Real.sqrt 2 + 20) / 3 = k at *
  norm_num at k1 k2 k3
  have m1 : 55.89 ≤ k ^ 2 - 2 := by norm_num; nlinarith
  have m2 : k ^ 2 - 2 ≤ 55.913 := by norm_num; nlinarith
  norm_num at m1 m2
  have x1 : 1 ≤ k / Real.sqrt 2 := by rw [le_div_iff₀ hp]; linarith
  have hlog : Real.arcosh (k / Real.sqrt 2) ≤ 2.4 := by
    have e5 : (10.77 : ℝ) ≤ Real.exp 2.4 := by
      refine le_of_pow_le_pow_left₀ (n := 5) (by norm_num) (Real.exp_pos _).le ?_
      rw [← Real.exp_nat_mul, show ((5 : ℕ) : ℝ) * 2.4 = ((12 : ℕ) : ℝ) * 1 by norm_num, Real.exp_nat_mul]
      refine le_trans ?_ (pow_le_pow_left₀ (by norm_num) Real.exp_one_gt_d9.le 12)
      norm_num
    rw [Real.arcosh]
    have e6 : k / Real.sqrt 2 + Real.sqrt ((k / Real.sqrt 2) ^ 2 - 1) ≤ 10.77 := by
      have : Real.sqrt ((k / Real.sqrt 2) ^ 2 - 1) ≤ k / Real.sqrt 2 := by
        rw [Real.sqrt_le_left (by linarith)]; linarith
      have e7 : k / Real.sqrt 2 + k / Real.sqrt 2 = Real.sqrt 2 * k := by
        field_simp; linear_combination -hs
      norm_num; linarith
    rw [Real.log_le_iff_le_exp (by positivity)]
    exact e6.trans e5
  have hq : 7.475 ≤ Real.sqrt (k ^ 2 - 2) := by
    rw [Real.le_sqrt' (by norm_num)]; norm_num; linarith
  have hq3 : (7.475 : ℝ) ^ 3 ≤ Real.sqrt (k ^ 2 - 2) ^ 3 := pow_le_pow_left₀ (by norm_num) hq 3
  have d1 : 2 * Real.arcosh (k / Real.sqrt 2) / Real.sqrt (k ^ 2 - 2) ^ 3 ≤ 0.0115 := by
    rw [div_le_iff₀ (lt_of_lt_of_le (by norm_num) hq3)]
    norm_num at hq3 hlog ⊢
    linarith
  have d2 : 0.136 ≤ k / (k ^ 2 - 2) := by
    rw [le_div_iff₀ (by linarith)]; norm_num; linarith
  norm_num at d1 d2 ⊢
  linarith

/-- Hyperbolic starts of long-way transfers. -/
theorem long_start {tau S tofP tof : ℝ} (htau : |Real.sqrt 2 * tau| < 1) (hS : 0 < S) (h0 : tau < 0)
    (hmid : S * Real.sqrt (1 - (2 * Real.sqrt 2 + 20) / 3 * tau) * (tau + (1 - (2 * Real.sqrt 2 + 20) / 3 * tau) *
      hypW ((2 * Real.sqrt 2 + 20) / 3)) < tofP) (h1 : 0 < tof) (h2 : tof ≤ tofP) :
    ∃ k, guessHyperbolic tof tofP tau S (-1) 0 = .ok k ∧ Real.sqrt 2 ≤ k := by
  have hp := sqrt2_pos
  have hl := lt_sqrt2
  have hu := sqrt2_lt
  norm_num at hl hu
  obtain ⟨ta, -⟩ := tau_fine htau
  norm_num at ta
  obtain ⟨a, b, hb, hab, -, e1, e2⟩ := long_limits htau hS h0
  unfold guessHyperbolic
  rw [if_pos rfl, e1, ok_bind, e2, ok_bind]
  by_cases c : tof > a
  · rw [if_pos c]
    unfold guessH1
    simp only []
    have he : epsilon = 2e-2 := rfl
    have hm := hypW_mid
    rw [getW_hyp (by rw [he]; norm_num; linarith), ok_bind, getTOF_eq (by nlinarith), ok_bind]
    have hlow : a < S * Real.sqrt (1 - (2 * Real.sqrt 2 + 20) / 3 * tau) * (tau + (1 - (2 * Real.sqrt 2 + 20) / 3 * tau) *
        hypW ((2 * Real.sqrt 2 + 20) / 3)) := by
      unfold tofLimit at e1
      rw [psqrt_eq (by linarith), ok_bind, Except.ok.injEq] at e1
      rw [← e1]
      obtain ⟨t, rfl⟩ : ∃ t, tau = -t := ⟨-tau, by ring⟩
      have k1 : 7.609 ≤ (2 * Real.sqrt 2 + 20) / 3 := by have := sqrt2_fine; norm_num at this ⊢; linarith
      generalize (2 * Real.sqrt 2 + 20) / 3 = k at *
      norm_num at k1
      have t0 : 0 < t := by linarith
      have t1 : t < 0.70711 := by norm_num; linarith
      norm_num at t1
      have c1 : 1 + 7.609 * t ≤ 1 - k * -t := by norm_num; nlinarith
      have g0 : 0 ≤ -t + (1 + 7.609 * t) * 0.124 := by norm_num; linarith
      refine lt_of_lt_of_le (time_lt_of_sq hS (c' := 1 + 7.609 * t) (g' := -t + (1 + 7.609 * t) * 0.124) (by linarith)
        (by positivity) g0 ?_) ?_
      · norm_num
        have := mul_pos t0 t0
        nlinarith [mul_pos t0 (sub_pos.2 t1), mul_pos this t0]
      · refine mul_le_mul (mul_le_mul_of_nonneg_left (Real.sqrt_le_sqrt c1) hS.le) ?_ g0 (by positivity)
        have : (1 + 7.609 * t) * 0.124 ≤ (1 - k * -t) * hypW k := mul_le_mul c1 hm (by norm_num) (le_trans (by positivity) c1)
        linarith
    generalize S * Real.sqrt (1 - (2 * Real.sqrt 2 + 20) / 3 * tau) * (tau + (1 - (2 * Real.sqrt 2 + 20) / 3 * tau) *
        hypW ((2 * Real.sqrt 2 + 20) / 3)) = Fi at *
    obtain ⟨x, e, x0, -⟩ := getX_mem (n := 1) hlow hmid c.le h2 (by norm_num : (0 : ℝ) < 1 / 3) (by norm_num)
    rw [e, ok_bind, pow_one]
    exact ⟨_, rfl, by nlinarith⟩
  · rw [if_neg c]
    rw [gt_iff_lt, not_lt] at c
    unfold guessH2
    have h20 : Real.sqrt 20 < 10 := by rw [Real.sqrt_lt' (by norm_num)]; norm_num
    have h20' : 4 < Real.sqrt 20 := by rw [Real.lt_sqrt (by norm_num)]; norm_num
    have hden : 0 < tof * (a - b) := mul_pos h1 (by linarith)
    rw [pdiv_eq hden.ne', ok_bind]
    refine ⟨_, rfl, ?_⟩
    have : 4 ≤ (b * (a - tof) * 10 - a * Real.sqrt 20 * (b - tof)) / (tof * (a - b)) := by
      rw [le_div_iff₀ hden]
      have k1 : 0 ≤ b * (a - tof) * (10 - Real.sqrt 20) := by
        have : 0 ≤ a - tof := by linarith
        have : 0 ≤ 10 - Real.sqrt 20 := by linarith
        positivity
      have k2 : 0 ≤ tof * (a - b) * (Real.sqrt 20 - 4) := mul_nonneg hden.le (by linarith)
      nlinarith
    nlinarith

/-- Hyperbolic starts of short-way transfers. -/
theorem short_start {tau S tofP tof : ℝ} (htau : |Real.sqrt 2 * tau| < 1) (hS : 0 < S) (ht : 0 < tau)
    (htofP : tofP = S * Real.sqrt (1 - Real.sqrt 2 * tau) * (tau + Real.sqrt 2) / 3) (h1 : 0 < tof) (h2 : tof ≤ tofP) :
    ∃ k, guessHyperbolic tof tofP tau S 1 0 = .ok k ∧ Real.sqrt 2 ≤ k ∧ 0 < 1 - k * tau := by
  have hp := sqrt2_pos
  have hl := lt_sqrt2
  norm_num at hl
  have hkm : Real.sqrt 2 < 1 / tau := by rw [lt_div_iff₀ ht]; exact (abs_lt.1 htau).2
  have hki : Real.sqrt 2 < (Real.sqrt 2 + 1 / tau) / 2 := by linarith
  have hui : 0 < 1 - (Real.sqrt 2 + 1 / tau) / 2 * tau := by
    have e : (Real.sqrt 2 + 1 / tau) / 2 * tau = (Real.sqrt 2 * tau + 1) / 2 := by field_simp
    rw [e]; linarith [(abs_lt.1 htau).2]
  obtain ⟨W, hW, w1, w2⟩ := getW_gt hki
  obtain ⟨f1, f2⟩ := time_lt_par hS ht hki hui w1 w2
  rw [← htofP] at f2
  have hF := getTOF_eq (S := S) (W := W) hui.le
  unfold guessHyperbolic
  rw [if_neg (by norm_num)]
  unfold guessH
  simp only []
  rw [pdiv_eq ht.ne', ok_bind, pdiv_eq hp.ne', ok_bind, hW, ok_bind, hF, ok_bind]
  rw [show (0.0 : ℝ) = 0 by norm_num, show (1.0 : ℝ) = 1 by norm_num]
  obtain ⟨x, e, x0, -, x1, -⟩ := getX_mem (n := 2) f1 f2 h1.le h2 (by positivity : 0 < 1 / Real.sqrt 2)
    (by rw [div_lt_one hp]; linarith)
  rw [e, ok_bind]
  have x1' := x1 h1
  have hx : x ^ 2 < 1 := by nlinarith
  refine ⟨_, rfl, ?_, ?_⟩
  · have : 0 ≤ (1 / tau - Real.sqrt 2) * x ^ 2 := mul_nonneg (by linarith) (sq_nonneg x)
    linarith
  · have : (1 / tau - Real.sqrt 2) * x ^ 2 < 1 / tau - Real.sqrt 2 := by nlinarith
    rw [sub_pos, ← lt_div_iff₀ ht]
    linarith

end Arora

/-- **C90**, hyperbolic starts.  For every geometry and every flight time up to that of the parabola, the start of `arora2013` is
defined, belongs to the hyperbolic side, `√2 ≤ k`, and to the domain of the time equation, `k tau < 1`. -/
theorem arora_hyperbolic_start {mu : ℝ} (hmu : 0 < mu) {r1 r2 : V3} (hna : NotAligned r1 r2) (pro : Bool) {tof : ℝ} (h0 : 0 < tof)
    (h1 : tof ≤ parabolicTime mu r1 r2 pro) (minimize : Minimizer) (brentq : Brent) (low : Bool) (atol rtol : ℝ) :
    ∃ k, initialGuess minimize brentq (tof / Tref mu r1) (tofPOf pro r1 r2) (tauOf pro r1 r2) (Shat r1 r2) (dsign pro r1 r2) 0
        low atol rtol = .ok k ∧ Real.sqrt 2 ≤ k ∧ 0 < 1 - k * tauOf pro r1 r2 := by
  have hR1 := norm_pos_of_notAligned_left hna
  have hR2 := norm_pos_of_notAligned_right hna
  have hS : 0 < Shat r1 r2 := by unfold Shat; positivity
  have hT : 0 < Tref mu r1 := by unfold Tref; positivity
  have hl := lt_sqrt2
  have hu := sqrt2_lt
  norm_num at hl hu
  have hle : tof / Tref mu r1 ≤ tofPOf pro r1 r2 := by rw [div_le_iff₀' hT, tofP_eq hmu hna]; exact h1
  rw [guess_zero, if_pos hle]
  rcases tau_sign hna pro with ⟨hd, ht⟩ | ⟨hd, ht⟩
  · rw [hd]
    exact short_start (tau_lt hna pro) hS ht rfl (by positivity) hle
  · rw [hd]
    obtain ⟨k, e, hk⟩ := long_start (tau_lt hna pro) hS ht (hyp_lt_par hmu hna pro (by linarith) (by
      have : 0 < (2 * Real.sqrt 2 + 20) / 3 := by positivity
      nlinarith)).2 (by positivity : 0 < tof / Tref mu r1) hle
    exact ⟨k, e, hk, by nlinarith⟩

/-- The time that `arora2013` tabulates for the parameter `k`, with the tabulated value `W`. -/
noncomputable def aroraSample (mu : ℝ) (r1 r2 : V3) (pro : Bool) (k W : ℝ) : ℝ :=
  Tref mu r1 * (Shat r1 r2 * Real.sqrt (1 - k * tauOf pro r1 r2) * (tauOf pro r1 r2 + (1 - k * tauOf pro r1 r2) * W))

/-- **C90**, elliptic starts.  For every geometry and every flight time from that of the parabola to the last one tabulated, at
`k = -1.41`, the start of `arora2013` is defined and belongs to the elliptic side, and between two tabulated times it lies between
the values of `k` that were tabulated, up to `1e-4` in the last two regions.  Slower problems start outside the domain
(`arora_slow_refused`). -/
theorem arora_elliptic_start {mu : ℝ} (hmu : 0 < mu) {r1 r2 : V3} (hna : NotAligned r1 r2) (pro : Bool) {tof : ℝ}
    (h1 : parabolicTime mu r1 r2 pro < tof) (h2 : tof ≤ aroraSample mu r1 r2 pro (-1.41) 4839.684497246)
    (minimize : Minimizer) (brentq : Brent) (low : Bool) (atol rtol : ℝ) :
    ∃ k, initialGuess minimize brentq (tof / Tref mu r1) (tofPOf pro r1 r2) (tauOf pro r1 r2) (Shat r1 r2) (dsign pro r1 r2) 0
        low atol rtol = .ok k ∧ -Real.sqrt 2 < k ∧ k < Real.sqrt 2 ∧
      (tof ≤ aroraSample mu r1 r2 pro 0 1.110720735 → 0 ≤ k) ∧
      (aroraSample mu r1 r2 pro 0 1.110720735 < tof → tof ≤ aroraSample mu r1 r2 pro (-1) 5.712388981 → -1 ≤ k ∧ k ≤ 0) ∧
      (aroraSample mu r1 r2 pro (-1) 5.712388981 < tof → tof ≤ aroraSample mu r1 r2 pro (-1.38) 212.087279879 →
        -1.3801 ≤ k ∧ k ≤ -1) ∧
      (aroraSample mu r1 r2 pro (-1.38) 212.087279879 < tof → -1.4101 ≤ k ∧ k ≤ -1.3799) := by
  have hR1 := norm_pos_of_notAligned_left hna
  have hR2 := norm_pos_of_notAligned_right hna
  have hS : 0 < Shat r1 r2 := by unfold Shat; positivity
  have hT : 0 < Tref mu r1 := by unfold Tref; positivity
  have hgt : tofPOf pro r1 r2 < tof / Tref mu r1 := by rw [lt_div_iff₀' hT, tofP_eq hmu hna]; exact h1
  have e141 : aroraSample mu r1 r2 pro (-1.41) 4839.684497246 = Tref mu r1 * (Shat r1 r2 * Real.sqrt (1 + 1.41 * tauOf pro r1 r2) *
      (tauOf pro r1 r2 + (1 + 1.41 * tauOf pro r1 r2) * 4839.684497246)) := by
    unfold aroraSample; rw [show 1 - -1.41 * tauOf pro r1 r2 = 1 + 1.41 * tauOf pro r1 r2 by ring]
  have e138 : aroraSample mu r1 r2 pro (-1.38) 212.087279879 = Tref mu r1 * (Shat r1 r2 * Real.sqrt (1 + 1.38 * tauOf pro r1 r2) *
      (tauOf pro r1 r2 + (1 + 1.38 * tauOf pro r1 r2) * 212.087279879)) := by
    unfold aroraSample; rw [show 1 - -1.38 * tauOf pro r1 r2 = 1 + 1.38 * tauOf pro r1 r2 by ring]
  have e1 : aroraSample mu r1 r2 pro (-1) 5.712388981 = Tref mu r1 * (Shat r1 r2 * Real.sqrt (1 + tauOf pro r1 r2) *
      (tauOf pro r1 r2 + (1 + tauOf pro r1 r2) * 5.712388981)) := by
    unfold aroraSample; rw [show 1 - -1 * tauOf pro r1 r2 = 1 + tauOf pro r1 r2 by ring]
  have e0 : aroraSample mu r1 r2 pro 0 1.110720735 = Tref mu r1 * (Shat r1 r2 * (tauOf pro r1 r2 + 1.110720735)) := by
    unfold aroraSample; rw [zero_mul, sub_zero, Real.sqrt_one, mul_one, one_mul]
  rw [e141, ← div_le_iff₀' hT] at h2
  rw [e138, e1, e0, guess_zero, if_neg (not_le.2 hgt), ← div_le_iff₀' hT, ← div_le_iff₀' hT, ← div_le_iff₀' hT, ← lt_div_iff₀' hT,
    ← lt_div_iff₀' hT, ← lt_div_iff₀' hT]
  obtain ⟨k, a1, a2, a3, a4, a5, a6, a7⟩ := elliptic_guess (tau_lt hna pro) hS rfl hgt h2
  have hl := sqrt2_fine
  exact ⟨k, a1, by norm_num at hl a2; linarith, a3, a4, a5, a6, a7⟩

/-- The tabulated times are in order, the parabolic one first: none of the regions of the initial guess is empty. -/
theorem arora_samples_ordered {mu : ℝ} (hmu : 0 < mu) {r1 r2 : V3} (hna : NotAligned r1 r2) (pro : Bool) :
    0 < parabolicTime mu r1 r2 pro ∧
    parabolicTime mu r1 r2 pro < aroraSample mu r1 r2 pro 0 1.110720735 ∧
    aroraSample mu r1 r2 pro 0 1.110720735 < aroraSample mu r1 r2 pro (-1) 5.712388981 ∧
    aroraSample mu r1 r2 pro (-1) 5.712388981 < aroraSample mu r1 r2 pro (-1.38) 212.087279879 ∧
    aroraSample mu r1 r2 pro (-1.38) 212.087279879 < aroraSample mu r1 r2 pro (-1.41) 4839.684497246 := by
  have hR1 := norm_pos_of_notAligned_left hna
  have hR2 := norm_pos_of_notAligned_right hna
  have hS : 0 < Shat r1 r2 := by unfold Shat; positivity
  have hT : 0 < Tref mu r1 := by unfold Tref; positivity
  obtain ⟨o0, o1, o2, o3, o4, o5, o6⟩ := sampled_order (tau_lt hna pro) hS
  rw [show (-1.00 : ℝ) = -1 by norm_num] at o4 o5
  rw [← tofP_eq hmu hna]
  exact ⟨mul_pos hT o0, mul_lt_mul_of_pos_left (o1.trans o2) hT, mul_lt_mul_of_pos_left (o3.trans o4) hT,
    mul_lt_mul_of_pos_left o5 hT, mul_lt_mul_of_pos_left o6 hT⟩

/-- The hypotheses hold for two points a quarter of a turn apart, by `arora_samples_ordered` for a time in each region. -/
example : ∃ tof, parabolicTime 1 ⟨1, 0, 0⟩ ⟨0, 1, 0⟩ true < tof ∧ tof ≤ aroraSample 1 ⟨1, 0, 0⟩ ⟨0, 1, 0⟩ true (-1.41) 4839.684497246 := by
  obtain ⟨-, a, b, c, d⟩ := arora_samples_ordered one_pos (r1 := ⟨1, 0, 0⟩) (r2 := ⟨0, 1, 0⟩)
    (fun h => by have : NotPolar (⟨1, 0, 0⟩ : V3) ⟨0, 1, 0⟩ := by norm_num [NotPolar]
                 exact this h.2.2) true
  exact ⟨_, a, (b.trans (c.trans d)).le⟩

end Lamberthub
