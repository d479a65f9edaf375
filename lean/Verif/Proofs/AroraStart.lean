import Verif.Props.AroraMore
import Mathlib.Analysis.SpecialFunctions.Pow.Continuity

/-! # The starting values of `arora2013` for slow, fast and nearly parabolic transfers -/

set_option autoImplicit false

namespace Lamberthub.Arora
open Filter Topology

theorem tau_bounds {tau : ℝ} (h : |Real.sqrt 2 * tau| < 1) : -0.7073 < tau ∧ tau < 0.7073 := by
  have h2 := lt_sqrt2
  obtain ⟨a, b⟩ := abs_lt.1 h
  constructor <;> by_contra hc <;> rw [not_lt] at hc <;> nlinarith

theorem getTOF_eq {k tau S W : ℝ} (h : 0 ≤ 1 - k * tau) :
    getTOF k tau S W = .ok (S * Real.sqrt (1 - k * tau) * (tau + (1 - k * tau) * W)) := by
  unfold getTOF; rw [psqrt_eq h, ok_bind]

theorem getX_eq {F0 F1 Fi Fs Z : ℝ} {n : ℕ} (h : (Fi - Fs) * (F1 - F0) * Z + (F0 - Fi) * (F1 - Fs) ≠ 0) :
    getX F0 F1 Fi Fs Z n =
      .ok ((Z * (F0 - Fs) * (F1 - Fi) / ((Fi - Fs) * (F1 - F0) * Z + (F0 - Fi) * (F1 - Fs))) ^ n) := by
  unfold getX; rw [pdiv_eq h, ok_bind]

/-- The limit of the starting value of slow transfers is below `-√2`. -/
theorem slow_constant : -(4439 / 3156 : ℝ) * (67286 / 17897 : ℝ) ^ (1 / 243 : ℝ) < -Real.sqrt 2 := by
  have h2 : Real.sqrt 2 ^ 2 = 2 := sqrt2_sq
  have hp := sqrt2_pos
  have h : Real.sqrt 2 / (4439 / 3156) < (67286 / 17897 : ℝ) ^ (1 / 243 : ℝ) := by
    rw [one_div, Real.lt_rpow_inv_iff_of_pos (by positivity) (by norm_num) (by norm_num)]
    rw [show (243 : ℝ) = ((243 : ℕ) : ℝ) by norm_num, Real.rpow_natCast]
    refine lt_of_pow_lt_pow_left₀ 2 (by norm_num) ?_
    rw [← pow_mul, mul_comm, pow_mul, div_pow, h2]
    norm_num
  rw [div_lt_iff₀ (by norm_num)] at h
  linarith

/-- Slow transfers start outside the domain. -/
theorem slow_guess {tau S : ℝ} (htau : |Real.sqrt 2 * tau| < 1) (hS : 0 < S) (tofP : ℝ) :
    ∀ᶠ tof in atTop, ∃ k, guessElliptic tof tofP tau S = .ok k ∧ k < -Real.sqrt 2 := by
  obtain ⟨ta, tb⟩ := tau_bounds htau
  norm_num at ta tb
  have hk : 0 ≤ 1 - 1 / Real.sqrt 2 * tau := by
    have e : 1 / Real.sqrt 2 * tau = (Real.sqrt 2 * tau) / 2 := by
      have := sqrt2_sq
      have hp := sqrt2_pos
      field_simp; linear_combination (-tau) * this
    rw [e]; linarith [(abs_lt.1 htau).2]
  obtain ⟨A, hA⟩ : ∃ A, A = S * Real.sqrt (1 - -1.38 * tau) * (tau + (1 - -1.38 * tau) * 212.087279879) := ⟨_, rfl⟩
  obtain ⟨B, hB⟩ : ∃ B, B = S * Real.sqrt (1 - -1.41 * tau) * (tau + (1 - -1.41 * tau) * 4839.684497246) := ⟨_, rfl⟩
  have hA0 : 0 < A := by
    rw [hA]
    have h1 : 0 < 1 - -1.38 * tau := by norm_num; linarith
    have h2 : 0 < tau + (1 - -1.38 * tau) * 212.087279879 := by norm_num; linarith
    positivity
  have hB0 : 0 < B := by
    rw [hB]
    have h1 : 0 < 1 - -1.41 * tau := by norm_num; linarith
    have h2 : 0 < tau + (1 - -1.41 * tau) * 4839.684497246 := by norm_num; linarith
    positivity
  obtain ⟨q, hq⟩ : ∃ q : ℝ → ℝ, q = fun s => ((1 / B * (s - 1 / A) * (49267 / 27059) - 2813 / 287443 * (1 / A * (s - 1 / B))) * (67286 / 17897) +
      2813 / 287443 * (49267 / 27059) * (s * (1 / A - 1 / B))) /
    (1 / A * (s - 1 / B) * (49267 / 27059) - 2813 / 287443 * (1 / B * (s - 1 / A)) - s * (1 / A - 1 / B) * (67286 / 17897)) := ⟨_, rfl⟩
  have hd0 : (1 / A * (0 - 1 / B) * (49267 / 27059) - 2813 / 287443 * (1 / B * (0 - 1 / A)) - 0 * (1 / A - 1 / B) * (67286 / 17897) : ℝ) ≠ 0 := by
    have : (1 / A * (0 - 1 / B) * (49267 / 27059) - 2813 / 287443 * (1 / B * (0 - 1 / A)) - 0 * (1 / A - 1 / B) * (67286 / 17897) : ℝ) =
      -((49267 / 27059 - 2813 / 287443) * (1 / A * (1 / B))) := by ring
    rw [this]
    exact neg_ne_zero.2 (by norm_num; exact ⟨hA0.ne', hB0.ne'⟩)
  have hq0 : q 0 = 67286 / 17897 := by
    rw [hq]
    simp only []
    rw [div_eq_iff hd0]
    ring
  have hqc : ContinuousAt q 0 := by
    rw [hq]
    exact ContinuousAt.div (by fun_prop) (by fun_prop) hd0
  have hden : ∀ᶠ s in 𝓝 (0 : ℝ), (1 / A * (s - 1 / B) * (49267 / 27059) - 2813 / 287443 * (1 / B * (s - 1 / A)) -
      s * (1 / A - 1 / B) * (67286 / 17897) : ℝ) ≠ 0 := by
    have hc : ContinuousAt (fun s : ℝ => (1 / A * (s - 1 / B) * (49267 / 27059) - 2813 / 287443 * (1 / B * (s - 1 / A)) -
      s * (1 / A - 1 / B) * (67286 / 17897) : ℝ)) 0 := by fun_prop
    exact hc.eventually_ne hd0
  have hpos : ∀ᶠ s in 𝓝 (0 : ℝ), 0 < q s := hqc.eventually (eventually_gt_nhds (by rw [hq0]; norm_num))
  have hlt : ∀ᶠ s in 𝓝 (0 : ℝ), -(4439 / 3156 : ℝ) * q s ^ (1 / 243 : ℝ) < -Real.sqrt 2 := by
    have hc : ContinuousAt (fun s => -(4439 / 3156 : ℝ) * q s ^ (1 / 243 : ℝ)) 0 :=
      continuousAt_const.mul (hqc.rpow_const (Or.inl (by rw [hq0]; norm_num)))
    exact hc.eventually (eventually_lt_nhds (by simp only []; rw [hq0]; exact slow_constant))
  have hinv : Tendsto (fun tof : ℝ => 1 / tof) atTop (𝓝 0) := by
    simpa [one_div] using tendsto_inv_atTop_zero (𝕜 := ℝ)
  filter_upwards [hinv.eventually hden, hinv.eventually hpos, hinv.eventually hlt, eventually_gt_atTop 0,
    eventually_gt_atTop A, eventually_gt_atTop (S * Real.sqrt (1 - -1.00 * tau) * (tau + (1 - -1.00 * tau) * 5.712388981)),
    eventually_gt_atTop (S * Real.sqrt (1 - 0 * tau) * (tau + (1 - 0 * tau) * 1.110720735))] with tof g1 g2 g3 g4 g5 g6 g7
  refine ⟨_, ?_, g3⟩
  unfold guessElliptic
  rw [pdiv_eq sqrt2_pos.ne', ok_bind, getTOF_eq (by norm_num; linarith), ok_bind, getTOF_eq (by norm_num; linarith), ok_bind,
    getTOF_eq (by norm_num; linarith), ok_bind, getTOF_eq (by norm_num; linarith), ok_bind, getTOF_eq (by norm_num), ok_bind,
    getTOF_eq hk, ok_bind]
  rw [← hA, ← hB]
  rw [if_neg (not_le.2 g7), if_neg (fun h => absurd h.2 (not_le.2 g6)), if_neg (fun h => absurd h.2 (not_le.2 g5))]
  unfold guessRational getGammas
  rw [pdiv_eq hA0.ne', ok_bind, pdiv_eq hB0.ne', ok_bind, pdiv_eq g4.ne', ok_bind]
  simp only []
  rw [pdiv_eq g1, ok_bind]
  have hqe := congrFun hq (1 / tof)
  rw [← hqe]
  rw [prpow_ok.2 ⟨Or.inl g2, rfl⟩, ok_bind]

theorem series_bounds {k : ℝ} (h1 : Real.sqrt 2 < k) (h2 : k ≤ Real.sqrt 2 + epsilon) :
    0 < seriesW k ∧ seriesW k ≤ Real.sqrt 2 / 3 := by
  have hl := lt_sqrt2
  have hu := sqrt2_lt
  have he : epsilon = 2e-2 := rfl
  rw [he] at h2
  unfold seriesW
  simp only []
  obtain ⟨v, hv⟩ : ∃ v, v = k - Real.sqrt 2 := ⟨_, rfl⟩
  rw [← hv]
  have v0 : 0 < v := by linarith
  have v1 : v ≤ 0.02 := by norm_num at h2 ⊢; linarith
  generalize Real.sqrt 2 = r at *
  norm_num at hl hu v1
  have r0 : 0 < r := by linarith
  have p : ∀ n : ℕ, v ^ (n + 1) ≤ (1 / 50) * v ^ n := fun n => by
    rw [pow_succ, mul_comm]; exact mul_le_mul_of_nonneg_right v1 (by positivity)
  have p1 := p 1; have p2 := p 2; have p3 := p 3; have p4 := p 4; have p5 := p 5; have p6 := p 6; have p7 := p 7
  norm_num at p1 p2 p3 p4 p5 p6 p7
  have q2 : 0 ≤ v ^ 2 := by positivity
  have q3 : 0 ≤ v ^ 3 := by positivity
  have q4 : 0 ≤ v ^ 4 := by positivity
  have q5 : 0 ≤ v ^ 5 := by positivity
  have q6 : 0 ≤ v ^ 6 := by positivity
  have q7 : 0 ≤ v ^ 7 := by positivity
  have q8 : 0 ≤ v ^ 8 := by positivity
  have r2 : r * v ^ 2 ≤ 2 * v ^ 2 := mul_le_mul_of_nonneg_right (by linarith) q2
  have r4 : r * v ^ 4 ≤ 2 * v ^ 4 := mul_le_mul_of_nonneg_right (by linarith) q4
  have r6 : r * v ^ 6 ≤ 2 * v ^ 6 := mul_le_mul_of_nonneg_right (by linarith) q6
  have r8 : r * v ^ 8 ≤ 2 * v ^ 8 := mul_le_mul_of_nonneg_right (by linarith) q8
  have s2 : 0 ≤ r * v ^ 2 := by positivity
  have s4 : 0 ≤ r * v ^ 4 := by positivity
  have s6 : 0 ≤ r * v ^ 6 := by positivity
  have s8 : 0 ≤ r * v ^ 8 := by positivity
  constructor <;> linarith

/-- All values above `√2` are in the domain of `W`. -/
theorem getW_gt {k : ℝ} (h : Real.sqrt 2 < k) : ∃ W, getW k 0 = .ok W ∧ 0 < W ∧ W ≤ Real.sqrt 2 / 3 := by
  rcases le_or_gt k (Real.sqrt 2 + epsilon) with h1 | h1
  · refine ⟨seriesW k, ?_, series_bounds h h1⟩
    have he := eps_pos
    unfold getW
    simp only []
    rw [if_neg (by rintro (⟨_, a⟩ | ⟨a, _⟩) <;> [linarith; exact absurd a (by norm_num)]), if_neg (not_lt.2 h1),
      if_pos ⟨trivial, by linarith, h1⟩]
  · exact ⟨hypW k, getW_hyp h1, hypW_bounds h⟩

theorem getW_near {k : ℝ} (h1 : Real.sqrt 2 - epsilon < k) (h2 : k < Real.sqrt 2 + epsilon) : getW k 0 = .ok (seriesW k) := by
  unfold getW
  simp only []
  rw [if_neg (by rintro (⟨_, a⟩ | ⟨a, _⟩) <;> [linarith; exact absurd a (by norm_num)]), if_neg (not_lt.2 h2.le),
    if_pos ⟨trivial, h1.le, h2.le⟩]

theorem derivs_ok {k : ℝ} (h : Real.sqrt 2 - epsilon < k) (W : ℝ) :
    ∃ Wp Wpp, getWprime k W 0 = .ok Wp ∧ getW2prime k W Wp 0 = .ok Wpp := by
  have he := eps_pos
  have hs := sqrt2_sq
  have hp := sqrt2_pos
  have n1 : ¬ (k < Real.sqrt 2 - epsilon ∨ (0 : ℤ) > 0 ∧ k < Real.sqrt 2) := by
    rintro (a | ⟨a, _⟩) <;> [linarith; exact absurd a (by norm_num)]
  by_cases h2 : k < Real.sqrt 2 + epsilon
  · refine ⟨getWsprime k, getWs2prime k, ?_, ?_⟩
    · unfold getWprime
      simp only []
      rw [if_neg n1, if_pos ⟨trivial, h, h2⟩]
    · unfold getW2prime
      simp only []
      rw [if_neg n1, if_pos ⟨trivial, h, h2⟩]
  · have hm : 2 - k ^ 2 ≠ 0 := by nlinarith
    refine ⟨(-2 + 3 * W * k) / (2 - k ^ 2), (5 * ((-2 + 3 * W * k) / (2 - k ^ 2)) * k + 3 * W) / (2 - k ^ 2), ?_, ?_⟩
    rotate_left
    · unfold getW2prime
      simp only []
      rw [if_neg n1, if_neg (fun hh => h2 hh.2.2), pdiv_eq hm]
    · unfold getWprime
      simp only []
      rw [if_neg n1, if_neg (fun hh => h2 hh.2.2), pdiv_eq hm]

/-- A start that is good enough is returned at once. -/
theorem iterate_first {tof tofP tau S d atol k W : ℝ} (ht : tau ≠ 0) (hk : Real.sqrt 2 - epsilon < k) (hW : getW k 0 = .ok W)
    (hu : 0 ≤ 1 - k * tau) (hle : |tof - S * Real.sqrt (1 - k * tau) * (tau + (1 - k * tau) * W)| ≤ atol) (m : ℕ) :
    iterate tof tofP tau S d 0 atol (m + 1) 0 k = .ok (k, 1) := by
  obtain ⟨Wp, Wpp, e1, e2⟩ := derivs_ok hk W
  rw [iterate, hW, ok_bind, e1, ok_bind, e2, ok_bind, pdiv_eq ht, ok_bind, getTOF_eq hu, ok_bind, if_pos hle]

/-- A start outside the domain is refused. -/
theorem iterate_refused {tof tofP tau S d atol k : ℝ} (hk : k < -Real.sqrt 2) (m n : ℕ) :
    iterate tof tofP tau S d 0 atol (m + 1) n k = .error (.valueError "Did not found a suitable equaiton to find W!") := by
  have hp := sqrt2_pos
  have hl := lt_sqrt2
  have he : epsilon = 2e-2 := rfl
  rw [iterate]
  unfold getW
  simp only []
  norm_num at hl he
  rw [if_neg (by rintro (⟨a, _⟩ | ⟨_, a, _⟩) <;> linarith), if_neg (by linarith), if_neg (by rintro ⟨_, a, _⟩; linarith), error_bind]

/-- Short-way times for any admissible value of `W`. -/
theorem time_lt_par {S tau k W : ℝ} (hS : 0 < S) (ht : 0 < tau) (hk : Real.sqrt 2 < k) (hu : 0 < 1 - k * tau)
    (h1 : 0 < W) (h2 : W ≤ Real.sqrt 2 / 3) :
    0 < S * Real.sqrt (1 - k * tau) * (tau + (1 - k * tau) * W) ∧
    S * Real.sqrt (1 - k * tau) * (tau + (1 - k * tau) * W) <
      S * Real.sqrt (1 - Real.sqrt 2 * tau) * (tau + Real.sqrt 2) / 3 := by
  have hlt : 1 - k * tau < 1 - Real.sqrt 2 * tau := by nlinarith
  have hq := Real.sqrt_lt_sqrt hu.le hlt
  have hq0 : 0 < Real.sqrt (1 - k * tau) := by positivity
  refine ⟨by positivity, ?_⟩
  have e : S * Real.sqrt (1 - Real.sqrt 2 * tau) * (tau + Real.sqrt 2) / 3 =
      S * Real.sqrt (1 - Real.sqrt 2 * tau) * (tau + (1 - Real.sqrt 2 * tau) * (Real.sqrt 2 / 3)) := by
    have := sqrt2_sq
    linear_combination S * Real.sqrt (1 - Real.sqrt 2 * tau) * tau / 3 * this
  rw [e]
  have hp := sqrt2_pos
  have h3 : (1 - k * tau) * W ≤ (1 - Real.sqrt 2 * tau) * (Real.sqrt 2 / 3) :=
    mul_le_mul hlt.le h2 h1.le (by linarith)
  have h4 : S * Real.sqrt (1 - k * tau) < S * Real.sqrt (1 - Real.sqrt 2 * tau) := mul_lt_mul_of_pos_left hq hS
  have h5 : 0 < (1 - k * tau) * W := by positivity
  exact mul_lt_mul h4 (by linarith) (by linarith) (by positivity)

/-- The start of fast short-way transfers: strictly inside the domain, with a time of flight that tends to zero. -/
theorem short_guess {tau S tofP : ℝ} (htau : |Real.sqrt 2 * tau| < 1) (hS : 0 < S) (ht : 0 < tau)
    (htofP : tofP = S * Real.sqrt (1 - Real.sqrt 2 * tau) * (tau + Real.sqrt 2) / 3) :
    ∃ Fi, 0 < Fi ∧ Fi < tofP ∧ ∀ tof, 0 < tof → tof < tofP →
      0 < (1 / Real.sqrt 2 * Fi * (tofP - tof) / (1 / Real.sqrt 2 * tofP * (Fi - tof) + (tofP - Fi) * tof)) ∧
      (1 / Real.sqrt 2 * Fi * (tofP - tof) / (1 / Real.sqrt 2 * tofP * (Fi - tof) + (tofP - Fi) * tof)) < 1 ∧
      guessHyperbolic tof tofP tau S 1 0 = .ok (Real.sqrt 2 + (1 / tau - Real.sqrt 2) *
        (1 / Real.sqrt 2 * Fi * (tofP - tof) / (1 / Real.sqrt 2 * tofP * (Fi - tof) + (tofP - Fi) * tof)) ^ 2) := by
  have hp := sqrt2_pos
  have hl := lt_sqrt2
  have hkm : Real.sqrt 2 < 1 / tau := by rw [lt_div_iff₀ ht]; exact (abs_lt.1 htau).2
  have hki : Real.sqrt 2 < (Real.sqrt 2 + 1 / tau) / 2 := by linarith
  have hui : 0 < 1 - (Real.sqrt 2 + 1 / tau) / 2 * tau := by
    have e : (Real.sqrt 2 + 1 / tau) / 2 * tau = (Real.sqrt 2 * tau + 1) / 2 := by field_simp
    rw [e]; linarith [(abs_lt.1 htau).2]
  obtain ⟨W, hW, w1, w2⟩ := getW_gt hki
  obtain ⟨f1, f2⟩ := time_lt_par hS ht hki hui w1 w2
  rw [← htofP] at f2
  have hF := getTOF_eq (S := S) (W := W) hui.le
  generalize S * Real.sqrt (1 - (Real.sqrt 2 + 1 / tau) / 2 * tau) * (tau + (1 - (Real.sqrt 2 + 1 / tau) / 2 * tau) * W) = Fi at *
  have hZ0 : 0 < 1 / Real.sqrt 2 := by positivity
  have hZ1 : 1 / Real.sqrt 2 < 1 := by rw [div_lt_one hp]; norm_num at hl ⊢; linarith
  refine ⟨Fi, f1, f2, fun tof h0 h1 => ?_⟩
  have hd : 0 < 1 / Real.sqrt 2 * tofP * (Fi - tof) + (tofP - Fi) * tof := by
    have e : 1 / Real.sqrt 2 * tofP * (Fi - tof) + (tofP - Fi) * tof =
      1 / Real.sqrt 2 * Fi * (tofP - tof) + (1 - 1 / Real.sqrt 2) * ((tofP - Fi) * tof) := by ring
    rw [e]
    have a1 : 0 < tofP - tof := by linarith
    have a2 : 0 < tofP - Fi := by linarith
    have a3 : 0 < 1 - 1 / Real.sqrt 2 := by linarith
    positivity
  refine ⟨?_, ?_, ?_⟩
  · have a1 : 0 < tofP - tof := by linarith
    positivity
  · rw [div_lt_one hd]
    have a2 : 0 < tofP - Fi := by linarith
    have a3 : 0 < 1 - 1 / Real.sqrt 2 := by linarith
    have : 0 < (1 - 1 / Real.sqrt 2) * ((tofP - Fi) * tof) := by positivity
    linarith
  · unfold guessHyperbolic
    rw [if_neg (by norm_num)]
    unfold guessH
    simp only []
    rw [pdiv_eq ht.ne', ok_bind, pdiv_eq hp.ne', ok_bind, hW, ok_bind, hF, ok_bind]
    rw [show (0.0 : ℝ) = 0 by norm_num, show (1.0 : ℝ) = 1 by norm_num]
    have hne : (Fi - tof) * (0 - tofP) * (1 / Real.sqrt 2) + (tofP - Fi) * (0 - tof) ≠ 0 := by
      have : (Fi - tof) * (0 - tofP) * (1 / Real.sqrt 2) + (tofP - Fi) * (0 - tof) =
        -(1 / Real.sqrt 2 * tofP * (Fi - tof) + (tofP - Fi) * tof) := by ring
      rw [this]; exact neg_ne_zero.2 hd.ne'
    rw [getX_eq hne, ok_bind]
    congr 4
    rw [div_eq_div_iff hne hd.ne']
    ring

/-- A bound for the time of fast long-way transfers. -/
theorem long_time_le {S tau k : ℝ} (hS : 0 < S) (h0 : tau < 0) (h1 : -1 < tau) (hk : 2 ≤ k) :
    S * Real.sqrt (1 - k * tau) * (tau + (1 - k * tau) * hypW k) ≤ S * (4 * Real.sqrt 2 / Real.sqrt k) := by
  have hl := sqrt2_lt
  norm_num at hl
  have hk0 : 0 < k := by linarith
  have hm : 0 < k ^ 2 - 2 := by nlinarith
  have hu : 0 < 1 - k * tau := by nlinarith
  have hW : hypW k ≤ k / (k ^ 2 - 2) := by
    have : 0 ≤ Real.arcosh (k / Real.sqrt 2) := by
      obtain ⟨φ, hφ, h0, -⟩ := hyp_angle (k := k) (by linarith)
      rw [← hφ]; exact h0.le
    unfold hypW
    have : 0 ≤ 2 * Real.arcosh (k / Real.sqrt 2) / Real.sqrt (k ^ 2 - 2) ^ 3 := by positivity
    linarith
  have h3 : tau + (1 - k * tau) * hypW k ≤ 4 / k := by
    have h4 : (1 - k * tau) * hypW k ≤ (1 - k * tau) * (k / (k ^ 2 - 2)) := mul_le_mul_of_nonneg_left hW hu.le
    have h5 : tau + (1 - k * tau) * (k / (k ^ 2 - 2)) = (k - 2 * tau) / (k ^ 2 - 2) := by field_simp; ring
    have h6 : (k - 2 * tau) / (k ^ 2 - 2) ≤ 4 / k := by
      rw [div_le_div_iff₀ hm hk0]
      nlinarith
    linarith
  have h7 : Real.sqrt (1 - k * tau) ≤ Real.sqrt 2 * Real.sqrt k := by
    rw [← Real.sqrt_mul (by norm_num)]
    exact Real.sqrt_le_sqrt (by nlinarith)
  have h8 : 0 ≤ 4 / k := by positivity
  calc S * Real.sqrt (1 - k * tau) * (tau + (1 - k * tau) * hypW k) ≤ S * Real.sqrt (1 - k * tau) * (4 / k) :=
        mul_le_mul_of_nonneg_left h3 (by positivity)
    _ ≤ S * (Real.sqrt 2 * Real.sqrt k) * (4 / k) := by gcongr
    _ = S * (4 * Real.sqrt 2 / Real.sqrt k) := by
        have hq := Real.sq_sqrt hk0.le
        have hq0 := Real.sqrt_pos.2 hk0
        field_simp
        linear_combination hq

/-- The two limits of the long-way start. -/
theorem long_limits {tau S : ℝ} (htau : |Real.sqrt 2 * tau| < 1) (hS : 0 < S) (h0 : tau < 0) :
    ∃ a b, 0 < b ∧ b < a ∧ a < S * Real.sqrt (1 - Real.sqrt 2 * tau) * (tau + Real.sqrt 2) / 3 ∧
      tofLimit S tau 20 0.04940968903 = .ok a ∧ tofLimit S tau 100 0.00999209404 = .ok b := by
  obtain ⟨ta, tb⟩ := tau_bounds htau
  norm_num at ta tb
  have hl := lt_sqrt2
  have hu := sqrt2_lt
  norm_num at hl hu
  have e20 : 0 ≤ 1 - 20 * tau := by linarith
  have e100 : 0 ≤ 1 - 100 * tau := by linarith
  refine ⟨S * Real.sqrt (1 - 20 * tau) * (tau + 0.04940968903 * (1 - 20 * tau)),
    S * Real.sqrt (1 - 100 * tau) * (tau + 0.00999209404 * (1 - 100 * tau)), ?_, ?_, ?_, ?_, ?_⟩
  · have h1 : 0 < 1 - 100 * tau := by linarith
    have h2 : 0 < tau + 0.00999209404 * (1 - 100 * tau) := by norm_num; linarith
    positivity
  · rw [mul_assoc, mul_assoc]
    refine mul_lt_mul_of_pos_left ?_ hS
    have b1 : tau + 0.00999209404 * (1 - 100 * tau) ≤ 0.01 := by norm_num; linarith
    have b2 : (0.041 : ℝ) ≤ tau + 0.04940968903 * (1 - 20 * tau) := by norm_num; linarith
    have b3 : Real.sqrt (1 - 100 * tau) ≤ 3 * Real.sqrt (1 - 20 * tau) := by
      rw [show (3 : ℝ) = Real.sqrt 9 by rw [show (9 : ℝ) = 3 ^ 2 by norm_num, Real.sqrt_sq (by norm_num)],
        ← Real.sqrt_mul (by norm_num)]
      exact Real.sqrt_le_sqrt (by linarith)
    have b4 : 0 < Real.sqrt (1 - 20 * tau) := Real.sqrt_pos.2 (by linarith)
    have b5 : 0 ≤ Real.sqrt (1 - 100 * tau) := Real.sqrt_nonneg _
    norm_num at b1 b2
    calc Real.sqrt (1 - 100 * tau) * (tau + 0.00999209404 * (1 - 100 * tau)) ≤ Real.sqrt (1 - 100 * tau) * (1 / 100) := by
          refine mul_le_mul_of_nonneg_left ?_ b5; norm_num; linarith
      _ ≤ 3 * Real.sqrt (1 - 20 * tau) * (1 / 100) := by gcongr
      _ < Real.sqrt (1 - 20 * tau) * (41 / 1000) := by linarith
      _ ≤ _ := by refine mul_le_mul_of_nonneg_left ?_ b4.le; norm_num; linarith
  · rw [mul_assoc, mul_assoc, mul_div_assoc]
    refine mul_lt_mul_of_pos_left ?_ hS
    have c1 : Real.sqrt (1 - 20 * tau) ≤ 4 := by
      rw [Real.sqrt_le_left (by norm_num)]; linarith
    have c2 : tau + 0.04940968903 * (1 - 20 * tau) ≤ 0.0495 := by norm_num; linarith
    have c3 : 0 ≤ tau + 0.04940968903 * (1 - 20 * tau) := by norm_num; linarith
    have c4 : 1 ≤ Real.sqrt (1 - Real.sqrt 2 * tau) := by
      rw [Real.one_le_sqrt]; nlinarith
    have c5 : 0.2 < (tau + Real.sqrt 2) / 3 := by norm_num; linarith
    calc Real.sqrt (1 - 20 * tau) * (tau + 0.04940968903 * (1 - 20 * tau)) ≤ 4 * 0.0495 := mul_le_mul c1 c2 c3 (by norm_num)
      _ < 1 * 0.2 := by norm_num
      _ < 1 * ((tau + Real.sqrt 2) / 3) := by linarith
      _ ≤ Real.sqrt (1 - Real.sqrt 2 * tau) * ((tau + Real.sqrt 2) / 3) :=
          mul_le_mul_of_nonneg_right c4 (by norm_num at c5; linarith)
      _ = _ := by ring
  · unfold tofLimit; rw [psqrt_eq e20, ok_bind]
  · unfold tofLimit; rw [psqrt_eq e100, ok_bind]

/-- The start of fast long-way transfers tends to infinity. -/
theorem long_guess {tau S tofP : ℝ} (htau : |Real.sqrt 2 * tau| < 1) (hS : 0 < S) (h0 : tau < 0) :
    ∃ k : ℝ → ℝ, Tendsto k (𝓝[>] 0) atTop ∧ ∀ᶠ tof in 𝓝[>] 0, guessHyperbolic tof tofP tau S (-1) 0 = .ok (k tof) := by
  obtain ⟨a, b, hb, hab, -, e1, e2⟩ := long_limits htau hS h0
  have ha : 0 < a := hb.trans hab
  have h20 : Real.sqrt 20 < 10 := by rw [Real.sqrt_lt' (by norm_num)]; norm_num
  have h200 : 0 ≤ Real.sqrt 20 := Real.sqrt_nonneg _
  refine ⟨fun tof => ((b * (a - tof) * 10 - a * Real.sqrt 20 * (b - tof)) / (tof * (a - b))) ^ 2, ?_, ?_⟩
  · refine (tendsto_pow_atTop (α := ℝ) two_ne_zero).comp ?_
    have hn : Tendsto (fun tof : ℝ => (b * (a - tof) * 10 - a * Real.sqrt 20 * (b - tof)) / (a - b)) (𝓝[>] 0)
        (𝓝 (a * b * (10 - Real.sqrt 20) / (a - b))) := by
      have hc : Continuous (fun tof : ℝ => (b * (a - tof) * 10 - a * Real.sqrt 20 * (b - tof)) / (a - b)) := by fun_prop
      have := (hc.tendsto 0).mono_left (nhdsWithin_le_nhds (s := Set.Ioi 0))
      rw [show (b * (a - 0) * 10 - a * Real.sqrt 20 * (b - 0)) / (a - b) = a * b * (10 - Real.sqrt 20) / (a - b) by ring] at this
      exact this
    have hp : 0 < a * b * (10 - Real.sqrt 20) / (a - b) := by
      have : 0 < 10 - Real.sqrt 20 := by linarith
      have h3 : 0 < a - b := by linarith
      positivity
    refine (hn.pos_mul_atTop hp tendsto_inv_nhdsGT_zero).congr' ?_
    filter_upwards [self_mem_nhdsWithin] with tof ht
    have : a - b ≠ 0 := by linarith
    have ht0 : tof ≠ 0 := ne_of_gt ht
    field_simp
  · filter_upwards [self_mem_nhdsWithin, nhdsWithin_le_nhds (eventually_lt_nhds ha)] with tof ht hlt
    unfold guessHyperbolic
    rw [if_pos rfl, e1, ok_bind, e2, ok_bind, if_neg (not_lt.2 hlt.le)]
    unfold guessH2
    rw [pdiv_eq (mul_ne_zero (ne_of_gt ht) (by linarith)), ok_bind]

/-- The starts just below the parabolic time. -/
theorem near_hyp {tau S tofP d : ℝ} (htau : |Real.sqrt 2 * tau| < 1) (hS : 0 < S)
    (hd : (d = 1 ∧ 0 < tau) ∨ (d = -1 ∧ tau < 0))
    (htofP : tofP = S * Real.sqrt (1 - Real.sqrt 2 * tau) * (tau + Real.sqrt 2) / 3)
    (hlong : tau < 0 → S * Real.sqrt (1 - (2 * Real.sqrt 2 + 20) / 3 * tau) * (tau + (1 - (2 * Real.sqrt 2 + 20) / 3 * tau) *
      hypW ((2 * Real.sqrt 2 + 20) / 3)) < tofP) :
    ∃ g : ℝ → ℝ, ContinuousAt g tofP ∧ g tofP = Real.sqrt 2 ∧ ∀ᶠ tof in 𝓝 tofP, guessHyperbolic tof tofP tau S d 0 = .ok (g tof) := by
  have hp := sqrt2_pos
  have hl := lt_sqrt2
  have hu2 := sqrt2_lt
  have he : epsilon = 2e-2 := rfl
  norm_num at hl hu2 he
  rcases hd with ⟨rfl, ht⟩ | ⟨rfl, ht⟩
  · have hkm : Real.sqrt 2 < 1 / tau := by rw [lt_div_iff₀ ht]; exact (abs_lt.1 htau).2
    have hki : Real.sqrt 2 < (Real.sqrt 2 + 1 / tau) / 2 := by linarith
    have hui : 0 < 1 - (Real.sqrt 2 + 1 / tau) / 2 * tau := by
      have e : (Real.sqrt 2 + 1 / tau) / 2 * tau = (Real.sqrt 2 * tau + 1) / 2 := by field_simp
      rw [e]; linarith [(abs_lt.1 htau).2]
    obtain ⟨W, hW, w1, w2⟩ := getW_gt hki
    obtain ⟨f1, f2⟩ := time_lt_par hS ht hki hui w1 w2
    rw [← htofP] at f2
    have hF := getTOF_eq (S := S) (W := W) hui.le
    generalize S * Real.sqrt (1 - (Real.sqrt 2 + 1 / tau) / 2 * tau) * (tau + (1 - (Real.sqrt 2 + 1 / tau) / 2 * tau) * W) = Fi at *
    have hZ1 : 1 / Real.sqrt 2 < 1 := by rw [div_lt_one hp]; linarith
    have hne : (Fi - tofP) * (0 - tofP) * (1 / Real.sqrt 2) + (tofP - Fi) * (0 - tofP) ≠ 0 := by
      have : (Fi - tofP) * (0 - tofP) * (1 / Real.sqrt 2) + (tofP - Fi) * (0 - tofP) =
        -((tofP - Fi) * tofP * (1 - 1 / Real.sqrt 2)) := by ring
      rw [this]
      refine neg_ne_zero.2 (mul_ne_zero (mul_ne_zero ?_ ?_) ?_) <;> linarith
    have hc : ContinuousAt (fun tof => (Fi - tof) * (0 - tofP) * (1 / Real.sqrt 2) + (tofP - Fi) * (0 - tof)) tofP := by fun_prop
    refine ⟨fun tof => Real.sqrt 2 + (1 / tau - Real.sqrt 2) * (1 / Real.sqrt 2 * (tofP - tof) * (0 - Fi) /
      ((Fi - tof) * (0 - tofP) * (1 / Real.sqrt 2) + (tofP - Fi) * (0 - tof))) ^ 2, ?_, ?_, ?_⟩
    · exact continuousAt_const.add (continuousAt_const.mul ((ContinuousAt.div (by fun_prop) hc hne).pow 2))
    · simp
    · filter_upwards [hc.eventually_ne hne] with tof h
      unfold guessHyperbolic
      rw [if_neg (by norm_num)]
      unfold guessH
      simp only []
      rw [pdiv_eq ht.ne', ok_bind, pdiv_eq hp.ne', ok_bind, hW, ok_bind, hF, ok_bind]
      rw [show (0.0 : ℝ) = 0 by norm_num, show (1.0 : ℝ) = 1 by norm_num, getX_eq h, ok_bind]
  · obtain ⟨a, b, hb, hab, hap, e1, e2⟩ := long_limits htau hS ht
    rw [← htofP] at hap
    have hFi := hlong ht
    have hW : getW ((2 * Real.sqrt 2 + 20) / 3) 0 = .ok (hypW ((2 * Real.sqrt 2 + 20) / 3)) :=
      getW_hyp (by rw [he]; linarith)
    have hF := getTOF_eq (S := S) (W := hypW ((2 * Real.sqrt 2 + 20) / 3)) (k := (2 * Real.sqrt 2 + 20) / 3) (tau := tau) (by nlinarith)
    generalize S * Real.sqrt (1 - (2 * Real.sqrt 2 + 20) / 3 * tau) * (tau + (1 - (2 * Real.sqrt 2 + 20) / 3 * tau) *
      hypW ((2 * Real.sqrt 2 + 20) / 3)) = Fi at *
    have hne : (Fi - tofP) * (a - tofP) * (1 / 3) + (tofP - Fi) * (a - tofP) ≠ 0 := by
      have : (Fi - tofP) * (a - tofP) * (1 / 3) + (tofP - Fi) * (a - tofP) = (tofP - Fi) * (a - tofP) * (2 / 3) := by ring
      rw [this]
      refine mul_ne_zero (mul_ne_zero ?_ ?_) ?_ <;> linarith
    have hc : ContinuousAt (fun tof => (Fi - tof) * (a - tofP) * (1 / 3) + (tofP - Fi) * (a - tof)) tofP := by fun_prop
    refine ⟨fun tof => Real.sqrt 2 + (20 - Real.sqrt 2) * (1 / 3 * (tofP - tof) * (a - Fi) /
      ((Fi - tof) * (a - tofP) * (1 / 3) + (tofP - Fi) * (a - tof))) ^ 1, ?_, ?_, ?_⟩
    · exact continuousAt_const.add (continuousAt_const.mul ((ContinuousAt.div (by fun_prop) hc hne).pow 1))
    · simp
    · filter_upwards [hc.eventually_ne hne, eventually_gt_nhds hap] with tof h h5
      unfold guessHyperbolic
      rw [if_pos rfl, e1, ok_bind, e2, ok_bind, if_pos h5]
      unfold guessH1
      simp only []
      rw [hW, ok_bind, hF, ok_bind, getX_eq h, ok_bind]

/-- The starts just above the parabolic time. -/
theorem near_ell {tau S tofP : ℝ} (htau : |Real.sqrt 2 * tau| < 1) (hS : 0 < S)
    (htofP : tofP = S * Real.sqrt (1 - Real.sqrt 2 * tau) * (tau + Real.sqrt 2) / 3) :
    ∃ g : ℝ → ℝ, ContinuousAt g tofP ∧ g tofP = Real.sqrt 2 ∧ ∀ᶠ tof in 𝓝 tofP, guessElliptic tof tofP tau S = .ok (g tof) := by
  obtain ⟨ta, tb⟩ := tau_bounds htau
  norm_num at ta tb
  have hp := sqrt2_pos
  have hs := sqrt2_sq
  have hl := lt_sqrt2
  have hu2 := sqrt2_lt
  norm_num at hl hu2
  obtain ⟨u, hu⟩ : ∃ u, u = Real.sqrt 2 * tau := ⟨_, rfl⟩
  rw [← hu] at htau htofP
  obtain ⟨u1, u2⟩ := abs_lt.1 htau
  have htu : tau = u * Real.sqrt 2 / 2 := by rw [hu]; linear_combination (-tau / 2) * hs
  have hk1 : 1 / Real.sqrt 2 = Real.sqrt 2 / 2 := by rw [div_eq_div_iff hp.ne' two_ne_zero]; linear_combination (-1 : ℝ) * hs
  have e : 1 / Real.sqrt 2 * tau = u / 2 := by rw [hk1, hu]; ring
  have hk : 0 ≤ 1 - 1 / Real.sqrt 2 * tau := by rw [e]; linarith
  have hw1 : 0 < 1 - u := by linarith
  have hq := Real.sq_sqrt hw1.le
  have hq0 := Real.sqrt_pos.2 hw1
  have hP0 : tofP = S * (Real.sqrt 2 / 2 * (Real.sqrt (1 - u) * (u + 2) / 3)) := by
    rw [htofP, htu]; ring
  have h0 : tofP < S * Real.sqrt (1 - 0 * tau) * (tau + (1 - 0 * tau) * 1.110720735) := by
    rw [zero_mul, sub_zero, Real.sqrt_one, mul_one, one_mul, hP0]
    refine mul_lt_mul_of_pos_left ?_ hS
    have g1 : Real.sqrt (1 - u) ≤ ((1 - u) / 1.4 + 1.4) / 2 := by
      norm_num
      nlinarith [sq_nonneg (Real.sqrt (1 - u) - 7 / 5)]
    have g2 : Real.sqrt (1 - u) * (u + 2) / 3 < u + 1.5707 := by
      have := mul_le_mul_of_nonneg_right g1 (by linarith : 0 ≤ u + 2)
      norm_num at this ⊢
      nlinarith [mul_pos (by linarith : 0 < u + 1) hw1]
    norm_num at g2
    have g3 := mul_lt_mul_of_pos_left g2 hp
    rw [htu]
    norm_num
    linarith
  have hi : tofP < S * Real.sqrt (1 - 1 / Real.sqrt 2 * tau) * (tau + (1 - 1 / Real.sqrt 2 * tau) * 0.6686397730) := by
    rw [e, hP0, mul_assoc]
    refine mul_lt_mul_of_pos_left ?_ hS
    have hw2 : 0 < 1 - u / 2 := by linarith
    have hq2 := Real.sq_sqrt hw2.le
    have hq20 := Real.sqrt_pos.2 hw2
    have f1 : Real.sqrt (1 - u) * (u + 2) / 3 < Real.sqrt (1 - u / 2) * (0.9455 + 0.5272 * u) := by
      refine lt_of_pow_lt_pow_left₀ 2 (mul_nonneg hq20.le (by norm_num; linarith)) ?_
      rw [mul_pow, hq2, div_pow, mul_pow, hq]
      norm_num
      have w0 : 0 < u + 1 := by linarith
      nlinarith [mul_pos w0 hw1, mul_pos (mul_pos w0 w0) hw1, mul_pos w0 w0]
    have f2 : Real.sqrt 2 / 2 * (0.9455 + 0.5272 * u) ≤ tau + (1 - u / 2) * 0.6686397730 := by
      rw [htu]; norm_num; nlinarith
    have f3 := mul_lt_mul_of_pos_left f1 (by positivity : 0 < Real.sqrt 2 / 2)
    have f4 := mul_le_mul_of_nonneg_left f2 hq20.le
    refine f3.trans_le (le_trans (le_of_eq ?_) f4)
    ring
  generalize hF0 : S * Real.sqrt (1 - 0 * tau) * (tau + (1 - 0 * tau) * 1.110720735) = F0 at h0
  generalize hFi : S * Real.sqrt (1 - 1 / Real.sqrt 2 * tau) * (tau + (1 - 1 / Real.sqrt 2 * tau) * 0.6686397730) = Fi at hi
  have hne : (Fi - tofP) * (tofP - F0) * (1 / 2) + (F0 - Fi) * (tofP - tofP) ≠ 0 := by
    rw [sub_self, mul_zero, add_zero]
    refine mul_ne_zero (mul_ne_zero ?_ ?_) ?_ <;> linarith
  have hc : ContinuousAt (fun tof => (Fi - tof) * (tofP - F0) * (1 / 2) + (F0 - Fi) * (tofP - tof)) tofP := by fun_prop
  refine ⟨fun tof => 0 + (Real.sqrt 2 - 0) * (1 / 2 * (F0 - tof) * (tofP - Fi) /
    ((Fi - tof) * (tofP - F0) * (1 / 2) + (F0 - Fi) * (tofP - tof))) ^ 1, ?_, ?_, ?_⟩
  · exact continuousAt_const.add (continuousAt_const.mul ((ContinuousAt.div (by fun_prop) hc hne).pow 1))
  · simp only []
    rw [show 1 / 2 * (F0 - tofP) * (tofP - Fi) = (Fi - tofP) * (tofP - F0) * (1 / 2) + (F0 - Fi) * (tofP - tofP) by ring,
      div_self hne]
    ring
  · filter_upwards [hc.eventually_ne hne, eventually_lt_nhds h0] with tof h h5
    unfold guessElliptic
    rw [pdiv_eq sqrt2_pos.ne', ok_bind, getTOF_eq (by norm_num; linarith), ok_bind, getTOF_eq (by norm_num; linarith), ok_bind,
      getTOF_eq (by norm_num; linarith), ok_bind, getTOF_eq (by norm_num; linarith), ok_bind, getTOF_eq (by norm_num), ok_bind,
      getTOF_eq hk, ok_bind, hF0, hFi, if_pos h5.le, getX_eq h, ok_bind]

end Lamberthub.Arora
