import Verif.Proofs.AroraLemmas
import Mathlib.Analysis.Calculus.Deriv.MeanValue
import Mathlib.Analysis.SpecialFunctions.Trigonometric.InverseDeriv
import Mathlib.Analysis.SpecialFunctions.Sqrt

/-! # Derivatives of Arora's `W` and the truncation error of its series -/

set_option autoImplicit false

namespace Lamberthub.Arora
open Set

/-- A function whose derivative is dominated moves less than the dominating function. -/
theorem abs_sub_le_of_deriv {G B G' B' : ℝ → ℝ} {a b : ℝ} (hab : a ≤ b) (hGc : ContinuousOn G (Icc a b))
    (hBc : ContinuousOn B (Icc a b)) (hG : ∀ t ∈ Ioo a b, HasDerivAt G (G' t) t)
    (hB : ∀ t ∈ Ioo a b, HasDerivAt B (B' t) t) (hle : ∀ t ∈ Ioo a b, |G' t| ≤ B' t) :
    |G b - G a| ≤ B b - B a := by
  have h1 : MonotoneOn (fun t => B t - G t) (Icc a b) := by
    apply monotoneOn_of_deriv_nonneg (convex_Icc a b) (hBc.sub hGc)
    · rw [interior_Icc]
      exact fun t ht => ((hB t ht).sub (hG t ht)).differentiableAt.differentiableWithinAt
    · rw [interior_Icc]
      intro t ht
      rw [((hB t ht).sub (hG t ht)).deriv]
      linarith [hle t ht, le_abs_self (G' t)]
  have h2 : MonotoneOn (fun t => B t + G t) (Icc a b) := by
    apply monotoneOn_of_deriv_nonneg (convex_Icc a b) (hBc.add hGc)
    · rw [interior_Icc]
      exact fun t ht => ((hB t ht).add (hG t ht)).differentiableAt.differentiableWithinAt
    · rw [interior_Icc]
      intro t ht
      rw [((hB t ht).add (hG t ht)).deriv]
      linarith [hle t ht, neg_abs_le (G' t)]
  have e1 := h1 (left_mem_Icc.2 hab) (right_mem_Icc.2 hab) hab
  have e2 := h2 (left_mem_Icc.2 hab) (right_mem_Icc.2 hab) hab
  simp only [] at e1 e2
  rw [abs_le]
  constructor <;> linarith

theorem hasDerivAt_v (k : ℝ) (n : ℕ) :
    HasDerivAt (fun k => (k - Real.sqrt 2) ^ n) (n * (k - Real.sqrt 2) ^ (n - 1)) k := by
  have := ((hasDerivAt_id k).sub_const (Real.sqrt 2)).pow n
  refine (this.congr_deriv ?_).congr_of_eventuallyEq (Filter.Eventually.of_forall fun y => rfl)
  simp

theorem hasDerivAt_seriesW (k : ℝ) : HasDerivAt seriesW (getWsprime k) k := by
  have h := ((((((((((hasDerivAt_const k (Real.sqrt 2 / 3)).sub ((hasDerivAt_v k 1).const_mul (1 / 5))).add
    ((hasDerivAt_v k 2).const_mul (2 / 35 * Real.sqrt 2))).sub ((hasDerivAt_v k 3).const_mul (2 / 63))).add
    ((hasDerivAt_v k 4).const_mul (2 / 231 * Real.sqrt 2))).sub ((hasDerivAt_v k 5).const_mul (2 / 429))).add
    ((hasDerivAt_v k 6).const_mul (8 / 6435 * Real.sqrt 2))).sub ((hasDerivAt_v k 7).const_mul (8 / 12155))).add
    ((hasDerivAt_v k 8).const_mul (8 / 46189 * Real.sqrt 2))))
  refine (h.congr_deriv ?_).congr_of_eventuallyEq (Filter.Eventually.of_forall fun y => ?_)
  · unfold getWsprime; norm_num; ring
  · simp [seriesW]

theorem hasDerivAt_getWsprime (k : ℝ) : HasDerivAt getWsprime (getWs2prime k) k := by
  have h := (((((((((hasDerivAt_const k ((-1 : ℝ) / 5)).add ((hasDerivAt_v k 1).const_mul (4 / 35 * Real.sqrt 2))).sub
    ((hasDerivAt_v k 2).const_mul (6 / 63))).add ((hasDerivAt_v k 3).const_mul (8 / 231 * Real.sqrt 2))).sub
    ((hasDerivAt_v k 4).const_mul (10 / 429))).add ((hasDerivAt_v k 5).const_mul (48 / 6435 * Real.sqrt 2))).sub
    ((hasDerivAt_v k 6).const_mul (56 / 12155))).add ((hasDerivAt_v k 7).const_mul (64 / 46189 * Real.sqrt 2))))
  refine (h.congr_deriv ?_).congr_of_eventuallyEq (Filter.Eventually.of_forall fun y => ?_)
  · unfold getWs2prime; norm_num; ring
  · simp [getWsprime]; ring

/-- The series satisfies the differential equation of `W` up to one term of degree nine. -/
theorem series_ode (k : ℝ) : (2 - k ^ 2) * getWsprime k - 3 * k * seriesW k + 2 =
    -(88 / 46189 * Real.sqrt 2 * (k - Real.sqrt 2) ^ 9) := by
  unfold getWsprime seriesW
  simp only []
  have h := sqrt2_sq
  obtain ⟨v, hv⟩ : ∃ v, k = v + Real.sqrt 2 := ⟨k - Real.sqrt 2, by ring⟩
  rw [hv]
  simp only [add_sub_cancel_right]
  generalize Real.sqrt 2 = q at *
  have e : q ^ 3 = 2 * q := by rw [pow_succ, h]
  ring_nf
  rw [e, h]
  ring

theorem hasDerivAt_sqrt_m {t : ℝ} (h : 0 < 2 - t ^ 2) :
    HasDerivAt (fun t => Real.sqrt (2 - t ^ 2)) (-t / Real.sqrt (2 - t ^ 2)) t := by
  have := (((hasDerivAt_id t).pow 2).const_sub 2).sqrt (by simpa using h.ne')
  refine (this.congr_deriv ?_).congr_of_eventuallyEq (Filter.Eventually.of_forall fun y => rfl)
  simp; ring

theorem hasDerivAt_sqrt_n {t : ℝ} (h : 0 < t ^ 2 - 2) :
    HasDerivAt (fun t => Real.sqrt (t ^ 2 - 2)) (t / Real.sqrt (t ^ 2 - 2)) t := by
  have := (((hasDerivAt_id t).pow 2).sub_const 2).sqrt (by simpa using h.ne')
  refine (this.congr_deriv ?_).congr_of_eventuallyEq (Filter.Eventually.of_forall fun y => rfl)
  simp; ring

theorem hasDerivAt_arccos_k {t : ℝ} (h1 : -Real.sqrt 2 < t) (h2 : t < Real.sqrt 2) :
    HasDerivAt (fun t => Real.arccos (t / Real.sqrt 2)) (-1 / Real.sqrt (2 - t ^ 2)) t := by
  have hp := sqrt2_pos
  have a1 : -1 < t / Real.sqrt 2 := by rw [lt_div_iff₀ hp]; linarith
  have a2 : t / Real.sqrt 2 < 1 := by rw [div_lt_iff₀ hp]; linarith
  have := (Real.hasDerivAt_arccos a1.ne' a2.ne).comp t ((hasDerivAt_id t).div_const (Real.sqrt 2))
  refine (this.congr_deriv ?_).congr_of_eventuallyEq (Filter.Eventually.of_forall fun y => rfl)
  have : Real.sqrt (2 - t ^ 2) = Real.sqrt 2 * Real.sqrt (1 - (t / Real.sqrt 2) ^ 2) := by
    rw [← Real.sqrt_mul (by norm_num)]; congr 1
    rw [div_pow, sqrt2_sq]; ring
  rw [this]; simp; ring

theorem hasDerivAt_arcosh_k {t : ℝ} (h : Real.sqrt 2 < t) :
    HasDerivAt (fun t => Real.arcosh (t / Real.sqrt 2)) (1 / Real.sqrt (t ^ 2 - 2)) t := by
  have hp := sqrt2_pos
  have a1 : 1 < t / Real.sqrt 2 := by rw [lt_div_iff₀ hp]; linarith
  have := (Real.hasDerivAt_arcosh a1).comp t ((hasDerivAt_id t).div_const (Real.sqrt 2))
  refine (this.congr_deriv ?_).congr_of_eventuallyEq (Filter.Eventually.of_forall fun y => rfl)
  have : Real.sqrt (t ^ 2 - 2) = Real.sqrt 2 * Real.sqrt ((t / Real.sqrt 2) ^ 2 - 1) := by
    rw [← Real.sqrt_mul (by norm_num)]; congr 1
    rw [div_pow, sqrt2_sq]; ring
  rw [this]; simp

/-- `W' = (3 k W - 2) / (2 - k²)`, elliptic side. -/
theorem hasDerivAt_ellW {k : ℝ} (M : ℕ) (h1 : -Real.sqrt 2 < k) (h2 : k < Real.sqrt 2) :
    HasDerivAt (fun k => ellW k M) ((-2 + 3 * ellW k M * k) / (2 - k ^ 2)) k := by
  obtain ⟨φ, -, -, -, -, hs, hm, hq⟩ := ell_angle h1 h2
  have hm0 : 0 < 2 - k ^ 2 := by rw [hm]; positivity
  have hw : 0 < Real.sqrt (2 - k ^ 2) := by positivity
  have hw2 : Real.sqrt (2 - k ^ 2) ^ 2 = 2 - k ^ 2 := Real.sq_sqrt hm0.le
  have d1 := ((hasDerivAt_arccos_k h1 h2).const_mul 2).add_const (2 * Real.pi * M)
  have d2 := (hasDerivAt_sqrt_m hm0).pow 3
  have d3 := (hasDerivAt_id k).div (((hasDerivAt_id k).pow 2).const_sub 2) (by simpa using hm0.ne')
  have d := (d1.div d2 (by simpa using (pow_pos hw 3).ne')).sub d3
  refine (d.congr_deriv ?_).congr_of_eventuallyEq (Filter.Eventually.of_forall fun y => rfl)
  simp only [Pi.pow_apply, id, ellW]
  have hk : k ^ 2 = 2 - Real.sqrt (2 - k ^ 2) ^ 2 := by rw [hw2]; ring
  generalize Real.sqrt (2 - k ^ 2) = w at *
  rw [← hw2]
  generalize Real.arccos (k / Real.sqrt 2) = a at *
  field_simp
  push_cast
  ring_nf
  rw [hk]
  ring

theorem hasDerivAt_hypW {k : ℝ} (h : Real.sqrt 2 < k) :
    HasDerivAt hypW ((-2 + 3 * hypW k * k) / (2 - k ^ 2)) k := by
  obtain ⟨φ, -, -, -, hs, hm, hq⟩ := hyp_angle h
  have hm0 : 0 < k ^ 2 - 2 := by rw [hm]; positivity
  have hw : 0 < Real.sqrt (k ^ 2 - 2) := by positivity
  have hw2 : Real.sqrt (k ^ 2 - 2) ^ 2 = k ^ 2 - 2 := Real.sq_sqrt hm0.le
  have d1 := (hasDerivAt_arcosh_k h).const_mul 2
  have d2 := (hasDerivAt_sqrt_n hm0).pow 3
  have d3 := (hasDerivAt_id k).div (((hasDerivAt_id k).pow 2).sub_const 2) (by simpa using hm0.ne')
  have d := d3.sub (d1.div d2 (by simpa using (pow_pos hw 3).ne'))
  refine (d.congr_deriv ?_).congr_of_eventuallyEq (Filter.Eventually.of_forall fun y => rfl)
  simp only [Pi.pow_apply, id, hypW]
  have hk : k ^ 2 = 2 + Real.sqrt (k ^ 2 - 2) ^ 2 := by rw [hw2]; ring
  generalize Real.sqrt (k ^ 2 - 2) = w at *
  rw [show 2 - k ^ 2 = -(k ^ 2 - 2) by ring, ← hw2]
  generalize Real.arcosh (k / Real.sqrt 2) = a at *
  field_simp
  push_cast
  ring_nf
  rw [hk]
  ring

/-- Size of the residual of the differential equation in the series band. -/
theorem residual_bound {k : ℝ} (h1 : Real.sqrt 2 - epsilon ≤ k) (h2 : k ≤ Real.sqrt 2 + epsilon) :
    |(2 - k ^ 2) * getWsprime k - 3 * k * seriesW k + 2| ≤ 2e-18 := by
  rw [series_ode, abs_neg, abs_mul, abs_pow]
  have hv : |k - Real.sqrt 2| ≤ 2e-2 := by
    unfold epsilon at h1 h2
    rw [abs_le]; constructor <;> linarith
  have h9 : |k - Real.sqrt 2| ^ 9 ≤ (2e-2 : ℝ) ^ 9 := pow_le_pow_left₀ (abs_nonneg _) hv 9
  have hc : |88 / 46189 * Real.sqrt 2| ≤ 88 / 46189 * 1.4143 := by
    rw [abs_of_pos (by positivity)]
    have := sqrt2_lt
    nlinarith
  calc _ ≤ (88 / 46189 * 1.4143) * (2e-2 : ℝ) ^ 9 := mul_le_mul hc h9 (by positivity) (by norm_num)
    _ ≤ 2e-18 := by norm_num

/-- On the elliptic side the truncated series is within `1e-18` of `W`. -/
theorem series_ell {k : ℝ} (h1 : Real.sqrt 2 - epsilon ≤ k) (h2 : k < Real.sqrt 2) :
    |seriesW k - ellW k 0| ≤ 1e-18 := by
  have hl := lt_sqrt2
  have he : epsilon = 2e-2 := rfl
  have hk1 : 1 < k := by rw [he] at h1; linarith
  have hpos : ∀ t ∈ Ioo k (Real.sqrt 2), 0 < 2 - t ^ 2 := by
    intro t ht
    have := sqrt2_sq
    nlinarith [ht.1, ht.2]
  have hk0 : 0 < 2 - k ^ 2 := by have := sqrt2_sq; nlinarith
  have key := abs_sub_le_of_deriv
    (G := fun t => seriesW t * Real.sqrt (2 - t ^ 2) ^ 3 -
      (2 * Real.arccos (t / Real.sqrt 2) - t * Real.sqrt (2 - t ^ 2)))
    (B := fun t => -(2e-18 / 3 * Real.sqrt (2 - t ^ 2) ^ 3))
    (G' := fun t => Real.sqrt (2 - t ^ 2) * ((2 - t ^ 2) * getWsprime t - 3 * t * seriesW t + 2))
    (B' := fun t => 2e-18 * t * Real.sqrt (2 - t ^ 2)) h2.le ?_ ?_ ?_ ?_ ?_
  · rw [sqrt2_sq, sub_self, Real.sqrt_zero, div_self sqrt2_pos.ne', Real.arccos_one] at key
    have hw : 0 < Real.sqrt (2 - k ^ 2) := by positivity
    have hw2 : Real.sqrt (2 - k ^ 2) ^ 2 = 2 - k ^ 2 := Real.sq_sqrt hk0.le
    have e : seriesW k * Real.sqrt (2 - k ^ 2) ^ 3 -
        (2 * Real.arccos (k / Real.sqrt 2) - k * Real.sqrt (2 - k ^ 2)) =
        (seriesW k - ellW k 0) * Real.sqrt (2 - k ^ 2) ^ 3 := by
      unfold ellW
      generalize Real.sqrt (2 - k ^ 2) = w at *
      rw [← hw2]
      field_simp
      push_cast
      ring
    rw [e] at key
    norm_num at key
    rw [abs_of_pos hw] at key
    have h3 : 0 < Real.sqrt (2 - k ^ 2) ^ 3 := by positivity
    have : |seriesW k - ellW k 0| ≤ 1 / 1500000000000000000 := by
      by_contra hh
      push Not at hh
      nlinarith
    refine this.trans (by norm_num)
  · apply ContinuousOn.sub
    · apply ContinuousOn.mul
      · exact fun t _ => (hasDerivAt_seriesW t).continuousAt.continuousWithinAt
      · fun_prop
    · apply Continuous.continuousOn
      exact ((Real.continuous_arccos.comp (continuous_id.div_const _)).const_smul (2 : ℝ)).sub (by fun_prop)
  · fun_prop
  · intro t ht
    have hm0 := hpos t ht
    have hw : 0 < Real.sqrt (2 - t ^ 2) := by positivity
    have hw2 : Real.sqrt (2 - t ^ 2) ^ 2 = 2 - t ^ 2 := Real.sq_sqrt hm0.le
    have d := ((hasDerivAt_seriesW t).mul ((hasDerivAt_sqrt_m hm0).pow 3)).sub
      (((hasDerivAt_arccos_k (by linarith [ht.1, sqrt2_pos]) ht.2).const_mul 2).sub
        ((hasDerivAt_id t).mul (hasDerivAt_sqrt_m hm0)))
    refine (d.congr_deriv ?_).congr_of_eventuallyEq (Filter.Eventually.of_forall fun y => rfl)
    simp only [Pi.pow_apply, id]
    have hk : t ^ 2 = 2 - Real.sqrt (2 - t ^ 2) ^ 2 := by rw [hw2]; ring
    generalize Real.sqrt (2 - t ^ 2) = w at *
    rw [← hw2]
    field_simp
    push_cast
    ring_nf
    rw [hk]
    ring
  · intro t ht
    have hm0 := hpos t ht
    have hw : 0 < Real.sqrt (2 - t ^ 2) := by positivity
    have d := (((hasDerivAt_sqrt_m hm0).pow 3).const_mul (2e-18 / 3 : ℝ)).neg
    refine (d.congr_deriv ?_).congr_of_eventuallyEq (Filter.Eventually.of_forall fun y => rfl)
    field_simp
    norm_num
  · intro t ht
    have hm0 := hpos t ht
    have hw : 0 < Real.sqrt (2 - t ^ 2) := by positivity
    have hr := residual_bound (k := t) (by linarith [ht.1]) (by linarith [ht.2, eps_pos])
    rw [abs_mul, abs_of_pos hw]
    have ht1 : 1 ≤ t := by linarith [ht.1]
    calc _ ≤ Real.sqrt (2 - t ^ 2) * 2e-18 := mul_le_mul_of_nonneg_left hr hw.le
      _ ≤ 2e-18 * t * Real.sqrt (2 - t ^ 2) := by
        rw [mul_comm]
        exact mul_le_mul_of_nonneg_right (by linarith) hw.le

/-- On the hyperbolic side the truncated series is within `1e-18` of `W`. -/
theorem series_hyp {k : ℝ} (h1 : Real.sqrt 2 < k) (h2 : k ≤ Real.sqrt 2 + epsilon) :
    |seriesW k - hypW k| ≤ 1e-18 := by
  have hl := lt_sqrt2
  have hpos : ∀ t ∈ Ioo (Real.sqrt 2) k, 0 < t ^ 2 - 2 := by
    intro t ht
    have := sqrt2_sq
    nlinarith [ht.1, ht.2]
  have hk0 : 0 < k ^ 2 - 2 := by have := sqrt2_sq; nlinarith
  have key := abs_sub_le_of_deriv
    (G := fun t => seriesW t * Real.sqrt (t ^ 2 - 2) ^ 3 -
      (t * Real.sqrt (t ^ 2 - 2) - 2 * Real.arcosh (t / Real.sqrt 2)))
    (B := fun t => 2e-18 / 3 * Real.sqrt (t ^ 2 - 2) ^ 3)
    (G' := fun t => Real.sqrt (t ^ 2 - 2) * -((2 - t ^ 2) * getWsprime t - 3 * t * seriesW t + 2))
    (B' := fun t => 2e-18 * t * Real.sqrt (t ^ 2 - 2)) h1.le ?_ ?_ ?_ ?_ ?_
  · rw [sqrt2_sq, sub_self, Real.sqrt_zero, div_self sqrt2_pos.ne', show Real.arcosh 1 = 0 by simp [Real.arcosh]] at key
    have hw : 0 < Real.sqrt (k ^ 2 - 2) := by positivity
    have hw2 : Real.sqrt (k ^ 2 - 2) ^ 2 = k ^ 2 - 2 := Real.sq_sqrt hk0.le
    have e : seriesW k * Real.sqrt (k ^ 2 - 2) ^ 3 -
        (k * Real.sqrt (k ^ 2 - 2) - 2 * Real.arcosh (k / Real.sqrt 2)) =
        (seriesW k - hypW k) * Real.sqrt (k ^ 2 - 2) ^ 3 := by
      unfold hypW
      generalize Real.sqrt (k ^ 2 - 2) = w at *
      rw [← hw2]
      field_simp
    rw [e] at key
    norm_num at key
    rw [abs_of_pos hw] at key
    have h3 : 0 < Real.sqrt (k ^ 2 - 2) ^ 3 := by positivity
    have : |seriesW k - hypW k| ≤ 1 / 1500000000000000000 := by
      by_contra hh
      push Not at hh
      nlinarith
    refine this.trans (by norm_num)
  · apply ContinuousOn.sub
    · apply ContinuousOn.mul
      · exact fun t _ => (hasDerivAt_seriesW t).continuousAt.continuousWithinAt
      · fun_prop
    · apply ContinuousOn.sub
      · fun_prop
      · refine ContinuousOn.const_smul (c := (2 : ℝ)) ?_
        refine Real.continuousOn_arcosh.comp (continuous_id.div_const _).continuousOn fun t ht => ?_
        rw [mem_Ici, le_div_iff₀ sqrt2_pos, one_mul]; exact ht.1
  · fun_prop
  · intro t ht
    have hm0 := hpos t ht
    have hw : 0 < Real.sqrt (t ^ 2 - 2) := by positivity
    have hw2 : Real.sqrt (t ^ 2 - 2) ^ 2 = t ^ 2 - 2 := Real.sq_sqrt hm0.le
    have d := ((hasDerivAt_seriesW t).mul ((hasDerivAt_sqrt_n hm0).pow 3)).sub
      (((hasDerivAt_id t).mul (hasDerivAt_sqrt_n hm0)).sub ((hasDerivAt_arcosh_k ht.1).const_mul 2))
    refine (d.congr_deriv ?_).congr_of_eventuallyEq (Filter.Eventually.of_forall fun y => rfl)
    simp only [Pi.pow_apply, id]
    have hk : t ^ 2 = 2 + Real.sqrt (t ^ 2 - 2) ^ 2 := by rw [hw2]; ring
    generalize Real.sqrt (t ^ 2 - 2) = w at *
    rw [show 2 - t ^ 2 = -w ^ 2 by rw [hk]; ring]
    field_simp
    push_cast
    ring_nf
    rw [hk]
    ring
  · intro t ht
    have hm0 := hpos t ht
    have hw : 0 < Real.sqrt (t ^ 2 - 2) := by positivity
    have d := ((hasDerivAt_sqrt_n hm0).pow 3).const_mul (2e-18 / 3 : ℝ)
    refine (d.congr_deriv ?_).congr_of_eventuallyEq (Filter.Eventually.of_forall fun y => rfl)
    field_simp
    norm_num
  · intro t ht
    have hm0 := hpos t ht
    have hw : 0 < Real.sqrt (t ^ 2 - 2) := by positivity
    have hr := residual_bound (k := t) (by linarith [ht.1, eps_pos]) (by linarith [ht.2, eps_pos])
    rw [abs_mul, abs_of_pos hw, abs_neg]
    have ht1 : 1 ≤ t := by linarith [ht.1]
    calc _ ≤ Real.sqrt (t ^ 2 - 2) * 2e-18 := mul_le_mul_of_nonneg_left hr hw.le
      _ ≤ 2e-18 * t * Real.sqrt (t ^ 2 - 2) := by
        rw [mul_comm]
        exact mul_le_mul_of_nonneg_right (by linarith) hw.le

/-- In the band around the parabola the truncated series is within `1e-18` of `W`. -/
theorem series_error {k : ℝ} (h1 : Real.sqrt 2 - epsilon ≤ k) (h2 : k ≤ Real.sqrt 2 + epsilon) :
    |seriesW k - trueW k| ≤ 1e-18 := by
  unfold trueW
  split
  · exact series_ell h1 (by assumption)
  · split
    · rename_i h; rw [h]; simp [seriesW]; norm_num
    · rename_i ha hb
      exact series_hyp (lt_of_le_of_ne (not_lt.1 ha) (Ne.symm hb)) h2

end Lamberthub.Arora
