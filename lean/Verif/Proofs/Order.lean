import Mathlib.Analysis.Calculus.MeanValue
import Mathlib.Analysis.Calculus.Deriv.Pow
import Mathlib.Analysis.Calculus.Deriv.Add
import Mathlib.Analysis.Calculus.Deriv.Mul
import Mathlib.Analysis.SpecialFunctions.Sqrt
import Mathlib.Topology.Algebra.Order.Field

/-! # Order of convergence of the classical root-finding steps -/

set_option autoImplicit false

namespace Lamberthub
open Filter Topology

namespace Spec

/-- The iteration `φ` converges to `r` with order (at least) `p`: near `r`,
`|φ x - r| ≤ C |x - r|^p`. -/
def OrderOf (φ : ℝ → ℝ) (r : ℝ) (p : ℕ) : Prop :=
  ∃ C : ℝ, ∀ᶠ x in 𝓝 r, |φ x - r| ≤ C * |x - r| ^ p

end Spec

/-- Integration of a remainder estimate. -/
theorem taylor_step {g h P Q : ℝ → ℝ} {r : ℝ} {n : ℕ} (hg : ∀ᶠ x in 𝓝 r, HasDerivAt g (h x) x)
    (hQ : ∀ x, HasDerivAt Q (P x) x) (hO : ∃ C, ∀ᶠ x in 𝓝 r, |h x - P x| ≤ C * |x - r| ^ n)
    (h0 : g r = Q r) : ∃ C, ∀ᶠ x in 𝓝 r, |g x - Q x| ≤ C * |x - r| ^ (n + 1) := by
  obtain ⟨C, hC⟩ := hO
  obtain ⟨δ, hδ, hb⟩ := Metric.eventually_nhds_iff_ball.1 (hg.and hC)
  refine ⟨max C 0, Metric.eventually_nhds_iff_ball.2 ⟨δ, hδ, fun x hx => ?_⟩⟩
  have hsub : ∀ t ∈ Set.uIcc r x, |t - r| ≤ |x - r| := by
    intro t ht
    exact Set.abs_sub_left_of_mem_uIcc ht
  have hball : ∀ t ∈ Set.uIcc r x, t ∈ Metric.ball r δ := by
    intro t ht
    rw [Metric.mem_ball, Real.dist_eq] at hx ⊢
    exact lt_of_le_of_lt (hsub t ht) hx
  have hk : ∀ t ∈ Set.uIcc r x, HasDerivWithinAt (fun t => g t - Q t) (h t - P t) (Set.uIcc r x) t :=
    fun t ht => ((hb t (hball t ht)).1.sub (hQ t)).hasDerivWithinAt
  have hbd : ∀ t ∈ Set.uIcc r x, ‖h t - P t‖ ≤ max C 0 * |x - r| ^ n := by
    intro t ht
    rw [Real.norm_eq_abs]
    refine ((hb t (hball t ht)).2).trans ?_
    exact mul_le_mul (le_max_left _ _) (pow_le_pow_left₀ (abs_nonneg _) (hsub t ht) n)
      (by positivity) (le_max_right _ _)
  have := (convex_uIcc r x).norm_image_sub_le_of_norm_hasDerivWithin_le hk hbd
    Set.left_mem_uIcc Set.right_mem_uIcc
  rw [h0, sub_self, sub_zero, Real.norm_eq_abs, Real.norm_eq_abs] at this
  rw [pow_succ, ← mul_assoc]
  exact this

/-- A remainder estimate as a bounded coefficient. -/
theorem rho_of_bound {u e K : ℝ} {n : ℕ} (he : e ≠ 0) (h : |u| ≤ K * |e| ^ n) :
    ∃ ρ, u = ρ * e ^ n ∧ |ρ| ≤ K := by
  refine ⟨u / e ^ n, by field_simp, ?_⟩
  rw [abs_div, abs_pow, div_le_iff₀ (by positivity)]
  exact h

/-- The local expansion of a function with two derivatives, the second one differentiable at `r`. -/
theorem taylor_two {f f1 f2 : ℝ → ℝ} {r d3 : ℝ} (h1 : ∀ᶠ x in 𝓝 r, HasDerivAt f (f1 x) x)
    (h2 : ∀ᶠ x in 𝓝 r, HasDerivAt f1 (f2 x) x) (h3 : HasDerivAt f2 d3 r) (h0 : f r = 0) :
    ∃ K, ∀ᶠ x in 𝓝 r, |f2 x - f2 r| ≤ K * |x - r| ^ 1 ∧
      |f1 x - (f1 r + f2 r * (x - r))| ≤ K * |x - r| ^ 2 ∧
      |f x - (f1 r * (x - r) + f2 r * (x - r) ^ 2 / 2)| ≤ K * |x - r| ^ 3 := by
  have a2 : ∃ C, ∀ᶠ x in 𝓝 r, |f2 x - f2 r| ≤ C * |x - r| ^ 1 := by
    obtain ⟨C, hC⟩ := h3.isBigO_sub.bound
    exact ⟨C, by simpa using hC⟩
  have hid : ∀ x : ℝ, HasDerivAt (fun x => x - r) 1 x := fun x => (hasDerivAt_id x).sub_const r
  have a1 := taylor_step (Q := fun x => f1 r + f2 r * (x - r)) (P := fun _ => f2 r) h2
    (fun x => by simpa using ((hid x).const_mul (f2 r)).const_add (f1 r)) a2 (by simp)
  have a0 := taylor_step (Q := fun x => f1 r * (x - r) + f2 r * (x - r) ^ 2 / 2)
    (P := fun x => f1 r + f2 r * (x - r)) h1
    (fun x => by
      have := ((hid x).const_mul (f1 r)).add ((((hid x).pow 2).const_mul (f2 r)).div_const 2)
      refine this.congr_deriv ?_
      simp; ring) a1 (by simp [h0])
  obtain ⟨C2, b2⟩ := a2
  obtain ⟨C1, b1⟩ := a1
  obtain ⟨C0, b0⟩ := a0
  refine ⟨max (max C2 C1) C0, ?_⟩
  filter_upwards [b2, b1, b0] with x c2 c1 c0
  refine ⟨c2.trans ?_, c1.trans ?_, c0.trans ?_⟩ <;> apply mul_le_mul_of_nonneg_right _ (by positivity)
  · exact (le_max_left _ _).trans (le_max_left _ _)
  · exact (le_max_right _ _).trans (le_max_left _ _)
  · exact le_max_right _ _

/-- The local expansion of a function with three derivatives, the third one differentiable at `r`. -/
theorem taylor_three {f f1 f2 f3 : ℝ → ℝ} {r d4 : ℝ} (h1 : ∀ᶠ x in 𝓝 r, HasDerivAt f (f1 x) x)
    (h2 : ∀ᶠ x in 𝓝 r, HasDerivAt f1 (f2 x) x) (h3 : ∀ᶠ x in 𝓝 r, HasDerivAt f2 (f3 x) x)
    (h4 : HasDerivAt f3 d4 r) (h0 : f r = 0) :
    ∃ K, ∀ᶠ x in 𝓝 r, |f3 x - f3 r| ≤ K * |x - r| ^ 1 ∧
      |f2 x - (f2 r + f3 r * (x - r))| ≤ K * |x - r| ^ 2 ∧
      |f1 x - (f1 r + f2 r * (x - r) + f3 r * (x - r) ^ 2 / 2)| ≤ K * |x - r| ^ 3 ∧
      |f x - (f1 r * (x - r) + f2 r * (x - r) ^ 2 / 2 + f3 r * (x - r) ^ 3 / 6)| ≤ K * |x - r| ^ 4 := by
  have a3 : ∃ C, ∀ᶠ x in 𝓝 r, |f3 x - f3 r| ≤ C * |x - r| ^ 1 := by
    obtain ⟨C, hC⟩ := h4.isBigO_sub.bound
    exact ⟨C, by simpa using hC⟩
  have hid : ∀ x : ℝ, HasDerivAt (fun x => x - r) 1 x := fun x => (hasDerivAt_id x).sub_const r
  have a2 := taylor_step (Q := fun x => f2 r + f3 r * (x - r)) (P := fun _ => f3 r) h3
    (fun x => by simpa using ((hid x).const_mul (f3 r)).const_add (f2 r)) a3 (by simp)
  have a1 := taylor_step (Q := fun x => f1 r + f2 r * (x - r) + f3 r * (x - r) ^ 2 / 2)
    (P := fun x => f2 r + f3 r * (x - r)) h2
    (fun x => by
      have := (((hid x).const_mul (f2 r)).const_add (f1 r)).add ((((hid x).pow 2).const_mul (f3 r)).div_const 2)
      refine this.congr_deriv ?_
      simp; ring) a2 (by simp)
  have a0 := taylor_step
    (Q := fun x => f1 r * (x - r) + f2 r * (x - r) ^ 2 / 2 + f3 r * (x - r) ^ 3 / 6)
    (P := fun x => f1 r + f2 r * (x - r) + f3 r * (x - r) ^ 2 / 2) h1
    (fun x => by
      have := (((hid x).const_mul (f1 r)).add ((((hid x).pow 2).const_mul (f2 r)).div_const 2)).add
        ((((hid x).pow 3).const_mul (f3 r)).div_const 6)
      refine this.congr_deriv ?_
      simp; ring) a1 (by simp [h0])
  obtain ⟨C3, b3⟩ := a3
  obtain ⟨C2, b2⟩ := a2
  obtain ⟨C1, b1⟩ := a1
  obtain ⟨C0, b0⟩ := a0
  refine ⟨max (max C3 C2) (max C1 C0), ?_⟩
  filter_upwards [b3, b2, b1, b0] with x c3 c2 c1 c0
  refine ⟨c3.trans ?_, c2.trans ?_, c1.trans ?_, c0.trans ?_⟩ <;>
    apply mul_le_mul_of_nonneg_right _ (by positivity)
  · exact (le_max_left _ _).trans (le_max_left _ _)
  · exact (le_max_right _ _).trans (le_max_left _ _)
  · exact (le_max_left _ _).trans (le_max_right _ _)
  · exact (le_max_right _ _).trans (le_max_right _ _)

/-- Halley's method has order three. -/
theorem halley_order {f f1 f2 : ℝ → ℝ} {r d3 : ℝ} (h1 : ∀ᶠ x in 𝓝 r, HasDerivAt f (f1 x) x)
    (h2 : ∀ᶠ x in 𝓝 r, HasDerivAt f1 (f2 x) x) (h3 : HasDerivAt f2 d3 r) (h0 : f r = 0)
    (hne : f1 r ≠ 0) :
    (∀ᶠ x in 𝓝 r, f1 x ^ 2 - f x * f2 x / 2 ≠ 0) ∧
    Spec.OrderOf (fun x => x - f x * f1 x / (f1 x ^ 2 - f x * f2 x / 2)) r 3 := by
  have cf : ContinuousAt f r := h1.self_of_nhds.continuousAt
  have cf1 : ContinuousAt f1 r := h2.self_of_nhds.continuousAt
  have cf2 : ContinuousAt f2 r := h3.continuousAt
  have hD : Tendsto (fun x => |f1 x ^ 2 - f x * f2 x / 2|) (𝓝 r) (𝓝 |f1 r ^ 2 - f r * f2 r / 2|) :=
    (((cf1.pow 2).sub ((cf.mul cf2).div_const 2)).abs)
  have hpos : |f1 r| ^ 2 / 2 < |f1 r ^ 2 - f r * f2 r / 2| := by
    rw [h0]
    have : 0 < |f1 r| ^ 2 := by positivity
    simp only [zero_mul, zero_div, sub_zero, abs_pow]
    linarith
  have hDe := hD.eventually_const_lt hpos
  have hne' : ∀ᶠ x in 𝓝 r, f1 x ^ 2 - f x * f2 x / 2 ≠ 0 := by
    filter_upwards [hDe] with x hx
    intro h
    rw [h, abs_zero] at hx
    have : 0 ≤ |f1 r| ^ 2 := by positivity
    linarith
  refine ⟨hne', ?_⟩
  obtain ⟨K, hK⟩ := taylor_two h1 h2 h3 h0
  obtain ⟨B, hB⟩ := ((isCompact_Icc (a := (-1 : ℝ)) (b := 1)).prod ((isCompact_Icc (a := -K) (b := K)).prod
    ((isCompact_Icc (a := -K) (b := K)).prod (isCompact_Icc (a := -K) (b := K))))).exists_bound_of_continuousOn
    (f := fun p : ℝ × ℝ × ℝ × ℝ => (f1 r + f2 r * p.1 / 2 + p.2.1 * p.1 ^ 2) *
      (p.2.2.1 - p.2.1 - p.2.2.2 / 2) + (f2 r / 2 + (p.2.2.1 - p.2.1) * p.1) ^ 2)
    (Continuous.continuousOn (by fun_prop))
  have hnear : ∀ᶠ x in 𝓝 r, |x - r| < 1 := by
    have := Metric.ball_mem_nhds r one_pos
    filter_upwards [this] with x hx
    rwa [Metric.mem_ball, Real.dist_eq] at hx
  refine ⟨B / (|f1 r| ^ 2 / 2), ?_⟩
  filter_upwards [hK, hDe, hne', hnear] with x ⟨k2, k1, k0⟩ hx hd hn
  by_cases hxr : x = r
  · subst hxr; simp [h0]
  have he : x - r ≠ 0 := sub_ne_zero.2 hxr
  obtain ⟨ρ2, e2, b2⟩ := rho_of_bound he k2
  obtain ⟨ρ1, e1, b1⟩ := rho_of_bound he k1
  obtain ⟨ρ0, e0, b0⟩ := rho_of_bound he k0
  have hbound := hB (x - r, ρ0, ρ1, ρ2) ⟨abs_le.1 hn.le, abs_le.1 b0, abs_le.1 b1, abs_le.1 b2⟩
  simp only [Real.norm_eq_abs] at hbound
  have hid : x - f x * f1 x / (f1 x ^ 2 - f x * f2 x / 2) - r =
      (x - r) ^ 3 * ((f1 r + f2 r * (x - r) / 2 + ρ0 * (x - r) ^ 2) *
      (ρ1 - ρ0 - ρ2 / 2) + (f2 r / 2 + (ρ1 - ρ0) * (x - r)) ^ 2) / (f1 x ^ 2 - f x * f2 x / 2) := by
    rw [eq_div_iff hd]
    have s2 : f2 x = f2 r + ρ2 * (x - r) ^ 1 := by linarith
    have s1 : f1 x = f1 r + f2 r * (x - r) + ρ1 * (x - r) ^ 2 := by linarith
    have s0 : f x = f1 r * (x - r) + f2 r * (x - r) ^ 2 / 2 + ρ0 * (x - r) ^ 3 := by linarith
    have : (x - f x * f1 x / (f1 x ^ 2 - f x * f2 x / 2) - r) * (f1 x ^ 2 - f x * f2 x / 2) =
        (x - r) * (f1 x ^ 2 - f x * f2 x / 2) - f x * f1 x := by
      generalize f1 x ^ 2 - f x * f2 x / 2 = D at *
      field_simp; ring
    rw [this, s2, s1, s0]
    generalize x - r = e
    ring
  rw [hid, abs_div, abs_mul, abs_pow]
  have hp2 : 0 < |f1 r| ^ 2 / 2 := by positivity
  calc _ ≤ |x - r| ^ 3 * B / (|f1 r| ^ 2 / 2) := by
        apply div_le_div₀ (by have := (abs_nonneg _).trans hbound; positivity) _ hp2 hx.le
        exact mul_le_mul_of_nonneg_left hbound (by positivity)
    _ = _ := by ring

/-- Householder's method with three derivatives has order four. -/
theorem householder_order {f f1 f2 f3 : ℝ → ℝ} {r d4 : ℝ} (h1 : ∀ᶠ x in 𝓝 r, HasDerivAt f (f1 x) x)
    (h2 : ∀ᶠ x in 𝓝 r, HasDerivAt f1 (f2 x) x) (h3 : ∀ᶠ x in 𝓝 r, HasDerivAt f2 (f3 x) x)
    (h4 : HasDerivAt f3 d4 r) (h0 : f r = 0) (hne : f1 r ≠ 0) :
    (∀ᶠ x in 𝓝 r, f1 x * (f1 x ^ 2 - f x * f2 x) + f3 x * f x ^ 2 / 6 ≠ 0) ∧
    Spec.OrderOf (fun x => x - f x * ((f1 x ^ 2 - f x * f2 x / 2) /
      (f1 x * (f1 x ^ 2 - f x * f2 x) + f3 x * f x ^ 2 / 6))) r 4 := by
  have cf : ContinuousAt f r := h1.self_of_nhds.continuousAt
  have cf1 : ContinuousAt f1 r := h2.self_of_nhds.continuousAt
  have cf2 : ContinuousAt f2 r := h3.self_of_nhds.continuousAt
  have cf3 : ContinuousAt f3 r := h4.continuousAt
  have hD : Tendsto (fun x => |f1 x * (f1 x ^ 2 - f x * f2 x) + f3 x * f x ^ 2 / 6|) (𝓝 r)
      (𝓝 |f1 r * (f1 r ^ 2 - f r * f2 r) + f3 r * f r ^ 2 / 6|) :=
    ((cf1.mul ((cf1.pow 2).sub (cf.mul cf2))).add ((cf3.mul (cf.pow 2)).div_const 6)).abs
  have hpos : |f1 r| ^ 3 / 2 < |f1 r * (f1 r ^ 2 - f r * f2 r) + f3 r * f r ^ 2 / 6| := by
    rw [h0]
    have : 0 < |f1 r| ^ 3 := by positivity
    have e : f1 r * (f1 r ^ 2 - 0 * f2 r) + f3 r * 0 ^ 2 / 6 = f1 r ^ 3 := by ring
    rw [e, abs_pow]
    linarith
  have hDe := hD.eventually_const_lt hpos
  have hne' : ∀ᶠ x in 𝓝 r, f1 x * (f1 x ^ 2 - f x * f2 x) + f3 x * f x ^ 2 / 6 ≠ 0 := by
    filter_upwards [hDe] with x hx
    intro h
    rw [h, abs_zero] at hx
    have : 0 ≤ |f1 r| ^ 3 := by positivity
    linarith
  refine ⟨hne', ?_⟩
  obtain ⟨K, hK⟩ := taylor_three h1 h2 h3 h4 h0
  obtain ⟨B, hB⟩ := ((isCompact_Icc (a := (-1 : ℝ)) (b := 1)).prod ((isCompact_Icc (a := -K) (b := K)).prod
    ((isCompact_Icc (a := -K) (b := K)).prod ((isCompact_Icc (a := -K) (b := K)).prod
    (isCompact_Icc (a := -K) (b := K)))))).exists_bound_of_continuousOn
    (f := fun p : ℝ × ℝ × ℝ × ℝ × ℝ =>
      (f1 r + f2 r * p.1 / 2 + f3 r * p.1 ^ 2 / 6 + p.2.1 * p.1 ^ 3) ^ 2 *
        (p.2.2.1 - p.2.1 - p.2.2.2.1 / 2 + p.2.2.2.2 / 6) +
      (f2 r / 2 + f3 r * p.1 / 3 + (p.2.2.1 - p.2.1) * p.1 ^ 2) ^ 3 +
      (f1 r + f2 r * p.1 / 2 + f3 r * p.1 ^ 2 / 6 + p.2.1 * p.1 ^ 3) *
      (f2 r / 2 + f3 r * p.1 / 3 + (p.2.2.1 - p.2.1) * p.1 ^ 2) *
      (-f3 r / 3 + 2 * p.1 * (p.2.2.1 - p.2.1 - p.2.2.2.1 / 2)))
    (Continuous.continuousOn (by fun_prop))
  have hnear : ∀ᶠ x in 𝓝 r, |x - r| < 1 := by
    have := Metric.ball_mem_nhds r one_pos
    filter_upwards [this] with x hx
    rwa [Metric.mem_ball, Real.dist_eq] at hx
  refine ⟨B / (|f1 r| ^ 3 / 2), ?_⟩
  filter_upwards [hK, hDe, hne', hnear] with x ⟨k3, k2, k1, k0⟩ hx hd hn
  by_cases hxr : x = r
  · subst hxr; simp [h0]
  have he : x - r ≠ 0 := sub_ne_zero.2 hxr
  obtain ⟨ρ3, e3, b3⟩ := rho_of_bound he k3
  obtain ⟨ρ2, e2, b2⟩ := rho_of_bound he k2
  obtain ⟨ρ1, e1, b1⟩ := rho_of_bound he k1
  obtain ⟨ρ0, e0, b0⟩ := rho_of_bound he k0
  have hbound := hB (x - r, ρ0, ρ1, ρ2, ρ3)
    ⟨abs_le.1 hn.le, abs_le.1 b0, abs_le.1 b1, abs_le.1 b2, abs_le.1 b3⟩
  simp only [Real.norm_eq_abs] at hbound
  have hid : x - f x * ((f1 x ^ 2 - f x * f2 x / 2) /
      (f1 x * (f1 x ^ 2 - f x * f2 x) + f3 x * f x ^ 2 / 6)) - r =
      (x - r) ^ 4 * ((f1 r + f2 r * (x - r) / 2 + f3 r * (x - r) ^ 2 / 6 + ρ0 * (x - r) ^ 3) ^ 2 *
        (ρ1 - ρ0 - ρ2 / 2 + ρ3 / 6) +
      (f2 r / 2 + f3 r * (x - r) / 3 + (ρ1 - ρ0) * (x - r) ^ 2) ^ 3 +
      (f1 r + f2 r * (x - r) / 2 + f3 r * (x - r) ^ 2 / 6 + ρ0 * (x - r) ^ 3) *
      (f2 r / 2 + f3 r * (x - r) / 3 + (ρ1 - ρ0) * (x - r) ^ 2) *
      (-f3 r / 3 + 2 * (x - r) * (ρ1 - ρ0 - ρ2 / 2))) /
        (f1 x * (f1 x ^ 2 - f x * f2 x) + f3 x * f x ^ 2 / 6) := by
    rw [eq_div_iff hd]
    have s3 : f3 x = f3 r + ρ3 * (x - r) ^ 1 := by linarith
    have s2 : f2 x = f2 r + f3 r * (x - r) + ρ2 * (x - r) ^ 2 := by linarith
    have s1 : f1 x = f1 r + f2 r * (x - r) + f3 r * (x - r) ^ 2 / 2 + ρ1 * (x - r) ^ 3 := by linarith
    have s0 : f x = f1 r * (x - r) + f2 r * (x - r) ^ 2 / 2 + f3 r * (x - r) ^ 3 / 6 + ρ0 * (x - r) ^ 4 := by
      linarith
    have : (x - f x * ((f1 x ^ 2 - f x * f2 x / 2) /
        (f1 x * (f1 x ^ 2 - f x * f2 x) + f3 x * f x ^ 2 / 6)) - r) *
        (f1 x * (f1 x ^ 2 - f x * f2 x) + f3 x * f x ^ 2 / 6) =
        (x - r) * (f1 x * (f1 x ^ 2 - f x * f2 x) + f3 x * f x ^ 2 / 6) -
          f x * (f1 x ^ 2 - f x * f2 x / 2) := by
      generalize f1 x * (f1 x ^ 2 - f x * f2 x) + f3 x * f x ^ 2 / 6 = D at *
      field_simp; ring
    rw [this, s3, s2, s1, s0]
    generalize x - r = e
    ring
  rw [hid, abs_div, abs_mul, abs_pow]
  have hp2 : 0 < |f1 r| ^ 3 / 2 := by positivity
  calc _ ≤ |x - r| ^ 4 * B / (|f1 r| ^ 3 / 2) := by
        apply div_le_div₀ (by have := (abs_nonneg _).trans hbound; positivity) _ hp2 hx.le
        exact mul_le_mul_of_nonneg_left hbound (by positivity)
    _ = _ := by ring

end Lamberthub
