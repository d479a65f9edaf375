import Verif.Proofs.Order
import Verif.Model.Der

/-! # Order of convergence of Laguerre's step of `der2011` -/

set_option autoImplicit false

namespace Lamberthub
open Filter Topology Der

/-- `_laguerre_step` has order three at a simple root. -/
theorem laguerre_order {f f1 f2 : ℝ → ℝ} {r d3 : ℝ} (h1 : ∀ᶠ x in 𝓝 r, HasDerivAt f (f1 x) x)
    (h2 : ∀ᶠ x in 𝓝 r, HasDerivAt f1 (f2 x) x) (h3 : HasDerivAt f2 d3 r) (h0 : f r = 0)
    (hne : f1 r ≠ 0) (hr : |r| < 1e300) :
    Spec.OrderOf (fun x => laguerreStep x (f x) (f1 x) (f2 x)) r 3 := by
  have cf : ContinuousAt f r := h1.self_of_nhds.continuousAt
  have cf1 : ContinuousAt f1 r := h2.self_of_nhds.continuousAt
  have cf2 : ContinuousAt f2 r := h3.continuousAt
  obtain ⟨a, ha⟩ : ∃ a, a = f1 r := ⟨_, rfl⟩
  have ha0 : a ≠ 0 := ha ▸ hne
  obtain ⟨s, hs⟩ : ∃ s : ℝ → ℝ, s = fun x => copysign (Real.sqrt (f1 x ^ 2 - 2 * f x * f2 x)) (f1 x) := ⟨_, rfl⟩
  -- the discriminant
  have hdisc : Tendsto (fun x => f1 x ^ 2 - 2 * f x * f2 x) (𝓝 r) (𝓝 (a ^ 2)) := by
    have : ContinuousAt (fun x => f1 x ^ 2 - 2 * f x * f2 x) r :=
      (cf1.pow 2).sub ((cf.const_mul 2).mul cf2)
    have h := this.tendsto
    rw [h0, ← ha] at h
    simpa using h
  have hdpos : ∀ᶠ x in 𝓝 r, 0 < f1 x ^ 2 - 2 * f x * f2 x :=
    hdisc.eventually_const_lt (by positivity)
  have hsq : Tendsto (fun x => Real.sqrt (f1 x ^ 2 - 2 * f x * f2 x)) (𝓝 r) (𝓝 |a|) := by
    have := hdisc.sqrt
    rwa [Real.sqrt_sq_eq_abs] at this
  have hst : Tendsto s (𝓝 r) (𝓝 a) := by
    rcases lt_or_gt_of_ne ha0 with h | h
    · have hneg : ∀ᶠ x in 𝓝 r, f1 x < 0 := cf1.eventually_lt_const (ha ▸ h)
      rw [abs_of_neg h] at hsq
      have := hsq.neg
      rw [neg_neg] at this
      refine this.congr' ?_
      filter_upwards [hneg] with x hx
      rw [hs]
      simp only [copysign]
      rw [if_pos hx, abs_of_nonneg (Real.sqrt_nonneg _)]
    · have hpos : ∀ᶠ x in 𝓝 r, 0 < f1 x := cf1.eventually_const_lt (ha ▸ h)
      rw [abs_of_pos h] at hsq
      refine hsq.congr' ?_
      filter_upwards [hpos] with x hx
      rw [hs]
      simp only [copysign]
      rw [if_neg (not_lt.2 hx.le), abs_of_nonneg (Real.sqrt_nonneg _)]
  have cf1' : Tendsto f1 (𝓝 r) (𝓝 a) := ha ▸ cf1
  have hden : Tendsto (fun x => |f1 x + s x|) (𝓝 r) (𝓝 |a + a|) := (cf1'.add hst).abs
  have hlt : |a| < |a + a| := by
    rw [← two_mul, abs_mul, abs_two]
    have : 0 < |a| := by positivity
    linarith
  have hdenE := hden.eventually_const_lt hlt
  -- the conjugate
  obtain ⟨K, hK⟩ := taylor_two h1 h2 h3 h0
  have hnear : ∀ δ : ℝ, 0 < δ → ∀ᶠ x in 𝓝 r, |x - r| < δ := by
    intro δ hδ
    filter_upwards [Metric.ball_mem_nhds r hδ] with x hx
    rwa [Metric.mem_ball, Real.dist_eq] at hx
  have hK0 : 0 ≤ |K| := abs_nonneg _
  have hsE : ∀ᶠ x in 𝓝 r, |s x - a| < |a| / 4 := by
    have := (hst.sub_const a).abs
    rw [sub_self, abs_zero] at this
    exact this.eventually_lt_const (by positivity)
  -- f / (x - r) stays near a
  obtain ⟨δ, hδ0, hδ1, hδ⟩ : ∃ δ : ℝ, 0 < δ ∧ δ ≤ 1 ∧ (4 * |K| + 2 * |f2 r|) * δ ≤ |a| / 4 := by
    have hp : 0 < |a| / 4 := by positivity
    have hq : 0 < 4 * |K| + 2 * |f2 r| + 1 := by positivity
    refine ⟨min 1 (|a| / 4 / (4 * |K| + 2 * |f2 r| + 1)), lt_min one_pos (by positivity), min_le_left _ _, ?_⟩
    calc (4 * |K| + 2 * |f2 r|) * min 1 (|a| / 4 / (4 * |K| + 2 * |f2 r| + 1))
        ≤ (4 * |K| + 2 * |f2 r| + 1) * (|a| / 4 / (4 * |K| + 2 * |f2 r| + 1)) :=
          mul_le_mul (by linarith) (min_le_right _ _) (le_min zero_le_one (by positivity)) (by positivity)
      _ = |a| / 4 := by field_simp
  obtain ⟨B, hB⟩ : ∃ B, B = 2 * (2 * |a|) * (5 * |K|) / (|a| * |a|) := ⟨_, rfl⟩
  have key : ∀ᶠ x in 𝓝 r, |x - 2 * f x / (f1 x + s x) - r| ≤ B * |x - r| ^ 3 := by
    filter_upwards [hK, hdpos, hdenE, hsE, hnear δ hδ0] with x ⟨k2, k1, k0⟩ hd hdn hsx hn
    by_cases hxr : x = r
    · subst hxr; simp [h0]
    have he : x - r ≠ 0 := sub_ne_zero.2 hxr
    obtain ⟨ρ2, e2, b2⟩ := rho_of_bound he k2
    obtain ⟨ρ1, e1, b1⟩ := rho_of_bound he k1
    obtain ⟨ρ0, e0, b0⟩ := rho_of_bound he k0
    have s2 : f2 x = f2 r + ρ2 * (x - r) := by linarith
    have s1 : f1 x = a + f2 r * (x - r) + ρ1 * (x - r) ^ 2 := by rw [ha]; linarith
    have s0 : f x = (x - r) * (a + f2 r * (x - r) / 2 + ρ0 * (x - r) ^ 2) := by
      rw [ha]; linear_combination e0
    have hss : s x ^ 2 = f1 x ^ 2 - 2 * f x * f2 x := by
      rw [hs]
      simp only [copysign]
      split <;> simp only [neg_sq, sq_abs] <;> exact Real.sq_sqrt hd.le
    obtain ⟨e, hee⟩ : ∃ e, e = x - r := ⟨_, rfl⟩
    rw [← hee] at he hn s2 s1 s0
    obtain ⟨g, hg⟩ : ∃ g, g = a + f2 r * e / 2 + ρ0 * e ^ 2 := ⟨_, rfl⟩
    rw [← hg] at s0
    have hKK : K ≤ |K| := le_abs_self K
    have he1 : |e| ≤ 1 := hn.le.trans hδ1
    have hesq : |e| ^ 2 ≤ δ := by
      calc |e| ^ 2 = |e| * |e| := by ring
        _ ≤ |e| * 1 := mul_le_mul_of_nonneg_left he1 (abs_nonneg _)
        _ ≤ δ := by linarith [hn.le]
    have bound : ∀ c ρ : ℝ, |c| ≤ |f2 r| → |ρ| ≤ 4 * |K| → |c * e + ρ * e ^ 2| ≤ |a| / 4 := by
      intro c ρ hc hρ
      calc |c * e + ρ * e ^ 2| ≤ |c * e| + |ρ * e ^ 2| := abs_add_le _ _
        _ = |c| * |e| + |ρ| * |e| ^ 2 := by rw [abs_mul, abs_mul, abs_pow]
        _ ≤ |f2 r| * δ + 4 * |K| * δ := by
            apply add_le_add
            · exact mul_le_mul hc hn.le (abs_nonneg _) (abs_nonneg _)
            · exact mul_le_mul hρ hesq (by positivity) (by positivity)
        _ ≤ (4 * |K| + 2 * |f2 r|) * δ := by
            have := mul_nonneg (abs_nonneg (f2 r)) hδ0.le
            nlinarith
        _ ≤ |a| / 4 := hδ
    -- the conjugate denominator
    have hconj : |a| < |s x + 2 * g - f1 x| := by
      have hx1 : |s x + 2 * g - f1 x - 2 * a| ≤ |a| / 4 + |a| / 4 := by
        have e1 : s x + 2 * g - f1 x - 2 * a = (s x - a) + (0 * e + (2 * ρ0 - ρ1) * e ^ 2) := by
          rw [hg, s1]; ring
        rw [e1]
        refine (abs_add_le _ _).trans (add_le_add hsx.le (bound _ _ (by simp) ?_))
        calc |2 * ρ0 - ρ1| ≤ |2 * ρ0| + |ρ1| := abs_sub _ _
          _ = 2 * |ρ0| + |ρ1| := by rw [abs_mul, abs_two]
          _ ≤ 4 * |K| := by linarith
      have hx2 : |2 * a| ≤ |s x + 2 * g - f1 x| + |s x + 2 * g - f1 x - 2 * a| := by
        have := abs_sub (s x + 2 * g - f1 x) (s x + 2 * g - f1 x - 2 * a)
        rwa [show s x + 2 * g - f1 x - (s x + 2 * g - f1 x - 2 * a) = 2 * a by ring] at this
      rw [abs_mul, abs_two] at hx2
      have : 0 < |a| := by positivity
      linarith
    have hcne : s x + 2 * g - f1 x ≠ 0 := by
      intro h; rw [h, abs_zero] at hconj; linarith [abs_nonneg a]
    have hdne : f1 x + s x ≠ 0 := by
      intro h; rw [h, abs_zero] at hdn; linarith [abs_nonneg a]
    have hid : x - 2 * f x / (f1 x + s x) - r =
        e ^ 3 * (2 * g * (2 * (ρ1 - ρ0) - ρ2)) / ((f1 x + s x) * (s x + 2 * g - f1 x)) := by
      have hxe : x = e + r := by rw [hee]; ring
      have h1' : x - 2 * f x / (f1 x + s x) - r = (e * (f1 x + s x) - 2 * f x) / (f1 x + s x) := by
        rw [eq_div_iff hdne, sub_mul, sub_mul, div_mul_cancel₀ _ hdne, hee]; ring
      rw [h1', div_eq_div_iff hdne (mul_ne_zero hdne hcne)]
      have hmain : (e * (f1 x + s x) - 2 * f x) * (s x + 2 * g - f1 x) =
          e ^ 3 * (2 * g * (2 * (ρ1 - ρ0) - ρ2)) := by
        have h5 : (e * (f1 x + s x) - 2 * f x) * (s x + 2 * g - f1 x) =
            e * (s x ^ 2 - f1 x ^ 2) + 2 * g * e * (f1 x + s x) - 2 * f x * (s x + 2 * g - f1 x) := by ring
        rw [h5, hss, s0]
        have h6 : f1 x = g + e * (f2 r / 2 + (ρ1 - ρ0) * e) := by rw [s1, hg]; ring
        rw [s2, h6]; ring
      linear_combination (f1 x + s x) * hmain
    rw [hid, abs_div, abs_mul, abs_pow, abs_mul (f1 x + s x)]
    have hg2 : |g| ≤ 2 * |a| := by
      have e1 : g = a + (f2 r / 2 * e + ρ0 * e ^ 2) := by rw [hg]; ring
      rw [e1]
      refine (abs_add_le _ _).trans ?_
      have := bound (f2 r / 2) ρ0 (by rw [abs_div, abs_two]; linarith [abs_nonneg (f2 r)]) (by linarith)
      linarith [abs_nonneg a]
    have hρ : |2 * (ρ1 - ρ0) - ρ2| ≤ 5 * |K| := by
      calc |2 * (ρ1 - ρ0) - ρ2| ≤ |2 * (ρ1 - ρ0)| + |ρ2| := abs_sub _ _
        _ ≤ 2 * (|ρ1| + |ρ0|) + |ρ2| := by
            rw [abs_mul, abs_two]; linarith [abs_sub ρ1 ρ0]
        _ ≤ 5 * |K| := by linarith
    have hp : 0 < |a| := by positivity
    calc _ ≤ |e| ^ 3 * (2 * (2 * |a|) * (5 * |K|)) / (|a| * |a|) := by
          apply div_le_div₀ (by positivity) _ (by positivity) (mul_le_mul hdn.le hconj.le hp.le (abs_nonneg _))
          apply mul_le_mul_of_nonneg_left _ (by positivity)
          rw [abs_mul, abs_mul, abs_two]
          exact mul_le_mul (mul_le_mul_of_nonneg_left hg2 (by norm_num)) hρ (abs_nonneg _) (by positivity)
      _ = B * |x - r| ^ 3 := by rw [hB, hee]; ring
  refine ⟨B, ?_⟩
  have hB0 : 0 ≤ B := by rw [hB]; positivity
  have hsmall : ∀ᶠ x in 𝓝 r, B * |x - r| ^ 3 < 1e300 - |r| := by
    have : Tendsto (fun x => B * |x - r| ^ 3) (𝓝 r) (𝓝 (B * |r - r| ^ 3)) :=
      Continuous.tendsto (by fun_prop) r
    rw [sub_self, abs_zero] at this
    exact this.eventually_lt_const (by norm_num; norm_num at hr; linarith)
  filter_upwards [key, hsmall, hdpos, hdenE] with x hx hx2 hd hdn
  have hdne : f1 x + s x ≠ 0 := by
    intro h; rw [h, abs_zero] at hdn; linarith [abs_nonneg a]
  have hstep : laguerreStep x (f x) (f1 x) (f2 x) = x - 2 * f x / (f1 x + s x) := by
    have hc : |x - 2 * f x / (f1 x + s x) - r| < 1e300 - |r| := lt_of_le_of_lt hx hx2
    have hc2 : |x - 2 * f x / (f1 x + s x)| < 1e300 := by
      have := abs_sub_abs_le_abs_sub (x - 2 * f x / (f1 x + s x)) r
      linarith
    unfold laguerreStep
    rw [laguerreLoop]
    have e1 : (12 - ((10 : ℕ) : ℝ)) = 2 := by norm_num
    simp only [e1]
    have e2 : (2 - 1 : ℝ) ^ 2 * f1 x ^ 2 - 2 * (2 - 1) * f x * f2 x = f1 x ^ 2 - 2 * f x * f2 x := by ring
    simp only [e2]
    rw [if_neg (not_lt.2 hd.le)]
    have e3 : copysign (Real.sqrt (f1 x ^ 2 - 2 * f x * f2 x)) (f1 x) = s x := by rw [hs]
    rw [e3, if_neg hdne, if_pos (abs_lt.1 hc2)]
  rw [hstep]
  exact hx

end Lamberthub
