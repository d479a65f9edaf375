import Verif.Props.AroraGuess
import Verif.Props.OrderArora

/-! # C42, C58: `arora2013` at the switching points of `_get_W` -/

set_option autoImplicit false

namespace Lamberthub
open Filter Topology Spec LC Arora Set

namespace Arora

/-- On the elliptic side the truncated series is strictly below `W`. -/
theorem series_lt_ell {k : ℝ} (h1 : 0 ≤ k) (h2 : k < Real.sqrt 2) : seriesW k < ellW k 0 := by
  have hp := sqrt2_pos
  have hpos : ∀ t ∈ Ioo k (Real.sqrt 2), 0 < 2 - t ^ 2 := by
    intro t ht
    have := sqrt2_sq
    nlinarith [ht.1, ht.2]
  have hk0 : 0 < 2 - k ^ 2 := by have := sqrt2_sq; nlinarith
  have hder : ∀ t ∈ Ioo k (Real.sqrt 2), HasDerivAt (fun t => seriesW t * Real.sqrt (2 - t ^ 2) ^ 3 -
      (2 * Real.arccos (t / Real.sqrt 2) - t * Real.sqrt (2 - t ^ 2)))
      (Real.sqrt (2 - t ^ 2) * ((2 - t ^ 2) * getWsprime t - 3 * t * seriesW t + 2)) t := by
    intro t ht
    have hm0 := hpos t ht
    have hw : 0 < Real.sqrt (2 - t ^ 2) := by positivity
    have hw2 : Real.sqrt (2 - t ^ 2) ^ 2 = 2 - t ^ 2 := Real.sq_sqrt hm0.le
    have d := ((hasDerivAt_seriesW t).mul ((hasDerivAt_sqrt_m hm0).pow 3)).sub
      (((hasDerivAt_arccos_k (by linarith [ht.1, sqrt2_pos]) ht.2).const_mul 2).sub
        ((hasDerivAt_id t).mul (hasDerivAt_sqrt_m hm0)))
    refine (d.congr_deriv ?_).congr_of_eventuallyEq (Filter.Eventually.of_forall fun y => rfl)
    simp only [Pi.pow_apply, id]
    have hk : t ^ 2 = 2 - Real.sqrt (2 - t ^ 2) ^ 2 := by rw [hw2]; ring
    generalize Real.sqrt (2 - t ^ 2) = w at *
    rw [← hw2]
    field_simp
    push_cast
    ring_nf
    rw [hk]
    ring
  have hmono := strictMonoOn_of_deriv_pos (convex_Icc k (Real.sqrt 2))
    (f := fun t => seriesW t * Real.sqrt (2 - t ^ 2) ^ 3 -
      (2 * Real.arccos (t / Real.sqrt 2) - t * Real.sqrt (2 - t ^ 2))) (by
    apply ContinuousOn.sub
    · apply ContinuousOn.mul
      · exact fun t _ => (hasDerivAt_seriesW t).continuousAt.continuousWithinAt
      · fun_prop
    · apply Continuous.continuousOn
      exact ((Real.continuous_arccos.comp (continuous_id.div_const _)).const_smul (2 : ℝ)).sub (by fun_prop)) (by
    rw [interior_Icc]
    intro t ht
    rw [(hder t ht).deriv, series_ode]
    have hw : 0 < Real.sqrt (2 - t ^ 2) := Real.sqrt_pos.2 (hpos t ht)
    refine mul_pos hw ?_
    have h9 : (t - Real.sqrt 2) ^ 9 < 0 := Odd.pow_neg (by decide) (by linarith [ht.2])
    have : 0 < 88 / 46189 * Real.sqrt 2 := by positivity
    nlinarith)
  have key := hmono (left_mem_Icc.2 h2.le) (right_mem_Icc.2 h2.le) h2
  simp only [] at key
  rw [sqrt2_sq, sub_self, Real.sqrt_zero, div_self sqrt2_pos.ne', Real.arccos_one] at key
  have hw : 0 < Real.sqrt (2 - k ^ 2) := by positivity
  have hw2 : Real.sqrt (2 - k ^ 2) ^ 2 = 2 - k ^ 2 := Real.sq_sqrt hk0.le
  have e : seriesW k * Real.sqrt (2 - k ^ 2) ^ 3 -
      (2 * Real.arccos (k / Real.sqrt 2) - k * Real.sqrt (2 - k ^ 2)) =
      (seriesW k - ellW k 0) * Real.sqrt (2 - k ^ 2) ^ 3 := by
    unfold ellW
    generalize Real.sqrt (2 - k ^ 2) = w at *
    rw [← hw2]
    field_simp
    push_cast
    ring
  rw [e] at key
  norm_num at key
  have h3 : 0 < Real.sqrt (2 - k ^ 2) ^ 3 := by positivity
  by_contra hh
  push Not at hh
  have := mul_nonneg (sub_nonneg.2 hh) h3.le
  linarith

/-- On the hyperbolic side the truncated series is strictly above `W`. -/
theorem hyp_lt_series {k : ℝ} (h1 : Real.sqrt 2 < k) : hypW k < seriesW k := by
  have hp := sqrt2_pos
  have hpos : ∀ t ∈ Ioo (Real.sqrt 2) k, 0 < t ^ 2 - 2 := by
    intro t ht
    have := sqrt2_sq
    nlinarith [ht.1, ht.2]
  have hk0 : 0 < k ^ 2 - 2 := by have := sqrt2_sq; nlinarith
  have hder : ∀ t ∈ Ioo (Real.sqrt 2) k, HasDerivAt (fun t => seriesW t * Real.sqrt (t ^ 2 - 2) ^ 3 -
      (t * Real.sqrt (t ^ 2 - 2) - 2 * Real.arcosh (t / Real.sqrt 2)))
      (Real.sqrt (t ^ 2 - 2) * -((2 - t ^ 2) * getWsprime t - 3 * t * seriesW t + 2)) t := by
    intro t ht
    have hm0 := hpos t ht
    have hw : 0 < Real.sqrt (t ^ 2 - 2) := by positivity
    have hw2 : Real.sqrt (t ^ 2 - 2) ^ 2 = t ^ 2 - 2 := Real.sq_sqrt hm0.le
    have d := ((hasDerivAt_seriesW t).mul ((hasDerivAt_sqrt_n hm0).pow 3)).sub
      (((hasDerivAt_id t).mul (hasDerivAt_sqrt_n hm0)).sub ((hasDerivAt_arcosh_k ht.1).const_mul 2))
    refine (d.congr_deriv ?_).congr_of_eventuallyEq (Filter.Eventually.of_forall fun y => rfl)
    simp only [Pi.pow_apply, id]
    have hk : t ^ 2 = 2 + Real.sqrt (t ^ 2 - 2) ^ 2 := by rw [hw2]; ring
    generalize Real.sqrt (t ^ 2 - 2) = w at *
    rw [show 2 - t ^ 2 = -w ^ 2 by rw [hk]; ring]
    field_simp
    push_cast
    ring_nf
    rw [hk]
    ring
  have hmono := strictMonoOn_of_deriv_pos (convex_Icc (Real.sqrt 2) k)
    (f := fun t => seriesW t * Real.sqrt (t ^ 2 - 2) ^ 3 -
      (t * Real.sqrt (t ^ 2 - 2) - 2 * Real.arcosh (t / Real.sqrt 2))) (by
    apply ContinuousOn.sub
    · apply ContinuousOn.mul
      · exact fun t _ => (hasDerivAt_seriesW t).continuousAt.continuousWithinAt
      · fun_prop
    · apply ContinuousOn.sub
      · fun_prop
      · refine ContinuousOn.const_smul (c := (2 : ℝ)) ?_
        refine Real.continuousOn_arcosh.comp (continuous_id.div_const _).continuousOn fun t ht => ?_
        rw [mem_Ici, le_div_iff₀ sqrt2_pos, one_mul]; exact ht.1) (by
    rw [interior_Icc]
    intro t ht
    rw [(hder t ht).deriv, series_ode, neg_neg]
    have hw : 0 < Real.sqrt (t ^ 2 - 2) := Real.sqrt_pos.2 (hpos t ht)
    have h9 : 0 < (t - Real.sqrt 2) ^ 9 := pow_pos (by linarith [ht.1]) 9
    positivity)
  have key := hmono (left_mem_Icc.2 h1.le) (right_mem_Icc.2 h1.le) h1
  simp only [] at key
  rw [sqrt2_sq, sub_self, Real.sqrt_zero, div_self sqrt2_pos.ne', show Real.arcosh 1 = 0 by simp [Real.arcosh]] at key
  have hw : 0 < Real.sqrt (k ^ 2 - 2) := by positivity
  have hw2 : Real.sqrt (k ^ 2 - 2) ^ 2 = k ^ 2 - 2 := Real.sq_sqrt hk0.le
  have e : seriesW k * Real.sqrt (k ^ 2 - 2) ^ 3 -
      (k * Real.sqrt (k ^ 2 - 2) - 2 * Real.arcosh (k / Real.sqrt 2)) =
      (seriesW k - hypW k) * Real.sqrt (k ^ 2 - 2) ^ 3 := by
    unfold hypW
    generalize Real.sqrt (k ^ 2 - 2) = w at *
    rw [← hw2]
    field_simp
  rw [e] at key
  norm_num at key
  have h3 : 0 < Real.sqrt (k ^ 2 - 2) ^ 3 := by positivity
  by_contra hh
  push Not at hh
  have := mul_nonneg (sub_nonneg.2 hh) h3.le
  nlinarith

/-- Next to the switching point the bounds only let the step through. -/
theorem boundK_inner {y tof tofP tau d x' : ℝ} (h : tofP < tof) (hb : boundK y tof tofP tau d = .ok x') (h1 : 1 < x')
    (h2 : x' < 1.41) : x' = y := by
  have hl := sqrt2_fine
  norm_num at hl h2
  unfold boundK at hb
  simp only [] at hb
  have n2 : ∀ z : ℝ, ¬ (z < Real.sqrt 2 ∧ tof < tofP) := fun z hz => absurd hz.2 (not_lt.2 h.le)
  have n4 : ∀ z : ℝ, ¬ (tof < tofP ∧ d > 0 ∧ 1 - tau * z < 0) := fun z hz => absurd hz.1 (not_lt.2 h.le)
  simp only [n2, n4, if_false, Except.ok.injEq] at hb
  split_ifs at hb with a b c
  · exact absurd b.1 (by have := sqrt2_pos; norm_num; linarith)
  · norm_num at hb; linarith
  · norm_num at hb; linarith
  · exact hb.symm

end Arora

/-- **C42 (negation at the switching points).**  The function `W` that `arora2013` evaluates with no revolutions is not continuous
at `√2 - 0.02` nor at `√2 + 0.02`, where it passes from the closed forms to the truncated series: the derivative used by the
code is not one of it there.  (The jumps are below `1e-18`, `series_error`.) -/
theorem arora_W_jumps {w : ℝ → ℝ} {k : ℝ} (hk : k = Real.sqrt 2 - 2e-2 ∨ k = Real.sqrt 2 + 2e-2)
    (hw : ∀ᶠ x in 𝓝 k, getW x 0 = .ok (w x)) : ¬ ContinuousAt w k := by
  intro hc
  have hl := lt_sqrt2
  have hu := sqrt2_lt
  have he : epsilon = 2e-2 := rfl
  norm_num at hl hu he hk
  have hwk := hw.self_of_nhds
  rcases hk with rfl | rfl
  · have e1 : w (Real.sqrt 2 - 1 / 50) = seriesW (Real.sqrt 2 - 1 / 50) := by
      rcases getW_ok (M := 0) hwk with ⟨a, b, c, -⟩ | ⟨a, -⟩ | ⟨-, -, -, a⟩
      · rcases c with c | c
        · rw [he] at c; linarith
        · exact absurd c (by norm_num)
      · rw [he] at a; linarith
      · exact a
    have hlt := series_lt_ell (k := Real.sqrt 2 - 1 / 50) (by linarith) (by linarith)
    have hcl : ContinuousAt (fun k => ellW k 0) (Real.sqrt 2 - 1 / 50) :=
      (hasDerivAt_ellW 0 (by linarith) (by linarith)).continuousAt
    have t1 : Tendsto w (𝓝[<] (Real.sqrt 2 - 1 / 50)) (𝓝 (ellW (Real.sqrt 2 - 1 / 50) 0)) := by
      refine (hcl.tendsto.mono_left nhdsWithin_le_nhds).congr' ?_
      filter_upwards [nhdsWithin_le_nhds hw, self_mem_nhdsWithin,
        nhdsWithin_le_nhds (eventually_gt_nhds (by linarith : (0 : ℝ) < Real.sqrt 2 - 1 / 50))] with x x1 x2 x3
      have x2' : x < Real.sqrt 2 - 1 / 50 := x2
      have := getW_ell (M := 0) (by linarith : -Real.sqrt 2 < x) (by linarith) (.inl (by rw [he]; linarith))
      rw [show ((0 : ℕ) : ℤ) = 0 from rfl, x1] at this
      exact (Except.ok.inj this).symm
    have := tendsto_nhds_unique t1 (hc.tendsto.mono_left nhdsWithin_le_nhds)
    linarith
  · have e1 : w (Real.sqrt 2 + 1 / 50) = seriesW (Real.sqrt 2 + 1 / 50) := by
      rcases getW_ok (M := 0) hwk with ⟨a, b, c, -⟩ | ⟨a, -⟩ | ⟨-, -, -, a⟩
      · linarith
      · rw [he] at a; linarith
      · exact a
    have hlt := hyp_lt_series (k := Real.sqrt 2 + 1 / 50) (by linarith)
    have hcl : ContinuousAt hypW (Real.sqrt 2 + 1 / 50) := (hasDerivAt_hypW (by linarith)).continuousAt
    have t1 : Tendsto w (𝓝[>] (Real.sqrt 2 + 1 / 50)) (𝓝 (hypW (Real.sqrt 2 + 1 / 50))) := by
      refine (hcl.tendsto.mono_left nhdsWithin_le_nhds).congr' ?_
      filter_upwards [nhdsWithin_le_nhds hw, self_mem_nhdsWithin] with x x1 x2
      have x2' : Real.sqrt 2 + 1 / 50 < x := x2
      have := getW_hyp (M := 0) (k := x) (by rw [he]; linarith)
      rw [x1] at this
      exact (Except.ok.inj this).symm
    have := tendsto_nhds_unique t1 (hc.tendsto.mono_left nhdsWithin_le_nhds)
    linarith

/-- The hypothesis holds: `_get_W` is defined on both sides of the switching points. -/
example : ∃ w : ℝ → ℝ, ∀ᶠ x in 𝓝 (Real.sqrt 2 - 2e-2), getW x 0 = .ok (w x) := by
  have hl := lt_sqrt2
  have he : epsilon = 2e-2 := rfl
  norm_num at hl he
  refine ⟨fun x => if x < Real.sqrt 2 - epsilon then ellW x 0 else seriesW x, ?_⟩
  filter_upwards [eventually_gt_nhds (by norm_num; linarith : (0 : ℝ) < Real.sqrt 2 - 2e-2),
    eventually_lt_nhds (by norm_num : Real.sqrt 2 - 2e-2 < Real.sqrt 2)] with x x1 x2
  split_ifs with h
  · exact getW_ell (M := 0) (by linarith) x2 (.inl h)
  · rcases (not_lt.1 h).lt_or_eq with h' | h'
    · exact getW_near h' (by rw [he]; linarith)
    · unfold getW
      simp only []
      rw [if_neg (by rintro (⟨_, a⟩ | ⟨a, _⟩) <;> [exact h a; exact absurd a (by norm_num)]),
        if_neg (by rw [he]; linarith), if_pos ⟨trivial, h'.le, by rw [he]; linarith⟩]

namespace Arora

/-- Positivity and decrease of `W` on the elliptic side next to the parabola. -/
theorem ellW_signs : 0 < ellW (Real.sqrt 2 - 1 / 50) 0 ∧
    (-2 + 3 * ellW (Real.sqrt 2 - 1 / 50) 0 * (Real.sqrt 2 - 1 / 50)) / (2 - (Real.sqrt 2 - 1 / 50) ^ 2) < 0 := by
  have hl := sqrt2_fine
  have hu := sqrt2_lt
  have hs := sqrt2_sq
  have he : epsilon = 2e-2 := rfl
  norm_num at hl hu he
  have hse := series_ell (k := Real.sqrt 2 - 1 / 50) (by rw [he]) (by linarith)
  have hode := series_ode (Real.sqrt 2 - 1 / 50)
  have hlt := series_lt_ell (k := Real.sqrt 2 - 1 / 50) (by linarith) (by linarith)
  have hv : Real.sqrt 2 - 1 / 50 - Real.sqrt 2 = -(1 / 50) := by ring
  have hw1 : 0.47 < seriesW (Real.sqrt 2 - 1 / 50) := by
    unfold seriesW
    simp only [hv]
    norm_num
    nlinarith
  have hw2 : seriesW (Real.sqrt 2 - 1 / 50) < 0.4756 := by
    unfold seriesW
    simp only [hv]
    norm_num
    nlinarith
  have hm : 0 < 2 - (Real.sqrt 2 - 1 / 50) ^ 2 := by nlinarith
  rw [abs_le] at hse
  norm_num at hw1 hw2 hse
  have hw3 : ellW (Real.sqrt 2 - 1 / 50) 0 < 0.4757 := by norm_num; linarith [hse.1]
  norm_num at hw3
  refine ⟨by linarith, div_neg_of_neg_of_pos ?_ hm⟩
  generalize ellW (Real.sqrt 2 - 1 / 50) 0 = W at *
  nlinarith

end Arora

/-- **C58 (negation at a switching point).**  On the short way, whatever the geometry, take the time of flight that `arora2013`
computes at its switching point `r = √2 - 0.02`: the flight time of an ellipse, up to `1e-18`.  The iteration converges to the
root `r` of the equation with no order at all, not even linearly. -/
theorem arora_switch_no_order {tau S tof tofP d : ℝ} (ht : 0 < tau) (htau : Real.sqrt 2 * tau < 1) (hS : 0 < S)
    (htofP : tofP = S * Real.sqrt (1 - Real.sqrt 2 * tau) * (tau + Real.sqrt 2) / 3)
    (htof : getTOF (Real.sqrt 2 - 2e-2) tau S (seriesW (Real.sqrt 2 - 2e-2)) = .ok tof) (p : ℕ) (hp : p ≠ 0) :
    tofP < tof ∧ ¬ ConvergesWithOrder (fun k => do
      let W ← getW k 0
      let Wp ← getWprime k W 0
      let Wpp ← getW2prime k W Wp 0
      let c ← pdiv (1 - k * tau) tau
      let tofc ← getTOF k tau S W
      let tp ← tofPrime tofc c S tau W Wp
      let tpp ← tofSecond tofc c S tau W Wp Wpp
      let e ← pdiv ((tofc - tof) * tpp) (2.0 * tp)
      let deltak ← pdiv (-(tofc - tof)) (tp - e)
      boundK (k + deltak) tof tofP tau d) (Real.sqrt 2 - 2e-2) p := by
  have hl := sqrt2_fine
  have hu := sqrt2_lt
  have hs := sqrt2_sq
  have he : epsilon = 2e-2 := rfl
  norm_num at hl hu he
  rw [show (2e-2 : ℝ) = 1 / 50 by norm_num] at htof ⊢
  obtain ⟨r, hr⟩ : ∃ r, r = Real.sqrt 2 - 1 / 50 := ⟨_, rfl⟩
  obtain ⟨W0, W1⟩ := ellW_signs
  have hlt := series_lt_ell (k := Real.sqrt 2 - 1 / 50) (by linarith) (by linarith)
  have hser : Real.sqrt 2 / 3 < seriesW (Real.sqrt 2 - 1 / 50) := by
    unfold seriesW
    simp only [show Real.sqrt 2 - 1 / 50 - Real.sqrt 2 = -(1 / 50) by ring]
    norm_num
    nlinarith
  rw [← hr] at htof W0 W1 hlt hser ⊢
  have hr1 : 1 < r := by rw [hr]; linarith
  have hr2 : r < Real.sqrt 2 := by rw [hr]; linarith
  have hur : 0 < 1 - r * tau := by nlinarith
  rw [getTOF_eq hur.le, Except.ok.injEq] at htof
  have hP : tofP < tof := by
    rw [htofP, ← htof]
    have hup : 0 < 1 - Real.sqrt 2 * tau := by linarith
    have hlt' : 1 - Real.sqrt 2 * tau < 1 - r * tau := by nlinarith
    have e : S * Real.sqrt (1 - Real.sqrt 2 * tau) * (tau + Real.sqrt 2) / 3 =
        S * Real.sqrt (1 - Real.sqrt 2 * tau) * (tau + (1 - Real.sqrt 2 * tau) * (Real.sqrt 2 / 3)) := by
      linear_combination S * Real.sqrt (1 - Real.sqrt 2 * tau) * tau / 3 * hs
    rw [e]
    have hq := Real.sqrt_lt_sqrt hup.le hlt'
    have hq0 : 0 < Real.sqrt (1 - Real.sqrt 2 * tau) := Real.sqrt_pos.2 hup
    refine mul_lt_mul (mul_lt_mul_of_pos_left hq hS) ?_ ?_ (by positivity)
    · have : (1 - Real.sqrt 2 * tau) * (Real.sqrt 2 / 3) ≤ (1 - r * tau) * seriesW r :=
        mul_le_mul hlt'.le hser.le (by positivity) hur.le
      linarith
    · have : 0 < (1 - Real.sqrt 2 * tau) * (Real.sqrt 2 / 3) := by positivity
      linarith
  refine ⟨hP, ?_⟩
  rintro ⟨C, hC⟩
  -- the functions on the left of the switching point
  obtain ⟨w, hw⟩ : ∃ w : ℝ → ℝ, w = fun k => ellW k 0 := ⟨_, rfl⟩
  obtain ⟨w1, hw1⟩ : ∃ w1 : ℝ → ℝ, w1 = fun k => (-2 + 3 * w k * k) / (2 - k ^ 2) := ⟨_, rfl⟩
  obtain ⟨w2, hw2⟩ : ∃ w2 : ℝ → ℝ, w2 = fun k => (5 * w1 k * k + 3 * w k) / (2 - k ^ 2) := ⟨_, rfl⟩
  obtain ⟨c, hc⟩ : ∃ c : ℝ → ℝ, c = fun k => (1 - k * tau) / tau := ⟨_, rfl⟩
  obtain ⟨f, hf⟩ : ∃ f : ℝ → ℝ, f = fun k => S * Real.sqrt (1 - k * tau) * (tau + (1 - k * tau) * w k) := ⟨_, rfl⟩
  obtain ⟨f1, hf1⟩ : ∃ f1 : ℝ → ℝ, f1 = fun k => -f k / (2 * c k) + S * tau * Real.sqrt (c k * tau) * (w1 k * c k - w k) := ⟨_, rfl⟩
  obtain ⟨f2, hf2⟩ : ∃ f2 : ℝ → ℝ, f2 = fun k => -f k / (4 * c k ^ 2) + S * tau * Real.sqrt (c k * tau) *
    (w k / c k + c k * w2 k - 3 * w1 k) := ⟨_, rfl⟩
  have hm : 2 - r ^ 2 ≠ 0 := by nlinarith
  have hcr : 0 < c r := by rw [hc]; simp only []; positivity
  have wc : ContinuousAt w r := by rw [hw]; exact (hasDerivAt_ellW 0 (by linarith) hr2).continuousAt
  have w1c : ContinuousAt w1 r := by
    rw [hw1]
    exact ((continuousAt_const.add ((continuousAt_const.mul wc).mul continuousAt_id)).div (by fun_prop) (by simpa using hm))
  have w2c : ContinuousAt w2 r := by
    rw [hw2]
    exact (((continuousAt_const.mul w1c).mul continuousAt_id).add (continuousAt_const.mul wc)).div (by fun_prop) (by simpa using hm)
  have cc : ContinuousAt c r := by rw [hc]; fun_prop
  have fc : ContinuousAt f r := by
    rw [hf]
    have : ContinuousAt (fun k => 1 - k * tau) r := by fun_prop
    exact (continuousAt_const.mul this.sqrt).mul (continuousAt_const.add (this.mul wc))
  have f1c : ContinuousAt f1 r := by
    rw [hf1]
    exact (fc.neg.div (continuousAt_const.mul cc) (mul_ne_zero two_ne_zero hcr.ne')).add
      ((continuousAt_const.mul (cc.mul continuousAt_const).sqrt).mul ((w1c.mul cc).sub wc))
  have f2c : ContinuousAt f2 r := by
    rw [hf2]
    exact (fc.neg.div (continuousAt_const.mul (cc.pow 2)) (mul_ne_zero four_ne_zero (pow_ne_zero 2 hcr.ne'))).add
      ((continuousAt_const.mul (cc.mul continuousAt_const).sqrt).mul (((wc.div cc hcr.ne').add (cc.mul w2c)).sub
        (continuousAt_const.mul w1c)))
  -- their values at the switching point
  have hJ : 0 < f r - tof := by
    rw [← htof, hf, hw]
    simp only []
    have : 0 < S * Real.sqrt (1 - r * tau) := by positivity
    have h2 : (1 - r * tau) * seriesW r < (1 - r * tau) * ellW r 0 := mul_lt_mul_of_pos_left hlt hur
    nlinarith
  have hwr : 0 < w r := by rw [hw]; exact W0
  have hw1r : w1 r < 0 := by rw [hw1, hw]; exact W1
  have hslope : f1 r < 0 := by
    have hfr : 0 < f r := by rw [hf]; simp only []; positivity
    rw [hf1]
    simp only []
    have a1 : -f r / (2 * c r) < 0 := div_neg_of_neg_of_pos (by linarith) (by positivity)
    have a2 : S * tau * Real.sqrt (c r * tau) * (w1 r * c r - w r) ≤ 0 :=
      mul_nonpos_of_nonneg_of_nonpos (by positivity) (by nlinarith)
    linarith
  -- a step that ends near the root is short
  have hstep : ∀ᶠ x in 𝓝[<] r, |(f x - tof) * f1 x| ≤ (C * |x - r| ^ p + |x - r|) * |f1 x ^ 2 - (f x - tof) * f2 x / 2| := by
    have hsmall : ∀ᶠ x in 𝓝 r, C * |x - r| ^ p < 1 / 100 := by
      have : ContinuousAt (fun x : ℝ => C * |x - r| ^ p) r := by fun_prop
      exact this.eventually (eventually_lt_nhds (by simp [hp]))
    filter_upwards [nhdsWithin_le_nhds hC, nhdsWithin_le_nhds hsmall, self_mem_nhdsWithin,
      nhdsWithin_le_nhds (eventually_gt_nhds hr1)] with x x1 x2 x3 x4
    have x3' : x < r := x3
    obtain ⟨x', e1, e2⟩ := x1
    have hux : 0 < 1 - x * tau := by nlinarith
    have hmx : 2 - x ^ 2 ≠ 0 := by nlinarith
    have hxe : x < Real.sqrt 2 - epsilon := by rw [he, ← hr]; exact x3'
    have hcx : 0 < c x := by rw [hc]; simp only []; positivity
    have g1 : getW x 0 = .ok (w x) := by rw [hw]; exact getW_ell (M := 0) (by linarith) (by linarith) (.inl hxe)
    have g2 : getWprime x (w x) 0 = .ok (w1 x) := by
      unfold getWprime; simp only []; rw [if_pos (.inl hxe), pdiv_eq hmx, hw1]
    have g3 : getW2prime x (w x) (w1 x) 0 = .ok (w2 x) := by
      unfold getW2prime; simp only []; rw [if_pos (.inl hxe), pdiv_eq hmx, hw2]
    have g4 : pdiv (1 - x * tau) tau = .ok (c x) := by rw [pdiv_eq ht.ne', hc]
    have g5 : getTOF x tau S (w x) = .ok (f x) := by rw [getTOF_eq hux.le, hf]
    have g6 : tofPrime (f x) (c x) S tau (w x) (w1 x) = .ok (f1 x) := by
      unfold tofPrime; rw [pdiv_eq (by positivity), ok_bind, psqrt_eq (by positivity), ok_bind, hf1]
    have g7 : tofSecond (f x) (c x) S tau (w x) (w1 x) (w2 x) = .ok (f2 x) := by
      unfold tofSecond; rw [pdiv_eq (by positivity), ok_bind, psqrt_eq (by positivity), ok_bind, pdiv_eq hcx.ne', ok_bind, hf2]
    rw [g1, ok_bind, g2, ok_bind, g3, ok_bind, g4, ok_bind, g5, ok_bind, g6, ok_bind, g7, ok_bind] at e1
    simp only [bind_ok, pdiv_ok] at e1
    obtain ⟨e, ⟨n1, rfl⟩, δ, ⟨n2, rfl⟩, hb⟩ := e1
    have hx' : |x' - r| < 1 / 100 := lt_of_le_of_lt e2 x2
    rw [abs_lt] at hx'
    have hxx := boundK_inner hP hb (by rw [hr] at hx'; linarith [hx'.1]) (by rw [hr] at hx'; norm_num; linarith [hx'.2])
    have n3 : f1 x ≠ 0 := fun h => n1 (by rw [h, mul_zero])
    have hδ : |x' - x| ≤ C * |x - r| ^ p + |x - r| := by
      have := abs_sub_le x' r x
      rw [abs_sub_comm r x] at this
      linarith
    have eq : (f x - tof) * f1 x = -(x' - x) * (f1 x ^ 2 - (f x - tof) * f2 x / 2) := by
      rw [hxx]
      have n2' := n2
      have e3 : f1 x ^ 2 - (f x - tof) * f2 x / 2 = f1 x * (f1 x - (f x - tof) * f2 x / (2.0 * f1 x)) := by
        norm_num; field_simp
      rw [e3]
      generalize f1 x - (f x - tof) * f2 x / (2.0 * f1 x) = D at *
      field_simp
      ring
    rw [eq, abs_mul, abs_neg]
    exact mul_le_mul_of_nonneg_right hδ (abs_nonneg _)
  have t1 : Tendsto (fun x => |(f x - tof) * f1 x|) (𝓝[<] r) (𝓝 |(f r - tof) * f1 r|) :=
    (((fc.sub continuousAt_const).mul f1c).abs.tendsto).mono_left nhdsWithin_le_nhds
  have t2 : Tendsto (fun x => (C * |x - r| ^ p + |x - r|) * |f1 x ^ 2 - (f x - tof) * f2 x / 2|) (𝓝[<] r) (𝓝 0) := by
    have a1 : ContinuousAt (fun x : ℝ => C * |x - r| ^ p + |x - r|) r := by fun_prop
    have a2 : ContinuousAt (fun x => |f1 x ^ 2 - (f x - tof) * f2 x / 2|) r :=
      ((f1c.pow 2).sub (((fc.sub continuousAt_const).mul f2c).div_const 2)).abs
    have := (a1.mul a2).tendsto
    simp only [Pi.mul_apply, sub_self, abs_zero, zero_pow hp, mul_zero, add_zero, zero_mul] at this
    exact this.mono_left nhdsWithin_le_nhds
  have := le_of_tendsto_of_tendsto t1 t2 hstep
  have hpos : 0 < |(f r - tof) * f1 r| := abs_pos.2 (mul_ne_zero hJ.ne' hslope.ne)
  linarith

/-- Such a time exists for every geometry of the short way. -/
example : ∃ tof, getTOF (Real.sqrt 2 - 2e-2) (1 / 2) 1 (seriesW (Real.sqrt 2 - 2e-2)) = .ok tof := by
  have hu := sqrt2_lt
  norm_num at hu
  exact ⟨_, getTOF_eq (by norm_num; linarith)⟩

end Lamberthub
