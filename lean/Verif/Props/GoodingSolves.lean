import Verif.Proofs.GoodingLimits
import Verif.Props.IzzoSolves

/-! # C75: which single-revolution problems `gooding1990` solves

* the start is always in the domain of the time equation and on the right side of the least-energy orbit;
* near the least-energy time the solver converges, for all tolerances;
* for short times it converges;
* for long times it stops after its first pass with a flight time that is wrong by an unbounded factor. -/

set_option autoImplicit false

namespace Lamberthub
open Filter Topology Spec LC

namespace Gooding
open Izzo (tm tm1 tm2 fastC fastC_pos tm_strict tm_deriv tm_fast)

/-- One pass near the least energy. -/
theorem step_near {q : ℝ} (hq : q ^ 2 < 1) :
    ∃ ρ : ℝ, 0 < ρ ∧ ρ ≤ 1 ∧ ∀ x r, |x| < ρ → |r| < ρ → tm1 q x ≠ 0 ∧
      tm1 q x ^ 2 + (tm q r - tm q x) * tm2 q x / 2 ≠ 0 ∧ |nextX q (tm q r) x - r| ≤ |x - r| / 2 := by
  have h1 : (-1 : ℝ) < 0 := by norm_num
  have h2 : (0 : ℝ) ≠ 1 := by norm_num
  have hd : tm1 q 0 = -2 := by rw [tm1, lancT1]; norm_num
  obtain ⟨d0, d1, d2, -⟩ := tm_deriv hq h1 h2
  have cf : ContinuousAt (fun p : ℝ × ℝ => tm q p.2 - tm q p.1) (0, 0) := by
    have ka : ContinuousAt (fun p : ℝ × ℝ => tm q p.1) (0, 0) :=
      ContinuousAt.comp (g := tm q) (f := Prod.fst) d0.continuousAt continuousAt_fst
    have kb : ContinuousAt (fun p : ℝ × ℝ => tm q p.2) (0, 0) :=
      ContinuousAt.comp (g := tm q) (f := Prod.snd) d0.continuousAt continuousAt_snd
    exact kb.sub ka
  have k1 : ContinuousAt (fun p : ℝ × ℝ => tm1 q p.1) (0, 0) :=
    ContinuousAt.comp (g := tm1 q) (f := Prod.fst) d1.continuousAt continuousAt_fst
  have k2 : ContinuousAt (fun p : ℝ × ℝ => tm2 q p.1) (0, 0) :=
    ContinuousAt.comp (g := tm2 q) (f := Prod.fst) d2.continuousAt continuousAt_fst
  have hden : ContinuousAt (fun p : ℝ × ℝ => tm1 q p.1 ^ 2 + (tm q p.2 - tm q p.1) * tm2 q p.1 / 2) (0, 0) :=
    (k1.pow 2).add ((cf.mul k2).div_const 2)
  have hn : tm1 q 0 ^ 2 + (tm q 0 - tm q 0) * tm2 q 0 / 2 ≠ 0 := by rw [hd]; norm_num
  have hqq := (k1.div hden hn).tendsto
  have e2 : tm1 q 0 / (tm1 q 0 ^ 2 + (tm q 0 - tm q 0) * tm2 q 0 / 2) = (tm1 q 0)⁻¹ := by rw [hd]; norm_num
  simp only [Pi.div_apply] at hqq
  rw [e2] at hqq
  have hall := (uniform_contract (tm_strict hq h1 h2) (by rw [hd]; norm_num) hqq).and ((hden.eventually_ne hn).and
    (k1.eventually_ne (show tm1 q 0 ≠ 0 by rw [hd]; norm_num)))
  obtain ⟨ρ, hρ, hb⟩ := Metric.eventually_nhds_iff_ball.1 hall
  refine ⟨min ρ 1, by positivity, min_le_right _ _, fun x r hx hr => ?_⟩
  have hmem : (x, r) ∈ Metric.ball ((0 : ℝ), (0 : ℝ)) ρ := by
    rw [Metric.mem_ball, Prod.dist_eq, max_lt_iff, Real.dist_eq, Real.dist_eq, sub_zero, sub_zero]
    exact ⟨hx.trans_le (min_le_left _ _), hr.trans_le (min_le_left _ _)⟩
  obtain ⟨b1, b2, b3⟩ := hb _ hmem
  refine ⟨b3, b2, ?_⟩
  have e : nextX q (tm q r) x - r = x - (tm q x - tm q r) * (tm1 q x / (tm1 q x ^ 2 + (tm q r - tm q x) * tm2 q x / 2)) - r := by
    rw [nextX]; ring
  rw [e]
  exact b1

/-- The loop, from a point close to the root compared with the distance of the root to zero. -/
theorem loop_near {q r ρ atol rtol : ℝ} (hq : q ^ 2 < 1) (hr0 : r ≠ 0) (hr1 : 2 * |r| < ρ) (hρ : ρ ≤ 1)
    (hst : ∀ x, |x| < ρ → tm1 q x ≠ 0 ∧ tm1 q x ^ 2 + (tm q r - tm q x) * tm2 q x / 2 ≠ 0 ∧
      |nextX q (tm q r) x - r| ≤ |x - r| / 2) (ha : 0 < atol) (hr : 0 < rtol) (maxiter : ℕ) :
    ∀ n k : ℕ, ∀ x0 xold, |x0 - r| * 4 ≤ |r| → |x0 - r| ≤ |r| / 4 → 4 * |x0 - r| ≤ atol * 2 ^ n →
      4 * |x0 - r| ≤ rtol * |r| * 2 ^ n →
      ∃ x k', xlambIter 0 q (1 - q ^ 2) (2 * tm q r) atol rtol maxiter (n + 1) (k + 1) x0 xold = .ok (x, k' + 1) ∧
        |x - r| ≤ |r| / 4 ∧ |x - r| ≤ atol ∧ |x - r| ≤ 5 / 4 * rtol * |r| := by
  intro n
  have hrp : 0 < |r| := abs_pos.2 hr0
  have facts : ∀ x, |x - r| ≤ |r| / 4 → 3 / 4 * |r| ≤ |x| ∧ |x| ≤ 5 / 4 * |r| ∧ |x| < ρ ∧ x ≠ 0 ∧ -1 < x ∧ x ≠ 1 := by
    intro x hx
    have h1 := abs_sub_abs_le_abs_sub x r
    have h2 := abs_sub_abs_le_abs_sub r x
    rw [abs_sub_comm r x] at h2
    have h3 : |x| < ρ := by linarith
    have h4 : |x| < 1 := by linarith
    refine ⟨by linarith, by linarith, h3, fun h => ?_, by linarith [(abs_lt.1 h4).1], fun h => ?_⟩
    · rw [h, zero_sub, abs_neg] at hx; linarith
    · rw [h, abs_one] at h4; linarith
  have accept : ∀ x x', |x - r| ≤ |r| / 4 → |x' - r| ≤ |x - r| / 2 → |x' - x| ≤ atol → |x' / x - 1| ≤ rtol →
      |x' - r| ≤ |r| / 4 ∧ |x' - r| ≤ atol ∧ |x' - r| ≤ 5 / 4 * rtol * |r| := by
    intro x x' hx hx' t1 t2
    obtain ⟨f1, f2, f3, f4, f5, f6⟩ := facts x hx
    have hd : |x - r| ≤ |x' - r| + |x' - x| := by
      have := abs_sub (x' - r) (x' - x); rwa [show x' - r - (x' - x) = x - r by ring] at this
    have h0 := abs_nonneg (x - r)
    have t2' : |x' - x| ≤ rtol * |x| := by
      have e : x' - x = (x' / x - 1) * x := by field_simp
      rw [e, abs_mul]
      exact mul_le_mul_of_nonneg_right t2 (abs_nonneg _)
    have t3 := mul_le_mul_of_nonneg_left f2 hr.le
    refine ⟨by linarith, by linarith, by linarith⟩
  induction n with
  | zero =>
    intro k x0 xold _ hx0 h1 h2
    obtain ⟨f1, f2, f3, f4, f5, f6⟩ := facts x0 hx0
    obtain ⟨s1, s2, s3⟩ := hst x0 f3
    rw [iter_succ hq f5 f6 f4 s1 s2]
    simp only [pow_zero, mul_one] at h1 h2
    have hd : |nextX q (tm q r) x0 - x0| ≤ |nextX q (tm q r) x0 - r| + |x0 - r| := by
      have := abs_sub (nextX q (tm q r) x0 - r) (x0 - r)
      rwa [show nextX q (tm q r) x0 - r - (x0 - r) = nextX q (tm q r) x0 - x0 by ring] at this
    have h0 := abs_nonneg (x0 - r)
    have t1 : |nextX q (tm q r) x0 - x0| ≤ atol := by linarith
    have t2 : |nextX q (tm q r) x0 / x0 - 1| ≤ rtol := by
      have e : nextX q (tm q r) x0 / x0 - 1 = (nextX q (tm q r) x0 - x0) / x0 := by field_simp
      rw [e, abs_div, div_le_iff₀ (abs_pos.2 f4)]
      have := mul_le_mul_of_nonneg_left f1 hr.le
      nlinarith
    rw [if_pos ⟨t1, t2⟩]
    exact ⟨_, _, rfl, accept x0 _ hx0 s3 t1 t2⟩
  | succ n ih =>
    intro k x0 xold _ hx0 h1 h2
    obtain ⟨f1, f2, f3, f4, f5, f6⟩ := facts x0 hx0
    obtain ⟨s1, s2, s3⟩ := hst x0 f3
    rw [iter_succ hq f5 f6 f4 s1 s2]
    split
    · rename_i ht
      exact ⟨_, _, rfl, accept x0 _ hx0 s3 ht.1 ht.2⟩
    · have h0 := abs_nonneg (x0 - r)
      rw [pow_succ] at h1 h2
      exact ih (k + 1) _ _ (by linarith) (by linarith) (by linarith) (by nlinarith)

/-- The start near the least energy, to first order. -/
theorem start_near {q thr2 : ℝ} (hq : q ^ 2 < 1) (h1 : thr2 < 1) :
    ∀ᶠ τ in 𝓝 (tm q 0), τ ≠ tm q 0 →
      ∃ x, singleStart q (1 - q ^ 2) (2 * τ) thr2 = .ok x ∧ |x + (τ - tm q 0) / 2| ≤ |τ - tm q 0| / 20 := by
  have ht := tm_zero_pos hq
  generalize ht0 : tm q 0 = t0 at *
  have hsq : 0 < Real.sqrt (2 * (1 - thr2)) := Real.sqrt_pos.2 (by linarith)
  have hs : ∀ᶠ τ in 𝓝 t0, |τ - t0| < min (min (t0 / 20) (1 / 50)) (Real.sqrt (2 * (1 - thr2))) := by
    have : 0 < min (min (t0 / 20) (1 / 50)) (Real.sqrt (2 * (1 - thr2))) := by positivity
    filter_upwards [Metric.ball_mem_nhds t0 this] with τ hτ
    rwa [Metric.mem_ball, Real.dist_eq] at hτ
  filter_upwards [hs] with τ hτ hne
  rw [lt_min_iff, lt_min_iff] at hτ
  obtain ⟨⟨g1, g2⟩, g3⟩ := hτ
  rcases lt_or_gt_of_ne hne with h | h
  · have h' : τ ≤ tm q 0 := by rw [ht0]; exact h.le
    have habs : |τ - t0| = t0 - τ := by rw [abs_of_neg (by linarith)]; ring
    have hτ0 : 0 < τ := by rw [habs] at g1; linarith
    refine ⟨_, start_fast hq hτ0 h', ?_⟩
    rw [ht0, habs]
    have e : t0 * (t0 - τ) / (2 * τ) + (τ - t0) / 2 = (t0 - τ) * ((t0 - τ) / (2 * τ)) := by field_simp; ring
    rw [e, abs_of_nonneg (mul_nonneg (by linarith) (div_nonneg (by linarith) (by linarith)))]
    have : (t0 - τ) / (2 * τ) ≤ 1 / 20 := by
      rw [div_le_iff₀ (by linarith)]
      rw [habs] at g1
      linarith
    nlinarith
  · have h' : tm q 0 < τ := by rw [ht0]; exact h
    obtain ⟨e, e0, e1, he, x, w, hx, hw, x1, x2, w0, w1, hs⟩ := start_slow (thr2 := thr2) hq h1 h'
    refine ⟨_, hs, ?_⟩
    rw [ht0] at he hx
    have hd : 0 < τ - t0 := by linarith
    rw [abs_of_pos hd] at g1 g2 g3 ⊢
    have he0 : e = 0 := by
      refine he ?_
      have : (τ - t0) / (τ - t0 + 2) ≤ τ - t0 := by
        rw [div_le_iff₀ (by linarith)]; nlinarith
      rw [neg_div]
      norm_num
      have h5 : Real.sqrt (2 * (1 - thr2)) = Real.sqrt 2 * Real.sqrt (1 - thr2) := by
        rw [Real.sqrt_mul (by norm_num)]
      nlinarith
    rw [he0, zero_mul, sub_zero] at hx
    have hc := correction_mem x1 x2 w0 w1
    have hB0 := hc.1
    have hB1 := hc.2.1
    generalize 0.5 * w - 0.03 * x * Real.sqrt w = B at *
    generalize τ - t0 = δ at *
    have hx' : x + δ / 2 = δ * (δ / (2 * (δ + 2))) := by rw [hx]; field_simp; ring
    have hxx : x ^ 2 ≤ δ * (1 / 200) := by
      have h6 : -x ≤ δ / 2 := by
        rw [hx, neg_div, neg_neg, div_le_iff₀ (by linarith)]; nlinarith
      nlinarith
    have h7 : δ / (2 * (δ + 2)) ≤ 1 / 200 := by
      rw [div_le_iff₀ (by linarith)]; linarith
    have h8 : 0 ≤ δ / (2 * (δ + 2)) := by positivity
    have e2 : x * (1 + x * B) + δ / 2 = δ * (δ / (2 * (δ + 2))) + x ^ 2 * B := by rw [← hx']; ring
    rw [e2, abs_of_nonneg (by positivity)]
    norm_num at hB1
    have h9 : x ^ 2 * B ≤ δ * (1 / 200) * (53 / 100) := mul_le_mul hxx hB1 hB0 (by positivity)
    nlinarith

end Gooding
open Gooding

/-- **C75, the start.**  The start of the search is in the domain `-1 < x` of the time equation, and the sign says
on which side of the least energy the time is: this is the value used by `gooding1990` by `run_zero`. -/
theorem gooding_start_domain {q τ thr2 : ℝ} (hq : q ^ 2 < 1) (h1 : thr2 < 1) (h0 : 0 < τ) :
    ∃ x, Gooding.singleStart q (1 - q ^ 2) (2 * τ) thr2 = .ok x ∧ -1 < x ∧
      (0 < x ↔ τ < lancT q 0 (lancY q 0) 0) ∧ (x < 0 ↔ lancT q 0 (lancY q 0) 0 < τ) := by
  have ht := tm_zero_pos hq
  have hd : lancT q 0 (lancY q 0) 0 = Izzo.tm q 0 := rfl
  rw [hd]
  rcases lt_or_ge (Izzo.tm q 0) τ with h | h
  · obtain ⟨e, -, -, -, x, w, -, -, x1, x2, w0, w1, hs⟩ := start_slow (thr2 := thr2) hq h1 h
    have hc := correction_mem x1 x2 w0 w1
    refine ⟨_, hs, hc.2.2.1, ?_, ?_⟩
    · exact iff_of_false (by linarith [hc.2.2.2]) (by linarith)
    · exact iff_of_true hc.2.2.2 h
  · refine ⟨_, start_fast hq h0 h, ?_, ?_, ?_⟩
    · have : 0 ≤ Izzo.tm q 0 * (Izzo.tm q 0 - τ) / (2 * τ) :=
        div_nonneg (mul_nonneg ht.le (by linarith)) (by linarith)
      linarith
    · constructor
      · intro hx
        by_contra h'
        have : Izzo.tm q 0 - τ = 0 := by linarith
        rw [this] at hx
        simp at hx
      · intro h'
        exact div_pos (mul_pos ht (by linarith)) (by linarith)
    · refine iff_of_false ?_ (by linarith)
      have : 0 ≤ Izzo.tm q 0 * (Izzo.tm q 0 - τ) / (2 * τ) :=
        div_nonneg (mul_nonneg ht.le (by linarith)) (by linarith)
      linarith

example : ∃ x, Gooding.singleStart (1 / 2) (1 - (1 / 2) ^ 2) (2 * 7) (1 / 3) = .ok x ∧ -1 < x ∧
    (0 < x ↔ 7 < lancT (1 / 2) 0 (lancY (1 / 2) 0) 0) ∧ (x < 0 ↔ lancT (1 / 2) 0 (lancY (1 / 2) 0) 0 < 7) :=
  gooding_start_domain (by norm_num) (by norm_num) (by norm_num)

/-- **C75, near the least energy.**  For every geometry there is a neighbourhood of the time of the least-energy
transfer in which `gooding1990` solves every problem but the one of exactly that time, for all tolerances and
with a number of iterations that depends on the tolerances only. -/
theorem gooding_near_least_energy_solved {mu : ℝ} (hmu : 0 < mu) {r1 r2 : V3} (hnp : NotPolar r1 r2) (pro low : Bool) :
    ∃ ε : ℝ, 0 < ε ∧ ∀ atol rtol : ℝ, 0 < atol → 0 < rtol → ∀ n : ℕ, 1 ≤ atol * 2 ^ n → 1 ≤ rtol * 2 ^ n →
      ∀ (full : Bool) (clock tof : ℝ), tof ≠ leastEnergyTime mu r1 r2 pro 0 →
        |tof - leastEnergyTime mu r1 r2 pro 0| < ε → ∃ v1 v2 k tpi T,
        gooding1990 mu r1 r2 tof 0 pro low (n + 1) atol rtol full clock = .ok (mkOutput full v1 v2 k tpi) ∧
        LambertArc mu r1 r2 v1 v2 T 0 ∧ Sense pro r1 v1 ∧ |T - tof| ≤ 3 * atol * timeUnit mu r1 r2 ∧
        |T - tof| ≤ 3 * rtol * |tof - leastEnergyTime mu r1 r2 pro 0| := by
  have hna : NotAligned r1 r2 := fun h => hnp h.2.2
  obtain ⟨U, q, thr2, hU, hU', hq, hq0, ht0, ht1, hsg, hle, hrun⟩ := Gooding.run_zero hmu hna pro
  have hd : Izzo.tm1 q 0 = -2 := by rw [Izzo.tm1, lancT1]; norm_num
  have htp := tm_zero_pos hq
  have hstr := Izzo.tm_strict hq (show (-1 : ℝ) < 0 by norm_num) (by norm_num : (0 : ℝ) ≠ 1)
  obtain ⟨ρ, hρ, hρ1, hst⟩ := Gooding.step_near hq
  have hslope : ∀ᶠ p in 𝓝 ((0 : ℝ), (0 : ℝ)),
      |Izzo.tm q p.1 - Izzo.tm q p.2 - (p.1 - p.2) * -2| ≤ 1 / 10 * |p.1 - p.2| := by
    have h1 := hstr.hasStrictFDerivAt.isLittleO.def (show (0 : ℝ) < 1 / 10 by norm_num)
    filter_upwards [h1] with p hp
    simpa only [Real.norm_eq_abs, ContinuousLinearMap.toSpanSingleton_apply, smul_eq_mul, hd] using hp
  obtain ⟨η, hη, hsl⟩ := Metric.eventually_nhds_iff_ball.1 hslope
  have hsl' : ∀ a b : ℝ, |a| < η → |b| < η → |Izzo.tm q a - Izzo.tm q b - (a - b) * -2| ≤ 1 / 10 * |a - b| := by
    intro a b h1 h2
    refine hsl (a, b) ?_
    rw [Metric.mem_ball, Prod.dist_eq, max_lt_iff, Real.dist_eq, Real.dist_eq, sub_zero, sub_zero]
    exact ⟨h1, h2⟩
  obtain ⟨κ, hκ⟩ : ∃ κ, κ = min ρ η / 4 := ⟨_, rfl⟩
  have hκ0 : 0 < κ := by rw [hκ]; positivity
  have hκρ : 4 * κ ≤ ρ := by rw [hκ]; linarith [min_le_left ρ η]
  have hκη : 4 * κ ≤ η := by rw [hκ]; linarith [min_le_right ρ η]
  have hroot : ∀ᶠ T in 𝓝 (Izzo.tm q 0), ∃ r, |r| < κ ∧ Izzo.tm q r = T := by
    have h := hstr.map_nhds_eq (by rw [hd]; norm_num)
    rw [← h]
    refine Filter.mem_map.2 ?_
    filter_upwards [Metric.ball_mem_nhds (0 : ℝ) hκ0] with r hr
    rw [Metric.mem_ball, Real.dist_eq, sub_zero] at hr
    exact ⟨r, hr, rfl⟩
  have hall := hroot.and ((Gooding.start_near (thr2 := thr2) hq ht1).and (eventually_gt_nhds htp))
  obtain ⟨δ, hδ, hb⟩ := Metric.eventually_nhds_iff_ball.1 hall
  refine ⟨U * δ, by positivity, fun atol rtol ha hr n hna' hnr full clock tof hne htof => ?_⟩
  have eLE : tof / U - Izzo.tm q 0 = (tof - leastEnergyTime mu r1 r2 pro 0) / U := by
    rw [hle]; field_simp
  have hmem : tof / U ∈ Metric.ball (Izzo.tm q 0) δ := by
    rw [Metric.mem_ball, Real.dist_eq, eLE, abs_div, abs_of_pos hU, div_lt_iff₀ hU]
    linarith
  obtain ⟨⟨r, hr1, hr2⟩, hss, hp0⟩ := hb _ hmem
  have htof0 : 0 < tof := by
    have := mul_pos hp0 hU
    rwa [div_mul_cancel₀ _ hU.ne'] at this
  have hne' : tof / U ≠ Izzo.tm q 0 := by
    intro h
    apply hne
    have : tof - leastEnergyTime mu r1 r2 pro 0 = 0 := by
      have h2 := eLE
      rw [h, sub_self] at h2
      rcases div_eq_zero_iff.1 h2.symm with h3 | h3
      · exact h3
      · exact absurd h3 hU.ne'
    linarith
  obtain ⟨x0, hx0, hx0'⟩ := hss hne'
  obtain ⟨h, hh⟩ : ∃ h, h = tof / U - Izzo.tm q 0 := ⟨_, rfl⟩
  have hh0 : 0 < |h| := abs_pos.2 (by rw [hh]; exact sub_ne_zero.2 hne')
  rw [← hh] at hx0'
  -- the root to first order
  have hrh := hsl' r 0 (by linarith) (by rw [abs_zero]; exact hη)
  rw [hr2, ← hh, sub_zero] at hrh
  have hrel : |r| ≤ 11 / 20 * |h| ∧ |h| ≤ 21 / 10 * |r| ∧ |h + 2 * r| ≤ 1 / 10 * |r| := by
    have e : |h + 2 * r| ≤ 1 / 10 * |r| := by rw [show h + 2 * r = h - r * -2 by ring]; exact hrh
    have a1 := abs_sub (h + 2 * r) h
    rw [show h + 2 * r - h = 2 * r by ring, abs_mul, abs_two] at a1
    have a2 := abs_sub (h + 2 * r) (2 * r)
    rw [show h + 2 * r - 2 * r = h by ring, abs_mul, abs_two] at a2
    exact ⟨by linarith, by linarith, e⟩
  obtain ⟨l1, l2, l3⟩ := hrel
  have hrp : 0 < |r| := by linarith
  have hrn : r ≠ 0 := abs_pos.1 hrp
  have hxr : |x0 - r| ≤ |r| / 4 := by
    have a1 := abs_sub (x0 + h / 2) ((h + 2 * r) / 2)
    rw [show x0 + h / 2 - (h + 2 * r) / 2 = x0 - r by ring, abs_div, abs_two] at a1
    linarith
  have hr1' : |r| ≤ 1 := by linarith
  have hpow : (0 : ℝ) < 2 ^ n := by positivity
  obtain ⟨x, k', hx, hxa, hxb, hxc⟩ := Gooding.loop_near (atol := atol) (rtol := rtol) hq hrn (by linarith) hρ1
    (fun x hx => hst x r hx (by linarith)) ha hr (n + 1) n 0 x0 x0 (by linarith) hxr (by linarith) (by nlinarith)
  rw [hr2] at hx
  obtain ⟨tpi, v1, v2, e, -, hs, harc⟩ := hrun tof htof0 low (n + 1) atol rtol full clock x0 x (k' + 1) hx0 hx (by omega)
  have hxabs : |x| ≤ 5 / 4 * |r| := by
    have := abs_sub_abs_le_abs_sub x r
    linarith
  refine ⟨v1, v2, k' + 1, tpi, _, e, harc (by linarith [neg_abs_le x]), hs hnp, ?_⟩
  have hslx := hsl' x r (by linarith) (by linarith)
  rw [hr2] at hslx
  have hdist : |Izzo.tm q x - tof / U| ≤ 21 / 10 * |x - r| := by
    have a := abs_add_le (Izzo.tm q x - tof / U - (x - r) * -2) ((x - r) * -2)
    rw [sub_add_cancel, abs_mul (x - r) (-2), abs_neg, abs_two] at a
    linarith
  have e2 : |U * Izzo.tm q x - tof| = U * |Izzo.tm q x - tof / U| := by
    rw [← abs_of_pos hU, ← abs_mul, abs_of_pos hU]; congr 1; field_simp
  have e3 : |tof - leastEnergyTime mu r1 r2 pro 0| = U * |h| := by
    rw [hh, eLE, abs_div, abs_of_pos hU]; field_simp
  rw [e2, e3, ← hU']
  constructor
  · have := mul_le_mul_of_nonneg_left (show |Izzo.tm q x - tof / U| ≤ 3 * atol by linarith) hU.le
    linarith
  · have h5 : |Izzo.tm q x - tof / U| ≤ 3 * rtol * |h| := by nlinarith
    have := mul_le_mul_of_nonneg_left h5 hU.le
    linarith

/-- A quarter turn, the default tolerances and limit. -/
example : ∃ ε : ℝ, 0 < ε ∧ ∀ tof, tof ≠ leastEnergyTime 1 ⟨1, 0, 0⟩ ⟨0, 1, 0⟩ true 0 →
    |tof - leastEnergyTime 1 ⟨1, 0, 0⟩ ⟨0, 1, 0⟩ true 0| < ε → ∃ v1 v2 k tpi T,
    gooding1990 1 ⟨1, 0, 0⟩ ⟨0, 1, 0⟩ tof 0 true true 35 1e-5 1e-7 false 1 = .ok (mkOutput false v1 v2 k tpi) ∧
    LambertArc 1 ⟨1, 0, 0⟩ ⟨0, 1, 0⟩ v1 v2 T 0 ∧ Sense true ⟨1, 0, 0⟩ v1 ∧
    |T - tof| ≤ 3 * 1e-5 * timeUnit 1 ⟨1, 0, 0⟩ ⟨0, 1, 0⟩ ∧
    |T - tof| ≤ 3 * 1e-7 * |tof - leastEnergyTime 1 ⟨1, 0, 0⟩ ⟨0, 1, 0⟩ true 0| := by
  obtain ⟨ε, hε, h⟩ := gooding_near_least_energy_solved one_pos (r1 := ⟨1, 0, 0⟩) (r2 := ⟨0, 1, 0⟩)
    (by simp [NotPolar]) true true
  exact ⟨ε, hε, h 1e-5 1e-7 (by norm_num) (by norm_num) 34 (by norm_num) (by norm_num) false 1⟩

/-- **C75, fast transfers.**  For every geometry, all positive tolerances and at least two iterations: when the
flight time requested tends to zero `gooding1990` returns, and the flight time obtained over the one requested
tends to one. -/
theorem gooding_fast_solved {mu : ℝ} (hmu : 0 < mu) {r1 r2 : V3} (hnp : NotPolar r1 r2) (pro low : Bool) {atol rtol : ℝ}
    (ha : 0 < atol) (hr : 0 < rtol) {n : ℕ} (hn : 2 ≤ n) (full : Bool) (clock : ℝ) :
    ∃ T' : ℝ → ℝ, Tendsto (fun tof => T' tof / tof) (𝓝[>] 0) (𝓝 1) ∧
      ∀ᶠ tof in 𝓝[>] 0, ∃ v1 v2 k tpi,
        gooding1990 mu r1 r2 tof 0 pro low n atol rtol full clock = .ok (mkOutput full v1 v2 k tpi) ∧
        LambertArc mu r1 r2 v1 v2 (T' tof) 0 ∧ Sense pro r1 v1 := by
  have hna : NotAligned r1 r2 := fun h => hnp h.2.2
  obtain ⟨U, q, thr2, hU, hU', hq, hq0, ht0, ht1, hsg, hle, hrun⟩ := Gooding.run_zero hmu hna pro
  have hc := Izzo.fastC_pos hq
  have htp := tm_zero_pos hq
  obtain ⟨n, rfl⟩ : ∃ m, n = m + 2 := ⟨n - 2, by omega⟩
  obtain ⟨X0, hX0⟩ : ∃ X : ℝ → ℝ, X = fun τ => Izzo.tm q 0 * (Izzo.tm q 0 - τ) / (2 * τ) := ⟨_, rfl⟩
  have l0 : Tendsto (fun τ => X0 τ * τ) (𝓝[>] 0) (𝓝 (Izzo.tm q 0 ^ 2 / 2)) := by
    have hcont : Continuous fun τ : ℝ => Izzo.tm q 0 * (Izzo.tm q 0 - τ) / 2 := by fun_prop
    have h := (hcont.tendsto 0).mono_left (nhdsWithin_le_nhds (s := Set.Ioi 0))
    rw [sub_zero, ← sq] at h
    refine h.congr' ?_
    filter_upwards [self_mem_nhdsWithin] with τ hτ
    have : (0 : ℝ) < τ := hτ
    rw [hX0]
    field_simp
  obtain ⟨X1, hX1⟩ : ∃ X : ℝ → ℝ, X = fun τ => Gooding.nextX q τ (X0 τ) := ⟨_, rfl⟩
  obtain ⟨X2, hX2⟩ : ∃ X : ℝ → ℝ, X = fun τ => Gooding.nextX q τ (X1 τ) := ⟨_, rfl⟩
  obtain ⟨s1, k1⟩ := Gooding.step_fast hq hq0 (by positivity) l0
  have toMul : ∀ X : ℝ → ℝ, Tendsto (fun τ => X τ - Izzo.fastC q / τ) (𝓝[>] 0) (𝓝 0) →
      Tendsto (fun τ => X τ * τ) (𝓝[>] 0) (𝓝 (Izzo.fastC q)) := by
    intro X h
    have hid : Tendsto (fun τ : ℝ => τ) (𝓝[>] 0) (𝓝 0) := nhdsWithin_le_nhds
    have h' := (h.mul hid).add_const (Izzo.fastC q)
    rw [zero_mul, zero_add] at h'
    refine h'.congr' ?_
    filter_upwards [self_mem_nhdsWithin] with τ hτ
    have : (0 : ℝ) < τ := hτ
    field_simp
    ring
  have s1' : Tendsto (fun τ => X1 τ - Izzo.fastC q / τ) (𝓝[>] 0) (𝓝 0) := by rw [hX1]; exact s1
  have l1 := toMul X1 s1'
  obtain ⟨s2, k2⟩ := Gooding.step_fast hq hq0 hc l1
  have s2' : Tendsto (fun τ => X2 τ - Izzo.fastC q / τ) (𝓝[>] 0) (𝓝 0) := by rw [hX2]; exact s2
  have l2 := toMul X2 s2'
  have hdiff : Tendsto (fun τ => |X2 τ - X1 τ|) (𝓝[>] 0) (𝓝 0) := by
    have h := (s2'.sub s1').abs
    rw [sub_zero, abs_zero] at h
    refine h.congr fun τ => ?_
    congr 1; ring
  -- what the loop returns
  classical
  obtain ⟨X, hX⟩ : ∃ X : ℝ → ℝ, X = fun τ =>
    if |X1 τ - X0 τ| ≤ atol ∧ |X1 τ / X0 τ - 1| ≤ rtol then X1 τ else X2 τ := ⟨_, rfl⟩
  have hXl : Tendsto (fun τ => X τ * τ) (𝓝[>] 0) (𝓝 (Izzo.fastC q)) := by
    rw [hX]
    refine (Tendsto.if' (p := fun τ => |X1 τ - X0 τ| ≤ atol ∧ |X1 τ / X0 τ - 1| ≤ rtol) l1 l2).congr fun τ => ?_
    simp only []
    split_ifs <;> rfl
  have hXi : Tendsto X (𝓝[>] 0) atTop := by
    have h := (hXl.pos_mul_atTop hc tendsto_inv_nhdsGT_zero)
    refine h.congr' ?_
    filter_upwards [self_mem_nhdsWithin] with T hT
    have : (0 : ℝ) < T := hT
    field_simp
  have hdiv : Tendsto (fun tof : ℝ => tof / U) (𝓝[>] 0) (𝓝[>] 0) := by
    rw [tendsto_nhdsWithin_iff]
    constructor
    · have : Continuous fun tof : ℝ => tof / U := by fun_prop
      have h := this.tendsto 0
      rw [zero_div] at h
      exact h.mono_left nhdsWithin_le_nhds
    · filter_upwards [self_mem_nhdsWithin] with T hT
      exact div_pos hT hU
  have hlim : Tendsto (fun T => Izzo.tm q (X T) / T) (𝓝[>] 0) (𝓝 1) := by
    have h := ((Izzo.tm_fast hq).comp hXi).div hXl hc.ne'
    rw [div_self hc.ne'] at h
    refine h.congr' ?_
    filter_upwards [hXi.eventually (eventually_gt_atTop 0), self_mem_nhdsWithin] with T h1 h2
    simp only [Function.comp, Pi.div_apply]
    rw [mul_div_mul_left _ _ h1.ne']
  have hloop : ∀ᶠ τ in 𝓝[>] 0, Gooding.singleStart q (1 - q ^ 2) (2 * τ) thr2 = .ok (X0 τ) ∧
      ∃ k, Gooding.xlambIter 0 q (1 - q ^ 2) (2 * τ) atol rtol (n + 2) (n + 2) 1 (X0 τ) (X0 τ) = .ok (X τ, k + 1) := by
    have hsmall : ∀ᶠ τ : ℝ in 𝓝[>] 0, τ ≤ Izzo.tm q 0 := by
      have : ∀ᶠ τ : ℝ in 𝓝 0, τ ≤ Izzo.tm q 0 := eventually_le_nhds htp
      exact this.filter_mono nhdsWithin_le_nhds
    filter_upwards [k1, k2, hdiff.eventually (gt_mem_nhds ha), hdiff.eventually (gt_mem_nhds hr), self_mem_nhdsWithin, hsmall]
      with τ ⟨a1, a2, a3⟩ ⟨b1, b2, b3⟩ d1 d2 hτ hle'
    have hτ' : (0 : ℝ) < τ := hτ
    have e1 : Gooding.nextX q τ (X0 τ) = X1 τ := by rw [hX1]
    have e2 : Gooding.nextX q τ (X1 τ) = X2 τ := by rw [hX2]
    have eX : X τ = if |X1 τ - X0 τ| ≤ atol ∧ |X1 τ / X0 τ - 1| ≤ rtol then X1 τ else X2 τ := by rw [hX]
    refine ⟨by rw [start_fast hq hτ' hle', hX0], ?_⟩
    rw [show n + 2 = (n + 1) + 1 from rfl, Gooding.iter_succ hq (by linarith) a1.ne' (by linarith) a2 a3, e1, eX]
    split_ifs with ht
    · exact ⟨0, rfl⟩
    · rw [Gooding.iter_succ hq (by linarith) b1.ne' (by linarith) b2 b3, e2]
      have hx1 : 0 < X1 τ := by linarith
      have e3 : |X2 τ / X1 τ - 1| ≤ rtol := by
        have e : X2 τ / X1 τ - 1 = (X2 τ - X1 τ) / X1 τ := by field_simp
        rw [e, abs_div, abs_of_pos hx1, div_le_iff₀ hx1]
        nlinarith
      rw [if_pos ⟨d1.le, e3⟩]
      exact ⟨1, rfl⟩
  refine ⟨fun tof => U * Izzo.tm q (X (tof / U)), ?_, ?_⟩
  · refine (hlim.comp hdiv).congr' ?_
    filter_upwards [self_mem_nhdsWithin] with tof h
    have : (0 : ℝ) < tof := h
    simp only [Function.comp]
    field_simp
  · filter_upwards [hdiv.eventually hloop, hdiv.eventually (hXi.eventually (eventually_gt_atTop 0)), self_mem_nhdsWithin]
      with tof ⟨g1, k, g2⟩ g3 h
    obtain ⟨tpi, v1, v2, e, -, hs, harc⟩ := hrun tof h low (n + 2) atol rtol full clock _ _ _ g1 g2 (by omega)
    exact ⟨v1, v2, _, tpi, e, harc (by linarith), hs hnp⟩

/-- A quarter turn, the default tolerances and limit. -/
example : ∃ T' : ℝ → ℝ, Tendsto (fun tof => T' tof / tof) (𝓝[>] 0) (𝓝 1) ∧ ∀ᶠ tof in 𝓝[>] 0, ∃ v1 v2 k tpi,
    gooding1990 1 ⟨1, 0, 0⟩ ⟨0, 1, 0⟩ tof 0 true true 35 1e-5 1e-7 false 1 = .ok (mkOutput false v1 v2 k tpi) ∧
    LambertArc 1 ⟨1, 0, 0⟩ ⟨0, 1, 0⟩ v1 v2 (T' tof) 0 ∧ Sense true ⟨1, 0, 0⟩ v1 :=
  gooding_fast_solved one_pos (by simp [NotPolar]) true true (by norm_num) (by norm_num) (by norm_num) false 1

/-- **Finding (C75).**  For every geometry and all positive tolerances: for all long times `gooding1990` stops
after its first pass, and the flight time of the orbit it returns, over the flight time requested, tends to
zero.  The start is of the wrong order of magnitude, and the tests compare `x`, which is close to `-1` at the
start and after the pass. -/
theorem gooding_slow_ratio {mu : ℝ} (hmu : 0 < mu) {r1 r2 : V3} (hnp : NotPolar r1 r2) (pro low : Bool) {atol rtol : ℝ}
    (ha : 0 < atol) (hr : 0 < rtol) {n : ℕ} (hn : 1 ≤ n) (full : Bool) (clock : ℝ) :
    ∃ T' : ℝ → ℝ, Tendsto (fun tof => T' tof / tof) atTop (𝓝 0) ∧
      ∀ᶠ tof in atTop, ∃ v1 v2 tpi,
        gooding1990 mu r1 r2 tof 0 pro low n atol rtol full clock = .ok (mkOutput full v1 v2 1 tpi) ∧
        LambertArc mu r1 r2 v1 v2 (T' tof) 0 ∧ Sense pro r1 v1 := by
  have hna : NotAligned r1 r2 := fun h => hnp h.2.2
  obtain ⟨U, q, thr2, hU, hU', hq, hq0, ht0, ht1, hsg, hle, hrun⟩ := Gooding.run_zero hmu hna pro
  obtain ⟨n, rfl⟩ : ∃ m, n = m + 1 := ⟨n - 1, by omega⟩
  obtain ⟨u, hu, hub, hst⟩ := Gooding.start_long (thr2 := thr2) hq ht1
  obtain ⟨hrat, Z, hZ, hstep⟩ := Gooding.step_slow hq hu hub
  obtain ⟨hu0, hup⟩ := tendsto_nhdsWithin_iff.1 hu
  have hdiv : Tendsto (fun tof : ℝ => tof / U) atTop atTop := tendsto_id.atTop_div_const hU
  -- the tests
  have t1 : Tendsto (fun τ => |u τ * Z τ - 1 - (u τ - 1)|) atTop (𝓝 0) := by
    have h := ((hu0.mul hZ).sub hu0).abs
    rw [zero_mul, sub_zero, abs_zero] at h
    refine h.congr fun τ => ?_
    congr 1; ring
  have t2 : Tendsto (fun τ => |(u τ * Z τ - 1) / (u τ - 1) - 1|) atTop (𝓝 0) := by
    have h := ((((hu0.mul hZ).sub_const 1).div (hu0.sub_const 1) (by norm_num)).sub_const 1).abs
    rw [zero_mul, zero_sub, div_self (by norm_num), sub_self, abs_zero] at h
    exact h
  -- the time obtained
  have huZ : Tendsto (fun τ => u τ * Z τ) atTop (𝓝[>] 0) := by
    rw [tendsto_nhdsWithin_iff]
    constructor
    · have h := hu0.mul hZ
      rw [zero_mul] at h
      exact h
    · filter_upwards [hup, hZ.eventually (lt_mem_nhds (show (0 : ℝ) < 1 / 5 by norm_num))] with τ h1 h2
      exact mul_pos h1 h2
  have hlim : Tendsto (fun τ => Izzo.tm q (u τ * Z τ - 1) / τ) atTop (𝓝 0) := by
    have hA := (Izzo.tm_slow hq).comp huZ
    have hB := (Izzo.tm_slow hq).comp hu
    have hsZ : Tendsto (fun τ => Z τ * Real.sqrt (Z τ)) atTop (𝓝 (1 / 5 * Real.sqrt (1 / 5))) :=
      hZ.mul ((Real.continuous_sqrt.tendsto _).comp hZ)
    have hs5 : 0 < Real.sqrt (1 / 5) := Real.sqrt_pos.2 (by norm_num)
    have h := (((hA.div hB Izzo.slowC_pos.ne').div hsZ (by positivity)).mul hrat)
    rw [mul_zero] at h
    refine h.congr' ?_
    filter_upwards [hup, hZ.eventually (lt_mem_nhds (show (0 : ℝ) < 1 / 5 by norm_num)), eventually_gt_atTop 0,
      hB.eventually_ne Izzo.slowC_pos.ne'] with τ h1 h2 h3 h4
    have h1' : 0 < u τ := h1
    have e1 := Real.sqrt_pos.2 h1'
    have e2 := Real.sqrt_pos.2 h2
    simp only [Function.comp, Pi.div_apply] at h4 ⊢
    rw [Real.sqrt_mul h1'.le]
    have h5 : Izzo.tm q (u τ - 1) ≠ 0 := fun h => h4 (by rw [h, zero_mul])
    generalize Izzo.tm q (u τ - 1) = a at *
    generalize Izzo.tm q (u τ * Z τ - 1) = b at *
    generalize Real.sqrt (u τ) = c at *
    generalize Real.sqrt (Z τ) = d at *
    field_simp
  refine ⟨fun tof => U * Izzo.tm q (u (tof / U) * Z (tof / U) - 1), ?_, ?_⟩
  · refine (hlim.comp hdiv).congr' ?_
    filter_upwards [eventually_gt_atTop 0] with tof h
    simp only [Function.comp]
    field_simp
  · have hall := (hst.and (hstep.and ((t1.eventually (gt_mem_nhds ha)).and (t2.eventually (gt_mem_nhds hr))))).and
      (hup.and ((hu0.eventually (gt_mem_nhds (show (0 : ℝ) < 1 by norm_num))).and (huZ.eventually self_mem_nhdsWithin)))
    filter_upwards [hdiv.eventually hall, eventually_gt_atTop 0] with tof hh h0
    obtain ⟨⟨g1, ⟨g2, g3, g4⟩, g5, g6⟩, g7, g8, g9⟩ := hh
    have g7' : 0 < u (tof / U) := g7
    have g9' : 0 < u (tof / U) * Z (tof / U) := g9
    have hit : Gooding.xlambIter 0 q (1 - q ^ 2) (2 * (tof / U)) atol rtol (n + 1) (n + 1) 1 (u (tof / U) - 1)
        (u (tof / U) - 1) = .ok (u (tof / U) * Z (tof / U) - 1, 1) := by
      rw [Gooding.iter_succ hq (by linarith) (by linarith) (by linarith) g3 g4, g2, if_pos ⟨g5.le, g6.le⟩]
    obtain ⟨tpi, v1, v2, e, -, hs, harc⟩ := hrun tof h0 low (n + 1) atol rtol full clock _ _ _ g1 hit one_ne_zero
    exact ⟨v1, v2, tpi, e, harc (by linarith), hs hnp⟩

/-- **Finding (C75).**  In words: for every geometry and every factor `c`, all long enough requests are answered by
an orbit that is more than `c` times too fast. -/
theorem gooding_slow_wrong {mu : ℝ} (hmu : 0 < mu) {r1 r2 : V3} (hnp : NotPolar r1 r2) (pro low : Bool) {atol rtol : ℝ}
    (ha : 0 < atol) (hr : 0 < rtol) {n : ℕ} (hn : 1 ≤ n) (full : Bool) (clock : ℝ) {c : ℝ} (hc : 1 ≤ c) :
    ∀ᶠ tof in atTop, ∃ v1 v2 tpi T',
      gooding1990 mu r1 r2 tof 0 pro low n atol rtol full clock = .ok (mkOutput full v1 v2 1 tpi) ∧
      LambertArc mu r1 r2 v1 v2 T' 0 ∧ Sense pro r1 v1 ∧ c * T' < tof ∧ ¬ LambertArc mu r1 r2 v1 v2 tof 0 := by
  have hna : NotAligned r1 r2 := fun h => hnp h.2.2
  obtain ⟨T', hl, hev⟩ := gooding_slow_ratio hmu hnp pro low ha hr hn full clock
  have hcp : 0 < 1 / c := by positivity
  filter_upwards [hev, hl.eventually (gt_mem_nhds hcp), eventually_gt_atTop 0] with tof ⟨v1, v2, tpi, e, harc, hs⟩ h1 h0
  have h2 : c * T' tof < tof := by
    rw [div_lt_div_iff₀ h0 (by linarith)] at h1
    linarith
  refine ⟨v1, v2, tpi, _, e, harc, hs, h2, fun h => ?_⟩
  have h3 := arc_time_unique hmu hna harc h
  rw [h3] at h2
  nlinarith

/-- A quarter turn, the default tolerances and limit: more than a thousand times too fast. -/
example : ∀ᶠ tof in atTop, ∃ v1 v2 tpi T',
    gooding1990 1 ⟨1, 0, 0⟩ ⟨0, 1, 0⟩ tof 0 true true 35 1e-5 1e-7 false 1 = .ok (mkOutput false v1 v2 1 tpi) ∧
    LambertArc 1 ⟨1, 0, 0⟩ ⟨0, 1, 0⟩ v1 v2 T' 0 ∧ Sense true ⟨1, 0, 0⟩ v1 ∧ 1000 * T' < tof ∧
    ¬ LambertArc 1 ⟨1, 0, 0⟩ ⟨0, 1, 0⟩ v1 v2 tof 0 :=
  gooding_slow_wrong one_pos (by simp [NotPolar]) true true (by norm_num) (by norm_num) (by norm_num) false 1 (by norm_num)

end Lamberthub
