import Verif.Proofs.GoodingRun
import Verif.Props.LowPath

/-!
# The search for the minimum time in `gooding1990` when there are many revolutions

The time with `M` revolutions is `T₀ + M (T₁ - T₀)`.  Divided by `M` its derivative tends to the one of `T₁ - T₀`,
which has a simple zero at `x = 0`; the step of the search contracts there, uniformly in `M`.
-/

set_option autoImplicit false

namespace Lamberthub
open Filter Topology Spec LC

namespace Gooding

/-- A step `x - F(x) Q` for `F = g + ε f` with `Q` close to the inverse of the derivative of `g` halves the distance
to the zero of `F`, uniformly in `ε`. -/
theorem param_contract {f g : ℝ → ℝ} {df dg : ℝ} (hf : HasStrictDerivAt f df 0) (hg : HasStrictDerivAt g dg 0)
    (hd : 0 < dg) {Q : ℝ × ℝ → ℝ} (hQ : Tendsto Q (𝓝 (0, 0)) (𝓝 dg⁻¹)) :
    ∃ ρ : ℝ, 0 < ρ ∧ ρ ≤ 1 ∧ ∀ ε x m, |ε| < ρ → |x| < ρ → |m| < ρ →
      |g x + ε * f x - (g m + ε * f m)| ≤ 2 * dg * |x - m| ∧
      |x - (g x + ε * f x - (g m + ε * f m)) * Q (ε, x) - m| ≤ |x - m| / 2 := by
  have h1 := hg.hasStrictFDerivAt.isLittleO.def (show 0 < dg / 16 by positivity)
  have h2 := hf.hasStrictFDerivAt.isLittleO.def (show (0 : ℝ) < 1 by norm_num)
  have h3 := ((hQ.const_mul dg).const_sub 1).abs
  rw [mul_inv_cancel₀ hd.ne', sub_self, abs_zero] at h3
  have h4 := hQ.abs
  rw [abs_inv, abs_of_pos hd] at h4
  have h4' : dg⁻¹ < 2 * dg⁻¹ := by have : 0 < dg⁻¹ := inv_pos.2 hd; linarith
  obtain ⟨ρ1, hρ1, hb1⟩ := Metric.eventually_nhds_iff_ball.1 (h1.and h2)
  obtain ⟨ρ2, hρ2, hb2⟩ := Metric.eventually_nhds_iff_ball.1 ((h3.eventually (gt_mem_nhds (show (0 : ℝ) < 1 / 8 by norm_num))).and
    (h4.eventually (gt_mem_nhds h4')))
  have hK : 0 < |df| + 1 := by positivity
  refine ⟨min (min ρ1 ρ2) (min 1 (dg / (16 * (|df| + 1)))), by positivity, (min_le_right _ _).trans (min_le_left _ _),
    fun ε x m hε hx hm => ?_⟩
  simp only [lt_min_iff] at hε hx hm
  obtain ⟨g1, g2⟩ := hb1 (x, m) (by
    rw [Metric.mem_ball, Prod.dist_eq, max_lt_iff, Real.dist_eq, Real.dist_eq, sub_zero, sub_zero]
    exact ⟨hx.1.1, hm.1.1⟩)
  obtain ⟨q1, q2⟩ := hb2 (ε, x) (by
    rw [Metric.mem_ball, Prod.dist_eq, max_lt_iff, Real.dist_eq, Real.dist_eq, sub_zero, sub_zero]
    exact ⟨hε.1.2, hx.1.2⟩)
  simp only [Real.norm_eq_abs, ContinuousLinearMap.toSpanSingleton_apply, smul_eq_mul] at g1 g2
  have he : |ε| * (|df| + 1) ≤ dg / 16 := by
    have := mul_le_mul_of_nonneg_right hε.2.2.le hK.le
    have e : dg / (16 * (|df| + 1)) * (|df| + 1) = dg / 16 := by field_simp
    rwa [e] at this
  have g2' : |f x - f m| ≤ (|df| + 1) * |x - m| := by
    have := abs_add_le (f x - f m - (x - m) * df) ((x - m) * df)
    rw [sub_add_cancel, abs_mul] at this
    linarith
  obtain ⟨D, hD⟩ : ∃ D, D = g x + ε * f x - (g m + ε * f m) := ⟨_, rfl⟩
  rw [← hD]
  have hDd : |D - dg * (x - m)| ≤ dg / 8 * |x - m| := by
    have e : D - dg * (x - m) = (g x - g m - (x - m) * dg) + ε * (f x - f m) := by rw [hD]; ring
    rw [e]
    have h5 : |ε * (f x - f m)| ≤ dg / 16 * |x - m| := by
      rw [abs_mul]
      calc |ε| * |f x - f m| ≤ |ε| * ((|df| + 1) * |x - m|) := mul_le_mul_of_nonneg_left g2' (abs_nonneg _)
        _ = |ε| * (|df| + 1) * |x - m| := by ring
        _ ≤ _ := mul_le_mul_of_nonneg_right he (abs_nonneg _)
    have := abs_add_le (g x - g m - (x - m) * dg) (ε * (f x - f m))
    linarith
  have hn := abs_nonneg (x - m)
  constructor
  · have := abs_add_le (D - dg * (x - m)) (dg * (x - m))
    rw [sub_add_cancel, abs_mul, abs_of_pos hd] at this
    nlinarith
  · have e : x - D * Q (ε, x) - m = (x - m) * (1 - dg * Q (ε, x)) - (D - dg * (x - m)) * Q (ε, x) := by ring
    rw [e]
    calc _ ≤ |(x - m) * (1 - dg * Q (ε, x))| + |(D - dg * (x - m)) * Q (ε, x)| := abs_sub _ _
      _ ≤ |x - m| * (1 / 8) + dg / 8 * |x - m| * (2 * dg⁻¹) := by
          rw [abs_mul, abs_mul]
          gcongr
      _ = |x - m| * (3 / 8) := by field_simp; ring
      _ ≤ |x - m| / 2 := by linarith

/-- First, second and third derivative of the time with `M` revolutions. -/
noncomputable def rev1 (q : ℝ) (M : ℕ) (x : ℝ) : ℝ := lancT1 q x (lancY q x) (revT q M x)
noncomputable def rev2 (q : ℝ) (M : ℕ) (x : ℝ) : ℝ := lancT2 q x (lancY q x) (revT q M x) (rev1 q M x)
noncomputable def rev3 (q : ℝ) (M : ℕ) (x : ℝ) : ℝ := lancT3 q x (lancY q x) (rev1 q M x) (rev2 q M x)

theorem rev_deriv {q x : ℝ} (hq : q ^ 2 < 1) (h1 : -1 < x) (h2 : x < 1) (M : ℕ) :
    HasDerivAt (revT q M) (rev1 q M x) x ∧ HasDerivAt (rev1 q M) (rev2 q M x) x ∧ HasDerivAt (rev2 q M) (rev3 q M x) x ∧
      ContinuousAt (rev3 q M) x := by
  have h0 := one_sub_sq_ne h1 h2.ne
  have d1 : HasDerivAt (revT q M) (rev1 q M x) x := lancT_hasDerivAt hq h1 h2.ne M
  have d2 : HasDerivAt (rev1 q M) (rev2 q M x) x := lancT1_hasDerivAt hq h0 d1
  have d3 : HasDerivAt (rev2 q M) (rev3 q M x) x := lancT2_hasDerivAt hq h0 (T1 := rev1 q M) d1 d2
  obtain ⟨d, hd⟩ := lancT3_hasDerivAt hq h1 h2.ne M
  exact ⟨d1, d2, d3, hd.continuousAt⟩

theorem rev1_strict {q x : ℝ} (hq : q ^ 2 < 1) (h1 : -1 < x) (h2 : x < 1) (M : ℕ) :
    HasStrictDerivAt (rev1 q M) (rev2 q M x) x := by
  refine hasStrictDerivAt_of_hasDerivAt_of_continuousAt (f' := rev2 q M) ?_ (rev_deriv hq h1 h2 M).2.2.1.continuousAt
  filter_upwards [eventually_gt_nhds h1, eventually_lt_nhds h2] with t a b using (rev_deriv hq a b M).2.1

theorem tlamb_three {q x : ℝ} (hq : q ^ 2 < 1) (h1 : -1 < x) (h2 : x < 1) {M : ℕ} (hM : 1 ≤ M) :
    tlamb M q (1 - q ^ 2) x 3 = .ok (2 * revT q M x, 2 * rev1 q M x, 2 * rev2 q M x, 2 * rev3 q M x) := by
  have hM' : (M : ℤ) > 0 := by exact_mod_cast hM
  obtain ⟨c1, c2, c3, hcc, g1, g2, g3⟩ := tlambDirect_eq (lanc_lancY hq x) h1 h2.ne (.inr h2) (M := M) 3
  unfold tlamb
  rw [if_neg (by norm_num), u_eq, if_pos (.inl hM'), hcc, g1 (by norm_num), g2 (by norm_num), g3 rfl]
  rfl

/-- The time and its derivatives are affine in the number of revolutions. -/
theorem rev_affine {q x : ℝ} (h2 : x < 1) (M : ℕ) :
    revT q M x = revT q 0 x + M * (revT q 1 x - revT q 0 x) ∧ rev1 q M x = rev1 q 0 x + M * (rev1 q 1 x - rev1 q 0 x) ∧
    rev2 q M x = rev2 q 0 x + M * (rev2 q 1 x - rev2 q 0 x) ∧ rev3 q M x = rev3 q 0 x + M * (rev3 q 1 x - rev3 q 0 x) := by
  have e0 : revT q M x = revT q 0 x + M * (revT q 1 x - revT q 0 x) := by
    unfold revT lancT
    rw [if_pos h2, if_pos h2, if_pos h2]
    push_cast
    ring
  have e1 : rev1 q M x = rev1 q 0 x + M * (rev1 q 1 x - rev1 q 0 x) := by
    unfold rev1 lancT1
    rw [e0]
    ring
  have e2 : rev2 q M x = rev2 q 0 x + M * (rev2 q 1 x - rev2 q 0 x) := by
    unfold rev2 lancT2
    rw [e0, e1]
    ring
  refine ⟨e0, e1, e2, ?_⟩
  unfold rev3 lancT3
  rw [e1, e2]
  ring

/-- One pass of the search for the minimum time, for many revolutions. -/
theorem min_step {q : ℝ} (hq : q ^ 2 < 1) :
    ∃ ρ : ℝ, 0 < ρ ∧ ρ ≤ 1 ∧ ∀ (M : ℕ) (x m : ℝ), 1 ≤ M → 1 / (M : ℝ) < ρ → |x| < ρ → |m| < ρ → rev1 q M m = 0 →
      0 < rev2 q M x ∧ |rev1 q M x| ≤ 6 * Real.pi * M * |x - m| ∧ ∃ p,
        pdiv (2 * rev1 q M x * (2 * rev2 q M x)) (2 * rev2 q M x * (2 * rev2 q M x) - 2 * rev1 q M x * (2 * rev3 q M x) / 2.0) =
          .ok (x - p) ∧ |p - m| ≤ |x - m| / 2 := by
  have h1 : (-1 : ℝ) < 0 := by norm_num
  have h2 : (0 : ℝ) < 1 := by norm_num
  obtain ⟨a0, a1, a2, a3⟩ := rev_deriv hq h1 h2 0
  obtain ⟨b0, b1, b2, b3⟩ := rev_deriv hq h1 h2 1
  have hz1 : rev1 q 1 0 - rev1 q 0 0 = 0 := by unfold rev1 lancT1; norm_num
  have hT : revT q 1 0 - revT q 0 0 = Real.pi := by
    unfold revT lancT; rw [if_pos h2, if_pos h2]; norm_num
  have hz2 : rev2 q 1 0 - rev2 q 0 0 = 3 * Real.pi := by
    unfold rev2 lancT2
    rw [← hT]
    norm_num
    ring
  have hpi := Real.pi_pos
  have hg : HasStrictDerivAt (fun x => rev1 q 1 x - rev1 q 0 x) (3 * Real.pi) 0 := by
    rw [← hz2]; exact (rev1_strict hq h1 h2 1).sub (rev1_strict hq h1 h2 0)
  have cs : ∀ f : ℝ → ℝ, ContinuousAt f 0 → ContinuousAt (fun p : ℝ × ℝ => f p.2) (0, 0) := fun f hf =>
    ContinuousAt.comp (g := f) (f := Prod.snd) hf continuousAt_snd
  have F1 : ContinuousAt (fun p : ℝ × ℝ => (rev1 q 1 p.2 - rev1 q 0 p.2) + p.1 * rev1 q 0 p.2) (0, 0) :=
    ((cs _ b1.continuousAt).sub (cs _ a1.continuousAt)).add (continuousAt_fst.mul (cs _ a1.continuousAt))
  have F2 : ContinuousAt (fun p : ℝ × ℝ => (rev2 q 1 p.2 - rev2 q 0 p.2) + p.1 * rev2 q 0 p.2) (0, 0) :=
    ((cs _ b2.continuousAt).sub (cs _ a2.continuousAt)).add (continuousAt_fst.mul (cs _ a2.continuousAt))
  have F3 : ContinuousAt (fun p : ℝ × ℝ => (rev3 q 1 p.2 - rev3 q 0 p.2) + p.1 * rev3 q 0 p.2) (0, 0) :=
    ((cs _ b3).sub (cs _ a3)).add (continuousAt_fst.mul (cs _ a3))
  obtain ⟨f1, hf1⟩ : ∃ f : ℝ × ℝ → ℝ, f = fun p => (rev1 q 1 p.2 - rev1 q 0 p.2) + p.1 * rev1 q 0 p.2 := ⟨_, rfl⟩
  obtain ⟨f2, hf2⟩ : ∃ f : ℝ × ℝ → ℝ, f = fun p => (rev2 q 1 p.2 - rev2 q 0 p.2) + p.1 * rev2 q 0 p.2 := ⟨_, rfl⟩
  obtain ⟨f3, hf3⟩ : ∃ f : ℝ × ℝ → ℝ, f = fun p => (rev3 q 1 p.2 - rev3 q 0 p.2) + p.1 * rev3 q 0 p.2 := ⟨_, rfl⟩
  rw [← hf1] at F1
  rw [← hf2] at F2
  rw [← hf3] at F3
  have v1 : f1 (0, 0) = 0 := by rw [hf1]; simp only []; rw [hz1]; ring
  have v2 : f2 (0, 0) = 3 * Real.pi := by rw [hf2]; simp only []; rw [hz2]; ring
  have hden : ContinuousAt (fun p => f2 p ^ 2 - f1 p * f3 p / 2) (0, 0) := (F2.pow 2).sub ((F1.mul F3).div_const 2)
  have hne : f2 (0, 0) ^ 2 - f1 (0, 0) * f3 (0, 0) / 2 ≠ 0 := by rw [v1, v2]; have := pow_pos hpi 2; nlinarith
  have hQ := (F2.div hden hne).tendsto
  have e2 : f2 (0, 0) / (f2 (0, 0) ^ 2 - f1 (0, 0) * f3 (0, 0) / 2) = (3 * Real.pi)⁻¹ := by
    rw [v1, v2]; field_simp; ring
  simp only [Pi.div_apply] at hQ
  rw [e2] at hQ
  obtain ⟨ρ1, hρ1, hρ1', hb⟩ := param_contract (rev1_strict hq h1 h2 0) hg (by positivity) hQ
  obtain ⟨ρ2, hρ2, hb2⟩ := Metric.eventually_nhds_iff_ball.1 ((hden.eventually_ne hne).and
    (F2.eventually (eventually_gt_nhds (show 0 < f2 (0, 0) by rw [v2]; positivity))))
  refine ⟨min ρ1 ρ2, by positivity, (min_le_left _ _).trans hρ1', fun M x m hM hε hx hm hmz => ?_⟩
  have hMp : (0 : ℝ) < M := by exact_mod_cast hM
  have hε0 : |1 / (M : ℝ)| = 1 / M := abs_of_pos (by positivity)
  obtain ⟨c1, c2⟩ := hb (1 / M) x m (by rw [hε0]; exact hε.trans_le (min_le_left _ _)) (hx.trans_le (min_le_left _ _))
    (hm.trans_le (min_le_left _ _))
  obtain ⟨d1, d2⟩ := hb2 (1 / M, x) (by
    rw [Metric.mem_ball, Prod.dist_eq, max_lt_iff, Real.dist_eq, Real.dist_eq, sub_zero, sub_zero, hε0]
    exact ⟨hε.trans_le (min_le_right _ _), hx.trans_le (min_le_right _ _)⟩)
  have hx1 : x < 1 := by
    have := (le_abs_self x).trans_lt (hx.trans_le ((min_le_left _ _).trans hρ1')); exact this
  have hm1 : m < 1 := by
    have := (le_abs_self m).trans_lt (hm.trans_le ((min_le_left _ _).trans hρ1')); exact this
  obtain ⟨-, s1, s2, s3⟩ := rev_affine (q := q) hx1 M
  obtain ⟨-, t1, -, -⟩ := rev_affine (q := q) hm1 M
  have u1 : rev1 q M x = M * f1 (1 / M, x) := by rw [s1, hf1]; field_simp; ring
  have u2 : rev2 q M x = M * f2 (1 / M, x) := by rw [s2, hf2]; field_simp; ring
  have u3 : rev3 q M x = M * f3 (1 / M, x) := by rw [s3, hf3]; field_simp; ring
  have um : rev1 q 1 m - rev1 q 0 m + 1 / M * rev1 q 0 m = 0 := by
    have : M * (rev1 q 1 m - rev1 q 0 m + 1 / M * rev1 q 0 m) = 0 := by
      rw [← hmz, t1]; field_simp; ring
    rcases mul_eq_zero.1 this with h | h
    · exact absurd h hMp.ne'
    · exact h
  have uf : rev1 q 1 x - rev1 q 0 x + 1 / M * rev1 q 0 x = f1 (1 / M, x) := by rw [hf1]
  rw [um, sub_zero, uf] at c1 c2
  have hdne : 2 * rev2 q M x * (2 * rev2 q M x) - 2 * rev1 q M x * (2 * rev3 q M x) / 2.0 ≠ 0 := by
    have e : 2 * rev2 q M x * (2 * rev2 q M x) - 2 * rev1 q M x * (2 * rev3 q M x) / 2.0 =
        4 * (M : ℝ) ^ 2 * (f2 (1 / M, x) ^ 2 - f1 (1 / M, x) * f3 (1 / M, x) / 2) := by
      rw [u1, u2, u3]; norm_num; ring
    rw [e]
    exact mul_ne_zero (by positivity) d1
  refine ⟨by rw [u2]; positivity, ?_, _, (pdiv_eq hdne).trans (congrArg _ (sub_sub_cancel x _).symm), ?_⟩
  · rw [u1, abs_mul, abs_of_pos hMp]
    nlinarith
  · have e : x - 2 * rev1 q M x * (2 * rev2 q M x) /
        (2 * rev2 q M x * (2 * rev2 q M x) - 2 * rev1 q M x * (2 * rev3 q M x) / 2.0) - m =
        x - f1 (1 / M, x) * (f2 (1 / M, x) / (f2 (1 / M, x) ^ 2 - f1 (1 / M, x) * f3 (1 / M, x) / 2)) - m := by
      congr 2
      rw [u1, u2, u3]
      generalize f1 (1 / (M : ℝ), x) = y1 at *
      generalize f2 (1 / (M : ℝ), x) = y2 at *
      generalize f3 (1 / (M : ℝ), x) = y3 at *
      have h2' : (2.0 : ℝ) = 2 := by norm_num
      rw [h2', show 2 * (↑M * y2) * (2 * (↑M * y2)) - 2 * (↑M * y1) * (2 * (↑M * y3)) / 2 =
        (4 * (M : ℝ) ^ 2) * (y2 ^ 2 - y1 * y3 / 2) by ring,
        show 2 * (↑M * y1) * (2 * (↑M * y2)) = (4 * (M : ℝ) ^ 2) * (y1 * y2) by ring,
        mul_div_mul_left _ _ (by positivity), mul_div_assoc]
    rw [e]
    exact c2

/-- The fastest transfer tends to the least-energy one when there are many revolutions. -/
theorem fastest_small {q : ℝ} (hq : q ^ 2 < 1) {ρ : ℝ} (hρ : 0 < ρ) :
    ∃ M0 : ℕ, ∀ M m, M0 ≤ M → 1 ≤ M → Fastest q M m → |m| < ρ := by
  obtain ⟨δ, hδ⟩ : ∃ δ, δ = min ρ (1 / 2) / 2 := ⟨_, rfl⟩
  have hδ0 : 0 < δ := by rw [hδ]; positivity
  have hδρ : δ < ρ := by rw [hδ]; have := min_le_left ρ (1 / 2); linarith
  have hδ1 : δ < 1 := by rw [hδ]; have := min_le_right ρ (1 / 2); linarith
  have hg : 0 < rev1 q 1 δ - rev1 q 0 δ := by
    have hw : 0 < 1 - δ ^ 2 := by nlinarith
    have e : rev1 q 1 δ - rev1 q 0 δ = 3 * δ * (Real.pi / Real.sqrt (1 - δ ^ 2) / (1 - δ ^ 2)) / (1 - δ ^ 2) := by
      unfold rev1 lancT1 revT lancT
      rw [if_pos hδ1, if_pos hδ1]
      push_cast
      ring
    have := Real.sqrt_pos.2 hw
    have := Real.pi_pos
    rw [e]; positivity
  obtain ⟨M0, hM0⟩ := exists_nat_gt (-rev1 q 0 δ / (rev1 q 1 δ - rev1 q 0 δ))
  refine ⟨M0, fun M m hM hM1 hm => ?_⟩
  obtain ⟨v0, v1, va, -⟩ := hm.valley hq hM1
  rw [abs_of_pos v0]
  have hpos : 0 < rev1 q M δ := by
    rw [(rev_affine hδ1 M).2.1]
    have : (M0 : ℝ) ≤ M := by exact_mod_cast hM
    rw [div_lt_iff₀ hg] at hM0
    nlinarith
  by_contra hcon
  push Not at hcon
  -- the time would decrease up to `δ`
  have hd := (rev_deriv hq (by linarith) hδ1 M).1
  have hev := hd.tendsto_slope.eventually (lt_mem_nhds hpos)
  obtain ⟨η, hη, hb⟩ := Metric.mem_nhdsWithin_iff.1 hev
  obtain ⟨c, hc⟩ : ∃ c, c = δ - min (η / 2) (δ / 2) := ⟨_, rfl⟩
  have hmin : 0 < min (η / 2) (δ / 2) := by positivity
  have hcδ : c < δ := by linarith
  have hc0 : 0 < c := by have := min_le_right (η / 2) (δ / 2); linarith
  have h := hb (⟨by
    rw [Metric.mem_ball, Real.dist_eq, abs_of_neg (by linarith)]
    have := min_le_left (η / 2) (δ / 2); linarith, hcδ.ne⟩ : c ∈ Metric.ball δ η ∩ {δ}ᶜ)
  simp only [Set.mem_ofPred_eq, slope_def_field] at h
  have hlt := va ⟨by linarith, by linarith⟩ ⟨by linarith, by linarith⟩ hcδ
  rw [lt_div_iff_of_neg (by linarith)] at h
  linarith

/-- The time near its minimum. -/
theorem time_near_min {q m x : ℝ} (hq : q ^ 2 < 1) {M : ℕ} {L : ℝ} (hL : 0 ≤ L) (hm : -1 < m ∧ m < 1) (hx : -1 < x ∧ x < 1)
    (h : ∀ t ∈ Set.uIcc m x, |rev1 q M t| ≤ L * |t - m|) : |revT q M x - revT q M m| ≤ L * |x - m| ^ 2 := by
  have hsub : ∀ t ∈ Set.uIcc m x, -1 < t ∧ t < 1 := by
    intro t ht
    rcases Set.mem_uIcc.1 ht with ⟨h1, h2⟩ | ⟨h1, h2⟩
    · exact ⟨by linarith, by linarith⟩
    · exact ⟨by linarith, by linarith⟩
  have hb := Convex.norm_image_sub_le_of_norm_hasDerivWithin_le (f := revT q M) (f' := rev1 q M) (s := Set.uIcc m x)
    (C := L * |x - m|) (x := m) (y := x) (fun t ht => (rev_deriv hq (hsub t ht).1 (hsub t ht).2 M).1.hasDerivWithinAt)
    (fun t ht => by
      rw [Real.norm_eq_abs]
      exact (h t ht).trans (mul_le_mul_of_nonneg_left (Set.abs_sub_left_of_mem_uIcc ht) hL))
    (convex_uIcc _ _) Set.left_mem_uIcc Set.right_mem_uIcc
  rw [Real.norm_eq_abs, Real.norm_eq_abs] at hb
  calc _ ≤ _ := hb
    _ = _ := by ring

/-- The start of the search. -/
theorem xmStart_eq {M : ℕ} {thr2 : ℝ} (h0 : 0 < thr2) (h1 : thr2 < 1) :
    ∃ x, xmStart M thr2 = .ok x ∧ 0 < x ∧ x ≤ 2 / (1.5 * (M + 0.5) * Real.pi) := by
  have hpi := Real.pi_pos
  have hd : (1.5 : ℝ) * ((M : ℤ) + 0.5) * Real.pi ≠ 0 := by
    have : (0 : ℝ) ≤ ((M : ℤ) : ℝ) := by positivity
    norm_num; positivity
  have hb : 0 < (1.0 : ℝ) / (1.5 * ((M : ℤ) + 0.5) * Real.pi) := by
    have : (0 : ℝ) ≤ ((M : ℤ) : ℝ) := by positivity
    norm_num; positivity
  have e2 : 2 / (1.5 * ((M : ℝ) + 0.5) * Real.pi) = 2 * ((1.0 : ℝ) / (1.5 * ((M : ℤ) + 0.5) * Real.pi)) := by
    rw [show (1.0 : ℝ) = 1 by norm_num, mul_one_div, Int.cast_natCast]
  rw [e2]
  have d8 : ∀ y : ℝ, 0 < y → y ≤ 1 → ∃ e, d8rt y = .ok e ∧ 0 < e ∧ e ≤ 1 := by
    intro y hy0 hy1
    refine ⟨_, by rw [d8rt, psqrt_eq hy0.le, ok_bind, psqrt_eq (Real.sqrt_nonneg _), ok_bind, psqrt_eq (Real.sqrt_nonneg _)],
      by positivity, ?_⟩
    rw [Real.sqrt_le_one, Real.sqrt_le_one, Real.sqrt_le_one]; exact hy1
  unfold xmStart
  rw [pdiv_eq hd, ok_bind]
  generalize (1.0 : ℝ) / (1.5 * ((M : ℤ) + 0.5) * Real.pi) = b at *
  split_ifs with c1 c2
  · obtain ⟨e, he, e0, e1⟩ := d8 (2.0 * thr2) (by norm_num; exact h0) (by norm_num at c1 ⊢; linarith)
    rw [he, ok_bind]
    exact ⟨_, rfl, by positivity, by nlinarith⟩
  · obtain ⟨e, he, e0, e1⟩ := d8 (2.0 - 2.0 * thr2) (by norm_num; linarith) (by norm_num at c2 ⊢; linarith)
    rw [he, ok_bind]
    refine ⟨_, rfl, mul_pos (by norm_num; linarith) hb, ?_⟩
    norm_num
    nlinarith
  · exact ⟨_, rfl, hb, by linarith⟩

/-- The search, for many revolutions. -/
theorem min_search {q : ℝ} (hq : q ^ 2 < 1) {M : ℕ} (hM : 1 ≤ M) {m ρ atol rtol : ℝ} (hρ1 : ρ ≤ 1) (hm : |m| < ρ / 4)
    (hst : ∀ x, |x| < ρ → 0 < rev2 q M x ∧ ∃ p,
        pdiv (2 * rev1 q M x * (2 * rev2 q M x)) (2 * rev2 q M x * (2 * rev2 q M x) - 2 * rev1 q M x * (2 * rev3 q M x) / 2.0) =
          .ok (x - p) ∧ |p - m| ≤ |x - m| / 2) (ha : 0 < atol) (hr : 0 ≤ rtol) :
    ∀ n k num : ℕ, ∀ x, |x - m| < ρ / 2 → 2 * |x - m| ≤ atol * 2 ^ n → n + 1 ≤ k →
      ∃ xm y num', tminLoop M q (1 - q ^ 2) atol rtol k num x = .ok (xm, 2 * revT q M y, 2 * rev2 q M y, num') ∧
        num ≤ num' ∧ num' ≤ num + n ∧ |y - m| < ρ / 2 ∧ |y - m| ≤ 2 * (rtol + atol) ∧ |xm - m| ≤ rtol + atol ∧
        0 < rev2 q M y ∧ xm < 1 := by
  intro n
  have hdom : ∀ x, |x - m| < ρ / 2 → |x| < ρ ∧ -1 < x ∧ x < 1 := by
    intro x hx
    have h1 := abs_sub_abs_le_abs_sub x m
    have h2 : |x| < ρ := by linarith [abs_nonneg m]
    have h3 := abs_lt.1 (h2.trans_le hρ1)
    exact ⟨h2, h3.1, h3.2⟩
  have body : ∀ k num x, |x - m| < ρ / 2 → ∃ p, |p - m| ≤ |x - m| / 2 ∧ 0 < rev2 q M x ∧
      (|x - p| < rtol * |x| + atol → |x - m| ≤ 2 * (rtol + atol)) ∧ (2 * |x - m| ≤ atol → |x - p| < rtol * |x| + atol) ∧
      tminLoop M q (1 - q ^ 2) atol rtol (k + 1) num x = if |x - p| < rtol * |x| + atol then .ok (p, 2 * revT q M x, 2 * rev2 q M x, num)
        else match k with
          | 0 => .ok (p, 2 * revT q M x, 2 * rev2 q M x, num)
          | r + 1 => tminLoop M q (1 - q ^ 2) atol rtol (r + 1) (num + 1) p := by
    intro k num x hx
    obtain ⟨d1, d2, d3⟩ := hdom x hx
    obtain ⟨hp2, p, hp, hpm⟩ := hst x d1
    have s1 : |x - p| ≤ 3 / 2 * |x - m| := by
      have := abs_sub (x - m) (p - m)
      rw [sub_sub_sub_cancel_right] at this
      linarith
    have s2 : |x - m| ≤ 2 * |x - p| := by
      have := abs_add_le (x - p) (p - m)
      rw [sub_add_sub_cancel] at this
      linarith
    refine ⟨p, hpm, hp2, fun h => ?_, fun h => ?_, ?_⟩
    · have : rtol * |x| ≤ rtol * 1 := mul_le_mul_of_nonneg_left (by linarith) hr
      linarith
    · have h0 := mul_nonneg hr (abs_nonneg x)
      linarith
    · rw [tminLoop, tlamb_three hq d2 d3 hM, ok_bind]
      simp only []
      rw [if_neg (by linarith), hp, ok_bind]
      simp only [sub_sub_cancel]
      cases k <;> rfl
  induction n with
  | zero =>
    intro k num x hx h2 hk
    obtain ⟨k, rfl⟩ : ∃ j, k = j + 1 := ⟨k - 1, by omega⟩
    obtain ⟨p, b1, b2, b3, b4, b5⟩ := body k num x hx
    rw [pow_zero, mul_one] at h2
    have ht := b4 h2
    rw [b5, if_pos ht]
    exact ⟨_, _, _, rfl, le_rfl, by omega, hx, b3 ht, by linarith [b3 ht], b2,
      by linarith [(abs_le.1 b1).2, (abs_lt.1 hm).2]⟩
  | succ n ih =>
    intro k num x hx h2 hk
    obtain ⟨k, rfl⟩ : ∃ j, k = j + 2 := ⟨k - 2, by omega⟩
    obtain ⟨p, b1, b2, b3, b4, b5⟩ := body (k + 1) num x hx
    rw [b5]
    split
    · rename_i ht
      exact ⟨_, _, _, rfl, le_rfl, by omega, hx, b3 ht, by linarith [b3 ht], b2,
      by linarith [(abs_le.1 b1).2, (abs_lt.1 hm).2]⟩
    · have h0 := abs_nonneg (x - m)
      rw [pow_succ] at h2
      obtain ⟨xm, y, num', e, c1, c2, c3⟩ := ih (k + 1) (num + 1) p (by linarith) (by linarith) (by omega)
      exact ⟨xm, y, num', e, by omega, by omega, c3⟩

end Gooding
end Lamberthub
