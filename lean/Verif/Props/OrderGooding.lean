import Verif.Props.Order

/-!
# C58: the search for the minimum time in `gooding1990`

With revolutions `xlamb` first looks for the fastest transfer by applying Halley's method to the derivative of the
time.  The fastest transfer is a nondegenerate minimum (`lancT2_ne_zero`), so that the search has order three there.
-/

set_option autoImplicit false

namespace Lamberthub
open Filter Topology Spec LC Gooding

/-- The time and its derivatives with revolutions, as functions: what `tlamb` computes, and how they are related. -/
theorem gooding_min_functions {q m : ℝ} {M : ℕ} (hq : q ^ 2 < 1) (hM : 1 ≤ M) (hm : Fastest q M m) :
    ∃ T T1 T2 T3 : ℝ → ℝ, (∀ x, T x = 2 * lancT q x (lancY q x) M) ∧
      (∀ x, -1 < x → x < 1 → tlamb M q (1 - q ^ 2) x 3 = .ok (T x, T1 x, T2 x, T3 x) ∧ HasDerivAt T (T1 x) x ∧
        HasDerivAt T1 (T2 x) x ∧ HasDerivAt T2 (T3 x) x ∧ ∃ d, HasDerivAt T3 d x) ∧ T1 m = 0 ∧ 0 < T2 m := by
  have hM' : (M : ℤ) > 0 := by exact_mod_cast hM
  refine ⟨fun t => 2 * lancT q t (lancY q t) M, fun t => 2 * lancT1 q t (lancY q t) (lancT q t (lancY q t) M),
    fun t => 2 * lancT2 q t (lancY q t) (lancT q t (lancY q t) M) (lancT1 q t (lancY q t) (lancT q t (lancY q t) M)),
    fun t => 2 * lancT3 q t (lancY q t) (lancT1 q t (lancY q t) (lancT q t (lancY q t) M))
      (lancT2 q t (lancY q t) (lancT q t (lancY q t) M) (lancT1 q t (lancY q t) (lancT q t (lancY q t) M))),
    fun x => rfl, ?_, ?_⟩
  · intro x h1 h2
    obtain ⟨c1, c2, c3, hcc, g1, g2, g3⟩ := tlambDirect_eq (lanc_lancY hq x) h1 h2.ne (.inr h2) (M := M) 3
    have d1 := lancT_hasDerivAt hq h1 h2.ne M
    have d2 := lancT1_hasDerivAt hq (one_sub_sq_ne h1 h2.ne) d1
    have d3 := lancT2_hasDerivAt hq (one_sub_sq_ne h1 h2.ne) (T1 := fun t => lancT1 q t (lancY q t)
      (lancT q t (lancY q t) M)) d1 d2
    obtain ⟨d, d4⟩ := lancT3_hasDerivAt hq h1 h2.ne M
    refine ⟨?_, d1.const_mul 2, d2.const_mul 2, d3.const_mul 2, _, d4.const_mul 2⟩
    unfold tlamb
    rw [if_neg (by norm_num), u_eq, if_pos (.inl hM'), hcc, g1 (by norm_num), g2 (by norm_num), g3 rfl]
  · obtain ⟨h1, h2⟩ := hm.mem
    have d1 := lancT_hasDerivAt hq h1 h2.ne M
    have hloc : IsLocalMin (fun t => lancT q t (lancY q t) M) m := by
      filter_upwards [Ioo_mem_nhds h1 h2] with t ht using hm.least t ht
    have e1 : lancT1 q m (lancY q m) (lancT q m (lancY q m) M) = 0 := hloc.hasDerivAt_eq_zero d1
    refine ⟨by simp only [e1, mul_zero], ?_⟩
    have hne := lancT2_ne_zero hq h1 h2.ne e1
    simp only [e1]
    rcases lt_or_gt_of_ne hne with hlt | hgt
    · exfalso
      -- a negative second derivative would make the derivative negative on the right
      have d2 := lancT1_hasDerivAt hq (one_sub_sq_ne h1 h2.ne) d1
      rw [e1] at d2
      obtain ⟨-, -, -, hmo⟩ := hm.valley hq hM
      have hev := d2.tendsto_slope.eventually (eventually_lt_nhds hlt)
      obtain ⟨δ, hδ, hb⟩ := Metric.mem_nhdsWithin_iff.1 hev
      obtain ⟨c, hc0, hc1, hc2⟩ : ∃ c, m < c ∧ c < m + δ ∧ c < 1 :=
        ⟨(m + min (m + δ) 1) / 2, by have := lt_min (by linarith : m < m + δ) h2; linarith,
          by have := min_le_left (m + δ) 1; linarith, by have := min_le_right (m + δ) 1; linarith⟩
      have hanti : StrictAntiOn (fun t => lancT q t (lancY q t) M) (Set.Icc m c) := by
        refine strictAntiOn_of_deriv_neg (convex_Icc _ _) (fun x hx =>
          (lancT_hasDerivAt hq (by linarith [hx.1]) (by linarith [hx.2] : x < 1).ne M).continuousAt.continuousWithinAt) ?_
        intro x hx
        rw [interior_Icc] at hx
        rw [(lancT_hasDerivAt hq (by linarith [hx.1]) (by linarith [hx.2] : x < 1).ne M).deriv]
        have h := hb ⟨by rw [Metric.mem_ball, Real.dist_eq, abs_of_pos (by linarith [hx.1])]; linarith [hx.2], hx.1.ne'⟩
        simp only [Set.mem_ofPred_eq, slope_def_field, e1, sub_zero] at h
        by_contra hn
        exact absurd h (not_lt.2 (div_nonneg (not_lt.1 hn) (by linarith [hx.1])))
      have := hanti ⟨le_rfl, hc0.le⟩ ⟨hc0.le, le_rfl⟩ hc0
      have h5 := hm.least c ⟨by linarith, hc2⟩
      simp only [] at this
      linarith
    · linarith

/-- **C58, the minimum search of `gooding1990`.**  At the fastest transfer, for every geometry and number of
revolutions, the step of the search has order three. -/
theorem gooding_minimum_order {q m : ℝ} {M : ℕ} (hq : q ^ 2 < 1) (hM : 1 ≤ M) (hm : Fastest q M m) :
    ConvergesWithOrder (fun x => do
      let (_, dt, d2t, d3t) ← tlamb M q (1 - q ^ 2) x 3
      let s ← pdiv (dt * d2t) (d2t * d2t - dt * d3t / 2.0)
      .ok (x - s)) m 3 := by
  obtain ⟨T, T1, T2, T3, hT, hD, hz, hp⟩ := gooding_min_functions hq hM hm
  have hev : ∀ᶠ t in 𝓝 m, -1 < t ∧ t < 1 := Ioo_mem_nhds hm.mem.1 hm.mem.2
  obtain ⟨d, hd⟩ := (hD m hm.mem.1 hm.mem.2).2.2.2.2
  obtain ⟨hden, C, hC⟩ := halley_order (f := T1) (f1 := T2) (f2 := T3) (r := m)
    (by filter_upwards [hev] with t ht using (hD t ht.1 ht.2).2.2.1)
    (by filter_upwards [hev] with t ht using (hD t ht.1 ht.2).2.2.2.1) hd hz hp.ne'
  refine ⟨C, ?_⟩
  filter_upwards [hev, hden, hC] with t ht hdn hc
  refine ⟨_, ?_, hc⟩
  have hdn' : T2 t * T2 t - T1 t * T3 t / 2.0 ≠ 0 := by
    intro h; apply hdn; norm_num at h ⊢; linarith
  rw [(hD t ht.1 ht.2).1, ok_bind]
  simp only []
  rw [pdiv_eq hdn', ok_bind]
  congr 1
  rw [show T2 t * T2 t - T1 t * T3 t / 2.0 = T2 t ^ 2 - T1 t * T3 t / 2 by norm_num; ring]

/-- **C58, local convergence of the minimum search of `gooding1990`.**  Started near the fastest transfer, the loop
returns within a number of passes that depends on the tolerances only.  The variable it returns is accurate to the
third power of the tolerance, the time to the second power and never too small, and the second derivative is
positive. -/
theorem gooding_minimum_converges {q m : ℝ} {M : ℕ} (hq : q ^ 2 < 1) (hM : 1 ≤ M) (hm : Fastest q M m) :
    ∃ C δ : ℝ, 0 < δ ∧ ∀ atol rtol : ℝ, 0 < atol → 0 ≤ rtol → ∃ N : ℕ, ∀ k n x0, N ≤ k → |x0 - m| < δ →
      ∃ xm tmin d2t n', tminLoop M q (1 - q ^ 2) atol rtol k n x0 = .ok (xm, tmin, d2t, n') ∧ n ≤ n' ∧ n' < n + N ∧
        |xm - m| ≤ |x0 - m| / 2 ∧ |xm - m| ≤ C * (rtol + atol) ^ 3 ∧
        2 * lancT q m (lancY q m) M ≤ tmin ∧ tmin ≤ 2 * lancT q m (lancY q m) M + C * (rtol + atol) ^ 2 ∧ 0 < d2t := by
  obtain ⟨T, T1, T2, T3, hT, hD, hz, hp⟩ := gooding_min_functions hq hM hm
  obtain ⟨C, δ0, hC0, hδ0, hδ1, hst⟩ := (gooding_minimum_order hq hM hm).contract (p := 1)
  have hev : ∀ᶠ t in 𝓝 m, -1 < t ∧ t < 1 := Ioo_mem_nhds hm.mem.1 hm.mem.2
  -- the time near the minimum
  have hpar : ∃ K, ∀ᶠ x in 𝓝 m, |T x - T m| ≤ K * |x - m| ^ 2 := by
    refine taylor_step (g := T) (h := T1) (P := fun _ => 0) (Q := fun _ => T m) (n := 1)
      (by filter_upwards [hev] with t ht using (hD t ht.1 ht.2).2.1) (fun x => hasDerivAt_const _ _) ?_ rfl
    obtain ⟨K, hK⟩ := (hD m hm.mem.1 hm.mem.2).2.2.1.isBigO_sub.bound
    refine ⟨K, hK.mono fun x hx => ?_⟩
    simpa [hz] using hx
  obtain ⟨K, hK⟩ := hpar
  have hp2 : ∀ᶠ t in 𝓝 m, 0 < T2 t :=
    (hD m hm.mem.1 hm.mem.2).2.2.2.1.continuousAt.eventually (eventually_gt_nhds hp)
  obtain ⟨δ1, hδ1', hball⟩ := Metric.eventually_nhds_iff_ball.1 ((hev.and hK).and hp2)
  refine ⟨max (C * 2 ^ 3) (|K| * 2 ^ 2), min δ0 δ1, by positivity, fun atol rtol ha hr => ?_⟩
  obtain ⟨B, hB⟩ : ∃ B, B = max (C * 2 ^ 3) (|K| * 2 ^ 2) := ⟨_, rfl⟩
  rw [← hB]
  have body : ∀ x, |x - m| < min δ0 δ1 → ∃ p, |p - m| ≤ |x - m| / 2 ∧
      (|x - p| < rtol * |x| + atol → |p - m| ≤ B * (rtol + atol) ^ 3 ∧ T x ≤ T m + B * (rtol + atol) ^ 2) ∧
      T m ≤ T x ∧ 0 < T2 x ∧ (2 * |x - m| ≤ atol → |x - p| < rtol * |x| + atol) ∧
      ∀ k n, tminLoop M q (1 - q ^ 2) atol rtol (k + 1) n x = if |x - p| < rtol * |x| + atol then .ok (p, T x, T2 x, n)
        else match k with
          | 0 => .ok (p, T x, T2 x, n)
          | r + 1 => tminLoop M q (1 - q ^ 2) atol rtol (r + 1) (n + 1) p := by
    intro x hx
    obtain ⟨p, hpx, hb, hh⟩ := hst x (hx.trans_le (min_le_left _ _))
    obtain ⟨⟨⟨h1, h2⟩, hTx⟩, hT2⟩ := hball x (by
      rw [Metric.mem_ball, Real.dist_eq]; exact hx.trans_le (min_le_right _ _))
    have hmx : T m ≤ T x := by rw [hT, hT]; linarith [hm.least x ⟨h1, h2⟩]
    have hn := abs_nonneg (x - m)
    have s1 : |x - p| ≤ 3 / 2 * |x - m| := by
      have := abs_sub (x - m) (p - m)
      rw [sub_sub_sub_cancel_right] at this
      linarith
    have s2 : |x - m| ≤ 2 * |x - p| := by
      have := abs_add_le (x - p) (p - m)
      rw [sub_add_sub_cancel] at this
      linarith
    have hax : |x| ≤ 1 := abs_le.2 ⟨h1.le, h2.le⟩
    refine ⟨p, hh, fun hs => ?_, hmx, hT2, fun hs => ?_, fun k n => ?_⟩
    · have hs' : |x - m| ≤ 2 * (rtol + atol) := by nlinarith
      have hs0 : 0 ≤ rtol + atol := by linarith
      refine ⟨hb.trans ?_, ?_⟩
      · calc C * |x - m| ^ 3 ≤ C * (2 * (rtol + atol)) ^ 3 :=
              mul_le_mul_of_nonneg_left (pow_le_pow_left₀ hn hs' 3) hC0
          _ = C * 2 ^ 3 * (rtol + atol) ^ 3 := by ring
          _ ≤ B * (rtol + atol) ^ 3 := mul_le_mul_of_nonneg_right (by rw [hB]; exact le_max_left _ _) (by positivity)
      · have h5 : |T x - T m| ≤ B * (rtol + atol) ^ 2 := by
          calc |T x - T m| ≤ K * |x - m| ^ 2 := hTx
            _ ≤ |K| * |x - m| ^ 2 := mul_le_mul_of_nonneg_right (le_abs_self K) (by positivity)
            _ ≤ |K| * (2 * (rtol + atol)) ^ 2 := mul_le_mul_of_nonneg_left (pow_le_pow_left₀ hn hs' 2) (abs_nonneg K)
            _ = |K| * 2 ^ 2 * (rtol + atol) ^ 2 := by ring
            _ ≤ B * (rtol + atol) ^ 2 := mul_le_mul_of_nonneg_right (by rw [hB]; exact le_max_right _ _) (by positivity)
        linarith [le_abs_self (T x - T m)]
    · have : 0 ≤ rtol * |x| := mul_nonneg hr (abs_nonneg x)
      linarith
    · have hte := (hD x h1 h2).1
      simp only [hte, ok_bind] at hpx
      rw [tminLoop, hte, ok_bind]
      simp only []
      rw [if_neg hT2.ne']
      obtain ⟨s, hs, hps⟩ := bind_ok.1 hpx
      have hps := Except.ok.inj hps
      rw [hs, ok_bind, hps]
      cases k <;> rfl
  have main : ∀ N : ℕ, ∀ k n x0, N + 1 ≤ k → |x0 - m| < min δ0 δ1 → 2 * |x0 - m| ≤ 2 ^ N * atol →
      ∃ xm tmin d2t n', tminLoop M q (1 - q ^ 2) atol rtol k n x0 = .ok (xm, tmin, d2t, n') ∧ n ≤ n' ∧ n' < n + (N + 1) ∧
        |xm - m| ≤ |x0 - m| / 2 ∧ |xm - m| ≤ B * (rtol + atol) ^ 3 ∧ T m ≤ tmin ∧
        tmin ≤ T m + B * (rtol + atol) ^ 2 ∧ 0 < d2t := by
    intro N
    induction N with
    | zero =>
      intro k n x0 hk hx0 hlt
      obtain ⟨k, rfl⟩ : ∃ j, k = j + 1 := ⟨k - 1, by omega⟩
      obtain ⟨p, b1, b2, b3, b4, b5, b6⟩ := body x0 hx0
      have hs := b5 (by linarith)
      rw [b6, if_pos hs]
      exact ⟨p, _, _, n, rfl, le_rfl, by omega, b1, (b2 hs).1, b3, (b2 hs).2, b4⟩
    | succ N ih =>
      intro k n x0 hk hx0 hlt
      obtain ⟨k, rfl⟩ : ∃ j, k = j + 2 := ⟨k - 2, by omega⟩
      obtain ⟨p, b1, b2, b3, b4, b5, b6⟩ := body x0 hx0
      rw [b6]
      by_cases hs : |x0 - p| < rtol * |x0| + atol
      · rw [if_pos hs]
        exact ⟨p, _, _, n, rfl, le_rfl, by omega, b1, (b2 hs).1, b3, (b2 hs).2, b4⟩
      · rw [if_neg hs]
        have hn := abs_nonneg (x0 - m)
        obtain ⟨xm, tmin, d2t, n', r1, r2, r3, r4, r5⟩ := ih (k + 1) (n + 1) p (by omega) (by linarith)
          (by rw [pow_succ] at hlt; linarith)
        exact ⟨xm, tmin, d2t, n', r1, by omega, by omega, by linarith [abs_nonneg (p - m)], r5⟩
  obtain ⟨N, hN⟩ := pow_unbounded_of_one_lt (2 * min δ0 δ1 / atol) (one_lt_two : (1 : ℝ) < 2)
  rw [div_lt_iff₀ ha] at hN
  refine ⟨N + 1, fun k n x0 hk hx => ?_⟩
  have := main N k n x0 hk hx (by linarith)
  rwa [hT] at this

/-- Non-vacuity: two revolutions, `q = 1/3`; every geometry has a fastest transfer. -/
example : ∃ m, Fastest (1 / 3) 2 m ∧ ∃ C δ : ℝ, 0 < δ ∧ ∀ atol rtol : ℝ, 0 < atol → 0 ≤ rtol → ∃ N : ℕ, ∀ k n x0, N ≤ k →
    |x0 - m| < δ → ∃ xm tmin d2t n', tminLoop (2 : ℕ) (1 / 3) (1 - (1 / 3) ^ 2) atol rtol k n x0 = .ok (xm, tmin, d2t, n') ∧
      n ≤ n' ∧ n' < n + N ∧ |xm - m| ≤ |x0 - m| / 2 ∧ |xm - m| ≤ C * (rtol + atol) ^ 3 ∧
        2 * lancT (1 / 3) m (lancY (1 / 3) m) 2 ≤ tmin ∧
        tmin ≤ 2 * lancT (1 / 3) m (lancY (1 / 3) m) 2 + C * (rtol + atol) ^ 2 ∧ 0 < d2t := by
  obtain ⟨m, hm⟩ := exists_fastest (lam := 1 / 3) (M := 2) (by norm_num) (by norm_num)
  exact ⟨m, hm, gooding_minimum_converges (by norm_num) (by norm_num) hm⟩

end Lamberthub
