import Verif.Props.AroraSwitch

/-! # C58: `arora2013` at both switching points, on both ways -/

set_option autoImplicit false

namespace Lamberthub
open Filter Topology Spec LC Arora Set

namespace Arora

/-- A step that ends near a point away from the bounds has not been cut. -/
theorem boundK_uncut {r tof tofP tau d : ℝ} (h1 : -Real.sqrt 2 + 1e-12 ≠ r) (h2 : Real.sqrt 2 + 1e-12 ≠ r)
    (h3 : Real.sqrt 2 - 1e-12 ≠ r) (h4 : 1 / tau - 1e-12 ≠ r) :
    ∀ᶠ x' in 𝓝 r, ∀ y, boundK y tof tofP tau d = .ok x' → x' = y := by
  filter_upwards [isOpen_ne.mem_nhds h1.symm, isOpen_ne.mem_nhds h2.symm, isOpen_ne.mem_nhds h3.symm, isOpen_ne.mem_nhds h4.symm]
    with x' a1 a2 a3 a4 y hb
  unfold boundK at hb
  simp only [] at hb
  split_ifs at hb
  all_goals first
    | exact (Except.ok.inj hb).symm
    | exact absurd (Except.ok.inj hb).symm a1
    | exact absurd (Except.ok.inj hb).symm a2
    | exact absurd (Except.ok.inj hb).symm a3
    | (simp only [bind_ok, pdiv_ok] at hb
       obtain ⟨_, ⟨-, rfl⟩, hb⟩ := hb
       exact absurd (Except.ok.inj hb).symm a4)

/-- The slope of the time of flight, with `y = tau / (1 - k tau)`. -/
theorem slope_neg {W Wp y : ℝ} (h1 : 0.46 < W) (hy : -0.357 < y) (h : -(0.357 ^ 2) / 2 + 3 / 2 * W * 0.357 + Wp < 0) :
    -y ^ 2 / 2 - 3 / 2 * W * y + Wp < 0 := by
  norm_num at h1 hy h
  have : 0 ≤ (y + 357 / 1000) * ((y - 357 / 1000) / 2 + 3 / 2 * W) := mul_nonneg (by linarith) (by linarith)
  nlinarith

theorem ratio_gt {r tau : ℝ} (hr : 1.394 < r) (ht : -(0.70711 : ℝ) < tau) (hu : 0 < 1 - r * tau) : -0.357 < tau / (1 - r * tau) := by
  rw [lt_div_iff₀ hu]
  norm_num at hr ht ⊢
  rcases le_or_gt 0 tau with h | h
  · nlinarith
  · nlinarith [mul_pos (sub_pos.2 hr) (neg_pos.2 h)]

/-- A jump of `W` on one side of a root leaves no order of convergence. -/
theorem jump_no_order {l : Filter ℝ} [l.NeBot] {r tau S tof tofP d : ℝ} {w w1 w2 : ℝ → ℝ} (hl : l ≤ 𝓝 r) (ht : tau ≠ 0)
    (hur : 0 < 1 - r * tau) (hS : 0 < S) (wc : ContinuousAt w r) (w1c : ContinuousAt w1 r) (w2c : ContinuousAt w2 r)
    (hev : ∀ᶠ x in l, getW x 0 = .ok (w x) ∧ getWprime x (w x) 0 = .ok (w1 x) ∧ getW2prime x (w x) (w1 x) 0 = .ok (w2 x))
    (hjump : w r ≠ seriesW r) (hslope : -(tau / (1 - r * tau)) ^ 2 / 2 - 3 / 2 * w r * (tau / (1 - r * tau)) + w1 r < 0)
    (htof : getTOF r tau S (seriesW r) = .ok tof)
    (hb : ∀ᶠ x' in 𝓝 r, ∀ y, boundK y tof tofP tau d = .ok x' → x' = y) (p : ℕ) (hp : p ≠ 0) :
    ¬ ConvergesWithOrder (fun k => do
      let W ← getW k 0
      let Wp ← getWprime k W 0
      let Wpp ← getW2prime k W Wp 0
      let c ← pdiv (1 - k * tau) tau
      let tofc ← getTOF k tau S W
      let tp ← tofPrime tofc c S tau W Wp
      let tpp ← tofSecond tofc c S tau W Wp Wpp
      let e ← pdiv ((tofc - tof) * tpp) (2.0 * tp)
      let deltak ← pdiv (-(tofc - tof)) (tp - e)
      boundK (k + deltak) tof tofP tau d) r p := by
  rw [getTOF_eq hur.le, Except.ok.injEq] at htof
  rintro ⟨C, hC⟩
  obtain ⟨c, hc⟩ : ∃ c : ℝ → ℝ, c = fun k => (1 - k * tau) / tau := ⟨_, rfl⟩
  obtain ⟨f, hf⟩ : ∃ f : ℝ → ℝ, f = fun k => S * Real.sqrt (1 - k * tau) * (tau + (1 - k * tau) * w k) := ⟨_, rfl⟩
  obtain ⟨f1, hf1⟩ : ∃ f1 : ℝ → ℝ, f1 = fun k => -f k / (2 * c k) + S * tau * Real.sqrt (c k * tau) * (w1 k * c k - w k) := ⟨_, rfl⟩
  obtain ⟨f2, hf2⟩ : ∃ f2 : ℝ → ℝ, f2 = fun k => -f k / (4 * c k ^ 2) + S * tau * Real.sqrt (c k * tau) *
    (w k / c k + c k * w2 k - 3 * w1 k) := ⟨_, rfl⟩
  have hcne : ∀ x, 0 < 1 - x * tau → c x ≠ 0 := fun x hx => by rw [hc]; exact div_ne_zero hx.ne' ht
  have hct : ∀ x, c x * tau = 1 - x * tau := fun x => by rw [hc]; exact div_mul_cancel₀ _ ht
  have hcr := hcne r hur
  have cc : ContinuousAt c r := by rw [hc]; fun_prop
  have uc : ContinuousAt (fun k => 1 - k * tau) r := by fun_prop
  have fc : ContinuousAt f r := by
    rw [hf]
    exact (continuousAt_const.mul uc.sqrt).mul (continuousAt_const.add (uc.mul wc))
  have f1c : ContinuousAt f1 r := by
    rw [hf1]
    exact (fc.neg.div (continuousAt_const.mul cc) (mul_ne_zero two_ne_zero hcr)).add
      ((continuousAt_const.mul (cc.mul continuousAt_const).sqrt).mul ((w1c.mul cc).sub wc))
  have f2c : ContinuousAt f2 r := by
    rw [hf2]
    exact (fc.neg.div (continuousAt_const.mul (cc.pow 2)) (mul_ne_zero four_ne_zero (pow_ne_zero 2 hcr))).add
      ((continuousAt_const.mul (cc.mul continuousAt_const).sqrt).mul (((wc.div cc hcr).add (cc.mul w2c)).sub
        (continuousAt_const.mul w1c)))
  have hq : 0 < Real.sqrt (1 - r * tau) := Real.sqrt_pos.2 hur
  have hJ : f r - tof ≠ 0 := by
    rw [← htof, hf]
    simp only []
    rw [show S * Real.sqrt (1 - r * tau) * (tau + (1 - r * tau) * w r) - S * Real.sqrt (1 - r * tau) *
      (tau + (1 - r * tau) * seriesW r) = S * Real.sqrt (1 - r * tau) * (1 - r * tau) * (w r - seriesW r) by ring]
    exact mul_ne_zero (by positivity) (sub_ne_zero.2 hjump)
  have hs1 : f1 r ≠ 0 := by
    have e : f1 r = S * Real.sqrt (1 - r * tau) * (1 - r * tau) *
        (-(tau / (1 - r * tau)) ^ 2 / 2 - 3 / 2 * w r * (tau / (1 - r * tau)) + w1 r) := by
      rw [hf1]
      simp only []
      rw [hct, hf, hc]
      simp only []
      have hu' := hur.ne'
      generalize 1 - r * tau = u at *
      field_simp
      ring
    rw [e]
    exact mul_ne_zero (by positivity) hslope.ne
  have hpos : ∀ᶠ x in 𝓝 r, 0 < 1 - x * tau := uc.eventually_const_lt (by simpa using hur)
  have hstep : ∀ᶠ x in l, |(f x - tof) * f1 x| ≤ (C * |x - r| ^ p + |x - r|) * |f1 x ^ 2 - (f x - tof) * f2 x / 2| := by
    obtain ⟨δ, hδ, hball⟩ := Metric.eventually_nhds_iff.1 hb
    have hsmall : ∀ᶠ x in 𝓝 r, C * |x - r| ^ p < δ := by
      have : ContinuousAt (fun x : ℝ => C * |x - r| ^ p) r := by fun_prop
      exact this.eventually (eventually_lt_nhds (by simpa [hp] using hδ))
    filter_upwards [hl hC, hl hsmall, hev, hl hpos] with x x1 x2 x3 hux
    obtain ⟨x', e1, e2⟩ := x1
    obtain ⟨g1, g2, g3⟩ := x3
    have hcx := hcne x hux
    have hqx : 0 ≤ c x * tau := by rw [hct]; exact hux.le
    have g4 : pdiv (1 - x * tau) tau = .ok (c x) := by rw [pdiv_eq ht, hc]
    have g5 : getTOF x tau S (w x) = .ok (f x) := by rw [getTOF_eq hux.le, hf]
    have g6 : tofPrime (f x) (c x) S tau (w x) (w1 x) = .ok (f1 x) := by
      unfold tofPrime; rw [pdiv_eq (by positivity), ok_bind, psqrt_eq hqx, ok_bind, hf1]
    have g7 : tofSecond (f x) (c x) S tau (w x) (w1 x) (w2 x) = .ok (f2 x) := by
      unfold tofSecond; rw [pdiv_eq (by positivity), ok_bind, psqrt_eq hqx, ok_bind, pdiv_eq hcx, ok_bind, hf2]
    rw [g1, ok_bind, g2, ok_bind, g3, ok_bind, g4, ok_bind, g5, ok_bind, g6, ok_bind, g7, ok_bind] at e1
    simp only [bind_ok, pdiv_ok] at e1
    obtain ⟨e, ⟨n1, rfl⟩, δ', ⟨n2, rfl⟩, hbk⟩ := e1
    have hxx := hball (by rw [Real.dist_eq]; exact lt_of_le_of_lt e2 x2) _ hbk
    have n3 : f1 x ≠ 0 := fun h => n1 (by rw [h, mul_zero])
    have hδ : |x' - x| ≤ C * |x - r| ^ p + |x - r| := by
      have := abs_sub_le x' r x
      rw [abs_sub_comm r x] at this
      linarith
    have eq : (f x - tof) * f1 x = -(x' - x) * (f1 x ^ 2 - (f x - tof) * f2 x / 2) := by
      rw [hxx]
      have n2' := n2
      have e3 : f1 x ^ 2 - (f x - tof) * f2 x / 2 = f1 x * (f1 x - (f x - tof) * f2 x / (2.0 * f1 x)) := by
        norm_num; field_simp
      rw [e3]
      generalize f1 x - (f x - tof) * f2 x / (2.0 * f1 x) = D at *
      field_simp
      ring
    rw [eq, abs_mul, abs_neg]
    exact mul_le_mul_of_nonneg_right hδ (abs_nonneg _)
  have t1 : Tendsto (fun x => |(f x - tof) * f1 x|) l (𝓝 |(f r - tof) * f1 r|) :=
    (((fc.sub continuousAt_const).mul f1c).abs.tendsto).mono_left hl
  have t2 : Tendsto (fun x => (C * |x - r| ^ p + |x - r|) * |f1 x ^ 2 - (f x - tof) * f2 x / 2|) l (𝓝 0) := by
    have a1 : ContinuousAt (fun x : ℝ => C * |x - r| ^ p + |x - r|) r := by fun_prop
    have a2 : ContinuousAt (fun x => |f1 x ^ 2 - (f x - tof) * f2 x / 2|) r :=
      ((f1c.pow 2).sub (((fc.sub continuousAt_const).mul f2c).div_const 2)).abs
    have := (a1.mul a2).tendsto
    simp only [Pi.mul_apply, sub_self, abs_zero, zero_pow hp, mul_zero, add_zero, zero_mul] at this
    exact this.mono_left hl
  have := le_of_tendsto_of_tendsto t1 t2 hstep
  have hpos : 0 < |(f r - tof) * f1 r| := abs_pos.2 (mul_ne_zero hJ hs1)
  linarith

/-- `W` and its derivative at the lower switching point. -/
theorem ell_values : 0.46 < ellW (Real.sqrt 2 - 1 / 50) 0 ∧ ellW (Real.sqrt 2 - 1 / 50) 0 < 0.4755 ∧
    (-2 + 3 * ellW (Real.sqrt 2 - 1 / 50) 0 * (Real.sqrt 2 - 1 / 50)) / (2 - (Real.sqrt 2 - 1 / 50) ^ 2) < -0.203 := by
  have hl := sqrt2_fine
  have hu := sqrt2_lt
  have hs := sqrt2_sq
  have he : epsilon = 2e-2 := rfl
  norm_num at hl hu he
  have hse := abs_le.1 (series_ell (k := Real.sqrt 2 - 1 / 50) (by rw [he]) (by linarith))
  have hode := series_ode (Real.sqrt 2 - 1 / 50)
  have hv : Real.sqrt 2 - 1 / 50 - Real.sqrt 2 = -(1 / 50) := by ring
  have hw : 0.4751 < seriesW (Real.sqrt 2 - 1 / 50) ∧ seriesW (Real.sqrt 2 - 1 / 50) < 0.47549 := by
    unfold seriesW
    simp only [hv]
    norm_num
    constructor <;> linarith
  have hd : getWsprime (Real.sqrt 2 - 1 / 50) < -0.2031 := by
    unfold getWsprime
    simp only [hv]
    norm_num
    linarith
  have hm : 0.05 < 2 - (Real.sqrt 2 - 1 / 50) ^ 2 := by norm_num; nlinarith
  rw [hv] at hode
  norm_num at hode hw hd hse hm
  refine ⟨by norm_num; linarith [hse.2], by norm_num; linarith [hse.1], ?_⟩
  rw [div_lt_iff₀ (by linarith)]
  norm_num
  generalize ellW (Real.sqrt 2 - 1 / 50) 0 = W at *
  generalize seriesW (Real.sqrt 2 - 1 / 50) = s at *
  generalize getWsprime (Real.sqrt 2 - 1 / 50) = s' at *
  have h1 : 3 * (W - s) * (Real.sqrt 2 - 1 / 50) ≤ 1 / 1000000 := by nlinarith [hse.1]
  generalize 2 - (Real.sqrt 2 - 1 / 50) ^ 2 = m at *
  nlinarith [mul_lt_mul_of_pos_left hd (by linarith : 0 < m)]

/-- `W` and its derivative at the upper switching point. -/
theorem hyp_values : 0.46 < hypW (Real.sqrt 2 + 1 / 50) ∧ hypW (Real.sqrt 2 + 1 / 50) < 0.4676 ∧
    (-2 + 3 * hypW (Real.sqrt 2 + 1 / 50) * (Real.sqrt 2 + 1 / 50)) / (2 - (Real.sqrt 2 + 1 / 50) ^ 2) < -0.1966 := by
  have hl := sqrt2_fine
  have hu := sqrt2_lt
  have hs := sqrt2_sq
  have he : epsilon = 2e-2 := rfl
  norm_num at hl hu he
  have hse := abs_le.1 (series_hyp (k := Real.sqrt 2 + 1 / 50) (by linarith) (by rw [he]))
  have hode := series_ode (Real.sqrt 2 + 1 / 50)
  have hv : Real.sqrt 2 + 1 / 50 - Real.sqrt 2 = 1 / 50 := by ring
  have hw : 0.467 < seriesW (Real.sqrt 2 + 1 / 50) ∧ seriesW (Real.sqrt 2 + 1 / 50) < 0.4675 := by
    unfold seriesW
    simp only [hv]
    norm_num
    constructor <;> linarith
  have hd : getWsprime (Real.sqrt 2 + 1 / 50) < -0.1968 := by
    unfold getWsprime
    simp only [hv]
    norm_num
    linarith
  have hm : 0.05 < (Real.sqrt 2 + 1 / 50) ^ 2 - 2 := by norm_num; nlinarith
  rw [hv] at hode
  norm_num at hode hw hd hse hm
  refine ⟨by norm_num; linarith [hse.2], by norm_num; linarith [hse.1], ?_⟩
  rw [div_lt_iff_of_neg (by linarith)]
  norm_num
  generalize hypW (Real.sqrt 2 + 1 / 50) = W at *
  generalize seriesW (Real.sqrt 2 + 1 / 50) = s at *
  generalize getWsprime (Real.sqrt 2 + 1 / 50) = s' at *
  have h1 : -(1 / 1000000) ≤ 3 * (W - s) * (Real.sqrt 2 + 1 / 50) := by nlinarith [hse.2]
  generalize (Real.sqrt 2 + 1 / 50) ^ 2 = m at *
  nlinarith [mul_lt_mul_of_pos_left hd (by linarith : 0 < m - 2)]

end Arora

/-- **C58 (negation at the switching points).**  Let `r` be one of the two switching points `√2 ± 0.02` of `_get_W`, on the short
or the long way and whatever the geometry, and take the time of flight that `arora2013` computes there.  The iteration converges
to the root `r` of the equation with no order at all, not even linearly, for any value of the parabolic time.  (The last bound of
the code, `1/tau - 1e-12`, is excluded: a step cut there would end on the root by chance.) -/
theorem arora_switches_no_order {r tau S tof tofP d : ℝ} (hr : r = Real.sqrt 2 - 2e-2 ∨ r = Real.sqrt 2 + 2e-2) (ht : tau ≠ 0)
    (htau : |Real.sqrt 2 * tau| < 1) (hu : 0 < 1 - r * tau) (hS : 0 < S) (hedge : 1 / tau - 1e-12 ≠ r)
    (htof : getTOF r tau S (seriesW r) = .ok tof) (p : ℕ) (hp : p ≠ 0) :
    ¬ ConvergesWithOrder (fun k => do
      let W ← getW k 0
      let Wp ← getWprime k W 0
      let Wpp ← getW2prime k W Wp 0
      let c ← pdiv (1 - k * tau) tau
      let tofc ← getTOF k tau S W
      let tp ← tofPrime tofc c S tau W Wp
      let tpp ← tofSecond tofc c S tau W Wp Wpp
      let e ← pdiv ((tofc - tof) * tpp) (2.0 * tp)
      let deltak ← pdiv (-(tofc - tof)) (tp - e)
      boundK (k + deltak) tof tofP tau d) r p := by
  have hl := sqrt2_fine
  have hu2 := sqrt2_lt
  have hs := sqrt2_sq
  have he : epsilon = 2e-2 := rfl
  have htl := (tau_fine htau).1
  norm_num at hl hu2 he
  rw [show (2e-2 : ℝ) = 1 / 50 by norm_num] at hr
  have hr1 : 1.394 < r := by rcases hr with rfl | rfl <;> norm_num <;> linarith
  have hy := ratio_gt hr1 htl hu
  have hb := boundK_uncut (r := r) (tof := tof) (tofP := tofP) (tau := tau) (d := d)
    (by norm_num at hr1 ⊢; intro h; linarith) (by norm_num; intro h; rcases hr with hr | hr <;> linarith)
    (by norm_num; intro h; rcases hr with hr | hr <;> linarith) hedge
  norm_num at hr1
  rcases hr with hr | hr
  · obtain ⟨v1, v2, v3⟩ := ell_values
    have hlt := series_lt_ell (k := Real.sqrt 2 - 1 / 50) (by linarith) (by linarith)
    rw [← hr] at v1 v2 v3 hlt
    have hm : 2 - r ^ 2 ≠ 0 := by rw [hr]; nlinarith
    have wc : ContinuousAt (fun k => ellW k 0) r := (hasDerivAt_ellW 0 (by linarith) (by rw [hr]; linarith)).continuousAt
    have w1c : ContinuousAt (fun k => (-2 + 3 * ellW k 0 * k) / (2 - k ^ 2)) r :=
      (continuousAt_const.add ((continuousAt_const.mul wc).mul continuousAt_id)).div (by fun_prop) (by simpa using hm)
    have w2c : ContinuousAt (fun k => (5 * ((-2 + 3 * ellW k 0 * k) / (2 - k ^ 2)) * k + 3 * ellW k 0) / (2 - k ^ 2)) r :=
      (((continuousAt_const.mul w1c).mul continuousAt_id).add (continuousAt_const.mul wc)).div (by fun_prop) (by simpa using hm)
    refine jump_no_order (l := 𝓝[<] r) nhdsWithin_le_nhds ht hu hS wc w1c w2c ?_ hlt.ne' (slope_neg v1 hy ?_) htof hb p hp
    · filter_upwards [self_mem_nhdsWithin, nhdsWithin_le_nhds (eventually_gt_nhds (by linarith : (0 : ℝ) < r))] with x x1 x2
      have x1' : x < r := x1
      have hx : x < Real.sqrt 2 - epsilon := by rw [he, ← hr]; exact x1'
      have hmx : 2 - x ^ 2 ≠ 0 := by rw [hr] at x1'; nlinarith
      refine ⟨getW_ell (M := 0) (by linarith) (by rw [hr] at x1'; linarith) (.inl hx), ?_, ?_⟩
      · unfold getWprime; simp only []; rw [if_pos (.inl hx), pdiv_eq hmx]
      · unfold getW2prime; simp only []; rw [if_pos (.inl hx), pdiv_eq hmx]
    · norm_num at v2 v3 ⊢; linarith
  · obtain ⟨v1, v2, v3⟩ := hyp_values
    have hlt := hyp_lt_series (k := Real.sqrt 2 + 1 / 50) (by linarith)
    rw [← hr] at v1 v2 v3 hlt
    have hm : 2 - r ^ 2 ≠ 0 := by rw [hr]; nlinarith
    have wc : ContinuousAt hypW r := (hasDerivAt_hypW (by rw [hr]; linarith)).continuousAt
    have w1c : ContinuousAt (fun k => (-2 + 3 * hypW k * k) / (2 - k ^ 2)) r :=
      (continuousAt_const.add ((continuousAt_const.mul wc).mul continuousAt_id)).div (by fun_prop) (by simpa using hm)
    have w2c : ContinuousAt (fun k => (5 * ((-2 + 3 * hypW k * k) / (2 - k ^ 2)) * k + 3 * hypW k) / (2 - k ^ 2)) r :=
      (((continuousAt_const.mul w1c).mul continuousAt_id).add (continuousAt_const.mul wc)).div (by fun_prop) (by simpa using hm)
    refine jump_no_order (l := 𝓝[>] r) nhdsWithin_le_nhds ht hu hS wc w1c w2c ?_ hlt.ne (slope_neg v1 hy ?_) htof hb p hp
    · filter_upwards [self_mem_nhdsWithin] with x x1
      have x1' : r < x := x1
      have hx : Real.sqrt 2 + epsilon < x := by rw [he, ← hr]; exact x1'
      have hmx : 2 - x ^ 2 ≠ 0 := by rw [hr] at x1'; nlinarith
      have n1 : ¬ (x < Real.sqrt 2 - epsilon ∨ ((0 : ℤ) > 0 ∧ x < Real.sqrt 2)) := by
        rw [he] at hx ⊢
        rintro (h | h)
        · linarith
        · exact absurd h.1 (by norm_num)
      have n2 : ¬ (True ∧ Real.sqrt 2 - epsilon < x ∧ x < Real.sqrt 2 + epsilon) := fun h => absurd h.2.2 (not_lt.2 hx.le)
      refine ⟨getW_hyp hx, ?_, ?_⟩
      · unfold getWprime; simp only []; rw [if_neg n1, if_neg n2, pdiv_eq hmx]
      · unfold getW2prime; simp only []; rw [if_neg n1, if_neg n2, pdiv_eq hmx]
    · norm_num at v2 v3 ⊢; linarith

/-- The hypotheses hold on the long way, at the hyperbolic switching point. -/
example : ∃ tof, getTOF (Real.sqrt 2 + 2e-2) (-1 / 2) 1 (seriesW (Real.sqrt 2 + 2e-2)) = .ok tof ∧
    |Real.sqrt 2 * (-1 / 2)| < 1 ∧ 1 / (-1 / 2) - 1e-12 ≠ Real.sqrt 2 + 2e-2 := by
  have hu := sqrt2_lt
  have hp := sqrt2_pos
  norm_num at hu
  refine ⟨_, getTOF_eq (by norm_num; linarith), by rw [abs_lt]; constructor <;> linarith, ?_⟩
  norm_num
  intro h
  linarith

end Lamberthub
