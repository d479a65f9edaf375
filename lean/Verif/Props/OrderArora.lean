import Verif.Props.OrderMcElreath
import Verif.Props.AroraDeriv

/-! # C58 for `arora2013` -/

set_option autoImplicit false

namespace Lamberthub
open Filter Topology Spec Arora

/-- The functions computed by `_get_W`, `_get_Wprime`, `_get_W2prime` near a point away from the switching points. -/
theorem Arora.W_local {k W : ℝ} {M : ℕ} (hW : getW k M = .ok W) (h1 : M = 0 → k ≠ Real.sqrt 2 - 2e-2)
    (h2 : M = 0 → k ≠ Real.sqrt 2 + 2e-2) :
    ∃ (w w' w'' : ℝ → ℝ) (d : ℝ), (∀ᶠ x in 𝓝 k, getW x M = .ok (w x) ∧ getWprime x (w x) M = .ok (w' x) ∧
      getW2prime x (w x) (w' x) M = .ok (w'' x) ∧ HasDerivAt w (w' x) x ∧ HasDerivAt w' (w'' x) x) ∧ HasDerivAt w'' d k := by
  have he : epsilon = 2e-2 := rfl
  have hep := eps_pos
  rw [← he] at h1 h2
  have hp := sqrt2_pos
  have hq := sqrt2_sq
  have third : ∀ {w w' : ℝ → ℝ} {a b : ℝ}, HasDerivAt w a k → HasDerivAt w' b k → 2 - k ^ 2 ≠ 0 →
      ∃ d, HasDerivAt (fun x => (5 * w' x * x + 3 * w x) / (2 - x ^ 2)) d k := by
    intro w w' a b ha hb hm
    have d1 := ((hb.const_mul 5).mul (hasDerivAt_id k)).add (ha.const_mul 3)
    have d2 := ((hasDerivAt_id k).pow 2).const_sub 2
    exact ⟨_, d1.div d2 (by simpa using hm)⟩
  rcases getW_ok hW with ⟨a1, a2, a3, rfl⟩ | ⟨a1, rfl⟩ | ⟨rfl, a1, a2, rfl⟩
  · have key : ∀ x, -Real.sqrt 2 < x → x < Real.sqrt 2 → (x < Real.sqrt 2 - epsilon ∨ 0 < M) →
        getW x M = .ok (ellW x M) ∧ getWprime x (ellW x M) M = .ok ((-2 + 3 * ellW x M * x) / (2 - x ^ 2)) ∧
        getW2prime x (ellW x M) ((-2 + 3 * ellW x M * x) / (2 - x ^ 2)) M =
          .ok ((5 * ((-2 + 3 * ellW x M * x) / (2 - x ^ 2)) * x + 3 * ellW x M) / (2 - x ^ 2)) ∧
        HasDerivAt (fun x => ellW x M) ((-2 + 3 * ellW x M * x) / (2 - x ^ 2)) x ∧
        HasDerivAt (fun x => (-2 + 3 * ellW x M * x) / (2 - x ^ 2))
          ((5 * ((-2 + 3 * ellW x M * x) / (2 - x ^ 2)) * x + 3 * ellW x M) / (2 - x ^ 2)) x := by
      intro x x1 x2 x3
      have hm : 2 - x ^ 2 ≠ 0 := by nlinarith
      have hcond : x < Real.sqrt 2 - epsilon ∨ ((M : ℤ) > 0 ∧ x < Real.sqrt 2) := by
        rcases x3 with h | h <;> [exact .inl h; exact .inr ⟨by exact_mod_cast h, x2⟩]
      have hd := hasDerivAt_ellW M x1 x2
      refine ⟨getW_ell x1 x2 x3, ?_, ?_, hd, hasDerivAt_second hd hm rfl⟩
      · unfold getWprime
        simp only []
        rw [if_pos hcond, pdiv_eq hm]
      · unfold getW2prime
        simp only []
        rw [if_pos hcond, pdiv_eq hm]
    have hop : ∀ᶠ x in 𝓝 k, -Real.sqrt 2 < x ∧ x < Real.sqrt 2 ∧ (x < Real.sqrt 2 - epsilon ∨ 0 < M) := by
      refine (eventually_gt_nhds a1).and ((eventually_lt_nhds a2).and ?_)
      rcases a3 with h | h
      · exact (eventually_lt_nhds h).mono fun x hx => .inl hx
      · exact Eventually.of_forall fun _ => .inr h
    obtain ⟨d, hd⟩ := third (key k a1 a2 a3).2.2.2.1 (key k a1 a2 a3).2.2.2.2 (by nlinarith)
    refine ⟨fun x => ellW x M, fun x => (-2 + 3 * ellW x M * x) / (2 - x ^ 2),
      fun x => (5 * ((-2 + 3 * ellW x M * x) / (2 - x ^ 2)) * x + 3 * ellW x M) / (2 - x ^ 2), d, ?_, hd⟩
    filter_upwards [hop] with x hx using key x hx.1 hx.2.1 hx.2.2
  · have key : ∀ x, Real.sqrt 2 + epsilon < x →
        getW x M = .ok (hypW x) ∧ getWprime x (hypW x) M = .ok ((-2 + 3 * hypW x * x) / (2 - x ^ 2)) ∧
        getW2prime x (hypW x) ((-2 + 3 * hypW x * x) / (2 - x ^ 2)) M =
          .ok ((5 * ((-2 + 3 * hypW x * x) / (2 - x ^ 2)) * x + 3 * hypW x) / (2 - x ^ 2)) ∧
        HasDerivAt hypW ((-2 + 3 * hypW x * x) / (2 - x ^ 2)) x ∧
        HasDerivAt (fun x => (-2 + 3 * hypW x * x) / (2 - x ^ 2))
          ((5 * ((-2 + 3 * hypW x * x) / (2 - x ^ 2)) * x + 3 * hypW x) / (2 - x ^ 2)) x := by
      intro x x1
      have hm : 2 - x ^ 2 ≠ 0 := by nlinarith
      have hd := hasDerivAt_hypW (k := x) (by linarith)
      refine ⟨getW_hyp x1, ?_, ?_, hd, hasDerivAt_second hd hm rfl⟩
      · unfold getWprime
        simp only []
        rw [if_neg (by rintro (h | h) <;> [linarith; linarith [h.2]]), if_neg (fun h => by linarith [h.2.2]), pdiv_eq hm]
      · unfold getW2prime
        simp only []
        rw [if_neg (by rintro (h | h) <;> [linarith; linarith [h.2]]), if_neg (fun h => by linarith [h.2.2]), pdiv_eq hm]
    obtain ⟨d, hd⟩ := third (key k a1).2.2.2.1 (key k a1).2.2.2.2 (by nlinarith)
    refine ⟨hypW, fun x => (-2 + 3 * hypW x * x) / (2 - x ^ 2),
      fun x => (5 * ((-2 + 3 * hypW x * x) / (2 - x ^ 2)) * x + 3 * hypW x) / (2 - x ^ 2), d, ?_, hd⟩
    filter_upwards [eventually_gt_nhds a1] with x hx using key x hx
  · have b1 : Real.sqrt 2 - epsilon < k := lt_of_le_of_ne a1 (Ne.symm (h1 rfl))
    have b2 : k < Real.sqrt 2 + epsilon := lt_of_le_of_ne a2 (h2 rfl)
    have hdd : DifferentiableAt ℝ getWs2prime k := by
      unfold getWs2prime
      fun_prop
    refine ⟨seriesW, getWsprime, getWs2prime, _, ?_, hdd.hasDerivAt⟩
    filter_upwards [eventually_gt_nhds b1, eventually_lt_nhds b2] with x x1 x2
    refine ⟨?_, ?_, ?_, hasDerivAt_seriesW x, hasDerivAt_getWsprime x⟩
    · unfold getW
      simp only []
      rw [if_neg (by rintro (h | h) <;> [linarith [h.2]; simp at h]), if_neg (by linarith),
        if_pos ⟨rfl, x1.le, x2.le⟩]
    · unfold getWprime
      simp only []
      rw [if_neg (by rintro (h | h) <;> [linarith; simp at h]), if_pos ⟨rfl, x1, x2⟩]
    · unfold getW2prime
      simp only []
      rw [if_neg (by rintro (h | h) <;> [linarith; simp at h]), if_pos ⟨rfl, x1, x2⟩]

/-- The bounds of l.298-308 do nothing near a point strictly within them. -/
theorem Arora.boundK_near {r tof tofP tau d : ℝ} (hb1 : -Real.sqrt 2 < r)
    (hb2 : tof < tofP → Real.sqrt 2 < r ∧ (0 < d → 0 < 1 - tau * r)) (hb3 : tofP < tof → r < Real.sqrt 2) :
    ∀ᶠ x in 𝓝 r, boundK x tof tofP tau d = .ok x := by
  have c2 : ∀ᶠ x in 𝓝 r, tof < tofP → Real.sqrt 2 < x ∧ (0 < d → 0 < 1 - tau * x) := by
    by_cases h : tof < tofP
    · obtain ⟨u, v⟩ := hb2 h
      have c3 : ∀ᶠ x in 𝓝 r, 0 < d → 0 < 1 - tau * x := by
        by_cases h' : 0 < d
        · have : ContinuousAt (fun x => 1 - tau * x) r := by fun_prop
          filter_upwards [this.eventually_const_lt (v h')] with x hx _ using hx
        · exact Eventually.of_forall fun x hx => absurd hx h'
      filter_upwards [eventually_gt_nhds u, c3] with x hx hx' _ using ⟨hx, hx'⟩
    · exact Eventually.of_forall fun x hx => absurd hx h
  have c3 : ∀ᶠ x in 𝓝 r, tofP < tof → x < Real.sqrt 2 := by
    by_cases h : tofP < tof
    · filter_upwards [eventually_lt_nhds (hb3 h)] with x hx _ using hx
    · exact Eventually.of_forall fun x hx => absurd hx h
  filter_upwards [eventually_gt_nhds hb1, c2, c3] with x x1 x2 x3
  unfold boundK
  simp only []
  have n1 : ¬ x < -Real.sqrt 2 := not_lt.2 x1.le
  have n2 : ¬ (x < Real.sqrt 2 ∧ tof < tofP) := fun h => absurd h.1 (not_lt.2 (x2 h.2).1.le)
  have n3 : ¬ (x > Real.sqrt 2 ∧ tof > tofP) := fun h => absurd h.1 (not_lt.2 (x3 h.2).le)
  have n4 : ¬ (tof < tofP ∧ d > 0 ∧ 1 - tau * x < 0) := fun h => absurd h.2.2 (not_lt.2 ((x2 h.1).2 h.2.1).le)
  simp only [if_neg n1, if_neg n2, if_neg n3, if_neg n4]

/-- **C58, `arora2013`.**  At every simple root of the time equation strictly within the bounds and away from the
switching points of `_get_W`, the step of the iteration is not cut by the bounds and has order three. -/
theorem arora_halley_order {r tau S tof tofP d W Wp c tp : ℝ} {M : ℕ} (ht : tau ≠ 0) (hu : 0 < 1 - r * tau)
    (h1 : M = 0 → r ≠ Real.sqrt 2 - 2e-2) (h2 : M = 0 → r ≠ Real.sqrt 2 + 2e-2)
    (hW : getW r M = .ok W) (hWp : getWprime r W M = .ok Wp) (hc : pdiv (1 - r * tau) tau = .ok c)
    (hroot : getTOF r tau S W = .ok tof) (hp : tofPrime tof c S tau W Wp = .ok tp) (hsimple : tp ≠ 0)
    (hb1 : -Real.sqrt 2 < r) (hb2 : tof < tofP → Real.sqrt 2 < r ∧ (0 < d → 0 < 1 - tau * r))
    (hb3 : tofP < tof → r < Real.sqrt 2) :
    ConvergesWithOrder (fun k => do
      let W ← getW k M
      let Wp ← getWprime k W M
      let Wpp ← getW2prime k W Wp M
      let c ← pdiv (1 - k * tau) tau
      let tofc ← getTOF k tau S W
      let tp ← tofPrime tofc c S tau W Wp
      let tpp ← tofSecond tofc c S tau W Wp Wpp
      let e ← pdiv ((tofc - tof) * tpp) (2.0 * tp)
      let deltak ← pdiv (-(tofc - tof)) (tp - e)
      boundK (k + deltak) tof tofP tau d) r 3 := by
  obtain ⟨w, w', w'', d3, hw, hd3⟩ := W_local hW h1 h2
  have hpos : ∀ᶠ x in 𝓝 r, 0 < 1 - x * tau :=
    (continuous_const.sub (continuous_id.mul continuous_const)).continuousAt.eventually_const_lt (by simpa using hu)
  obtain ⟨C, hC⟩ : ∃ C : ℝ → ℝ, C = fun x => (1 - x * tau) / tau := ⟨_, rfl⟩
  obtain ⟨f, hf⟩ : ∃ f : ℝ → ℝ, f = fun x => S * Real.sqrt (1 - x * tau) * (tau + (1 - x * tau) * w x) := ⟨_, rfl⟩
  obtain ⟨f1, hf1⟩ : ∃ f1 : ℝ → ℝ, f1 = fun x => -f x / (2 * C x) + S * tau * Real.sqrt (C x * tau) * (w' x * C x - w x) := ⟨_, rfl⟩
  obtain ⟨f2, hf2⟩ : ∃ f2 : ℝ → ℝ, f2 = fun x => -f x / (4 * C x ^ 2) + S * tau * Real.sqrt (C x * tau) *
    (w x / C x + C x * w'' x - 3 * w' x) := ⟨_, rfl⟩
  have hCne : ∀ x, 0 < 1 - x * tau → C x ≠ 0 := by
    intro x hx; rw [hC]; exact div_ne_zero hx.ne' ht
  have hCt : ∀ x, C x * tau = 1 - x * tau := by intro x; rw [hC]; exact div_mul_cancel₀ _ ht
  have ev : ∀ x, 0 < 1 - x * tau → pdiv (1 - x * tau) tau = .ok (C x) ∧ getTOF x tau S (w x) = .ok (f x) ∧
      tofPrime (f x) (C x) S tau (w x) (w' x) = .ok (f1 x) ∧ tofSecond (f x) (C x) S tau (w x) (w' x) (w'' x) = .ok (f2 x) := by
    intro x hx
    have hcx := hCne x hx
    have hq : 0 ≤ C x * tau := by rw [hCt]; exact hx.le
    refine ⟨by rw [pdiv_eq ht, hC], ?_, ?_, ?_⟩
    · unfold getTOF; rw [psqrt_eq hx.le, ok_bind, hf]
    · unfold tofPrime
      rw [pdiv_eq (by positivity), ok_bind, psqrt_eq hq, ok_bind, hf1]
    · unfold tofSecond
      rw [pdiv_eq (by positivity), ok_bind, psqrt_eq hq, ok_bind, pdiv_eq hcx, ok_bind, hf2]
  have hd : ∀ᶠ x in 𝓝 r, HasDerivAt f (f1 x) x ∧ HasDerivAt f1 (f2 x) x := by
    have step1 : ∀ᶠ x in 𝓝 r, HasDerivAt f (f1 x) x ∧ ∃ t' : ℝ → ℝ, (∀ᶠ y in 𝓝 x, HasDerivAt f (t' y) y) ∧ HasDerivAt t' (f2 x) x := by
      filter_upwards [hw.eventually_nhds, hpos.eventually_nhds] with x hx hx'
      obtain ⟨e1, e2, e3, e4⟩ := ev x hx'.self_of_nhds
      obtain ⟨t, t', g1, g2, g3, g4⟩ := arora_tof_derivatives (w := w) (w' := w') ht hx'.self_of_nhds
        (hx.mono fun y hy => hy.2.2.2.1) hx.self_of_nhds.2.2.2.2 e1 e2 e3 e4
      have hte : t =ᶠ[𝓝 x] f := by
        filter_upwards [g1, hx'] with y hy hy'
        have := hy.1
        rw [(ev y hy').2.1] at this
        exact (Except.ok.inj this).symm
      refine ⟨?_, t', ?_, g4⟩
      · rw [← g3]; exact g1.self_of_nhds.2.congr_of_eventuallyEq hte.symm
      · filter_upwards [g1, hte.eventuallyEq_nhds] with y hy hy' using hy.2.congr_of_eventuallyEq hy'.symm
    filter_upwards [step1, step1.eventually_nhds] with x hx hx'
    obtain ⟨a, t', b, e⟩ := hx
    refine ⟨a, e.congr_of_eventuallyEq ?_⟩
    filter_upwards [b, hx'] with y hy hy' using hy'.1.unique hy
  have hwr := hw.self_of_nhds
  have eW : w r = W := by have := hwr.1; rw [hW] at this; exact (Except.ok.inj this).symm
  have eWp : w' r = Wp := by have := hwr.2.1; rw [eW, hWp] at this; exact (Except.ok.inj this).symm
  obtain ⟨v1, v2, v3, v4⟩ := ev r hu
  have ec : C r = c := by rw [hc] at v1; exact (Except.ok.inj v1).symm
  have ef : f r = tof := by rw [eW, hroot] at v2; exact (Except.ok.inj v2).symm
  have ep : f1 r = tp := by rw [ef, ec, eW, eWp, hp] at v3; exact (Except.ok.inj v3).symm
  have hd2 : DifferentiableAt ℝ f2 r := by
    have a1 := hd.self_of_nhds.1.differentiableAt
    have a2 := hwr.2.2.2.1.differentiableAt
    have a3 := hwr.2.2.2.2.differentiableAt
    have a4 := hd3.differentiableAt
    have a5 : DifferentiableAt ℝ C r := by rw [hC]; fun_prop (disch := assumption)
    have z0 := hCne r hu
    have z1 : 4 * C r ^ 2 ≠ 0 := by positivity
    have z2 : C r * tau ≠ 0 := by rw [hCt]; exact hu.ne'
    rw [hf2]
    fun_prop (disch := assumption)
  have hne : f1 r ≠ 0 := by rw [ep]; exact hsimple
  obtain ⟨hden, hord⟩ := halley_order (f := fun x => f x - tof) (f1 := f1) (f2 := f2) (r := r)
    (hd.mono fun x hx => hx.1.sub_const tof) (hd.mono fun x hx => hx.2) hd2.hasDerivAt (by simp only [ef, sub_self]) hne
  have hin := hord.tendsto.eventually (boundK_near hb1 hb2 hb3)
  have hne' : ∀ᶠ x in 𝓝 r, f1 x ≠ 0 := hd.self_of_nhds.2.continuousAt.eventually_ne hne
  obtain ⟨K, hK⟩ := hord
  refine ⟨K, ?_⟩
  filter_upwards [hw, hpos, hden, hK, hin, hne'] with x hx hx' hdn hk hi hn
  refine ⟨_, ?_, hk⟩
  obtain ⟨e1, e2, e3, e4⟩ := ev x hx'
  have hn2 : 2.0 * f1 x ≠ 0 := mul_ne_zero (by norm_num) hn
  have hde : f1 x - (f x - tof) * f2 x / (2.0 * f1 x) = (f1 x ^ 2 - (f x - tof) * f2 x / 2) / f1 x := by
    norm_num
    field_simp
  have hne2 : f1 x - (f x - tof) * f2 x / (2.0 * f1 x) ≠ 0 := by
    rw [hde]; exact div_ne_zero hdn hn
  rw [hx.1, ok_bind, hx.2.1, ok_bind, hx.2.2.1, ok_bind, e1, ok_bind, e2, ok_bind, e3, ok_bind, e4, ok_bind,
    pdiv_eq hn2, ok_bind, pdiv_eq hne2, ok_bind]
  have hfin : x + -(f x - tof) / (f1 x - (f x - tof) * f2 x / (2.0 * f1 x)) =
      x - (f x - tof) * f1 x / (f1 x ^ 2 - (f x - tof) * f2 x / 2) := by
    rw [hde]
    generalize f1 x ^ 2 - (f x - tof) * f2 x / 2 = D at *
    field_simp
    ring
  rw [hfin]
  exact hi

/-- Non-vacuity: `k = 0`, `τ = 1/2`, zero revolutions. -/
example : ∃ tof : ℝ, ConvergesWithOrder (fun k => do
      let W ← getW k ((0 : ℕ) : ℤ)
      let Wp ← getWprime k W ((0 : ℕ) : ℤ)
      let Wpp ← getW2prime k W Wp ((0 : ℕ) : ℤ)
      let c ← pdiv (1 - k * (1 / 2)) (1 / 2)
      let tofc ← getTOF k (1 / 2) 1 W
      let tp ← tofPrime tofc c 1 (1 / 2) W Wp
      let tpp ← tofSecond tofc c 1 (1 / 2) W Wp Wpp
      let e ← pdiv ((tofc - tof) * tpp) (2.0 * tp)
      let deltak ← pdiv (-(tofc - tof)) (tp - e)
      boundK (k + deltak) tof 0 (1 / 2) 1) 0 3 := by
  have hl := lt_sqrt2
  have he : epsilon = 2e-2 := rfl
  have h : (0 : ℝ) < Real.sqrt 2 - epsilon := by rw [he]; norm_num at hl ⊢; linarith
  have h1 := getW_ell (M := 0) (by linarith [sqrt2_pos] : -Real.sqrt 2 < 0) sqrt2_pos (.inl h)
  have hWpos : 0 < ellW 0 0 := by
    unfold ellW
    have hpi := Real.pi_pos
    have hs := sqrt2_pos
    rw [zero_div, Real.arccos_zero]
    norm_num
    positivity
  have h2 : getWprime 0 (ellW 0 0) ((0 : ℕ) : ℤ) = .ok (-1) := by
    unfold getWprime; simp only []; rw [if_pos (.inl h), pdiv_eq (by norm_num)]; norm_num
  have h3 : getTOF 0 (1 / 2) 1 (ellW 0 0) = .ok (1 / 2 + ellW 0 0) := by
    unfold getTOF; rw [psqrt_eq (by norm_num), ok_bind]; norm_num
  have h4 : tofPrime (1 / 2 + ellW 0 0) 2 1 (1 / 2) (ellW 0 0) (-1) =
      .ok (-(1 / 2 + ellW 0 0) / (2 * 2) + 1 * (1 / 2) * 1 * (-1 * 2 - ellW 0 0)) := by
    unfold tofPrime
    rw [pdiv_eq (by norm_num), ok_bind, psqrt_eq (by norm_num), ok_bind]
    norm_num
  refine ⟨_, arora_halley_order (by norm_num) (by norm_num) ?_ ?_ h1 h2 (c := 2) (by rw [pdiv_eq (by norm_num)]; norm_num) h3 h4
    (by intro h; linarith) (by linarith [sqrt2_pos]) (fun h => by linarith) (fun _ => sqrt2_pos)⟩
  · intro _; rw [← he]; exact h.ne
  · intro _; have := sqrt2_pos; rw [← he]; have := eps_pos; linarith

end Lamberthub
