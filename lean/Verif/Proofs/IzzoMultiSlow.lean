import Verif.Proofs.IzzoSlow

/-!
# The first pass of `_householder` for very long times with complete revolutions

With `M ≥ 1` revolutions the time tends to infinity at both ends `x = 1` and `x = -1`; `s` is the end and
`u = 1 - s x` the distance to it.
-/

set_option autoImplicit false

namespace Lamberthub
open Filter Topology Spec LC

/-- Taylor's formula of third order with a bound on the variation of the third derivative. -/
theorem taylor_bound {g0 g1 g2 g3 : ℝ → ℝ} {a b ε : ℝ} (h0 : ∀ t ∈ Set.uIcc a b, HasDerivAt g0 (g1 t) t)
    (h1 : ∀ t ∈ Set.uIcc a b, HasDerivAt g1 (g2 t) t) (h2 : ∀ t ∈ Set.uIcc a b, HasDerivAt g2 (g3 t) t)
    (h3 : ∀ t ∈ Set.uIcc a b, |g3 t - g3 a| ≤ ε) :
    |g0 b - (g0 a + g1 a * (b - a) + g2 a * (b - a) ^ 2 / 2 + g3 a * (b - a) ^ 3 / 6)| ≤ ε * |b - a| ^ 3 := by
  have hε : 0 ≤ ε := (abs_nonneg _).trans (h3 a Set.left_mem_uIcc)
  have hid : ∀ x : ℝ, HasDerivAt (fun x => x - a) 1 x := fun x => (hasDerivAt_id x).sub_const a
  have key : ∀ {f f' : ℝ → ℝ} {K : ℝ}, (∀ t ∈ Set.uIcc a b, HasDerivAt f (f' t) t) → (∀ t ∈ Set.uIcc a b, |f' t| ≤ K) → f a = 0 →
      ∀ t ∈ Set.uIcc a b, |f t| ≤ K * |b - a| := by
    intro f f' K hd hK h0 t ht
    have hK0 : 0 ≤ K := (abs_nonneg _).trans (hK t ht)
    have := (convex_uIcc a b).norm_image_sub_le_of_norm_hasDerivWithin_le (fun t ht => (hd t ht).hasDerivWithinAt)
      (fun t ht => by rw [Real.norm_eq_abs]; exact hK t ht) Set.left_mem_uIcc ht
    rw [h0, sub_zero, Real.norm_eq_abs, Real.norm_eq_abs] at this
    exact this.trans (mul_le_mul_of_nonneg_left (Set.abs_sub_left_of_mem_uIcc ht) hK0)
  have k2 := key (f := fun t => g2 t - (g2 a + g3 a * (t - a))) (f' := fun t => g3 t - g3 a)
    (fun t ht => ((h2 t ht).sub (((hid t).const_mul (g3 a)).const_add (g2 a))).congr_deriv (by ring)) h3 (by simp)
  have k1 := key (f := fun t => g1 t - (g1 a + g2 a * (t - a) + g3 a * (t - a) ^ 2 / 2))
    (f' := fun t => g2 t - (g2 a + g3 a * (t - a)))
    (fun t ht => ((h1 t ht).sub ((((hid t).const_mul (g2 a)).const_add (g1 a)).add
      ((((hid t).pow 2).const_mul (g3 a)).div_const 2))).congr_deriv (by push_cast; ring)) k2 (by simp)
  have k0 := key (f := fun t => g0 t - (g0 a + g1 a * (t - a) + g2 a * (t - a) ^ 2 / 2 + g3 a * (t - a) ^ 3 / 6))
    (f' := fun t => g1 t - (g1 a + g2 a * (t - a) + g3 a * (t - a) ^ 2 / 2))
    (fun t ht => ((h0 t ht).sub (((((hid t).const_mul (g1 a)).const_add (g0 a)).add
      ((((hid t).pow 2).const_mul (g2 a)).div_const 2)).add
      ((((hid t).pow 3).const_mul (g3 a)).div_const 6))).congr_deriv (by push_cast; ring)) k1 (by simp)
  exact (k0 b Set.right_mem_uIcc).trans (le_of_eq (by ring))

/-- The residual that one Householder pass leaves, for a function with scaled derivatives `a1 a2 a3`, when the
third derivative is constant: of third order in `w`, with a factor that vanishes with `w`. -/
theorem householder_residual {s a1 a2 a3 w D N h : ℝ} (hs : s ^ 2 = 1) (hD : D = a1 * (a1 ^ 2 - w * a2) + a3 * w ^ 2 / 6)
    (hD0 : D ≠ 0) (hN : N = a1 ^ 2 - w * a2 / 2) (hh : h = s * (w * (N / D))) :
    1 - s * a1 * h + a2 * h ^ 2 / 2 - s * a3 * h ^ 3 / 6 - (1 - w) =
      w ^ 3 * ((a2 * D * w * (a2 ^ 2 / 4 - a1 * a3 / 6) / 2 + a3 * (D ^ 2 - N ^ 3) / 6) / D ^ 3) := by
  have e1 : s * a1 * h = a1 * (w * (N / D)) := by rw [hh]; linear_combination a1 * (w * (N / D)) * hs
  have e2 : h ^ 2 = (w * (N / D)) ^ 2 := by rw [hh, mul_pow, hs, one_mul]
  have e3 : s * a3 * h ^ 3 = a3 * (w * (N / D)) ^ 3 := by
    rw [hh]; linear_combination a3 * (w * (N / D)) ^ 3 * (s ^ 2 + 1) * hs
  rw [e1, e2, e3]
  have hx : N ^ 2 - a1 * D = w ^ 2 * (a2 ^ 2 / 4 - a1 * a3 / 6) := by rw [hN, hD]; ring
  have hy : D - a1 * N = w * (-a1 * a2 / 2 + a3 * w / 6) := by rw [hN, hD]; ring
  clear hN hD hh e1 e2 e3
  field_simp
  linear_combination (48 * D ^ 2 * w) * hy + (24 * w ^ 2 * a2 * D) * hx

namespace Izzo

/-- Dimensionless time of the transfer with parameter `x` and `M` revolutions, and its first three derivatives. -/
noncomputable def rv (ll : ℝ) (M : ℕ) (x : ℝ) : ℝ := lancT ll x (lancY ll x) M
noncomputable def rv1 (ll : ℝ) (M : ℕ) (x : ℝ) : ℝ := lancT1 ll x (lancY ll x) (rv ll M x)
noncomputable def rv2 (ll : ℝ) (M : ℕ) (x : ℝ) : ℝ := lancT2 ll x (lancY ll x) (rv ll M x) (rv1 ll M x)
noncomputable def rv3 (ll : ℝ) (M : ℕ) (x : ℝ) : ℝ := lancT3 ll x (lancY ll x) (rv1 ll M x) (rv2 ll M x)

theorem rv_deriv {ll x : ℝ} (hl : ll ^ 2 < 1) (h1 : -1 < x) (h2 : x < 1) (M : ℕ) :
    HasDerivAt (rv ll M) (rv1 ll M x) x ∧ HasDerivAt (rv1 ll M) (rv2 ll M x) x ∧ HasDerivAt (rv2 ll M) (rv3 ll M x) x := by
  have h0 : 1 - x ^ 2 ≠ 0 := by nlinarith
  have d1 : HasDerivAt (rv ll M) (rv1 ll M x) x := lancT_hasDerivAt hl h1 h2.ne M
  have d2 : HasDerivAt (rv1 ll M) (rv2 ll M x) x := lancT1_hasDerivAt hl h0 d1
  exact ⟨d1, d2, lancT2_hasDerivAt hl h0 d1 d2⟩

/-- One pass of `_householder`, between the ends. -/
theorem step_rv {ll x T : ℝ} {M : ℕ} (hl : ll ^ 2 < 1) (h1 : -1 < x) (h2 : x < 1)
    (hd : rv1 ll M x * (rv1 ll M x ^ 2 - (rv ll M x - T) * rv2 ll M x) + rv3 ll M x * (rv ll M x - T) ^ 2 / 6 ≠ 0) :
    householderStep x T ll M = .ok (x - (rv ll M x - T) * ((rv1 ll M x ^ 2 - (rv ll M x - T) * rv2 ll M x / 2) /
      (rv1 ll M x * (rv1 ll M x ^ 2 - (rv ll M x - T) * rv2 ll M x) + rv3 ll M x * (rv ll M x - T) ^ 2 / 6))) := by
  have hL := lanc_lancY hl x
  have hyp := hL.y_pos
  have h0 := one_sub_sq_ne h1 h2.ne
  rw [householderStep, computeY_lancY hl, ok_bind, tofEquationY_eq (T0 := T) hL h1 (.inr h2), ok_bind]
  simp only []
  rw [show lancT ll x (lancY ll x) M = rv ll M x from rfl, sub_add_cancel,
    show tofP x (lancY ll x) (rv ll M x) ll = .ok (rv1 ll M x) by
      rw [tofP, pdiv_eq hyp.ne', ok_bind, pdiv_eq h0]; rfl, ok_bind,
    show tofP2 x (lancY ll x) (rv ll M x) (rv1 ll M x) ll = .ok (rv2 ll M x) by
      rw [tofP2, pdiv_eq (by positivity), ok_bind, pdiv_eq h0]; rfl, ok_bind,
    show tofP3 x (lancY ll x) (rv1 ll M x) (rv2 ll M x) ll = .ok (rv3 ll M x) by
      rw [tofP3, pdiv_eq (by positivity), ok_bind, pdiv_eq h0]; rfl, ok_bind, pdiv_eq hd, ok_bind]

/-- Number of half periods at the end `s`, times `π / 2^(3/2)`. -/
noncomputable def endC (s : ℝ) (M : ℕ) : ℝ := ((1 - s) / 2 + M) * Real.pi / Real.sqrt 2 / 2

theorem endC_pos {s : ℝ} (hs : s = 1 ∨ s = -1) {M : ℕ} (hM : 1 ≤ M) : 0 < endC s M := by
  have := Real.pi_pos
  have hM' : (1 : ℝ) ≤ M := by exact_mod_cast hM
  have : 0 < (1 - s) / 2 + M := by rcases hs with rfl | rfl <;> linarith
  unfold endC; positivity

theorem lancY_end {s : ℝ} (hs : s = 1 ∨ s = -1) (ll : ℝ) : lancY ll s = 1 := by
  rcases hs with rfl | rfl <;> (rw [lancY]; norm_num)

/-- The time near the end `s`. -/
theorem rv_end {ll s : ℝ} (hl : ll ^ 2 < 1) (hs : s = 1 ∨ s = -1) (M : ℕ) :
    ∃ K, ∀ᶠ u in 𝓝[>] (0 : ℝ), |rv ll M (s * (1 - u)) * (u * Real.sqrt u) - endC s M| ≤ K * Real.sqrt u := by
  have hs2 : s ^ 2 = 1 := by rcases hs with rfl | rfl <;> norm_num
  have hYd : ∀ x, DifferentiableAt ℝ (lancY ll) x := fun x => (lancY_hasDerivAt hl x).differentiableAt
  have hYc := lancY_cont hl
  obtain ⟨e, he⟩ : ∃ e : ℝ → ℝ, e = fun v => lancY ll (s * (1 - v ^ 2)) - ll * (s * (1 - v ^ 2)) := ⟨_, rfl⟩
  have hYv : Differentiable ℝ fun v : ℝ => lancY ll (s * (1 - v ^ 2)) := fun v =>
    (hYd _).comp v (by fun_prop)
  have hed : Differentiable ℝ e := by rw [he]; exact hYv.sub (by fun_prop)
  have hsq : DifferentiableAt ℝ (fun v : ℝ => Real.sqrt (2 - v ^ 2)) 0 := DifferentiableAt.sqrt (by fun_prop) (by norm_num)
  obtain ⟨g, hg⟩ : ∃ g : ℝ → ℝ, g = fun v => (((1 - s) / 2 * Real.pi + s * Real.arcsin (e v * v * Real.sqrt (2 - v ^ 2)) + M * Real.pi) /
      Real.sqrt (2 - v ^ 2) + v * (-(s * (1 - v ^ 2)) + ll * lancY ll (s * (1 - v ^ 2)))) / (2 - v ^ 2) := ⟨_, rfl⟩
  have hgd : DifferentiableAt ℝ g 0 := by
    rw [hg]
    have has : DifferentiableAt ℝ (fun v => Real.arcsin (e v * v * Real.sqrt (2 - v ^ 2))) 0 :=
      DifferentiableAt.comp (g := Real.arcsin) 0 (Real.differentiableAt_arcsin.2 (by norm_num))
        (((hed 0).mul differentiableAt_id).mul hsq)
    refine DifferentiableAt.div (((DifferentiableAt.div (((has.const_mul s).const_add _).add_const _) hsq (by norm_num))).add
      (differentiableAt_id.mul (DifferentiableAt.add (by fun_prop) ((hYv 0).const_mul ll)))) (by fun_prop) (by norm_num)
  have hg0 : g 0 = endC s M := by
    rw [hg, endC]; simp; field_simp
  obtain ⟨K, hK⟩ := hgd.hasDerivAt.isBigO_sub.bound
  have hsqrt : Tendsto (fun u : ℝ => Real.sqrt u) (𝓝[>] 0) (𝓝 0) := by
    have := (Real.continuous_sqrt.tendsto 0).mono_left (nhdsWithin_le_nhds (s := Set.Ioi 0))
    rwa [Real.sqrt_zero] at this
  have hcos : ContinuousAt (fun u => s * (s * (1 - u) * lancY ll (s * (1 - u)) + ll * (1 - (s * (1 - u)) ^ 2))) 0 := by
    have : Continuous fun u => lancY ll (s * (1 - u)) := hYc.comp (by fun_prop)
    fun_prop
  have hcos0 : s * (s * (1 - 0) * lancY ll (s * (1 - 0)) + ll * (1 - (s * (1 - 0)) ^ 2)) = 1 := by
    rw [sub_zero, mul_one, lancY_end hs, hs2]; linear_combination hs2
  refine ⟨K, ?_⟩
  filter_upwards [hsqrt.eventually hK, nhdsWithin_le_nhds (hcos.eventually (lt_mem_nhds (a := (0 : ℝ)) (by simp only []; rw [hcos0]; exact one_pos))),
    Ioo_mem_nhdsGT (show (0 : ℝ) < 1 by norm_num)] with u h1 h2 hu
  have hu0 := hu.1
  have hu1 := hu.2
  rw [hg0, sub_zero, Real.norm_eq_abs, Real.norm_eq_abs, abs_of_nonneg (Real.sqrt_nonneg u)] at h1
  convert h1 using 3
  have hx1 : -1 < s * (1 - u) := by rcases hs with rfl | rfl <;> linarith
  have hx2 : s * (1 - u) < 1 := by rcases hs with rfl | rfl <;> linarith
  have hL := lanc_lancY hl (s * (1 - u))
  have hη := hL.eta_pos
  have hw : 1 - (s * (1 - u)) ^ 2 = u * (2 - u) := by rw [mul_pow, hs2]; ring
  have h2u : 0 < 2 - u := by linarith
  have hsin := hL.sin_sq
  have hv2 : Real.sqrt u ^ 2 = u := Real.sq_sqrt hu0.le
  have hev : e (Real.sqrt u) = lancY ll (s * (1 - u)) - ll * (s * (1 - u)) := by rw [he]; simp only []; rw [hv2]
  -- the angle
  have hψ : Real.arccos (s * (1 - u) * lancY ll (s * (1 - u)) + ll * (1 - (s * (1 - u)) ^ 2)) =
      (1 - s) / 2 * Real.pi + s * Real.arcsin (e (Real.sqrt u) * Real.sqrt u * Real.sqrt (2 - u)) := by
    have hq : e (Real.sqrt u) * Real.sqrt u * Real.sqrt (2 - u) =
        Real.sqrt (1 - (s * (1 - u) * lancY ll (s * (1 - u)) + ll * (1 - (s * (1 - u)) ^ 2)) ^ 2) := by
      rw [hsin, hw, Real.sqrt_mul (by positivity), Real.sqrt_sq hη.le, Real.sqrt_mul hu0.le, hev]; ring
    rw [hq]
    generalize s * (1 - u) * lancY ll (s * (1 - u)) + ll * (1 - (s * (1 - u)) ^ 2) = c at h2 ⊢
    rcases hs with rfl | rfl
    · rw [Real.arccos_eq_arcsin (by linarith)]; ring
    · have h3 := Real.arccos_neg c
      have h4 := Real.arccos_eq_arcsin (x := -c) (by linarith)
      rw [neg_sq] at h4
      linarith
  rw [hg]
  simp only []
  rw [hv2, rv, lancT, if_pos hx2, hψ, hw, Real.sqrt_mul hu0.le]
  have hs' := Real.sqrt_pos.2 hu0
  have hs2' := Real.sqrt_pos.2 h2u
  generalize Real.arcsin (e (Real.sqrt u) * Real.sqrt u * Real.sqrt (2 - u)) = ψ
  generalize lancY ll (s * (1 - u)) = y
  generalize s * (1 - u) = x
  generalize Real.sqrt (2 - u) = b at *
  generalize Real.sqrt u = a at *
  rw [← hv2] at h2u ⊢
  field_simp
  ring

theorem rv_end_lim {ll s : ℝ} (hl : ll ^ 2 < 1) (hs : s = 1 ∨ s = -1) (M : ℕ) :
    Tendsto (fun u => rv ll M (s * (1 - u)) * (u * Real.sqrt u)) (𝓝[>] 0) (𝓝 (endC s M)) := by
  obtain ⟨K, hK⟩ := rv_end hl hs M
  have hsqrt : Tendsto (fun u : ℝ => K * Real.sqrt u) (𝓝[>] 0) (𝓝 0) := by
    have := ((Real.continuous_sqrt.tendsto 0).mono_left (nhdsWithin_le_nhds (s := Set.Ioi 0))).const_mul K
    rwa [Real.sqrt_zero, mul_zero] at this
  rw [tendsto_iff_norm_sub_tendsto_zero]
  exact squeeze_zero' (Eventually.of_forall fun _ => norm_nonneg _) (by simpa [Real.norm_eq_abs] using hK) hsqrt

theorem rv_end_pos {ll s : ℝ} (hl : ll ^ 2 < 1) (hs : s = 1 ∨ s = -1) {M : ℕ} (hM : 1 ≤ M) :
    ∀ᶠ u in 𝓝[>] (0 : ℝ), 0 < rv ll M (s * (1 - u)) ∧ 0 < u ∧ u < 1 := by
  filter_upwards [(rv_end_lim hl hs M).eventually (lt_mem_nhds (endC_pos hs hM)), Ioo_mem_nhdsGT (show (0 : ℝ) < 1 by norm_num)] with u h hu
  have : 0 < u * Real.sqrt u := mul_pos hu.1 (Real.sqrt_pos.2 hu.1)
  exact ⟨pos_of_mul_pos_left h this.le, hu.1, hu.2⟩

/-- The three normalised derivatives. -/
theorem rv_end_deriv {ll s : ℝ} (hl : ll ^ 2 < 1) (hs : s = 1 ∨ s = -1) {M : ℕ} (hM : 1 ≤ M) :
    Tendsto (fun u => u * rv1 ll M (s * (1 - u)) / rv ll M (s * (1 - u))) (𝓝[>] 0) (𝓝 (3 * s / 2)) ∧
    Tendsto (fun u => u ^ 2 * rv2 ll M (s * (1 - u)) / rv ll M (s * (1 - u))) (𝓝[>] 0) (𝓝 (15 / 4)) ∧
    Tendsto (fun u => u ^ 3 * rv3 ll M (s * (1 - u)) / rv ll M (s * (1 - u))) (𝓝[>] 0) (𝓝 (105 * s / 8)) := by
  have hs2 : s ^ 2 = 1 := by rcases hs with rfl | rfl <;> norm_num
  have hY' : Continuous fun u => lancY ll (s * (1 - u)) := (lancY_cont hl).comp (by fun_prop)
  have hyp : ∀ u : ℝ, 0 < lancY ll (s * (1 - u)) := fun u => (lanc_lancY hl _).y_pos
  have hf := rv_end_lim hl hs M
  have hC := endC_pos hs hM
  have hpos := rv_end_pos hl hs hM
  have hid : Tendsto (fun u : ℝ => u) (𝓝[>] 0) (𝓝 0) := nhdsWithin_le_nhds
  have hinv : Tendsto (fun u => (rv ll M (s * (1 - u)))⁻¹) (𝓝[>] 0) (𝓝 0) := by
    have h1 : Tendsto (fun u : ℝ => u * Real.sqrt u) (𝓝[>] 0) (𝓝 (0 * Real.sqrt 0)) :=
      hid.mul ((Real.continuous_sqrt.tendsto 0).mono_left nhdsWithin_le_nhds)
    have h2 := h1.div hf hC.ne'
    rw [zero_mul, zero_div] at h2
    refine h2.congr' ?_
    filter_upwards [hpos] with u ⟨h, h0, _⟩
    have := Real.sqrt_pos.2 h0
    simp only [Pi.div_apply]
    field_simp
  have hb : ∀ g : ℝ → ℝ, Continuous g → Tendsto g (𝓝[>] 0) (𝓝 (g 0)) := fun g hg =>
    (hg.tendsto 0).mono_left nhdsWithin_le_nhds
  have e : ∀ u, 1 - (s * (1 - u)) ^ 2 = u * (2 - u) := by intro u; rw [mul_pow, hs2]; ring
  have a1 : Tendsto (fun u => u * rv1 ll M (s * (1 - u)) / rv ll M (s * (1 - u))) (𝓝[>] 0) (𝓝 (3 * s / 2)) := by
    have h := (((hb (fun u => 3 * (s * (1 - u))) (by fun_prop)).add
      ((hb (fun u => -2 + 2 * ll ^ 3 * (s * (1 - u)) / lancY ll (s * (1 - u)))
        (by have := fun u => (hyp u).ne'; fun_prop (disch := assumption))).mul hinv))).div (hb (fun u => 2 - u) (by fun_prop))
        (by norm_num)
    rw [mul_zero, show (3 * (s * (1 - (0 : ℝ))) + 0) / (2 - 0) = 3 * s / 2 by ring] at h
    refine h.congr' ?_
    filter_upwards [hpos] with u ⟨h, h0, h1⟩
    have hy := hyp u
    have h2 : 0 < 2 - u := by linarith
    simp only [Pi.div_apply]
    rw [rv1, lancT1, e]
    generalize rv ll M (s * (1 - u)) = f at *
    generalize lancY ll (s * (1 - u)) = y at *
    generalize s * (1 - u) = x
    field_simp
    ring
  have a2 : Tendsto (fun u => u ^ 2 * rv2 ll M (s * (1 - u)) / rv ll M (s * (1 - u))) (𝓝[>] 0) (𝓝 (15 / 4)) := by
    have h := (((hb (fun u => 3 * u) (by fun_prop)).add ((hb (fun u => 5 * (s * (1 - u))) (by fun_prop)).mul a1)).add
      ((hb (fun u => u * (2 * (1 - ll ^ 2) * ll ^ 3 / lancY ll (s * (1 - u)) ^ 3))
        (by have := fun u => (pow_pos (hyp u) 3).ne'; fun_prop (disch := assumption))).mul hinv)).div
        (hb (fun u => 2 - u) (by fun_prop)) (by norm_num)
    rw [mul_zero, mul_zero, show ((0 : ℝ) + 5 * (s * (1 - 0)) * (3 * s / 2) + 0) / (2 - 0) = 15 / 4 by
      linear_combination 15 / 4 * hs2] at h
    refine h.congr' ?_
    filter_upwards [hpos] with u ⟨h, h0, h1⟩
    have hy := hyp u
    have h2 : 0 < 2 - u := by linarith
    simp only [Pi.div_apply]
    rw [rv2, lancT2, e]
    generalize rv1 ll M (s * (1 - u)) = f1 at *
    generalize rv ll M (s * (1 - u)) = f at *
    generalize lancY ll (s * (1 - u)) = y at *
    generalize s * (1 - u) = x
    field_simp
  refine ⟨a1, a2, ?_⟩
  have h := (((hb (fun u => 7 * (s * (1 - u))) (by fun_prop)).mul a2).add ((hb (fun u => 8 * u) (by fun_prop)).mul a1)).sub
    ((hb (fun u => u ^ 2 * (6 * (1 - ll ^ 2) * ll ^ 5 * (s * (1 - u)) / lancY ll (s * (1 - u)) ^ 5))
        (by have := fun u => (pow_pos (hyp u) 5).ne'; fun_prop (disch := assumption))).mul hinv) |>.div
        (hb (fun u => 2 - u) (by fun_prop)) (by norm_num)
  rw [mul_zero, mul_zero, show ((7 : ℝ) * (s * (1 - 0)) * (15 / 4) + 0 * (3 * s / 2) - 0) / (2 - 0) = 105 * s / 8 by ring] at h
  refine h.congr' ?_
  filter_upwards [hpos] with u ⟨h, h0, h1⟩
  have hy := hyp u
  have h2 : 0 < 2 - u := by linarith
  simp only [Pi.div_apply]
  rw [rv3, lancT3, e]
  generalize rv2 ll M (s * (1 - u)) = f2 at *
  generalize rv1 ll M (s * (1 - u)) = f1 at *
  generalize rv ll M (s * (1 - u)) = f at *
  generalize lancY ll (s * (1 - u)) = y at *
  generalize s * (1 - u) = x
  field_simp

/-- The scaled third derivative is continuous at the end. -/
theorem rv_end_third {ll s : ℝ} (hl : ll ^ 2 < 1) (hs : s = 1 ∨ s = -1) {M : ℕ} (hM : 1 ≤ M) :
    Tendsto (fun p : ℝ × ℝ => p.1 ^ 3 * rv3 ll M (s * (1 - p.1 * p.2)) / rv ll M (s * (1 - p.1))) (𝓝[>] 0 ×ˢ 𝓝 1)
      (𝓝 (105 * s / 8)) := by
  have hC := endC_pos hs hM
  have h1 : Tendsto (fun p : ℝ × ℝ => p.1) (𝓝[>] 0 ×ˢ 𝓝 1) (𝓝[>] 0) := tendsto_fst
  have h2 : Tendsto (fun p : ℝ × ℝ => p.2) (𝓝[>] (0 : ℝ) ×ˢ 𝓝 1) (𝓝 1) := tendsto_snd
  have h3 : Tendsto (fun p : ℝ × ℝ => p.1 * p.2) (𝓝[>] 0 ×ˢ 𝓝 1) (𝓝[>] 0) := by
    rw [tendsto_nhdsWithin_iff]
    constructor
    · have := (h1.mono_right nhdsWithin_le_nhds).mul h2
      rwa [zero_mul] at this
    · filter_upwards [h1.eventually self_mem_nhdsWithin, h2.eventually (eventually_gt_nhds one_pos)] with p a b
      exact mul_pos a b
  have hA := (rv_end_deriv hl hs hM).2.2.comp h3
  have hG := rv_end_lim hl hs M
  have hr := ((hG.comp h3).div (hG.comp h1) hC.ne')
  have hx : Tendsto (fun p : ℝ × ℝ => p.2 ^ 4 * Real.sqrt p.2) (𝓝[>] (0 : ℝ) ×ˢ 𝓝 1) (𝓝 (1 ^ 4 * Real.sqrt 1)) :=
    (h2.pow 4).mul ((Real.continuous_sqrt.tendsto 1).comp h2)
  have := (hA.mul hr).div hx (by norm_num)
  rw [div_self hC.ne', Real.sqrt_one, one_pow, mul_one, mul_one, div_one] at this
  refine this.congr' ?_
  filter_upwards [h1.eventually (rv_end_pos hl hs hM), h3.eventually (rv_end_pos hl hs hM),
    h2.eventually (eventually_gt_nhds one_pos)] with p ⟨a1, a2, _⟩ ⟨b1, b2, _⟩ c
  have ha := Real.sqrt_pos.2 a2
  have hc := Real.sqrt_pos.2 c
  simp only [Function.comp, Pi.div_apply]
  rw [Real.sqrt_mul a2.le]
  generalize rv3 ll M (s * (1 - p.1 * p.2)) = f3
  generalize rv ll M (s * (1 - p.1 * p.2)) = f at *
  generalize rv ll M (s * (1 - p.1)) = f' at *
  generalize Real.sqrt p.1 = a at *
  generalize Real.sqrt p.2 = c at *
  field_simp

/-- The time for which the guess is at distance `u` of the end. -/
noncomputable def slowT (s : ℝ) (M : ℕ) (u : ℝ) : ℝ :=
  ((1 - s) / 2 + M) * Real.pi * ((2 - u) * Real.sqrt (2 - u)) / (8 * (u * Real.sqrt u))

theorem slowT_end (s : ℝ) (M : ℕ) :
    ∃ K, ∀ᶠ u in 𝓝[>] (0 : ℝ), |slowT s M u * (u * Real.sqrt u) - endC s M| ≤ K * Real.sqrt u := by
  have hd : DifferentiableAt ℝ (fun v : ℝ => ((1 - s) / 2 + M) * Real.pi * ((2 - v ^ 2) * Real.sqrt (2 - v ^ 2)) / 8) 0 := by
    have hsq : DifferentiableAt ℝ (fun v : ℝ => Real.sqrt (2 - v ^ 2)) 0 := DifferentiableAt.sqrt (by fun_prop) (by norm_num)
    exact (((DifferentiableAt.mul (by fun_prop) hsq)).const_mul _).div_const 8
  obtain ⟨K, hK⟩ := hd.hasDerivAt.isBigO_sub.bound
  have hsqrt : Tendsto (fun u : ℝ => Real.sqrt u) (𝓝[>] 0) (𝓝 0) := by
    have := (Real.continuous_sqrt.tendsto 0).mono_left (nhdsWithin_le_nhds (s := Set.Ioi 0))
    rwa [Real.sqrt_zero] at this
  refine ⟨K, ?_⟩
  filter_upwards [hsqrt.eventually hK, self_mem_nhdsWithin] with u h1 hu
  have hu0 : 0 < u := hu
  have hs' := Real.sqrt_pos.2 hu0
  have h2 : Real.sqrt 2 ^ 2 = 2 := Real.sq_sqrt (by norm_num)
  have h2p : 0 < Real.sqrt 2 := by positivity
  rw [sub_zero, Real.norm_eq_abs, Real.norm_eq_abs, abs_of_nonneg (Real.sqrt_nonneg u), Real.sq_sqrt hu0.le] at h1
  convert h1 using 3
  · unfold slowT; field_simp
  · rw [endC]
    norm_num
    field_simp
    linear_combination (-4 + 4 * s - 8 * M : ℝ) * h2

/-- The relative residual of the guess. -/
theorem guess_residual {ll s : ℝ} (hl : ll ^ 2 < 1) (hs : s = 1 ∨ s = -1) {M : ℕ} (hM : 1 ≤ M) :
    ∃ K, 0 ≤ K ∧ ∀ᶠ u in 𝓝[>] (0 : ℝ), |1 - slowT s M u / rv ll M (s * (1 - u))| ≤ K * Real.sqrt u := by
  have hC := endC_pos hs hM
  obtain ⟨K1, h1⟩ := rv_end hl hs M
  obtain ⟨K2, h2⟩ := slowT_end s M
  refine ⟨(|K1| + |K2|) / (endC s M / 2), by positivity, ?_⟩
  filter_upwards [h1, h2, rv_end_pos hl hs hM, (rv_end_lim hl hs M).eventually (lt_mem_nhds (half_lt_self hC))] with u a b ⟨c, hu, _⟩ d
  have hsu := Real.sqrt_pos.2 hu
  have hw : 0 < u * Real.sqrt u := by positivity
  generalize rv ll M (s * (1 - u)) = G at *
  generalize slowT s M u = T at *
  generalize u * Real.sqrt u = w at *
  have e : 1 - T / G = ((G * w - endC s M) - (T * w - endC s M)) / (G * w) := by field_simp; ring
  have hGw : 0 < G * w := by positivity
  rw [e, abs_div, abs_of_pos hGw, div_le_iff₀ hGw]
  have h3 : |(G * w - endC s M) - (T * w - endC s M)| ≤ (|K1| + |K2|) * Real.sqrt u := by
    refine (abs_sub _ _).trans ?_
    have p1 := mul_le_mul_of_nonneg_right (le_abs_self K1) hsu.le
    have p2 := mul_le_mul_of_nonneg_right (le_abs_self K2) hsu.le
    linarith
  refine h3.trans ?_
  have h4 : 0 ≤ (|K1| + |K2|) / (endC s M / 2) * Real.sqrt u := by positivity
  calc (|K1| + |K2|) * Real.sqrt u = (|K1| + |K2|) / (endC s M / 2) * Real.sqrt u * (endC s M / 2) := by field_simp
    _ ≤ _ := mul_le_mul_of_nonneg_left d.le h4

/-- The first pass for a long time with revolutions: the flight time after it differs from the one requested
by less and less. -/
theorem step_multi {ll s : ℝ} (hl : ll ^ 2 < 1) (hs : s = 1 ∨ s = -1) {M : ℕ} (hM : 1 ≤ M) :
    ∃ Z : ℝ → ℝ, Tendsto Z (𝓝[>] 0) (𝓝 1) ∧
      (∀ᶠ u in 𝓝[>] (0 : ℝ), householderStep (s * (1 - u)) (slowT s M u) ll M = .ok (s * (1 - u * Z u))) ∧
      Tendsto (fun u => rv ll M (s * (1 - u * Z u)) - slowT s M u) (𝓝[>] 0) (𝓝 0) := by
  have hs2 : s ^ 2 = 1 := by rcases hs with rfl | rfl <;> norm_num
  have hsa : |s| = 1 := by rcases hs with rfl | rfl <;> norm_num
  have hC := endC_pos hs hM
  have hG := rv_end_lim hl hs M
  have hpos := rv_end_pos hl hs hM
  obtain ⟨a1, a2, a3⟩ := rv_end_deriv hl hs hM
  obtain ⟨K, hK0, hK⟩ := guess_residual hl hs hM
  obtain ⟨A1, hA1⟩ : ∃ A : ℝ → ℝ, A = fun u => u * rv1 ll M (s * (1 - u)) / rv ll M (s * (1 - u)) := ⟨_, rfl⟩
  obtain ⟨A2, hA2⟩ : ∃ A : ℝ → ℝ, A = fun u => u ^ 2 * rv2 ll M (s * (1 - u)) / rv ll M (s * (1 - u)) := ⟨_, rfl⟩
  obtain ⟨A3, hA3⟩ : ∃ A : ℝ → ℝ, A = fun u => u ^ 3 * rv3 ll M (s * (1 - u)) / rv ll M (s * (1 - u)) := ⟨_, rfl⟩
  obtain ⟨W, hW⟩ : ∃ W : ℝ → ℝ, W = fun u => 1 - slowT s M u / rv ll M (s * (1 - u)) := ⟨_, rfl⟩
  obtain ⟨D, hD⟩ : ∃ D : ℝ → ℝ, D = fun u => A1 u * (A1 u ^ 2 - W u * A2 u) + A3 u * W u ^ 2 / 6 := ⟨_, rfl⟩
  obtain ⟨N, hN⟩ : ∃ N : ℝ → ℝ, N = fun u => A1 u ^ 2 - W u * A2 u / 2 := ⟨_, rfl⟩
  obtain ⟨h, hh⟩ : ∃ h : ℝ → ℝ, h = fun u => s * (W u * (N u / D u)) := ⟨_, rfl⟩
  rw [← hA1] at a1; rw [← hA2] at a2; rw [← hA3] at a3
  have hKW : ∀ᶠ u in 𝓝[>] (0 : ℝ), |W u| ≤ K * Real.sqrt u := by rw [hW]; exact hK
  have aw : Tendsto W (𝓝[>] 0) (𝓝 0) := by
    have hsqrt : Tendsto (fun u : ℝ => K * Real.sqrt u) (𝓝[>] 0) (𝓝 0) := by
      have := ((Real.continuous_sqrt.tendsto 0).mono_left (nhdsWithin_le_nhds (s := Set.Ioi 0))).const_mul K
      rwa [Real.sqrt_zero, mul_zero] at this
    exact squeeze_zero_norm' (by simpa [Real.norm_eq_abs] using hKW) hsqrt
  have aD : Tendsto D (𝓝[>] 0) (𝓝 (27 * s / 8)) := by
    have := (a1.mul ((a1.pow 2).sub (aw.mul a2))).add ((a3.mul (aw.pow 2)).div_const 6)
    rw [show 3 * s / 2 * ((3 * s / 2) ^ 2 - 0 * (15 / 4)) + 105 * s / 8 * 0 ^ 2 / 6 = 27 * s / 8 by
      linear_combination 27 * s / 8 * hs2] at this
    rw [hD]; exact this
  have aN : Tendsto N (𝓝[>] 0) (𝓝 (9 / 4)) := by
    have := (a1.pow 2).sub ((aw.mul a2).div_const 2)
    rw [show (3 * s / 2) ^ 2 - 0 * (15 / 4) / 2 = 9 / 4 by linear_combination 9 / 4 * hs2] at this
    rw [hN]; exact this
  have hs0 : s ≠ 0 := by rcases hs with rfl | rfl <;> norm_num
  have hD0 : 27 * s / 8 ≠ 0 := by positivity
  have aND : Tendsto (fun u => |N u / D u|) (𝓝[>] 0) (𝓝 (2 / 3)) := by
    have := (aN.div aD hD0).abs
    rw [show |9 / 4 / (27 * s / 8)| = 2 / 3 by rw [abs_div, abs_div, abs_div, abs_mul, hsa]; norm_num [abs_of_pos]] at this
    exact this
  have ah : Tendsto h (𝓝[>] 0) (𝓝 0) := by
    have := (aw.mul (aN.div aD hD0)).const_mul s
    rw [zero_mul, mul_zero] at this
    rw [hh]; exact this
  obtain ⟨E, hE⟩ : ∃ E : ℝ → ℝ, E = fun u => (A2 u * D u * W u * (A2 u ^ 2 / 4 - A1 u * A3 u / 6) / 2 +
      A3 u * (D u ^ 2 - N u ^ 3) / 6) / D u ^ 3 := ⟨_, rfl⟩
  have aE : Tendsto (fun u => |E u|) (𝓝[>] 0) (𝓝 0) := by
    have := ((((((a2.mul aD).mul aw).mul (((a2.pow 2).div_const 4).sub ((a1.mul a3).div_const 6))).div_const 2).add
      ((a3.mul ((aD.pow 2).sub (aN.pow 3))).div_const 6)).div (aD.pow 3) (pow_ne_zero 3 hD0)).abs
    rw [show |(15 / 4 * (27 * s / 8) * 0 * ((15 / 4) ^ 2 / 4 - 3 * s / 2 * (105 * s / 8) / 6) / 2 +
      105 * s / 8 * ((27 * s / 8) ^ 2 - (9 / 4) ^ 3) / 6) / (27 * s / 8) ^ 3| = 0 by
        rw [show 15 / 4 * (27 * s / 8) * 0 * ((15 / 4) ^ 2 / 4 - 3 * s / 2 * (105 * s / 8) / 6) / 2 +
          105 * s / 8 * ((27 * s / 8) ^ 2 - (9 / 4) ^ 3) / 6 = 0 by
            linear_combination 105 * s / 8 * (729 / 64) / 6 * hs2, zero_div, abs_zero]] at this
    rw [hE]; exact this
  have aZ : Tendsto (fun u => 1 + h u) (𝓝[>] 0) (𝓝 1) := by
    have := ah.const_add 1
    rwa [add_zero] at this
  have g1 : ∀ {u}, 0 < rv ll M (s * (1 - u)) → 0 < u → rv1 ll M (s * (1 - u)) = A1 u * rv ll M (s * (1 - u)) / u := by
    intro u a b; rw [hA1]; simp only []; field_simp
  have g2 : ∀ {u}, 0 < rv ll M (s * (1 - u)) → 0 < u → rv2 ll M (s * (1 - u)) = A2 u * rv ll M (s * (1 - u)) / u ^ 2 := by
    intro u a b; rw [hA2]; simp only []; field_simp
  have g3 : ∀ {u}, 0 < rv ll M (s * (1 - u)) → 0 < u → rv3 ll M (s * (1 - u)) = A3 u * rv ll M (s * (1 - u)) / u ^ 3 := by
    intro u a b; rw [hA3]; simp only []; field_simp
  have hF : ∀ {u}, 0 < rv ll M (s * (1 - u)) → rv ll M (s * (1 - u)) - slowT s M u = W u * rv ll M (s * (1 - u)) := by
    intro u a; rw [hW]; simp only []; field_simp
  refine ⟨fun u => 1 + h u, aZ, ?_, ?_⟩
  · filter_upwards [hpos, aD.eventually_ne hD0] with u ⟨c, hu, hu1⟩ hd
    have hx1 : -1 < s * (1 - u) := by rcases hs with rfl | rfl <;> linarith
    have hx2 : s * (1 - u) < 1 := by rcases hs with rfl | rfl <;> linarith
    have hdd : rv1 ll M (s * (1 - u)) * (rv1 ll M (s * (1 - u)) ^ 2 - (rv ll M (s * (1 - u)) - slowT s M u) * rv2 ll M (s * (1 - u))) +
        rv3 ll M (s * (1 - u)) * (rv ll M (s * (1 - u)) - slowT s M u) ^ 2 / 6 = (rv ll M (s * (1 - u)) / u) ^ 3 * D u := by
      rw [hF c, g1 c hu, g2 c hu, g3 c hu, hD]; field_simp
    have hnn : rv1 ll M (s * (1 - u)) ^ 2 - (rv ll M (s * (1 - u)) - slowT s M u) * rv2 ll M (s * (1 - u)) / 2 =
        (rv ll M (s * (1 - u)) / u) ^ 2 * N u := by
      rw [hF c, g1 c hu, g2 c hu, hN]; field_simp
    rw [step_rv hl hx1 hx2 (by rw [hdd]; positivity), hdd, hnn, hF c]
    congr 1
    have e : s * (1 - u * (1 + h u)) = s * (1 - u) - u * (W u * (N u / D u)) := by
      rw [hh]; simp only []; linear_combination -u * (W u * (N u / D u)) * hs2
    rw [e]
    congr 1
    generalize rv ll M (s * (1 - u)) = G at *
    generalize D u = d at *
    field_simp
  · obtain ⟨B, hB⟩ : ∃ B, B = 2 * endC s M * K ^ 3 := ⟨_, rfl⟩
    have hB0 : 0 ≤ B := by rw [hB]; positivity
    rw [Metric.tendsto_nhds]
    intro ε hε
    obtain ⟨δ, hδ⟩ : ∃ δ, δ = ε / (4 * (B + 1)) := ⟨_, rfl⟩
    have hδ0 : 0 < δ := by rw [hδ]; positivity
    obtain ⟨pa, hpa, pb, hpb, hp⟩ := eventually_prod_iff.1 ((rv_end_third hl hs hM).eventually (Metric.ball_mem_nhds _ hδ0))
    obtain ⟨η, hη, hball⟩ := Metric.eventually_nhds_iff.1 hpb
    have hah : ∀ᶠ u in 𝓝[>] (0 : ℝ), |h u| < min η 1 := by
      have := ah.abs
      rw [abs_zero] at this
      exact this.eventually (gt_mem_nhds (by positivity))
    filter_upwards [hpos, aD.eventually_ne hD0, hKW, hpa, hah, aND.eventually (gt_mem_nhds (show (2 : ℝ) / 3 < 1 by norm_num)),
      aE.eventually (gt_mem_nhds (show 0 < ε / (2 * (B + 1)) by positivity)),
      hG.eventually (gt_mem_nhds (show endC s M < 2 * endC s M by linarith))] with u ⟨c, hu, hu1⟩ hd hw hpu hhu hnd hEu hGu
    have hsu := Real.sqrt_pos.2 hu
    have hin : ∀ t ∈ Set.uIcc 1 (1 + h u), |t - 1| ≤ |h u| := by
      intro t ht
      have := Set.abs_sub_left_of_mem_uIcc ht
      rwa [add_sub_cancel_left] at this
    have hx : ∀ t ∈ Set.uIcc 1 (1 + h u), -1 < s * (1 - u * t) ∧ s * (1 - u * t) < 1 := by
      intro t ht
      have h1 := abs_lt.1 ((hin t ht).trans_lt (hhu.trans_le (min_le_right _ _)))
      have h2 : 0 < u * t := mul_pos hu (by linarith)
      have h3 : u * t < 2 := by nlinarith
      rcases hs with rfl | rfl <;> constructor <;> linarith
    have hinner : ∀ t : ℝ, HasDerivAt (fun t => s * (1 - u * t)) (-s * u) t := fun t =>
      ((((hasDerivAt_id t).const_mul u).const_sub 1).const_mul s).congr_deriv (by ring)
    have tay := taylor_bound (a := 1) (b := 1 + h u) (ε := 2 * δ)
      (g0 := fun t => rv ll M (s * (1 - u * t)) / rv ll M (s * (1 - u)))
      (g1 := fun t => -s * (u * rv1 ll M (s * (1 - u * t)) / rv ll M (s * (1 - u))))
      (g2 := fun t => u ^ 2 * rv2 ll M (s * (1 - u * t)) / rv ll M (s * (1 - u)))
      (g3 := fun t => -s * (u ^ 3 * rv3 ll M (s * (1 - u * t)) / rv ll M (s * (1 - u))))
      (fun t ht => (((rv_deriv hl (hx t ht).1 (hx t ht).2 M).1.comp t (hinner t)).div_const _).congr_deriv (by ring))
      (fun t ht => ((((((rv_deriv hl (hx t ht).1 (hx t ht).2 M).2.1.comp t (hinner t)).const_mul u).div_const _).const_mul (-s))).congr_deriv (by
        linear_combination u ^ 2 * rv2 ll M (s * (1 - u * t)) / rv ll M (s * (1 - u)) * hs2))
      (fun t ht => ((((rv_deriv hl (hx t ht).1 (hx t ht).2 M).2.2.comp t (hinner t)).const_mul (u ^ 2)).div_const _).congr_deriv (by ring))
      (fun t ht => by
        have h1 := hp hpu (hball (y := t) (by rw [Real.dist_eq]; exact (hin t ht).trans_lt (hhu.trans_le (min_le_left _ _))))
        have h2 := hp hpu (hball (y := 1) (by rw [dist_self]; exact hη))
        rw [Real.dist_eq] at h1 h2
        simp only [] at h1 h2 ⊢
        generalize u ^ 3 * rv3 ll M (s * (1 - u * t)) / rv ll M (s * (1 - u)) = p at *
        generalize u ^ 3 * rv3 ll M (s * (1 - u * 1)) / rv ll M (s * (1 - u)) = q at *
        rw [← mul_sub, abs_mul, abs_neg, hsa, one_mul]
        have := abs_sub_le p (105 * s / 8) q
        rw [abs_sub_comm (105 * s / 8) q] at this
        linarith)
    simp only [mul_one, add_sub_cancel_left] at tay
    rw [div_self c.ne', show u * rv1 ll M (s * (1 - u)) / rv ll M (s * (1 - u)) = A1 u by rw [hA1],
      show u ^ 2 * rv2 ll M (s * (1 - u)) / rv ll M (s * (1 - u)) = A2 u by rw [hA2],
      show u ^ 3 * rv3 ll M (s * (1 - u)) / rv ll M (s * (1 - u)) = A3 u by rw [hA3]] at tay
    have hres := householder_residual (s := s) (a1 := A1 u) (a2 := A2 u) (a3 := A3 u) (w := W u) (D := D u) (N := N u) (h := h u) hs2
      (by rw [hD]) hd (by rw [hN]) (by rw [hh])
    rw [show (A2 u * D u * W u * (A2 u ^ 2 / 4 - A1 u * A3 u / 6) / 2 + A3 u * (D u ^ 2 - N u ^ 3) / 6) / D u ^ 3 = E u by rw [hE]] at hres
    have hTW : slowT s M u = rv ll M (s * (1 - u)) * (1 - W u) := by linear_combination -hF c
    have hw3 : |W u| ^ 3 * rv ll M (s * (1 - u)) ≤ B := by
      have h1 : |W u| ^ 3 ≤ (K * Real.sqrt u) ^ 3 := pow_le_pow_left₀ (abs_nonneg _) hw 3
      have h2 : (K * Real.sqrt u) ^ 3 = K ^ 3 * (u * Real.sqrt u) := by
        rw [mul_pow, pow_succ (Real.sqrt u), Real.sq_sqrt hu.le]
      rw [h2] at h1
      have h3 := mul_le_mul_of_nonneg_right h1 c.le
      have h4 := mul_le_mul_of_nonneg_left hGu.le (pow_nonneg hK0 3)
      rw [hB]
      nlinarith
    have hh3 : |h u| ^ 3 ≤ |W u| ^ 3 := by
      have : |h u| = |W u| * |N u / D u| := by rw [hh]; simp only []; rw [abs_mul, hsa, one_mul, abs_mul]
      rw [this]
      exact pow_le_pow_left₀ (by positivity) (mul_le_of_le_one_right (abs_nonneg _) hnd.le) 3
    rw [Real.dist_eq, sub_zero, hTW]
    generalize rv ll M (s * (1 - u)) = G at *
    generalize rv ll M (s * (1 - u * (1 + h u))) = G' at *
    have hdiff : |G' / G - (1 - W u)| ≤ |W u| ^ 3 * (|E u| + 2 * δ) := by
      have e : G' / G - (1 - W u) = (G' / G - (1 + -s * A1 u * h u + A2 u * h u ^ 2 / 2 + -s * A3 u * h u ^ 3 / 6)) + W u ^ 3 * E u := by
        rw [← hres]; ring
      rw [e]
      refine (abs_add_le _ _).trans ?_
      rw [abs_mul, abs_pow]
      have := mul_le_mul_of_nonneg_left hh3 (show 0 ≤ 2 * δ by positivity)
      linarith
    have e2 : G' - G * (1 - W u) = G * (G' / G - (1 - W u)) := by field_simp
    rw [e2, abs_mul, abs_of_pos c]
    have h5 : |E u| + 2 * δ < ε / (B + 1) := by
      have : 2 * δ = ε / (2 * (B + 1)) := by rw [hδ]; field_simp; norm_num
      have e3 : ε / (B + 1) = ε / (2 * (B + 1)) + ε / (2 * (B + 1)) := by field_simp; norm_num
      linarith
    calc G * |G' / G - (1 - W u)| ≤ G * (|W u| ^ 3 * (|E u| + 2 * δ)) := mul_le_mul_of_nonneg_left hdiff c.le
      _ = (|W u| ^ 3 * G) * (|E u| + 2 * δ) := by ring
      _ ≤ B * (|E u| + 2 * δ) := mul_le_mul_of_nonneg_right hw3 (by positivity)
      _ ≤ B * (ε / (B + 1)) := mul_le_mul_of_nonneg_left h5.le hB0
      _ < ε := by rw [← mul_div_assoc, div_lt_iff₀ (by positivity)]; nlinarith

end Izzo
end Lamberthub
