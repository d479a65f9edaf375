import Verif.Proofs.SimpleRoot
import Verif.Proofs.OrderLaguerre
import Verif.Props.IzzoTime
import Verif.Props.GoodingMore
import Verif.Props.DerDeriv

/-!
# C58: the iterations converge with the order of the method they are named after

`Spec.ConvergesWithOrder step r p`: from every point near `r` the step returns, and the new error is at
most a constant times the `p`-th power of the old one.
-/

set_option autoImplicit false

namespace Lamberthub
open Filter Topology Spec LC

/-- Local convergence of order `p` of an iteration step to `r`. -/
def Spec.ConvergesWithOrder (step : ℝ → Py ℝ) (r : ℝ) (p : ℕ) : Prop :=
  ∃ C : ℝ, ∀ᶠ x in 𝓝 r, ∃ x', step x = .ok x' ∧ |x' - r| ≤ C * |x - r| ^ p

/-- A step of order at least two halves the error near the root. -/
theorem Spec.ConvergesWithOrder.contract {step : ℝ → Py ℝ} {r : ℝ} {p : ℕ} (h : ConvergesWithOrder step r (p + 2)) :
    ∃ C δ : ℝ, 0 ≤ C ∧ 0 < δ ∧ δ ≤ 1 ∧ ∀ x, |x - r| < δ →
      ∃ x', step x = .ok x' ∧ |x' - r| ≤ C * |x - r| ^ (p + 2) ∧ |x' - r| ≤ |x - r| / 2 := by
  obtain ⟨C, hC⟩ := h
  obtain ⟨ε, hε, hb⟩ := Metric.eventually_nhds_iff_ball.1 hC
  have hq : 0 < 2 * |C| + 1 := by positivity
  refine ⟨|C|, min (min ε 1) (1 / (2 * |C| + 1)), abs_nonneg _, by positivity,
    (min_le_left _ _).trans (min_le_right _ _), fun x hx => ?_⟩
  have hx1 : |x - r| < ε := hx.trans_le ((min_le_left _ _).trans (min_le_left _ _))
  have hx2 : |x - r| ≤ 1 := hx.le.trans ((min_le_left _ _).trans (min_le_right _ _))
  have hx3 : |x - r| * (2 * |C| + 1) ≤ 1 := by
    have := hx.le.trans (min_le_right _ _)
    rwa [le_div_iff₀ hq] at this
  obtain ⟨x', h1, h2⟩ := hb x (by rwa [Metric.mem_ball, Real.dist_eq])
  have h3 : |x' - r| ≤ |C| * |x - r| ^ (p + 2) :=
    h2.trans (mul_le_mul_of_nonneg_right (le_abs_self C) (by positivity))
  refine ⟨x', h1, h3, h3.trans ?_⟩
  have h4 : |x - r| ^ (p + 2) ≤ |x - r| ^ 2 := pow_le_pow_of_le_one (abs_nonneg _) hx2 (by omega)
  calc |C| * |x - r| ^ (p + 2) ≤ |C| * |x - r| ^ 2 := mul_le_mul_of_nonneg_left h4 (abs_nonneg _)
    _ = (|x - r| * (2 * |C|)) * |x - r| / 2 := by ring
    _ ≤ 1 * |x - r| / 2 := by
        have : |x - r| * (2 * |C|) ≤ 1 := by nlinarith [abs_nonneg (x - r)]
        have := mul_le_mul_of_nonneg_right this (abs_nonneg (x - r))
        linarith
    _ = |x - r| / 2 := by ring

section izzo
open Izzo

/-- **C58, `izzo2015`.**  At every root of the time equation, except the double root of the fastest
transfer with revolutions, `_householder`'s step has order four. -/
theorem izzo_householder_order {ll T x y : ℝ} {M : ℕ} (hl : ll ^ 2 < 1) (hl0 : ll ≠ 0) (h1 : -1 < x) (h2 : x ≠ 1)
    (h3 : M = 0 ∨ (x < 1 ∧ ¬ Fastest ll M x)) (hy : computeY x ll = .ok y)
    (hroot : tofEquationY x y T ll M = .ok 0) :
    ConvergesWithOrder (fun p => householderStep p T ll M) x 4 := by
  have h4 : M = 0 ∨ x < 1 := h3.imp_right And.left
  have hyy : y = lancY ll x := by rw [computeY] at hy; exact (psqrt_ok.1 hy).2
  have hT : lancT ll x (lancY ll x) M = T := by
    rw [hyy, tofEquationY_eq (lanc_lancY hl x) h1 h4] at hroot
    have := Except.ok.inj hroot
    linarith
  have hev : ∀ᶠ t in 𝓝 x, -1 < t ∧ t ≠ 1 ∧ (M = 0 ∨ t < 1) := by
    filter_upwards [eventually_gt_nhds h1, eventually_ne_nhds h2,
      h4.elim (fun h => Eventually.of_forall fun t => Or.inl h)
        (fun h => (eventually_lt_nhds h).mono fun t ht => (Or.inr ht : M = 0 ∨ t < 1))] with t a b c using ⟨a, b, c⟩
  obtain ⟨f, hf⟩ : ∃ f : ℝ → ℝ, f = fun t => lancT ll t (lancY ll t) M := ⟨_, rfl⟩
  obtain ⟨f1, hf1⟩ : ∃ f1 : ℝ → ℝ, f1 = fun t => lancT1 ll t (lancY ll t) (f t) := ⟨_, rfl⟩
  obtain ⟨f2, hf2⟩ : ∃ f2 : ℝ → ℝ, f2 = fun t => lancT2 ll t (lancY ll t) (f t) (f1 t) := ⟨_, rfl⟩
  obtain ⟨f3, hf3⟩ : ∃ f3 : ℝ → ℝ, f3 = fun t => lancT3 ll t (lancY ll t) (f1 t) (f2 t) := ⟨_, rfl⟩
  have e1 : ∀ t, -1 < t → t ≠ 1 → HasDerivAt f (f1 t) t := by
    intro t a b; rw [hf1, hf]; exact lancT_hasDerivAt hl a b M
  have e2 : ∀ t, -1 < t → t ≠ 1 → HasDerivAt f1 (f2 t) t := by
    intro t a b
    have := lancT1_hasDerivAt hl (one_sub_sq_ne a b) (T := f) (by have := e1 t a b; rwa [hf1] at this)
    rw [hf2, hf1]; exact this
  have e3 : ∀ t, -1 < t → t ≠ 1 → HasDerivAt f2 (f3 t) t := by
    intro t a b
    have := lancT2_hasDerivAt hl (one_sub_sq_ne a b) (T := f) (T1 := f1) (e1 t a b)
      (by have := e2 t a b; rwa [hf2] at this)
    rw [hf3, hf2]; exact this
  obtain ⟨d, hd⟩ : ∃ d, HasDerivAt f3 d x := by
    obtain ⟨d, hd⟩ := lancT3_hasDerivAt hl h1 h2 M
    exact ⟨d, by rw [hf3, hf2, hf1, hf]; exact hd⟩
  have hne : f1 x ≠ 0 := by rw [hf1, hf]; exact lancT1_ne_zero hl hl0 h1 h2 h3
  obtain ⟨hden, C, hC⟩ := householder_order (f := fun t => f t - T) (f1 := f1) (f2 := f2) (f3 := f3) (r := x)
    (by filter_upwards [hev] with t ht using (e1 t ht.1 ht.2.1).sub_const T)
    (by filter_upwards [hev] with t ht using e2 t ht.1 ht.2.1)
    (by filter_upwards [hev] with t ht using e3 t ht.1 ht.2.1) hd (by rw [hf]; linarith) hne
  refine ⟨C, ?_⟩
  filter_upwards [hev, hden, hC] with t ⟨a, b, c⟩ hdn hc
  refine ⟨_, ?_, hc⟩
  have hL := lanc_lancY hl t
  have hyp := hL.y_pos
  have h0 := one_sub_sq_ne a b
  have hY : computeY t ll = .ok (lancY ll t) := by
    obtain ⟨y, hy1, -⟩ := computeY_eq (x := t) hl
    rw [hy1]; congr 1; exact (psqrt_ok.1 hy1).2
  have hF : f t - T + T = f t := by ring
  rw [householderStep, hY, ok_bind, tofEquationY_eq hL a c, ok_bind]
  simp only []
  rw [show lancT ll t (lancY ll t) M - T = f t - T by rw [hf], hF,
    show tofP t (lancY ll t) (f t) ll = .ok (f1 t) by rw [tofP, pdiv_eq hyp.ne', ok_bind, pdiv_eq h0, hf1]; rfl, ok_bind,
    show tofP2 t (lancY ll t) (f t) (f1 t) ll = .ok (f2 t) by
      rw [tofP2, pdiv_eq (by positivity), ok_bind, pdiv_eq h0, hf2]; rfl, ok_bind,
    show tofP3 t (lancY ll t) (f1 t) (f2 t) ll = .ok (f3 t) by
      rw [tofP3, pdiv_eq (by positivity), ok_bind, pdiv_eq h0, hf3]; rfl, ok_bind, pdiv_eq hdn, ok_bind]

/-- **C58, local convergence of `_householder`.**  Near every such root the loop returns within a number
of passes that depends on the tolerance only, and the value returned is accurate to the fourth power of
the tolerance. -/
theorem izzo_householder_converges {ll T x y : ℝ} {M : ℕ} (hl : ll ^ 2 < 1) (hl0 : ll ≠ 0) (h1 : -1 < x) (h2 : x ≠ 1)
    (h3 : M = 0 ∨ (x < 1 ∧ ¬ Fastest ll M x)) (hy : computeY x ll = .ok y)
    (hroot : tofEquationY x y T ll M = .ok 0) :
    ∃ C δ : ℝ, 0 < δ ∧ ∀ atol rtol : ℝ, 0 < atol → 0 ≤ rtol → ∃ N : ℕ, ∀ maxiter, N ≤ maxiter → ∀ x0, |x0 - x| < δ →
      ∃ p, householder T ll M atol rtol maxiter x0 = .ok p ∧ |p - x| ≤ C * (rtol * (|x| + 1) + atol) ^ 4 := by
  obtain ⟨C, δ, hC0, hδ, hδ1, hst⟩ := (izzo_householder_order hl hl0 h1 h2 h3 hy hroot).contract (p := 2)
  refine ⟨C * 2 ^ 4, δ, hδ, fun atol rtol ha hr => ?_⟩
  have main : ∀ n : ℕ, ∀ k, n + 1 ≤ k → ∀ x0, |x0 - x| < δ → 2 * |x0 - x| < atol * 2 ^ n →
      ∃ p, householder T ll M atol rtol k x0 = .ok p ∧ |p - x| ≤ C * 2 ^ 4 * (rtol * (|x| + 1) + atol) ^ 4 := by
    intro n
    induction n with
    | zero =>
      intro k hk x0 hx0 hlt
      obtain ⟨k, rfl⟩ : ∃ j, k = j + 1 := ⟨k - 1, by omega⟩
      obtain ⟨p, hp, hb, hh⟩ := hst x0 hx0
      rw [householder, show householderStep x0 T ll M = .ok p from hp, ok_bind]
      have hd : |p - x0| ≤ |p - x| + |x0 - x| := by
        have := abs_sub (p - x) (x0 - x); rwa [show p - x - (x0 - x) = p - x0 by ring] at this
      have ht : |p - x0| < rtol * |x0| + atol := by
        have := mul_nonneg hr (abs_nonneg x0)
        simp only [pow_zero, mul_one] at hlt
        linarith [abs_nonneg (x0 - x)]
      rw [if_pos ht]
      refine ⟨p, rfl, hb.trans ?_⟩
      rw [mul_assoc, ← mul_pow]
      apply mul_le_mul_of_nonneg_left _ hC0
      apply pow_le_pow_left₀ (abs_nonneg _)
      have := mul_nonneg hr (by positivity : 0 ≤ |x| + 1)
      simp only [pow_zero, mul_one] at hlt
      linarith [abs_nonneg (x0 - x)]
    | succ n ih =>
      intro k hk x0 hx0 hlt
      obtain ⟨k, rfl⟩ : ∃ j, k = j + 1 := ⟨k - 1, by omega⟩
      obtain ⟨p, hp, hb, hh⟩ := hst x0 hx0
      rw [householder, show householderStep x0 T ll M = .ok p from hp, ok_bind]
      by_cases ht : |p - x0| < rtol * |x0| + atol
      · rw [if_pos ht]
        refine ⟨p, rfl, hb.trans ?_⟩
        rw [mul_assoc, ← mul_pow]
        apply mul_le_mul_of_nonneg_left _ hC0
        apply pow_le_pow_left₀ (abs_nonneg _)
        have hd : |x0 - x| ≤ |p - x| + |p - x0| := by
          have := abs_sub (p - x) (p - x0); rwa [show p - x - (p - x0) = x0 - x by ring] at this
        have h5 : |x0| ≤ |x| + 1 := by
          have := abs_sub_abs_le_abs_sub x0 x; linarith
        have := mul_le_mul_of_nonneg_left h5 hr
        linarith
      · rw [if_neg ht]
        refine ih k (by omega) p (by linarith [abs_nonneg (x0 - x)]) ?_
        rw [pow_succ] at hlt
        linarith
  obtain ⟨n, hn⟩ := pow_unbounded_of_one_lt (2 * δ / atol) (one_lt_two : (1 : ℝ) < 2)
  refine ⟨n + 1, fun maxiter hm x0 hx0 => main n maxiter hm x0 hx0 ?_⟩
  rw [div_lt_iff₀ ha] at hn
  linarith

/-- The theorems at `λ = 1/2`, `x = 0`, zero revolutions, and at `x = -1/2` with two. -/
example : ∃ T, ConvergesWithOrder (fun p => householderStep p T (1 / 2) ((0 : ℕ) : ℤ)) 0 4 := by
  have hl : (1 / 2 : ℝ) ^ 2 < 1 := by norm_num
  obtain ⟨y, hy, hL⟩ := computeY_eq (x := 0) hl
  have h := tofEquationY_eq (T0 := lancT (1 / 2) 0 y 0) hL (M := 0) (by norm_num) (.inl rfl)
  rw [sub_self] at h
  exact ⟨_, izzo_householder_order hl (by norm_num) (by norm_num) (by norm_num) (.inl rfl) hy h⟩

example : ∃ T, ConvergesWithOrder (fun p => householderStep p T (1 / 2) ((2 : ℕ) : ℤ)) (-1 / 2) 4 := by
  have hl : (1 / 2 : ℝ) ^ 2 < 1 := by norm_num
  obtain ⟨y, hy, hL⟩ := computeY_eq (x := -1 / 2) hl
  have h := tofEquationY_eq (T0 := lancT (1 / 2) (-1 / 2) y 2) hL (M := 2) (by norm_num) (.inr (by norm_num))
  rw [sub_self] at h
  refine ⟨_, izzo_householder_order hl (by norm_num) (by norm_num) (by norm_num) (.inr ⟨by norm_num, fun hf => ?_⟩) hy h⟩
  have := (hf.valley hl (by norm_num)).1
  norm_num at this

end izzo

section gooding
open Gooding

/-- The roots of Gooding's time equation are simple, except for the fastest transfer; the parabola
(`x = 1`) included. -/
theorem gooding_simple {q x : ℝ} {M : ℕ} (hq : q ^ 2 < 1) (hq0 : q ≠ 0) (h1 : -1 < x)
    (h3 : M = 0 ∨ (x < 1 ∧ ¬ Fastest q M x)) {T T1 T2 : ℝ → ℝ}
    (hT : ∀ t, -1 < t → (M = 0 ∨ t < 1) → T t = 2 * lancT q t (lancY q t) M)
    (hT1 : ∀ t, -1 < t → (M = 0 ∨ t < 1) → HasDerivAt T (T1 t) t)
    (hT2 : HasDerivAt T1 (T2 x) x) : T1 x ≠ 0 := by
  have h4 : M = 0 ∨ x < 1 := h3.imp_right And.left
  have hloc : ∀ t : ℝ, -1 < t → (M = 0 ∨ t < 1) → ∀ᶠ s in 𝓝 t, -1 < s ∧ (M = 0 ∨ s < 1) := by
    intro t a b
    exact (eventually_gt_nhds a).and (b.elim (fun h => Eventually.of_forall fun t => Or.inl h)
        (fun h => (eventually_lt_nhds h).mono fun t ht => (Or.inr ht : M = 0 ∨ t < 1)))
  have hval : ∀ t, -1 < t → (M = 0 ∨ t < 1) → t ≠ 1 → T1 t = 2 * lancT1 q t (lancY q t) (lancT q t (lancY q t) M) := by
    intro t a b c
    refine (hT1 t a b).unique (((lancT_hasDerivAt hq a c M).const_mul 2).congr_of_eventuallyEq ?_)
    filter_upwards [hloc t a b] with s hs using hT s hs.1 hs.2
  by_cases hx1 : x = 1
  · subst hx1
    have hM : M = 0 := h4.resolve_right (lt_irrefl _)
    subst hM
    have hL := lanc_lancY hq 1
    have hy1 : lancY q 1 = 1 := by unfold lancY; norm_num
    have hT1v : T 1 = 4 / 3 * (1 - q ^ 3) := by
      rw [hT 1 h1 h4, hy1, lancT]
      norm_num
      ring
    have dy := lancY_hasDerivAt hq 1
    rw [hy1] at dy
    have dg : HasDerivAt (fun t => (1 - t ^ 2) * T1 t) (-2 * T1 1) 1 := by
      have := (((hasDerivAt_id (1 : ℝ)).pow 2).const_sub 1).mul hT2
      refine this.congr_deriv ?_
      simp
    have dh : HasDerivAt (fun t => 3 * (T t * t) - 4 + 4 * q ^ 3 * (t / lancY q t))
        (3 * (T1 1 * 1 + T 1 * 1) + 4 * q ^ 3 * ((1 * 1 - 1 * (q ^ 2 * 1 / 1)) / 1 ^ 2)) 1 := by
      have a1 := ((hT1 1 h1 h4).mul (hasDerivAt_id (1 : ℝ))).const_mul 3
      have a2 := ((hasDerivAt_id (1 : ℝ)).div dy (by rw [hy1]; norm_num)).const_mul (4 * q ^ 3)
      have := (a1.sub_const 4).add a2
      refine this.congr_deriv ?_
      simp [hy1]
    have heq : (fun t => (1 - t ^ 2) * T1 t) =ᶠ[𝓝 1] fun t => 3 * (T t * t) - 4 + 4 * q ^ 3 * (t / lancY q t) := by
      filter_upwards [hloc 1 h1 h4] with t ht
      by_cases ht1 : t = 1
      · subst ht1; rw [hT1v, hy1]; ring
      · have hw := one_sub_sq_ne ht.1 ht1
        rw [hval t ht.1 ht.2 ht1, hT t ht.1 ht.2, lancT1]
        field_simp
        ring
    have := dg.unique (dh.congr_of_eventuallyEq heq)
    rw [hT1v] at this
    intro h0
    rw [h0] at this
    have h5 : q ^ 5 < 1 := by
      have : |q| < 1 := by rwa [← sq_lt_one_iff_abs_lt_one]
      have h6 := pow_lt_one₀ (abs_nonneg q) this (by norm_num : 5 ≠ 0)
      rw [← abs_pow] at h6
      exact (le_abs_self _).trans_lt h6
    nlinarith
  · rw [hval x h1 h4 hx1]
    exact mul_ne_zero two_ne_zero (lancT1_ne_zero hq hq0 h1 hx1 h3)

theorem gooding_time {q : ℝ} {M : ℕ} (hq : q ^ 2 < 1) {T : ℝ → ℝ} {t : ℝ} (a : -1 < t) (b : M = 0 ∨ t < 1)
    (h : ∃ d, tlamb M q (1 - q ^ 2) t 0 = .ok (T t, d)) : T t = 2 * lancT q t (lancY q t) M := by
  obtain ⟨d, hd⟩ := tlamb_time (lanc_lancY hq t) a b (n := 0) (by norm_num)
  obtain ⟨d', hd'⟩ := h
  rw [hd] at hd'
  exact (Prod.mk.inj (Except.ok.inj hd')).1.symm

theorem gooding_dt_ne {q x t0 dt d2t d : ℝ} {M : ℕ} (hq : q ^ 2 < 1) (hq0 : q ≠ 0) (h1 : -1 < x)
    (h3 : M = 0 ∨ (x < 1 ∧ ¬ Fastest q M x)) (h : tlamb M q (1 - q ^ 2) x 2 = .ok (t0, dt, d2t, d)) : dt ≠ 0 := by
  have h4 : M = 0 ∨ x < 1 := h3.imp_right And.left
  obtain ⟨T, T1, T2, T3, hD⟩ := gooding_derivatives hq M
  have := gooding_simple hq hq0 h1 h3 (fun t a b => gooding_time hq a b (hD t a b).1) (fun t a b => (hD t a b).2.2.2.1)
    (hD x h1 h4).2.2.2.2.1
  obtain ⟨d', hd⟩ := (hD x h1 h4).2.1
  rw [h] at hd
  have := Prod.mk.inj (Prod.mk.inj (Except.ok.inj hd)).2
  rw [this.1]; assumption

/-- **C58, `gooding1990`.**  At every root of the time equation (elliptic, parabolic or hyperbolic), except
the double root of the fastest transfer with revolutions, the step of `_xlamb_iter` has order three. -/
theorem gooding_halley_order {q tin x : ℝ} {M : ℕ} (hq : q ^ 2 < 1) (hq0 : q ≠ 0) (h1 : -1 < x)
    (h3 : M = 0 ∨ (x < 1 ∧ ¬ Fastest q M x)) (hroot : ∃ d, tlamb M q (1 - q ^ 2) x 0 = .ok (tin, d)) :
    ConvergesWithOrder (fun p => do
      let (t0, dt, d2t, _) ← tlamb M q (1 - q ^ 2) p 2
      let (p', _) ← halleyStep (tin - t0) dt d2t p p
      .ok p') x 3 := by
  have h4 : M = 0 ∨ x < 1 := h3.imp_right And.left
  obtain ⟨T, T1, T2, T3, hD⟩ := gooding_derivatives hq M
  have hev : ∀ᶠ t in 𝓝 x, -1 < t ∧ (M = 0 ∨ t < 1) :=
    (eventually_gt_nhds h1).and (h4.elim (fun h => Eventually.of_forall fun t => Or.inl h)
        (fun h => (eventually_lt_nhds h).mono fun t ht => (Or.inr ht : M = 0 ∨ t < 1)))
  have hne : T1 x ≠ 0 := gooding_simple hq hq0 h1 h3 (fun t a b => gooding_time hq a b (hD t a b).1) (fun t a b => (hD t a b).2.2.2.1)
    (hD x h1 h4).2.2.2.2.1
  have hTx : T x = tin := by
    obtain ⟨d, hd⟩ := hroot
    obtain ⟨⟨d', hd'⟩, -⟩ := hD x h1 h4
    rw [hd] at hd'
    exact (Prod.mk.inj (Except.ok.inj hd')).1.symm
  obtain ⟨hden, C, hC⟩ := halley_order (f := fun t => T t - tin) (f1 := T1) (f2 := T2) (r := x)
    (by filter_upwards [hev] with t ht using (hD t ht.1 ht.2).2.2.2.1.sub_const tin)
    (by filter_upwards [hev] with t ht using (hD t ht.1 ht.2).2.2.2.2.1)
    (hD x h1 h4).2.2.2.2.2 (by rw [hTx, sub_self]) hne
  have hne' : ∀ᶠ t in 𝓝 x, T1 t ≠ 0 := (hD x h1 h4).2.2.2.2.1.continuousAt.eventually_ne hne
  refine ⟨C, ?_⟩
  filter_upwards [hev, hden, hC, hne'] with t ht hdn hc hn
  refine ⟨_, ?_, hc⟩
  obtain ⟨d, hd⟩ := (hD t ht.1 ht.2).2.1
  have hdn' : T1 t * T1 t + (tin - T t) * T2 t / 2.0 ≠ 0 := by
    intro h; apply hdn; norm_num at h ⊢; linarith
  rw [hd, ok_bind]
  simp only []
  rw [halleyStep, if_pos hn, pdiv_eq hdn', ok_bind, ok_bind]
  congr 1
  rw [show T1 t * T1 t + (tin - T t) * T2 t / 2.0 = T1 t ^ 2 - (T t - tin) * T2 t / 2 by norm_num; ring]
  ring

/-- **C58, local convergence of `_xlamb_iter`.**  Near every such root `x ≠ 0` the loop returns within a
number of passes that depends on the tolerances only, and what it returns is accurate to the third power
of the absolute tolerance.  (At `x = 0` the test of the loop divides by zero,
`gooding_minimum_energy_undefined`.) -/
theorem gooding_converges {q tin x : ℝ} {M : ℕ} (hq : q ^ 2 < 1) (hq0 : q ≠ 0) (h1 : -1 < x) (hx0 : x ≠ 0)
    (h3 : M = 0 ∨ (x < 1 ∧ ¬ Fastest q M x)) (hroot : ∃ d, tlamb M q (1 - q ^ 2) x 0 = .ok (tin, d)) :
    ∃ C δ : ℝ, 0 < δ ∧ ∀ atol rtol : ℝ, 0 < atol → 0 < rtol → ∃ N : ℕ, ∀ maxiter k n, N ≤ k → ∀ x0 xold, |x0 - x| < δ →
      ∃ x' n', xlambIter M q (1 - q ^ 2) tin atol rtol maxiter k n x0 xold = .ok (x', n') ∧ n ≤ n' ∧ n' < n + N ∧
        |x' - x| ≤ C * atol ^ 3 := by
  obtain ⟨C, δ, hC0, hδ, hδ1, hst⟩ := (gooding_halley_order hq hq0 h1 h3 hroot).contract (p := 1)
  have hax : 0 < |x| := abs_pos.2 hx0
  obtain ⟨δ', hδ'⟩ : ∃ δ', δ' = min δ (|x| / 2) := ⟨_, rfl⟩
  have hδ'0 : 0 < δ' := by rw [hδ']; positivity
  refine ⟨C * 2 ^ 3, δ', hδ'0, fun atol rtol ha hr => ?_⟩
  have body : ∀ x0, |x0 - x| < δ' → ∃ p, |p - x| ≤ C * |x0 - x| ^ 3 ∧ |p - x| ≤ |x0 - x| / 2 ∧ x0 ≠ 0 ∧ |x| / 2 < |x0| ∧
      ∀ maxiter k n xold, xlambIter M q (1 - q ^ 2) tin atol rtol maxiter (k + 1) n x0 xold =
        if |p - x0| ≤ atol ∧ |p / x0 - 1| ≤ rtol then .ok (p, n)
        else xlambIter M q (1 - q ^ 2) tin atol rtol maxiter k (n + 1) p x0 := by
    intro x0 hx0'
    obtain ⟨p, hp, hb, hh⟩ := hst x0 (hx0'.trans_le (by rw [hδ']; exact min_le_left _ _))
    have hlt : |x0 - x| < |x| / 2 := hx0'.trans_le (by rw [hδ']; exact min_le_right _ _)
    have hbig : |x| / 2 < |x0| := by
      have := abs_sub_abs_le_abs_sub x x0
      rw [abs_sub_comm] at this; linarith
    have hne0 : x0 ≠ 0 := by rintro rfl; rw [abs_zero] at hbig; linarith
    refine ⟨p, hb, hh, hne0, hbig, fun maxiter k n xold => ?_⟩
    rw [xlambIter]
    simp only [bind_ok] at hp
    obtain ⟨⟨t0, dt, d2t, d⟩, e1, ⟨p', z⟩, e2, e3⟩ := hp
    have e3 := Except.ok.inj e3
    simp only [] at e2 e3
    rw [e1, ok_bind]
    simp only []
    by_cases hdt : dt ≠ 0
    · have hstep : halleyStep (tin - t0) dt d2t x0 xold = .ok (p, x0) := by
        rw [halleyStep, if_pos hdt, bind_ok] at e2
        obtain ⟨s, hs, e2⟩ := e2
        have e2 := Prod.mk.inj (Except.ok.inj e2)
        rw [halleyStep, if_pos hdt, hs, ok_bind, ← e3, ← e2.1]
      rw [hstep, ok_bind]
      simp only []
      rw [pdiv_eq hne0, ok_bind]
    · exfalso
      rw [halleyStep, if_neg hdt] at e2
      have e2 := Prod.mk.inj (Except.ok.inj e2)
      rw [← e3, ← e2.1] at hh
      have hz : x0 = x := by
        have := abs_nonneg (x0 - x)
        exact sub_eq_zero.1 (abs_eq_zero.1 (by linarith))
      rw [hz] at e1
      exact hdt (gooding_dt_ne hq hq0 h1 h3 e1)
  obtain ⟨ε, hε⟩ : ∃ ε, ε = min atol (rtol * (|x| / 2)) := ⟨_, rfl⟩
  have hε0 : 0 < ε := by rw [hε]; positivity
  have hd : ∀ p x0 : ℝ, |p - x| ≤ |x0 - x| / 2 → |p - x0| ≤ 2 * |x0 - x| ∧ |x0 - x| ≤ 2 * |p - x0| := by
    intro p x0 hh
    have h5 := abs_sub (p - x) (x0 - x)
    have h6 := abs_sub (p - x) (p - x0)
    rw [show p - x - (x0 - x) = p - x0 by ring] at h5
    rw [show p - x - (p - x0) = x0 - x by ring] at h6
    have := abs_nonneg (x0 - x)
    constructor <;> linarith
  have acc : ∀ p x0 : ℝ, |p - x| ≤ C * |x0 - x| ^ 3 → |p - x| ≤ |x0 - x| / 2 → |p - x0| ≤ atol → |p - x| ≤ C * 2 ^ 3 * atol ^ 3 := by
    intro p x0 hb hh ht
    refine hb.trans ?_
    rw [mul_assoc, ← mul_pow]
    apply mul_le_mul_of_nonneg_left _ hC0
    apply pow_le_pow_left₀ (abs_nonneg _)
    linarith [(hd p x0 hh).2]
  have main : ∀ N : ℕ, ∀ maxiter k n, N + 1 ≤ k → ∀ x0 xold, |x0 - x| < δ' → 2 * |x0 - x| ≤ ε * 2 ^ N →
      ∃ x' n', xlambIter M q (1 - q ^ 2) tin atol rtol maxiter k n x0 xold = .ok (x', n') ∧ n ≤ n' ∧ n' < n + (N + 1) ∧
        |x' - x| ≤ C * 2 ^ 3 * atol ^ 3 := by
    intro N
    induction N with
    | zero =>
      intro maxiter k n hk x0 xold hx0' hlt
      obtain ⟨k, rfl⟩ : ∃ j, k = j + 1 := ⟨k - 1, by omega⟩
      obtain ⟨p, hb, hh, hne0, hbig, hit⟩ := body x0 hx0'
      have hs := (hd p x0 hh).1
      simp only [pow_zero, mul_one] at hlt
      have ht1 : |p - x0| ≤ atol := by
        have : ε ≤ atol := by rw [hε]; exact min_le_left _ _
        linarith
      have ht2 : |p / x0 - 1| ≤ rtol := by
        have : ε ≤ rtol * (|x| / 2) := by rw [hε]; exact min_le_right _ _
        rw [div_sub_one hne0, abs_div, div_le_iff₀ (by positivity)]
        have := mul_le_mul_of_nonneg_left hbig.le hr.le
        linarith
      rw [hit, if_pos ⟨ht1, ht2⟩]
      exact ⟨p, n, rfl, le_refl _, by omega, acc p x0 hb hh ht1⟩
    | succ N ih =>
      intro maxiter k n hk x0 xold hx0' hlt
      obtain ⟨k, rfl⟩ : ∃ j, k = j + 1 := ⟨k - 1, by omega⟩
      obtain ⟨p, hb, hh, hne0, hbig, hit⟩ := body x0 hx0'
      rw [hit]
      by_cases ht : |p - x0| ≤ atol ∧ |p / x0 - 1| ≤ rtol
      · rw [if_pos ht]
        exact ⟨p, n, rfl, le_refl _, by omega, acc p x0 hb hh ht.1⟩
      · rw [if_neg ht]
        rw [pow_succ] at hlt
        obtain ⟨x', n', r1, r2, r3, r4⟩ := ih maxiter k (n + 1) (by omega) p x0 (by linarith [abs_nonneg (x0 - x)]) (by linarith)
        exact ⟨x', n', r1, by omega, by omega, r4⟩
  obtain ⟨N, hN⟩ := pow_unbounded_of_one_lt (2 * δ' / ε) (one_lt_two : (1 : ℝ) < 2)
  refine ⟨N + 1, fun maxiter k n hk x0 xold hx => main N maxiter k n hk x0 xold hx ?_⟩
  rw [div_lt_iff₀ hε0] at hN
  linarith

/-- The theorem on the parabola, `q = 1/2`. -/
example : ∃ tin, ∃ C δ : ℝ, 0 < δ ∧ ∀ atol rtol : ℝ, 0 < atol → 0 < rtol → ∃ N : ℕ, ∀ maxiter k n, N ≤ k → ∀ x0 xold, |x0 - 1| < δ →
      ∃ x' n', xlambIter ((0 : ℕ) : ℤ) (1 / 2) (1 - (1 / 2) ^ 2) tin atol rtol maxiter k n x0 xold = .ok (x', n') ∧ n ≤ n' ∧
        n' < n + N ∧ |x' - 1| ≤ C * atol ^ 3 := by
  have hq : (1 / 2 : ℝ) ^ 2 < 1 := by norm_num
  obtain ⟨T, T1, T2, T3, hD⟩ := gooding_derivatives hq 0
  exact ⟨T 1, gooding_converges hq (by norm_num) (by norm_num) (by norm_num) (.inl rfl) (hD 1 (by norm_num) (.inl rfl)).1⟩

end gooding

section der
open Der

/-- **C58, `der2011`, transfer angle below π.**  At every elliptic root `x ≠ 0` of the time equation, except
the double root of the fastest transfer, the step of `_solve_elliptic_jit` has order three.  (Above half a
turn the derivative is wrong, `der_derivative_wrong`.) -/
theorem der_laguerre_order_partial {σ tau x : ℝ} {M : ℕ} (h0 : 0 < σ) (h1 : σ < 1) (hx1 : -1 < x) (hx2 : x < 1) (hx0 : x ≠ 0)
    (hnf : M = 0 ∨ ¬ Fastest σ M x) (hroot : tofElliptic x (computeY σ x) M = .ok tau) :
    ConvergesWithOrder (fun p => do
      let t ← tofElliptic p (computeY σ p) M
      let dt ← tofEllipticPrime σ p (computeY σ p) t
      let d2t ← tofEllipticSecond σ p (computeY σ p) dt
      .ok (laguerreStep p (t - tau) dt d2t)) x 3 := by
  have hl : σ ^ 2 < 1 := by nlinarith
  obtain ⟨T, T1, T2, hD⟩ := der_derivatives_partial h0 h1 M
  have hTeq : ∀ t, -1 < t → t < 1 → T t = lancT σ t (lancY σ t) M := by
    intro t a b
    have := (hD t a b).1
    rw [tofElliptic_eq hl h0.ne' a b] at this
    exact (Except.ok.inj this).symm
  have hT1eq : ∀ t, -1 < t → t < 1 → T1 t = lancT1 σ t (lancY σ t) (lancT σ t (lancY σ t) M) := by
    intro t a b
    have := (hD t a b).2.1
    rw [prime_eq hl h0 a b, hTeq t a b] at this
    exact (Except.ok.inj this).symm
  have hT2eq : ∀ t, -1 < t → t < 1 → T2 t = lancT2 σ t (lancY σ t) (lancT σ t (lancY σ t) M)
      (lancT1 σ t (lancY σ t) (lancT σ t (lancY σ t) M)) := by
    intro t a b
    refine (hD t a b).2.2.2.1.unique ((lancT1_hasDerivAt hl (one_sub_sq_ne a b.ne) (lancT_hasDerivAt hl a b.ne M)).congr_of_eventuallyEq ?_)
    filter_upwards [eventually_gt_nhds a, eventually_lt_nhds b] with s c d using hT1eq s c d
  have hev : ∀ᶠ t in 𝓝 x, -1 < t ∧ t < 1 ∧ t ≠ 0 := by
    filter_upwards [eventually_gt_nhds hx1, eventually_lt_nhds hx2, eventually_ne_nhds hx0] with t a b c using ⟨a, b, c⟩
  have hTx : T x = tau := by
    have := (hD x hx1 hx2).1
    rw [hroot] at this
    exact (Except.ok.inj this).symm
  have hne : T1 x ≠ 0 := by
    rw [hT1eq x hx1 hx2]
    exact lancT1_ne_zero hl h0.ne' hx1 hx2.ne (hnf.imp_right fun h => ⟨hx2, h⟩)
  have d3 : HasDerivAt T2 _ x := (lancT2_hasDerivAt hl (one_sub_sq_ne hx1 hx2.ne) (T1 := fun t => lancT1 σ t (lancY σ t)
    (lancT σ t (lancY σ t) M)) (lancT_hasDerivAt hl hx1 hx2.ne M)
    (lancT1_hasDerivAt hl (one_sub_sq_ne hx1 hx2.ne) (lancT_hasDerivAt hl hx1 hx2.ne M))).congr_of_eventuallyEq (by
      filter_upwards [hev] with t ht using hT2eq t ht.1 ht.2.1)
  obtain ⟨C, hC⟩ := laguerre_order (f := fun t => T t - tau) (f1 := T1) (f2 := T2) (r := x)
    (by filter_upwards [hev] with t ht using (hD t ht.1 ht.2.1).2.2.1.sub_const tau)
    (by filter_upwards [hev] with t ht using (hD t ht.1 ht.2.1).2.2.2.1) d3 (by rw [hTx, sub_self]) hne
    ((abs_lt.2 ⟨hx1, hx2⟩).trans (by norm_num))
  refine ⟨C, ?_⟩
  filter_upwards [hev, hC] with t ht hc
  obtain ⟨k1, k2, -, -, k3⟩ := hD t ht.1 ht.2.1
  refine ⟨_, ?_, hc⟩
  rw [k1, ok_bind, k2, ok_bind, k3 ht.2.2, ok_bind]

/-- **C58, local convergence of `_solve_elliptic_jit`.**  Near every such root the loop returns, without
asking for the bracketed fallback, within a number of passes that depends on the tolerance only. -/
theorem der_converges_partial {σ tau x : ℝ} {M : ℕ} (h0 : 0 < σ) (h1 : σ < 1) (hx1 : -1 < x) (hx2 : x < 1) (hx0 : x ≠ 0)
    (hnf : M = 0 ∨ ¬ Fastest σ M x) (hroot : tofElliptic x (computeY σ x) M = .ok tau) :
    ∃ δ : ℝ, 0 < δ ∧ ∀ atol rtol : ℝ, 0 < atol → 0 ≤ rtol → ∃ N : ℕ, ∀ guess maxiter k n, N ≤ k → ∀ p, |p - x| < δ →
      ∃ x' n', ellipticLoop σ tau M guess maxiter atol rtol k n p = .ok (x', computeY σ x', n', false) ∧ n' ≤ n + N ∧
        |x' - x| ≤ |p - x| := by
  have hl : σ ^ 2 < 1 := by nlinarith
  obtain ⟨C, δ, hC0, hδ, hδ1, hst⟩ := (der_laguerre_order_partial h0 h1 hx1 hx2 hx0 hnf hroot).contract (p := 1)
  -- the residual is Lipschitz at the root
  have hTx : lancT σ x (lancY σ x) M = tau := by
    rw [tofElliptic_eq hl h0.ne' hx1 hx2] at hroot
    exact Except.ok.inj hroot
  obtain ⟨K, hK⟩ : ∃ K, ∀ᶠ t in 𝓝 x, |lancT σ t (lancY σ t) M - tau| ≤ K * |t - x| := by
    obtain ⟨K, hK⟩ := (lancT_hasDerivAt hl hx1 hx2.ne M).isBigO_sub.bound
    rw [hTx] at hK
    exact ⟨K, by simpa using hK⟩
  obtain ⟨ε, hε, hb⟩ := Metric.eventually_nhds_iff_ball.1 hK
  obtain ⟨δ', hδ'⟩ : ∃ δ', δ' = min (min δ ε) (1 - |x|) := ⟨_, rfl⟩
  have hax : |x| < 1 := abs_lt.2 ⟨hx1, hx2⟩
  have hδ'0 : 0 < δ' := by rw [hδ']; exact lt_min (lt_min hδ hε) (by linarith)
  refine ⟨δ', hδ'0, fun atol rtol ha hr => ?_⟩
  have body : ∀ p, |p - x| < δ' → ∃ p', |p' - x| ≤ |p - x| / 2 ∧ ∀ guess maxiter k n,
      ∃ t, |t - tau| ≤ |K| * |p - x| ∧ ellipticLoop σ tau M guess maxiter atol rtol (k + 1) n p =
        if |t - tau| ≤ atol + rtol * |tau| then .ok (p, computeY σ p, n + 1, false)
        else ellipticLoop σ tau M guess maxiter atol rtol k (n + 1) p' := by
    intro p hp
    have hp1 : |p - x| < δ := hp.trans_le (by rw [hδ']; exact (min_le_left _ _).trans (min_le_left _ _))
    have hp2 : |p - x| < ε := hp.trans_le (by rw [hδ']; exact (min_le_left _ _).trans (min_le_right _ _))
    have hp3 : |p - x| < 1 - |x| := hp.trans_le (by rw [hδ']; exact min_le_right _ _)
    obtain ⟨p', e, -, hh⟩ := hst p hp1
    have hp4 : |p| < 1 := by have := abs_sub_abs_le_abs_sub p x; linarith
    have hp5 : |p'| < 1 := by
      have := abs_sub_abs_le_abs_sub p' x
      linarith [abs_nonneg (p - x)]
    have hK' := hb p (by rwa [Metric.mem_ball, Real.dist_eq])
    refine ⟨p', hh, fun guess maxiter k n => ⟨lancT σ p (lancY σ p) M, hK'.trans
      (mul_le_mul_of_nonneg_right (le_abs_self K) (abs_nonneg _)), ?_⟩⟩
    simp only [bind_ok] at e
    obtain ⟨t, e1, dt, e2, d2t, e3, e4⟩ := e
    have e4 := Except.ok.inj e4
    have et : lancT σ p (lancY σ p) M = t := by
      rw [tofElliptic_eq hl h0.ne' (abs_lt.1 hp4).1 (abs_lt.1 hp4).2] at e1
      exact Except.ok.inj e1
    rw [ellipticLoop]
    simp only []
    rw [e1, ok_bind, et]
    by_cases hc : |t - tau| ≤ atol + rtol * |tau|
    · rw [if_pos hc, if_pos hc]
    · rw [if_neg hc, if_neg hc, e2, ok_bind, e3, ok_bind, e4, if_neg (not_le.2 hp5)]
  have main : ∀ N : ℕ, ∀ guess maxiter k n, N + 1 ≤ k → ∀ p, |p - x| < δ' → |K| * |p - x| ≤ atol * 2 ^ N →
      ∃ x' n', ellipticLoop σ tau M guess maxiter atol rtol k n p = .ok (x', computeY σ x', n', false) ∧ n' ≤ n + (N + 1) ∧
        |x' - x| ≤ |p - x| := by
    intro N
    induction N with
    | zero =>
      intro guess maxiter k n hk p hp hlt
      obtain ⟨k, rfl⟩ : ∃ j, k = j + 1 := ⟨k - 1, by omega⟩
      obtain ⟨p', hh, hit⟩ := body p hp
      obtain ⟨t, ht, hit⟩ := hit guess maxiter k n
      have := mul_nonneg hr (abs_nonneg tau)
      rw [hit, if_pos (by linarith)]
      exact ⟨p, n + 1, rfl, by omega, le_refl _⟩
    | succ N ih =>
      intro guess maxiter k n hk p hp hlt
      obtain ⟨k, rfl⟩ : ∃ j, k = j + 1 := ⟨k - 1, by omega⟩
      obtain ⟨p', hh, hit⟩ := body p hp
      obtain ⟨t, ht, hit⟩ := hit guess maxiter k n
      rw [hit]
      split
      · exact ⟨p, n + 1, rfl, by omega, le_refl _⟩
      · have hpos := abs_nonneg (p - x)
        have hhK := mul_le_mul_of_nonneg_left hh (abs_nonneg K)
        rw [pow_succ] at hlt
        obtain ⟨x', n', r1, r2, r3⟩ := ih guess maxiter k (n + 1) (by omega) p' (by linarith) (by linarith)
        exact ⟨x', n', r1, by omega, by linarith⟩
  obtain ⟨N, hN⟩ := pow_unbounded_of_one_lt (|K| * δ' / atol) (one_lt_two : (1 : ℝ) < 2)
  refine ⟨N + 1, fun guess maxiter k n hk p hp => main N guess maxiter k n hk p hp ?_⟩
  rw [div_lt_iff₀ ha] at hN
  have := mul_le_mul_of_nonneg_left hp.le (abs_nonneg K)
  linarith

/-- The theorem at `σ = 1/2`, `x = -1/2`, three revolutions. -/
example : ∃ tau, ConvergesWithOrder (fun p => do
      let t ← tofElliptic p (computeY (1 / 2) p) ((3 : ℕ) : ℤ)
      let dt ← tofEllipticPrime (1 / 2) p (computeY (1 / 2) p) t
      let d2t ← tofEllipticSecond (1 / 2) p (computeY (1 / 2) p) dt
      .ok (laguerreStep p (t - tau) dt d2t)) (-1 / 2) 3 := by
  have hl : (1 / 2 : ℝ) ^ 2 < 1 := by norm_num
  refine ⟨_, der_laguerre_order_partial (by norm_num) (by norm_num) (by norm_num) (by norm_num) (by norm_num)
    (.inr fun hf => ?_) (tofElliptic_eq hl (by norm_num) (by norm_num) (by norm_num) 3)⟩
  have := (hf.valley hl (by norm_num)).1
  norm_num at this

end der

end Lamberthub
