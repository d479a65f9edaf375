import Verif.Props.Order
import Verif.Props.LowPath

/-!
# C89: above half a turn the iteration of `der2011` is at best linear, and some solutions repel it

Above half a turn `_tof_elliptic_prime` is not the derivative of the time (`der_derivative_wrong`).  Here is what that does
to Laguerre's iteration.
-/

set_option autoImplicit false

namespace Lamberthub
open Filter Topology Spec LC Der

/-- From every point near `r` the step returns, `r` is a fixed point, and the new error is asymptotically `ρ` times the
old one. -/
def Spec.LinearRate (step : ℝ → Py ℝ) (r ρ : ℝ) : Prop :=
  ∃ φ : ℝ → ℝ, (∀ᶠ x in 𝓝 r, step x = .ok (φ x)) ∧ φ r = r ∧ HasDerivAt φ ρ r

/-- Every sequence of iterates that tends to `r` has reached it. -/
def Spec.Repels (step : ℝ → Py ℝ) (r : ℝ) : Prop :=
  ∀ u : ℕ → ℝ, (∀ k, step (u k) = .ok (u (k + 1))) → Tendsto u atTop (𝓝 r) → ∃ k, u k = r

theorem hasDerivAt_mul_continuous {f g : ℝ → ℝ} {a r : ℝ} (hf : HasDerivAt f a r) (h0 : f r = 0) (hg : ContinuousAt g r) :
    HasDerivAt (fun x => f x * g x) (a * g r) r := by
  rw [hasDerivAt_iff_tendsto_slope] at hf ⊢
  refine (hf.mul (hg.tendsto.mono_left nhdsWithin_le_nhds)).congr fun x => ?_
  simp only [slope, vsub_eq_sub, smul_eq_mul, h0]
  ring

/-- `_laguerre_step` with a wrong derivative `g` of `f` is linear of rate `1 - f'/g`. -/
theorem laguerre_linear {f g h : ℝ → ℝ} {r a : ℝ} (hf : HasDerivAt f a r) (h0 : f r = 0) (cg : ContinuousAt g r)
    (hg0 : g r ≠ 0) (ch : ContinuousAt h r) (hr : |r| < 1e300) :
    laguerreStep r (f r) (g r) (h r) = r ∧
      HasDerivAt (fun x => laguerreStep x (f x) (g x) (h x)) (1 - a / g r) r := by
  have cf := hf.continuousAt
  obtain ⟨s, hs⟩ : ∃ s : ℝ → ℝ, s = fun x => copysign (Real.sqrt (g x ^ 2 - 2 * f x * h x)) (g x) := ⟨_, rfl⟩
  have hdisc : ContinuousAt (fun x => g x ^ 2 - 2 * f x * h x) r := (cg.pow 2).sub ((cf.const_mul 2).mul ch)
  have hd0 : g r ^ 2 - 2 * f r * h r = g r ^ 2 := by rw [h0]; ring
  have hdpos : ∀ᶠ x in 𝓝 r, 0 < g x ^ 2 - 2 * f x * h x :=
    hdisc.eventually_const_lt (by simp only []; rw [hd0]; positivity)
  have hsr : s r = g r := by
    rw [hs]
    simp only []
    rw [hd0, Real.sqrt_sq_eq_abs, copysign, abs_abs]
    split
    · rename_i hn; rw [abs_of_neg hn, neg_neg]
    · rename_i hn; rw [abs_of_nonneg (not_lt.1 hn)]
  have cs : ContinuousAt s r := by
    have hq : ContinuousAt (fun x => |Real.sqrt (g x ^ 2 - 2 * f x * h x)|) r := hdisc.sqrt.abs
    rcases lt_or_gt_of_ne hg0 with hn | hn
    · refine hq.neg.congr ?_
      filter_upwards [cg.eventually_lt_const hn] with x hx
      rw [hs]; simp only [copysign, Pi.neg_apply]; rw [if_pos hx]
    · refine hq.congr ?_
      filter_upwards [cg.eventually_const_lt hn] with x hx
      rw [hs]; simp only [copysign]; rw [if_neg (not_lt.2 hx.le)]
  have hDr : g r + s r = 2 * g r := by rw [hsr]; ring
  have hDne : g r + s r ≠ 0 := by rw [hDr]; exact mul_ne_zero two_ne_zero hg0
  have cD : ContinuousAt (fun x => g x + s x) r := cg.add cs
  have hDE : ∀ᶠ x in 𝓝 r, g x + s x ≠ 0 := cD.eventually_ne hDne
  obtain ⟨φ, hφ⟩ : ∃ φ : ℝ → ℝ, φ = fun x => x - f x * (2 / (g x + s x)) := ⟨_, rfl⟩
  have hφr : φ r = r := by rw [hφ]; simp only []; rw [h0]; ring
  have hφd : HasDerivAt φ (1 - a / g r) r := by
    have cq : ContinuousAt (fun x => 2 / (g x + s x)) r := continuousAt_const.div cD hDne
    have := (hasDerivAt_id r).sub (hasDerivAt_mul_continuous (g := fun x => 2 / (g x + s x)) hf h0 cq)
    rw [hφ]
    refine this.congr_deriv ?_
    rw [hDr]
    field_simp
  have hφc : ContinuousAt φ r := hφd.continuousAt
  have hb1 : ∀ᶠ x in 𝓝 r, -1e300 < φ x := hφc.eventually_const_lt (by rw [hφr]; exact (abs_lt.1 hr).1)
  have hb2 : ∀ᶠ x in 𝓝 r, φ x < 1e300 := hφc.eventually_lt_const (by rw [hφr]; exact (abs_lt.1 hr).2)
  have hstep : ∀ᶠ x in 𝓝 r, laguerreStep x (f x) (g x) (h x) = φ x := by
    filter_upwards [hdpos, hDE, hb1, hb2] with x hd hD k1 k2
    unfold laguerreStep
    rw [laguerreLoop]
    have e1 : (12 - ((10 : ℕ) : ℝ)) = 2 := by norm_num
    simp only [e1]
    have e2 : (2 - 1 : ℝ) ^ 2 * g x ^ 2 - 2 * (2 - 1) * f x * h x = g x ^ 2 - 2 * f x * h x := by ring
    simp only [e2]
    rw [if_neg (not_lt.2 hd.le)]
    have e3 : copysign (Real.sqrt (g x ^ 2 - 2 * f x * h x)) (g x) = s x := by rw [hs]
    have e4 : x - 2 * f x / (g x + s x) = φ x := by rw [hφ]; ring
    rw [e3, if_neg hD, e4, if_pos ⟨k1, k2⟩]
  exact ⟨by rw [hstep.self_of_nhds, hφr], hφd.congr_of_eventuallyEq hstep⟩

theorem Spec.LinearRate.bounds {step : ℝ → Py ℝ} {r ρ : ℝ} (h : LinearRate step r ρ) {η : ℝ} (hη : 0 < η) :
    ∃ δ > 0, ∀ x, |x - r| < δ → ∃ x', step x = .ok x' ∧ |x' - r - ρ * (x - r)| ≤ η * |x - r| := by
  obtain ⟨φ, h1, h2, h3⟩ := h
  have := (hasDerivAt_iff_isLittleO.1 h3).bound hη
  obtain ⟨δ, hδ, hb⟩ := Metric.eventually_nhds_iff.1 (h1.and this)
  refine ⟨δ, hδ, fun x hx => ?_⟩
  obtain ⟨k1, k2⟩ := hb (y := x) (by rw [Real.dist_eq]; exact hx)
  refine ⟨φ x, k1, ?_⟩
  rw [h2] at k2
  simpa [mul_comm] using k2

/-- A nonzero rate excludes convergence of order two or more. -/
theorem Spec.LinearRate.not_order {step : ℝ → Py ℝ} {r ρ : ℝ} (h : LinearRate step r ρ) (hρ : ρ ≠ 0) (p : ℕ) :
    ¬ ConvergesWithOrder step r (p + 2) := by
  intro hc
  obtain ⟨C, δ, hC, hδ, hδ1, hst⟩ := hc.contract
  obtain ⟨δ', hδ', hb⟩ := h.bounds (half_pos (abs_pos.2 hρ))
  have hρ0 := abs_pos.2 hρ
  obtain ⟨e, he⟩ : ∃ e, e = min (min (δ / 2) (δ' / 2)) (|ρ| / (4 * (C + 1))) := ⟨_, rfl⟩
  have e1 : e ≤ δ / 2 := by rw [he]; exact (min_le_left _ _).trans (min_le_left _ _)
  have e2 : e ≤ δ' / 2 := by rw [he]; exact (min_le_left _ _).trans (min_le_right _ _)
  have e3 : e ≤ |ρ| / (4 * (C + 1)) := by rw [he]; exact min_le_right _ _
  have e0 : 0 < e := by rw [he]; exact lt_min (lt_min (by linarith) (by linarith)) (by positivity)
  have ha : |r + e - r| = e := by rw [add_sub_cancel_left, abs_of_pos e0]
  obtain ⟨x', k1, k2, -⟩ := hst (r + e) (by rw [ha]; linarith)
  obtain ⟨x'', k3, k4⟩ := hb (r + e) (by rw [ha]; linarith)
  rw [k1] at k3
  obtain rfl := Except.ok.inj k3
  rw [ha] at k2 k4
  rw [add_sub_cancel_left] at k4
  have k5 : |ρ * e| ≤ |x' - r| + |x' - r - ρ * e| := by
    have := abs_sub (x' - r) (x' - r - ρ * e)
    rwa [show x' - r - (x' - r - ρ * e) = ρ * e by ring] at this
  rw [abs_mul, abs_of_pos e0] at k5
  have k6 : e ^ (p + 2) ≤ e ^ 2 := pow_le_pow_of_le_one e0.le (by linarith) (by omega)
  have k7 : C * e ^ (p + 2) ≤ C * e ^ 2 := mul_le_mul_of_nonneg_left k6 hC
  rw [le_div_iff₀ (by positivity)] at e3
  nlinarith

/-- A rate below one in size: the error shrinks. -/
theorem Spec.LinearRate.attracts {step : ℝ → Py ℝ} {r ρ : ℝ} (h : LinearRate step r ρ) (hρ : |ρ| < 1) :
    ∃ κ < 1, 0 < κ ∧ ∃ δ > 0, ∀ x, |x - r| < δ → ∃ x', step x = .ok x' ∧ |x' - r| ≤ κ * |x - r| := by
  obtain ⟨δ, hδ, hb⟩ := h.bounds (η := (1 - |ρ|) / 2) (by linarith)
  refine ⟨(1 + |ρ|) / 2, by linarith, by linarith [abs_nonneg ρ], δ, hδ, fun x hx => ?_⟩
  obtain ⟨x', k1, k2⟩ := hb x hx
  refine ⟨x', k1, ?_⟩
  have := abs_add_le (x' - r - ρ * (x - r)) (ρ * (x - r))
  rw [sub_add_cancel, abs_mul] at this
  linarith

/-- A rate above one in size: the iterates move away. -/
theorem Spec.LinearRate.repels {step : ℝ → Py ℝ} {r ρ : ℝ} (h : LinearRate step r ρ) (hρ : 1 < |ρ|) : Repels step r := by
  intro u hu ht
  obtain ⟨δ, hδ, hb⟩ := h.bounds (η := (|ρ| - 1) / 2) (by linarith)
  have hgrow : ∀ k, |u k - r| < δ → |u k - r| ≤ |u (k + 1) - r| := by
    intro k hk
    obtain ⟨x', k1, k2⟩ := hb (u k) hk
    rw [hu k] at k1
    obtain rfl := Except.ok.inj k1
    have := abs_sub (u (k + 1) - r) (u (k + 1) - r - ρ * (u k - r))
    rw [sub_sub_cancel, abs_mul] at this
    nlinarith [abs_nonneg (u k - r)]
  obtain ⟨K, hK⟩ := Metric.tendsto_atTop.1 ht δ hδ
  have hmono : ∀ j, |u K - r| ≤ |u (K + j) - r| := by
    intro j
    induction j with
    | zero => exact le_rfl
    | succ j ih => exact ih.trans (hgrow (K + j) (by rw [← Real.dist_eq]; exact hK _ (by omega)))
  refine ⟨K, ?_⟩
  by_contra hne
  have hpos : 0 < |u K - r| := abs_pos.2 (sub_ne_zero.2 hne)
  obtain ⟨K', hK'⟩ := Metric.tendsto_atTop.1 ht _ hpos
  have := hK' (K + K') (by omega)
  rw [Real.dist_eq] at this
  linarith [hmono K']

/-- One pass of the loop of `_solve_elliptic_jit` without its tests, `der.py` l.353-364. -/
noncomputable def Der.ellipticStep (σ tau : ℝ) (M : ℤ) (p : ℝ) : Py ℝ := do
  let t ← tofElliptic p (computeY σ p) M
  let dt ← tofEllipticPrime σ p (computeY σ p) t
  let d2t ← tofEllipticSecond σ p (computeY σ p) dt
  .ok (laguerreStep p (t - tau) dt d2t)

/-- `|σ|³ x / y`, the term whose sign the code has wrong. -/
noncomputable def Der.wrongTerm (σ x : ℝ) : ℝ := (-σ) ^ 3 * x / Real.sqrt (1 - σ ^ 2 * (1 - x ^ 2))

/-- **C89, the rate.**  Above half a turn, at every elliptic root `x ≠ 0` where the derivative used by the code does not
vanish, one pass of the loop multiplies the error by `4w / (3xτ - 2 + 2w)`, `w = |σ|³ x / y`. -/
theorem der_rate {σ tau x : ℝ} {M : ℕ} (h0 : σ < 0) (h1 : -1 < σ) (hx1 : -1 < x) (hx2 : x < 1) (hx0 : x ≠ 0)
    (hd : 3 * x * tau - 2 + 2 * wrongTerm σ x ≠ 0) (hroot : tofElliptic x (computeY σ x) M = .ok tau) :
    LinearRate (ellipticStep σ tau M) x (4 * wrongTerm σ x / (3 * x * tau - 2 + 2 * wrongTerm σ x)) := by
  have hl : σ ^ 2 < 1 := by nlinarith
  have hsg : sg σ = -1 := by unfold sg; rw [if_pos h0]
  obtain ⟨Y, hY⟩ : ∃ Y : ℝ → ℝ, Y = lancY σ := ⟨_, rfl⟩
  have hYp : ∀ t, 0 < Y t := fun t => by rw [hY]; exact (lanc_lancY hl t).y_pos
  have cY : ContinuousAt Y x := by rw [hY]; exact (lancY_hasDerivAt hl x).continuousAt
  obtain ⟨T, hT⟩ : ∃ T : ℝ → ℝ, T = fun t => lancT σ t (lancY σ t) M := ⟨_, rfl⟩
  have dT := lancT_hasDerivAt hl hx1 hx2.ne M
  rw [← hT] at dT
  have hTx : T x = tau := by
    rw [tofElliptic_eq hl h0.ne hx1 hx2] at hroot
    rw [hT]; exact Except.ok.inj hroot
  have cT : ContinuousAt T x := dT.continuousAt
  have hw : 0 < 1 - x ^ 2 := by nlinarith
  have hev : ∀ᶠ t in 𝓝 x, -1 < t ∧ t < 1 ∧ t ≠ 0 := by
    filter_upwards [eventually_gt_nhds hx1, eventually_lt_nhds hx2, eventually_ne_nhds hx0] with t a b c using ⟨a, b, c⟩
  obtain ⟨g, hg⟩ : ∃ g : ℝ → ℝ, g = fun t => (3 * t * T t - 2 * (1 - σ ^ 3 * t / (-1 * Y t))) / (1 - t ^ 2) := ⟨_, rfl⟩
  obtain ⟨h, hh⟩ : ∃ h : ℝ → ℝ, h = fun t => ((1 + 4 * t ^ 2) * g t + 2 * (1 - σ ^ 5 * t ^ 3 / (-1 * Y t) ^ 3)) /
      (t * (1 - t ^ 2)) := ⟨_, rfl⟩
  have cx : ContinuousAt (fun t : ℝ => t) x := continuousAt_id
  have hY0 : -1 * Y x ≠ 0 := by have := hYp x; intro e; linarith
  have cg : ContinuousAt g x := by
    rw [hg]
    exact ((((continuousAt_const.mul cx).mul cT).sub (continuousAt_const.mul (continuousAt_const.sub
      ((continuousAt_const.mul cx).div (continuousAt_const.mul cY) hY0)))).div (continuousAt_const.sub (cx.pow 2)) hw.ne')
  have ch : ContinuousAt h x := by
    rw [hh]
    exact ((((continuousAt_const.add (continuousAt_const.mul (cx.pow 2))).mul cg).add
      (continuousAt_const.mul (continuousAt_const.sub
      ((continuousAt_const.mul (cx.pow 3)).div ((continuousAt_const.mul cY).pow 3) (pow_ne_zero 3 hY0))))).div
      (cx.mul (continuousAt_const.sub (cx.pow 2))) (mul_ne_zero hx0 hw.ne'))
  have hwt : wrongTerm σ x = -(σ ^ 3 * x / Y x) := by
    rw [wrongTerm, hY, lancY]; ring
  have hgx : g x = (3 * x * tau - 2 + 2 * wrongTerm σ x) / (1 - x ^ 2) := by
    rw [hg]; simp only []; rw [hTx, hwt]
    congr 1
    have := (hYp x).ne'
    field_simp
    ring
  have hg0 : g x ≠ 0 := by rw [hgx]; exact div_ne_zero hd hw.ne'
  obtain ⟨k1, k2⟩ := laguerre_linear (f := fun t => T t - tau) (dT.sub_const tau) (by rw [hTx, sub_self]) cg hg0 ch
    ((abs_lt.2 ⟨hx1, hx2⟩).trans (by norm_num))
  refine ⟨_, ?_, k1, k2.congr_deriv ?_⟩
  · filter_upwards [hev] with t ⟨a, b, c⟩
    have hw' : 0 < 1 - t ^ 2 := by nlinarith
    have hY' : -1 * Y t ≠ 0 := by have := hYp t; intro e; linarith
    rw [ellipticStep, tofElliptic_eq hl h0.ne a b, ok_bind, computeY_eq hl h0.ne, hsg, ← hY,
      show tofEllipticPrime σ t (-1 * Y t) (lancT σ t (Y t) M) = .ok (g t) by
        rw [tofEllipticPrime, pdiv_eq hY', ok_bind, pdiv_eq hw'.ne', hg, hT, hY], ok_bind,
      show tofEllipticSecond σ t (-1 * Y t) (g t) = .ok (h t) by
        rw [tofEllipticSecond, if_pos c, pdiv_eq (pow_ne_zero 3 hY'), ok_bind, pdiv_eq (mul_ne_zero c hw'.ne'), hh], ok_bind, hT, hY]
  · have e : lancT1 σ x (lancY σ x) (lancT σ x (lancY σ x) M) = (3 * x * tau - 2 - 2 * wrongTerm σ x) / (1 - x ^ 2) := by
      rw [lancT1, ← hY, hwt, show lancT σ x (Y x) M = tau by rw [← hTx, hT, hY]]
      ring
    rw [e, hgx]
    generalize wrongTerm σ x = w at *
    field_simp
    ring

theorem Der.wrongTerm_neg {σ x : ℝ} (h0 : σ < 0) (h1 : -1 < σ) (hx : x < 0) : wrongTerm σ x < 0 ∧ -1 < wrongTerm σ x := by
  have hl : σ ^ 2 < 1 := by nlinarith
  have hL := lanc_lancY hl x
  have hy := hL.y_pos
  have hsq := hL.y_sq
  have e : wrongTerm σ x = (-σ) ^ 3 * x / lancY σ x := rfl
  generalize lancY σ x = y at *
  have hs : 0 < (-σ) ^ 3 := pow_pos (by linarith) 3
  rw [e]
  refine ⟨div_neg_of_neg_of_pos (mul_neg_of_pos_of_neg hs hx) hy, ?_⟩
  rw [lt_div_iff₀ hy]
  have hxy : -σ * -x < y := by
    apply lt_of_pow_lt_pow_left₀ 2 hy.le
    nlinarith
  have : (-σ) ^ 2 * (-σ * -x) ≤ 1 * (-σ * -x) :=
    mul_le_mul_of_nonneg_right (by nlinarith) (mul_nonneg (by linarith) (by linarith))
  nlinarith

theorem Der.wrongTerm_pos {σ x : ℝ} (h0 : σ < 0) (h1 : -1 < σ) (hx : 0 < x) : 0 < wrongTerm σ x := by
  have hl : σ ^ 2 < 1 := by nlinarith
  have hy : 0 < lancY σ x := (lanc_lancY hl x).y_pos
  have e : wrongTerm σ x = (-σ) ^ 3 * x / lancY σ x := rfl
  rw [e]
  have : 0 < -σ := by linarith
  positivity

theorem Der.wrongTerm_deriv {σ tau x : ℝ} {M : ℕ} (hT : lancT σ x (lancY σ x) M = tau) :
    lancT1 σ x (lancY σ x) (lancT σ x (lancY σ x) M) = (3 * x * tau - 2 - 2 * wrongTerm σ x) / (1 - x ^ 2) := by
  rw [hT, lancT1, wrongTerm, lancY]
  ring

theorem accPt_Ioo {a b x : ℝ} (h1 : a < x) (h2 : x < b) : AccPt x (𝓟 (Set.Ioo a b)) :=
  (PerfectSpace.univ_preperfect x (Set.mem_univ x)).nhds_inter (Ioo_mem_nhds h1 h2) |>.mono (by simp)

/-- The time falls where there are no revolutions and before the fastest transfer. -/
theorem der_falls {σ tau x : ℝ} {M : ℕ} (h0 : σ < 0) (h1 : -1 < σ) (hx1 : -1 < x) (hx2 : x < 1)
    (hM : M = 0 ∨ ∃ m, 1 ≤ M ∧ Fastest σ M m ∧ x < m) (hroot : tofElliptic x (computeY σ x) M = .ok tau) :
    3 * x * tau - 2 - 2 * wrongTerm σ x < 0 := by
  have hl : σ ^ 2 < 1 := by nlinarith
  have hw : 0 < 1 - x ^ 2 := by nlinarith
  rw [tofElliptic_eq hl h0.ne hx1 hx2] at hroot
  have hT := Except.ok.inj hroot
  have dT := lancT_hasDerivAt hl hx1 hx2.ne M
  have hne := lancT1_ne_zero (M := M) hl h0.ne hx1 hx2.ne (hM.imp_right fun ⟨m, hM1, hf, hm⟩ => ⟨hx2, fun hf' => by
    have a := (hf.valley hl hM1).2.2.2
    have b := (hf'.valley hl hM1).2.2.1
    have c := (hf.valley hl hM1).2.2.1 ⟨hx1, hm.le⟩ ⟨by linarith, le_rfl⟩ hm
    have d := hf'.least m ⟨by linarith, by linarith [(hf.valley hl hM1).2.1]⟩
    exact absurd d (not_le.2 c)⟩)
  rw [wrongTerm_deriv hT] at dT hne
  have hle : (3 * x * tau - 2 - 2 * wrongTerm σ x) / (1 - x ^ 2) ≤ 0 := by
    rcases hM with rfl | ⟨m, hM1, hf, hm⟩
    · exact dT.hasDerivWithinAt.nonpos_of_antitoneOn (s := Set.Ioo (-1) 1) (accPt_Ioo hx1 hx2)
        ((lancT_strictAnti hl h0.ne).antitoneOn.mono fun t ht => ht.1)
    · exact dT.hasDerivWithinAt.nonpos_of_antitoneOn (s := Set.Ioo (-1) m) (accPt_Ioo hx1 hm)
        ((hf.valley hl hM1).2.2.1.antitoneOn.mono fun t ht => ⟨ht.1, ht.2.le⟩)
  have := lt_of_le_of_ne hle hne
  rw [div_lt_iff₀ hw, zero_mul] at this
  exact this

/-- The time rises after the fastest transfer. -/
theorem der_rises {σ tau x m : ℝ} {M : ℕ} (h0 : σ < 0) (h1 : -1 < σ) (hx2 : x < 1) (hM1 : 1 ≤ M) (hf : Fastest σ M m)
    (hm : m < x) (hroot : tofElliptic x (computeY σ x) M = .ok tau) : 0 < 3 * x * tau - 2 - 2 * wrongTerm σ x := by
  have hl : σ ^ 2 < 1 := by nlinarith
  obtain ⟨m0, m1, va, vm⟩ := hf.valley hl hM1
  have hx1 : -1 < x := by linarith
  have hw : 0 < 1 - x ^ 2 := by nlinarith
  rw [tofElliptic_eq hl h0.ne hx1 hx2] at hroot
  have hT := Except.ok.inj hroot
  have dT := lancT_hasDerivAt hl hx1 hx2.ne M
  have hne := lancT1_ne_zero (M := M) hl h0.ne hx1 hx2.ne (.inr ⟨hx2, fun hf' =>
    absurd (hf'.least m ⟨by linarith, by linarith⟩) (not_le.2 (vm ⟨le_rfl, by linarith⟩ ⟨hm.le, hx2⟩ hm))⟩)
  rw [wrongTerm_deriv hT] at dT hne
  have hle : 0 ≤ (3 * x * tau - 2 - 2 * wrongTerm σ x) / (1 - x ^ 2) :=
    dT.hasDerivWithinAt.nonneg_of_monotoneOn (s := Set.Ioo m 1) (accPt_Ioo hm hx2)
      (vm.monotoneOn.mono fun t ht => ⟨ht.1.le, ht.2⟩)
  have := lt_of_le_of_ne hle hne.symm
  rw [lt_div_iff₀ hw, zero_mul] at this
  exact this

/-- **C89, not superlinear.**  At no elliptic root `x ≠ 0` above half a turn has the iteration order two. -/
theorem der_not_quadratic {σ tau x : ℝ} {M : ℕ} (h0 : σ < 0) (h1 : -1 < σ) (hx1 : -1 < x) (hx2 : x < 1) (hx0 : x ≠ 0)
    (hd : 3 * x * tau - 2 + 2 * wrongTerm σ x ≠ 0) (hroot : tofElliptic x (computeY σ x) M = .ok tau) (p : ℕ) :
    ¬ ConvergesWithOrder (ellipticStep σ tau M) x (p + 2) := by
  refine (der_rate h0 h1 hx1 hx2 hx0 hd hroot).not_order (div_ne_zero (mul_ne_zero (by norm_num) ?_) hd) p
  rcases lt_or_gt_of_ne hx0 with h | h
  · exact (wrongTerm_neg h0 h1 h).1.ne
  · exact (wrongTerm_pos h0 h1 h).ne'

/-- **C89, solutions that repel.**  Without revolutions, and on the high path, every root `x > 0` with
`3xτ + 6w > 2` repels the iteration: no sequence of iterates tends to it without hitting it. -/
theorem der_repels {σ tau x : ℝ} {M : ℕ} (h0 : σ < 0) (h1 : -1 < σ) (hx1 : 0 < x) (hx2 : x < 1)
    (hM : M = 0 ∨ ∃ m, 1 ≤ M ∧ Fastest σ M m ∧ x < m) (hd : 3 * x * tau - 2 + 2 * wrongTerm σ x ≠ 0)
    (hbig : 2 < 3 * x * tau + 6 * wrongTerm σ x) (hroot : tofElliptic x (computeY σ x) M = .ok tau) :
    Repels (ellipticStep σ tau M) x := by
  have hf := der_falls h0 h1 (by linarith) hx2 hM hroot
  have hw := wrongTerm_pos h0 h1 hx1
  refine (der_rate h0 h1 (by linarith) hx2 hx1.ne' hd hroot).repels ?_
  generalize wrongTerm σ x = w at *
  rw [abs_div, lt_div_iff₀ (abs_pos.2 hd), one_mul, abs_of_pos (by linarith : (0 : ℝ) < 4 * w), abs_lt]
  constructor <;> linarith

/-- **C89, near the parabola.**  Without revolutions every solution with `x ≥ 1 / (1 + |σ|³)` repels the iteration. -/
theorem der_repels_near_parabola {σ tau x : ℝ} (h0 : σ < 0) (h1 : -1 < σ) (hx : 1 ≤ x * (1 - σ ^ 3)) (hx2 : x < 1)
    (hroot : tofElliptic x (computeY σ x) 0 = .ok tau) : Repels (ellipticStep σ tau 0) x := by
  have hl : σ ^ 2 < 1 := by nlinarith
  have hs : 0 < -σ ^ 3 := by have : 0 < (-σ) ^ 3 := pow_pos (by linarith) 3; linarith [show (-σ) ^ 3 = -σ ^ 3 by ring]
  have hx1 : 0 < x := by by_contra hn; nlinarith
  have hw := wrongTerm_pos h0 h1 hx1
  have ht : 2 / 3 * (1 - σ ^ 3) < tau := by
    have e := tofElliptic_eq hl h0.ne (by linarith) hx2 0
    rw [Nat.cast_zero, hroot] at e
    rw [Except.ok.inj e]
    have := lancT_strictAnti hl h0.ne (show x ∈ Set.Ioi (-1 : ℝ) from by simp; linarith)
      (show (1 : ℝ) ∈ Set.Ioi (-1 : ℝ) by simp) hx2
    simp only [] at this
    have e1 : lancY σ 1 = 1 := by unfold lancY; norm_num
    rw [e1, show lancT σ 1 1 0 = 2 / 3 * (1 - σ ^ 3) by
      unfold lancT; rw [if_neg (lt_irrefl _), if_pos rfl]; ring] at this
    exact this
  have h3 : 2 < 3 * x * tau := by nlinarith
  exact der_repels (M := 0) h0 h1 hx1 hx2 (.inl rfl) (by intro e; linarith) (by linarith) (by simpa using hroot)

/-- The rate is below one in size at `x < 0`, on the low path, and where `3xτ + 6w < 2`. -/
theorem der_contracts {σ tau x : ℝ} {M : ℕ} (h0 : σ < 0) (h1 : -1 < σ) (hx1 : -1 < x) (hx2 : x < 1)
    (hx : x < 0 ∨ (∃ m, 1 ≤ M ∧ Fastest σ M m ∧ m < x) ∨ (0 < x ∧ 3 * x * tau + 6 * wrongTerm σ x < 2))
    (hroot : tofElliptic x (computeY σ x) M = .ok tau) :
    ∃ ρ, |ρ| < 1 ∧ LinearRate (ellipticStep σ tau M) x ρ := by
  have hl : σ ^ 2 < 1 := by nlinarith
  have ht : 0 < tau := by
    have e := hroot
    rw [tofElliptic_eq hl h0.ne hx1 hx2] at e
    rw [← Except.ok.inj e]
    exact revT_pos hl hx1 hx2 M
  have hx0 : x ≠ 0 := by
    rcases hx with h | ⟨m, hM1, hf, hm⟩ | h
    · exact h.ne
    · exact ((hf.valley hl hM1).1.trans hm).ne'
    · exact h.1.ne'
  have key : 3 * x * tau - 2 + 2 * wrongTerm σ x ≠ 0 ∧ |4 * wrongTerm σ x| < |3 * x * tau - 2 + 2 * wrongTerm σ x| := by
    rcases hx with h | ⟨m, hM1, hf, hm⟩ | ⟨h, h'⟩
    · obtain ⟨a, b⟩ := wrongTerm_neg h0 h1 h
      have c : x * tau < 0 := mul_neg_of_neg_of_pos h ht
      generalize wrongTerm σ x = w at *
      refine ⟨by intro e; linarith, ?_⟩
      rw [abs_of_neg (by linarith), abs_of_neg (by linarith)]
      linarith
    · have a := der_rises h0 h1 hx2 hM1 hf hm hroot
      have b := wrongTerm_pos h0 h1 ((hf.valley hl hM1).1.trans hm)
      generalize wrongTerm σ x = w at *
      refine ⟨by intro e; linarith, ?_⟩
      rw [abs_of_pos (by linarith), abs_of_pos (by linarith)]
      linarith
    · have b := wrongTerm_pos h0 h1 h
      have c : 0 < x * tau := mul_pos h ht
      generalize wrongTerm σ x = w at *
      refine ⟨by intro e; linarith, ?_⟩
      rw [abs_of_pos (by linarith), abs_of_neg (by linarith)]
      linarith
  refine ⟨_, ?_, der_rate h0 h1 hx1 hx2 hx0 key.1 hroot⟩
  rw [abs_div, div_lt_one (abs_pos.2 key.1)]
  exact key.2

/-- **C89, solutions that attract.**  Near such roots the loop returns without asking for the bracketed fallback, within a
number of passes that depends on the tolerance only. -/
theorem der_converges_above {σ tau x : ℝ} {M : ℕ} (h0 : σ < 0) (h1 : -1 < σ) (hx1 : -1 < x) (hx2 : x < 1)
    (hx : x < 0 ∨ (∃ m, 1 ≤ M ∧ Fastest σ M m ∧ m < x) ∨ (0 < x ∧ 3 * x * tau + 6 * wrongTerm σ x < 2))
    (hroot : tofElliptic x (computeY σ x) M = .ok tau) :
    ∃ δ : ℝ, 0 < δ ∧ ∀ atol rtol : ℝ, 0 < atol → 0 ≤ rtol → ∃ N : ℕ, ∀ guess maxiter k n, N ≤ k → ∀ p, |p - x| < δ →
      ∃ x' n', ellipticLoop σ tau M guess maxiter atol rtol k n p = .ok (x', computeY σ x', n', false) ∧ n' ≤ n + N ∧
        |x' - x| ≤ |p - x| := by
  have hl : σ ^ 2 < 1 := by nlinarith
  obtain ⟨ρ, hρ, hrate⟩ := der_contracts h0 h1 hx1 hx2 hx hroot
  obtain ⟨κ, hκ1, hκ0, δ, hδ, hst⟩ := hrate.attracts hρ
  have hTx : lancT σ x (lancY σ x) M = tau := by
    rw [tofElliptic_eq hl h0.ne hx1 hx2] at hroot
    exact Except.ok.inj hroot
  obtain ⟨K, hK⟩ : ∃ K, ∀ᶠ t in 𝓝 x, |lancT σ t (lancY σ t) M - tau| ≤ K * |t - x| := by
    obtain ⟨K, hK⟩ := (lancT_hasDerivAt hl hx1 hx2.ne M).isBigO_sub.bound
    rw [hTx] at hK
    exact ⟨K, by simpa using hK⟩
  obtain ⟨ε, hε, hb⟩ := Metric.eventually_nhds_iff_ball.1 hK
  obtain ⟨δ', hδ'⟩ : ∃ δ', δ' = min (min δ ε) (1 - |x|) := ⟨_, rfl⟩
  have hax : |x| < 1 := abs_lt.2 ⟨hx1, hx2⟩
  have hδ'0 : 0 < δ' := by rw [hδ']; exact lt_min (lt_min hδ hε) (by linarith)
  refine ⟨δ', hδ'0, fun atol rtol ha hr => ?_⟩
  have hle : ∀ p p' : ℝ, |p' - x| ≤ κ * |p - x| → |p' - x| ≤ |p - x| := fun p p' h =>
    h.trans (mul_le_of_le_one_left (abs_nonneg _) hκ1.le)
  have body : ∀ p, |p - x| < δ' → ∃ p', |p' - x| ≤ κ * |p - x| ∧ ∀ guess maxiter k n,
      ∃ t, |t - tau| ≤ |K| * |p - x| ∧ ellipticLoop σ tau M guess maxiter atol rtol (k + 1) n p =
        if |t - tau| ≤ atol + rtol * |tau| then .ok (p, computeY σ p, n + 1, false)
        else ellipticLoop σ tau M guess maxiter atol rtol k (n + 1) p' := by
    intro p hp
    have hp1 : |p - x| < δ := hp.trans_le (by rw [hδ']; exact (min_le_left _ _).trans (min_le_left _ _))
    have hp2 : |p - x| < ε := hp.trans_le (by rw [hδ']; exact (min_le_left _ _).trans (min_le_right _ _))
    have hp3 : |p - x| < 1 - |x| := hp.trans_le (by rw [hδ']; exact min_le_right _ _)
    obtain ⟨p', e, hh⟩ := hst p hp1
    have hp4 : |p| < 1 := by have := abs_sub_abs_le_abs_sub p x; linarith
    have hp5 : |p'| < 1 := by
      have := abs_sub_abs_le_abs_sub p' x
      linarith [hle p p' hh]
    have hK' := hb p (by rwa [Metric.mem_ball, Real.dist_eq])
    refine ⟨p', hh, fun guess maxiter k n => ⟨lancT σ p (lancY σ p) M, hK'.trans
      (mul_le_mul_of_nonneg_right (le_abs_self K) (abs_nonneg _)), ?_⟩⟩
    simp only [ellipticStep, bind_ok] at e
    obtain ⟨t, e1, dt, e2, d2t, e3, e4⟩ := e
    have e4 := Except.ok.inj e4
    have et : lancT σ p (lancY σ p) M = t := by
      rw [tofElliptic_eq hl h0.ne (abs_lt.1 hp4).1 (abs_lt.1 hp4).2] at e1
      exact Except.ok.inj e1
    rw [ellipticLoop]
    simp only []
    rw [e1, ok_bind, et]
    by_cases hc : |t - tau| ≤ atol + rtol * |tau|
    · rw [if_pos hc, if_pos hc]
    · rw [if_neg hc, if_neg hc, e2, ok_bind, e3, ok_bind, e4, if_neg (not_le.2 hp5)]
  have main : ∀ N : ℕ, ∀ guess maxiter k n, N + 1 ≤ k → ∀ p, |p - x| < δ' → |K| * |p - x| * κ ^ N ≤ atol →
      ∃ x' n', ellipticLoop σ tau M guess maxiter atol rtol k n p = .ok (x', computeY σ x', n', false) ∧ n' ≤ n + (N + 1) ∧
        |x' - x| ≤ |p - x| := by
    intro N
    induction N with
    | zero =>
      intro guess maxiter k n hk p hp hlt
      obtain ⟨k, rfl⟩ : ∃ j, k = j + 1 := ⟨k - 1, by omega⟩
      obtain ⟨p', hh, hit⟩ := body p hp
      obtain ⟨t, ht, hit⟩ := hit guess maxiter k n
      have := mul_nonneg hr (abs_nonneg tau)
      rw [hit, if_pos (by linarith)]
      exact ⟨p, n + 1, rfl, by omega, le_refl _⟩
    | succ N ih =>
      intro guess maxiter k n hk p hp hlt
      obtain ⟨k, rfl⟩ : ∃ j, k = j + 1 := ⟨k - 1, by omega⟩
      obtain ⟨p', hh, hit⟩ := body p hp
      obtain ⟨t, ht, hit⟩ := hit guess maxiter k n
      rw [hit]
      split
      · exact ⟨p, n + 1, rfl, by omega, le_refl _⟩
      · have hle' := hle p p' hh
        have h2 : |K| * |p' - x| * κ ^ N ≤ |K| * (κ * |p - x|) * κ ^ N :=
          mul_le_mul_of_nonneg_right (mul_le_mul_of_nonneg_left hh (abs_nonneg K)) (by positivity)
        have h3 : |K| * (κ * |p - x|) * κ ^ N = |K| * |p - x| * κ ^ (N + 1) := by ring
        obtain ⟨x', n', r1, r2, r3⟩ := ih guess maxiter k (n + 1) (by omega) p' (by linarith) (by linarith)
        exact ⟨x', n', r1, by omega, by linarith⟩
  obtain ⟨N, hN⟩ := exists_pow_lt_of_lt_one (show 0 < atol / (|K| * δ' + 1) by positivity) hκ1
  refine ⟨N + 1, fun guess maxiter k n hk p hp => main N guess maxiter k n hk p hp ?_⟩
  rw [lt_div_iff₀ (by positivity)] at hN
  have a : |K| * |p - x| ≤ |K| * δ' + 1 := by
    have := mul_le_mul_of_nonneg_left hp.le (abs_nonneg K); linarith
  have b := mul_le_mul_of_nonneg_right a (pow_pos hκ0 N).le
  linarith

/-- A solution that repels: `σ = -1/2`, `x = 9/10`. -/
example : ∃ tau, tofElliptic (9 / 10) (computeY (-1 / 2) (9 / 10)) 0 = .ok tau ∧ Repels (ellipticStep (-1 / 2) tau 0) (9 / 10) := by
  have e := tofElliptic_eq (σ := -1 / 2) (x := 9 / 10) (by norm_num) (by norm_num) (by norm_num) (by norm_num) 0
  rw [Nat.cast_zero] at e
  exact ⟨_, e, der_repels_near_parabola (by norm_num) (by norm_num) (by norm_num) (by norm_num) e⟩

/-- A solution that attracts, linearly only: `σ = -1/2`, `x = -1/2`, two revolutions. -/
example : ∃ tau, tofElliptic (-1 / 2) (computeY (-1 / 2) (-1 / 2)) ((2 : ℕ) : ℤ) = .ok tau ∧
    ¬ ConvergesWithOrder (ellipticStep (-1 / 2) tau ((2 : ℕ) : ℤ)) (-1 / 2) 2 ∧
    ∃ δ : ℝ, 0 < δ ∧ ∀ atol rtol : ℝ, 0 < atol → 0 ≤ rtol → ∃ N : ℕ, ∀ guess maxiter k n, N ≤ k → ∀ p, |p - (-1 / 2)| < δ →
      ∃ x' n', ellipticLoop (-1 / 2) tau ((2 : ℕ) : ℤ) guess maxiter atol rtol k n p =
        .ok (x', computeY (-1 / 2) x', n', false) ∧ n' ≤ n + N ∧ |x' - (-1 / 2)| ≤ |p - (-1 / 2)| := by
  have e := tofElliptic_eq (σ := -1 / 2) (x := -1 / 2) (by norm_num) (by norm_num) (by norm_num) (by norm_num) 2
  have ht := revT_pos (lam := -1 / 2) (x := -1 / 2) (by norm_num) (by norm_num) (by norm_num) 2
  obtain ⟨w1, w2⟩ := wrongTerm_neg (σ := -1 / 2) (x := -1 / 2) (by norm_num) (by norm_num) (by norm_num)
  refine ⟨_, e, der_not_quadratic (by norm_num) (by norm_num) (by norm_num) (by norm_num) (by norm_num) ?_ e 0,
    der_converges_above (by norm_num) (by norm_num) (by norm_num) (by norm_num) (.inl (by norm_num)) e⟩
  have ht : 0 < lancT (-1 / 2) (-1 / 2) (lancY (-1 / 2) (-1 / 2)) 2 := ht
  intro h
  linarith

end Lamberthub
