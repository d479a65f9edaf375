import Verif.Proofs.IzzoFast
import Verif.Props.IzzoSlow

/-!
# C73 (fast transfers and transfers near the least energy): `izzo2015` solves them
-/

set_option autoImplicit false

namespace Lamberthub
open Filter Topology Spec LC

namespace Izzo

theorem guess_fast {ll T : ℝ} (hl : ll ^ 2 < 1) (low : Bool) (hT0 : 0 < T) (hT : T < 2 * (1 - ll ^ 3) / 3) :
    initialGuess T ll 0 low =
      .ok (5 / 2 * (2 * (1 - ll ^ 3) / 3) / T * (2 * (1 - ll ^ 3) / 3 - T) / (1 - ll ^ 5) + 1) := by
  have hl' := abs_lt.1 ((sq_lt_one_iff_abs_lt_one _).1 hl)
  have h1 := T1_lt_T0 hl
  have h5 : ll ^ 5 < 1 := by
    by_contra h
    have h4 : (ll ^ 2) ^ 2 < 1 := by nlinarith [sq_nonneg ll]
    nlinarith [not_lt.1 h, sq_nonneg (ll ^ 2)]
  unfold initialGuess initialGuess0
  rw [if_pos rfl, pacos, if_pos ⟨hl'.1.le, hl'.2.le⟩, ok_bind, psqrt_eq (by linarith), ok_bind]
  have e : Real.arccos ll + ll * Real.sqrt (1 - ll ^ 2) + ((0 : ℤ) : ℝ) * Real.pi =
    Real.arccos ll + ll * Real.sqrt (1 - ll ^ 2) := by push_cast; ring
  simp only [e]
  rw [if_neg (by linarith), if_pos hT, pdiv_eq hT0.ne', ok_bind, pdiv_eq (by linarith), ok_bind]

theorem findXY_of_guess {ll T : ℝ} (hl : ll ^ 2 < 1) (hT0 : 0 < T) (hT : T < Real.pi) {low : Bool} {atol rtol : ℝ}
    {n : ℕ} {x0 x : ℝ} (hg : initialGuess T ll 0 low = .ok x0) (hh : householder T ll 0 atol rtol n x0 = .ok x) :
    findXY ll T 0 n atol rtol low = .ok (x, lancY ll x) := by
  have hl' := abs_lt.1 ((sq_lt_one_iff_abs_lt_one _).1 hl)
  have hfl : ⌊T / Real.pi⌋ = 0 := by
    rw [Int.floor_eq_zero_iff]
    exact ⟨by have := Real.pi_pos; positivity, by rw [div_lt_one Real.pi_pos]; exact hT⟩
  unfold findXY
  rw [raiseIf_neg _ (not_not.2 (abs_lt.2 hl')), ok_bind, pacos, if_pos ⟨hl'.1.le, hl'.2.le⟩, ok_bind,
    psqrt_eq (by linarith), ok_bind]
  simp only [refineMMax, hfl]
  rw [if_neg (by simp), ok_bind, raiseIf_neg _ (by simp), ok_bind, hg, ok_bind, hh, ok_bind, computeY_lancY hl]
  rfl

/-- What `_find_xy` returns for short times. -/
theorem findXY_fast {ll : ℝ} (hl : ll ^ 2 < 1) (h0 : ll ≠ 0) {atol rtol : ℝ} (ha : 0 ≤ atol) (hr : 0 < rtol) {n : ℕ}
    (hn : 2 ≤ n) (low : Bool) :
    ∃ X : ℝ → ℝ, Tendsto (fun T => X T * T) (𝓝[>] 0) (𝓝 (fastC ll)) ∧
      ∀ᶠ T in 𝓝[>] 0, findXY ll T 0 n atol rtol low = .ok (X T, lancY ll (X T)) := by
  have hc := fastC_pos hl
  have hl' := abs_lt.1 ((sq_lt_one_iff_abs_lt_one _).1 hl)
  set T1 := 2 * (1 - ll ^ 3) / 3 with hT1
  have h3 : ll ^ 3 < 1 := by nlinarith
  have hT1p : 0 < T1 := by rw [hT1]; linarith
  have h5 : ll ^ 5 < 1 := by
    by_contra h
    have h4 : (ll ^ 2) ^ 2 < 1 := by nlinarith [sq_nonneg ll]
    nlinarith [not_lt.1 h, sq_nonneg (ll ^ 2)]
  have h5' : 0 < 1 - ll ^ 5 := by linarith
  obtain ⟨X0, hX0⟩ : ∃ X0 : ℝ → ℝ, X0 = fun T => 5 / 2 * T1 / T * (T1 - T) / (1 - ll ^ 5) + 1 := ⟨_, rfl⟩
  have l0 : Tendsto (fun T => X0 T * T) (𝓝[>] 0) (𝓝 (5 / 2 * T1 * T1 / (1 - ll ^ 5))) := by
    have h : Tendsto (fun T : ℝ => 5 / 2 * T1 * (T1 - T) / (1 - ll ^ 5) + T) (𝓝[>] 0)
        (𝓝 (5 / 2 * T1 * (T1 - 0) / (1 - ll ^ 5) + 0)) := by
      have hcont : Continuous fun T : ℝ => 5 / 2 * T1 * (T1 - T) / (1 - ll ^ 5) + T := by fun_prop
      exact (hcont.tendsto 0).mono_left nhdsWithin_le_nhds
    rw [sub_zero, add_zero] at h
    refine h.congr' ?_
    filter_upwards [self_mem_nhdsWithin] with T hT
    have : (0 : ℝ) < T := hT
    rw [hX0]
    field_simp
  obtain ⟨X1, l1, s1⟩ := step_fast hl h0 (by positivity) l0
  obtain ⟨X2, l2, s2⟩ := step_fast hl h0 hc l1
  classical
  refine ⟨fun T => if |X1 T - X0 T| < rtol * |X0 T| + atol then X1 T else X2 T, ?_, ?_⟩
  · have : (fun T => (if |X1 T - X0 T| < rtol * |X0 T| + atol then X1 T else X2 T) * T) =
        fun T => if |X1 T - X0 T| < rtol * |X0 T| + atol then X1 T * T else X2 T * T := by
      funext T; split <;> rfl
    rw [this]
    exact Tendsto.if' l1 l2
  · have hstop : ∀ᶠ T in 𝓝[>] 0, |X2 T - X1 T| < rtol * |X1 T| + atol := by
      have h := (l2.sub l1).abs
      rw [sub_self, abs_zero] at h
      have h' := l1.const_mul rtol
      filter_upwards [h.eventually_lt h' (by positivity), self_mem_nhdsWithin] with T h1 hT
      have hT' : (0 : ℝ) < T := hT
      rw [← sub_mul, abs_mul, abs_of_pos hT', ← mul_assoc, mul_lt_mul_iff_left₀ hT'] at h1
      have := mul_le_mul_of_nonneg_left (le_abs_self (X1 T)) hr.le
      linarith
    filter_upwards [s1, s2, hstop, Ioo_mem_nhdsGT hT1p] with T h1 h2 h3 hT
    obtain ⟨n, rfl⟩ : ∃ j, n = j + 2 := ⟨n - 2, by omega⟩
    have hT0 := T1_lt_T0 hl
    have hTpi := (T00_bounds hl).2
    have hg := guess_fast hl low hT.1 hT.2
    refine findXY_of_guess hl hT.1 (by linarith [hT.2]) (hg.trans (congrArg _ (congrFun hX0 T).symm)) ?_
    rw [householder, h1, ok_bind]
    split
    · rfl
    · rw [householder, h2, ok_bind, if_pos h3]

end Izzo

open Izzo

/-- **C73, fast transfers.**  For every geometry, every relative tolerance and at least two iterations: when the
flight time requested tends to zero, `izzo2015` returns, and the flight time obtained over the one requested
tends to one. -/
theorem izzo_fast_solved {mu : ℝ} (hmu : 0 < mu) {r1 r2 : V3} (hnp : NotPolar r1 r2) (pro low : Bool) {atol rtol : ℝ}
    (ha : 0 ≤ atol) (hr : 0 < rtol) {n : ℕ} (hn : 2 ≤ n) :
    ∃ (w1 w2 : ℝ → V3) (T' : ℝ → ℝ), Tendsto (fun tof => T' tof / tof) (𝓝[>] 0) (𝓝 1) ∧
      ∀ᶠ tof in 𝓝[>] 0, izzo2015 mu r1 r2 tof 0 pro low n atol rtol = .ok (w1 tof, w2 tof) ∧
        LambertArc mu r1 r2 (w1 tof) (w2 tof) (T' tof) 0 ∧ Sense pro r1 (w1 tof) := by
  have hna : NotAligned r1 r2 := fun h => hnp h.2.2
  obtain ⟨U, ll, hU, hU', hl, h0, hle, hrun⟩ := run_zero hmu hna pro
  have hc := fastC_pos hl
  obtain ⟨X, hX, hN⟩ := findXY_fast hl h0 ha hr hn low
  have hXi : Tendsto X (𝓝[>] 0) atTop := by
    have h := (hX.pos_mul_atTop hc tendsto_inv_nhdsGT_zero)
    refine h.congr' ?_
    filter_upwards [self_mem_nhdsWithin] with T hT
    have : (0 : ℝ) < T := hT
    field_simp
  have hdiv : Tendsto (fun tof : ℝ => tof / U) (𝓝[>] 0) (𝓝[>] 0) := by
    rw [tendsto_nhdsWithin_iff]
    constructor
    · have : Continuous fun tof : ℝ => tof / U := by fun_prop
      have h := this.tendsto 0
      rw [zero_div] at h
      exact h.mono_left nhdsWithin_le_nhds
    · filter_upwards [self_mem_nhdsWithin] with T hT
      exact div_pos hT hU
  have hlim : Tendsto (fun T => tm ll (X T) / T) (𝓝[>] 0) (𝓝 1) := by
    have h := ((tm_fast hl).comp hXi).div hX hc.ne'
    rw [div_self hc.ne'] at h
    refine h.congr' ?_
    filter_upwards [hXi.eventually (eventually_gt_atTop 0), self_mem_nhdsWithin] with T h1 h2
    simp only [Function.comp, Pi.div_apply]
    rw [mul_div_mul_left _ _ h1.ne']
  obtain ⟨T', hT'⟩ : ∃ T' : ℝ → ℝ, T' = fun tof => U * tm ll (X (tof / U)) := ⟨_, rfl⟩
  have hev : ∀ᶠ tof in 𝓝[>] 0, ∃ v : V3 × V3, izzo2015 mu r1 r2 tof 0 pro low n atol rtol = .ok v ∧
      LambertArc mu r1 r2 v.1 v.2 (T' tof) 0 ∧ Sense pro r1 v.1 := by
    filter_upwards [hdiv.eventually hN, hdiv.eventually (hXi.eventually (eventually_gt_atTop 0))] with tof h1 h2
    obtain ⟨v1, v2, e, -, hs, harc⟩ := (hrun tof low n atol rtol).2 _ _ h1
    refine ⟨(v1, v2), e, ?_, hs hnp⟩
    rw [hT']
    exact harc (by linarith)
  have hch : ∃ w : ℝ → V3 × V3, ∀ᶠ tof in 𝓝[>] 0, izzo2015 mu r1 r2 tof 0 pro low n atol rtol = .ok (w tof) ∧
      LambertArc mu r1 r2 (w tof).1 (w tof).2 (T' tof) 0 ∧ Sense pro r1 (w tof).1 := by
    classical
    refine ⟨fun tof => if h : ∃ v : V3 × V3, izzo2015 mu r1 r2 tof 0 pro low n atol rtol = .ok v ∧
      LambertArc mu r1 r2 v.1 v.2 (T' tof) 0 ∧ Sense pro r1 v.1 then h.choose else (r1, r1), ?_⟩
    filter_upwards [hev] with tof h
    rw [dif_pos h]
    exact h.choose_spec
  obtain ⟨w, hw⟩ := hch
  refine ⟨fun t => (w t).1, fun t => (w t).2, T', ?_, hw⟩
  refine (hlim.comp hdiv).congr' ?_
  filter_upwards [self_mem_nhdsWithin] with tof h
  have : (0 : ℝ) < tof := h
  rw [hT']
  simp only [Function.comp]
  field_simp

/-- A quarter turn, the default tolerances and limit. -/
example : ∃ (w1 w2 : ℝ → V3) (T' : ℝ → ℝ), Tendsto (fun tof => T' tof / tof) (𝓝[>] 0) (𝓝 1) ∧
    ∀ᶠ tof in 𝓝[>] 0, izzo2015 1 ⟨1, 0, 0⟩ ⟨0, 1, 0⟩ tof 0 true true 35 1e-5 1e-7 = .ok (w1 tof, w2 tof) ∧
      LambertArc 1 ⟨1, 0, 0⟩ ⟨0, 1, 0⟩ (w1 tof) (w2 tof) (T' tof) 0 ∧ Sense true ⟨1, 0, 0⟩ (w1 tof) :=
  izzo_fast_solved one_pos (by simp [NotPolar]) true true (by norm_num) (by norm_num) (by norm_num)

/-- A step `x - (f x - f r) q` with `q` close to the inverse of the derivative halves the distance to `r`,
uniformly in `r`. -/
theorem uniform_contract {f : ℝ → ℝ} {a d : ℝ} (hf : HasStrictDerivAt f d a) (hd : d ≠ 0) {q : ℝ × ℝ → ℝ}
    (hq : Tendsto q (𝓝 (a, a)) (𝓝 d⁻¹)) :
    ∀ᶠ p in 𝓝 (a, a), |p.1 - (f p.1 - f p.2) * q p - p.2| ≤ |p.1 - p.2| / 2 := by
  have hda : 0 < |d| := abs_pos.2 hd
  have h1 := hf.hasStrictFDerivAt.isLittleO.def (show 0 < |d| / 8 by positivity)
  have h2 := (hq.const_mul d).const_sub 1
  rw [mul_inv_cancel₀ hd, sub_self] at h2
  have h2' := h2.abs
  rw [abs_zero] at h2'
  have h3 := hq.abs
  rw [abs_inv] at h3
  have h4 : |d|⁻¹ < 2 * |d|⁻¹ := by have : 0 < |d|⁻¹ := inv_pos.2 hda; linarith
  filter_upwards [h1, h2'.eventually (gt_mem_nhds (show (0 : ℝ) < 1 / 4 by norm_num)), h3.eventually (gt_mem_nhds h4)]
    with p g1 g2 g3
  simp only [Real.norm_eq_abs, ContinuousLinearMap.toSpanSingleton_apply, smul_eq_mul] at g1
  have e : p.1 - (f p.1 - f p.2) * q p - p.2 = (p.1 - p.2) * (1 - d * q p) - (f p.1 - f p.2 - (p.1 - p.2) * d) * q p := by
    ring
  rw [e]
  calc _ ≤ |(p.1 - p.2) * (1 - d * q p)| + |(f p.1 - f p.2 - (p.1 - p.2) * d) * q p| := abs_sub _ _
    _ ≤ |p.1 - p.2| * (1 / 4) + |d| / 8 * |p.1 - p.2| * (2 * |d|⁻¹) := by
        rw [abs_mul, abs_mul]
        gcongr
    _ = |p.1 - p.2| / 2 := by field_simp; ring

namespace Izzo

theorem tm_deriv {ll x : ℝ} (hl : ll ^ 2 < 1) (h1 : -1 < x) (h2 : x ≠ 1) :
    HasDerivAt (tm ll) (tm1 ll x) x ∧ HasDerivAt (tm1 ll) (tm2 ll x) x ∧ HasDerivAt (tm2 ll) (tm3 ll x) x ∧
      ContinuousAt (tm3 ll) x := by
  have h0 := one_sub_sq_ne h1 h2
  have d1 : HasDerivAt (tm ll) (tm1 ll x) x := lancT_hasDerivAt hl h1 h2 0
  have d2 : HasDerivAt (tm1 ll) (tm2 ll x) x := lancT1_hasDerivAt hl h0 d1
  have d3 : HasDerivAt (tm2 ll) (tm3 ll x) x := lancT2_hasDerivAt hl h0 (T1 := tm1 ll) d1 d2
  refine ⟨d1, d2, d3, ?_⟩
  obtain ⟨d, hd⟩ := lancT3_hasDerivAt hl h1 h2 0
  exact hd.continuousAt

theorem tm_strict {ll x : ℝ} (hl : ll ^ 2 < 1) (h1 : -1 < x) (h2 : x ≠ 1) :
    HasStrictDerivAt (tm ll) (tm1 ll x) x := by
  refine hasStrictDerivAt_of_hasDerivAt_of_continuousAt (f' := tm1 ll) ?_ (tm_deriv hl h1 h2).2.1.continuousAt
  filter_upwards [eventually_gt_nhds h1, eventually_ne_nhds h2] with t a b using (tm_deriv hl a b).1

/-- Near any point of the domain a pass of `_householder` halves the distance to the root, for all times in a
neighbourhood. -/
theorem step_near {ll a : ℝ} (hl : ll ^ 2 < 1) (h1 : -1 < a) (h2 : a ≠ 1) (hd : tm1 ll a ≠ 0) :
    ∃ ρ : ℝ, 0 < ρ ∧ ρ ≤ 1 ∧ ∀ x r, |x - a| < ρ → |r - a| < ρ →
      ∃ x', householderStep x (tm ll r) ll 0 = .ok x' ∧ |x' - r| ≤ |x - r| / 2 := by
  obtain ⟨d0, d1, d2, c3⟩ := tm_deriv hl h1 h2
  have cf : ContinuousAt (fun p : ℝ × ℝ => tm ll p.1 - tm ll p.2) (a, a) := by
    have ka : ContinuousAt (fun p : ℝ × ℝ => tm ll p.1) (a, a) :=
      ContinuousAt.comp (g := tm ll) (f := Prod.fst) d0.continuousAt continuousAt_fst
    have kb : ContinuousAt (fun p : ℝ × ℝ => tm ll p.2) (a, a) :=
      ContinuousAt.comp (g := tm ll) (f := Prod.snd) d0.continuousAt continuousAt_snd
    exact ka.sub kb
  have k1 : ContinuousAt (fun p : ℝ × ℝ => tm1 ll p.1) (a, a) :=
    ContinuousAt.comp (g := tm1 ll) (f := Prod.fst) d1.continuousAt continuousAt_fst
  have k2 : ContinuousAt (fun p : ℝ × ℝ => tm2 ll p.1) (a, a) :=
    ContinuousAt.comp (g := tm2 ll) (f := Prod.fst) d2.continuousAt continuousAt_fst
  have k3 : ContinuousAt (fun p : ℝ × ℝ => tm3 ll p.1) (a, a) :=
    ContinuousAt.comp (g := tm3 ll) (f := Prod.fst) c3 continuousAt_fst
  have hden : ContinuousAt (fun p : ℝ × ℝ => tm1 ll p.1 * (tm1 ll p.1 ^ 2 - (tm ll p.1 - tm ll p.2) * tm2 ll p.1) +
      tm3 ll p.1 * (tm ll p.1 - tm ll p.2) ^ 2 / 6) (a, a) :=
    (k1.mul ((k1.pow 2).sub (cf.mul k2))).add ((k3.mul (cf.pow 2)).div_const 6)
  have hnum : ContinuousAt (fun p : ℝ × ℝ => tm1 ll p.1 ^ 2 - (tm ll p.1 - tm ll p.2) * tm2 ll p.1 / 2) (a, a) :=
    (k1.pow 2).sub ((cf.mul k2).div_const 2)
  have e1 : tm1 ll a * (tm1 ll a ^ 2 - (tm ll a - tm ll a) * tm2 ll a) + tm3 ll a * (tm ll a - tm ll a) ^ 2 / 6 =
      tm1 ll a ^ 3 := by ring
  have hn : tm1 ll a * (tm1 ll a ^ 2 - (tm ll a - tm ll a) * tm2 ll a) + tm3 ll a * (tm ll a - tm ll a) ^ 2 / 6 ≠ 0 := by
    rw [e1]; exact pow_ne_zero _ hd
  have hq := (hnum.div hden hn).tendsto
  have e2 : (tm1 ll a ^ 2 - (tm ll a - tm ll a) * tm2 ll a / 2) /
      (tm1 ll a * (tm1 ll a ^ 2 - (tm ll a - tm ll a) * tm2 ll a) + tm3 ll a * (tm ll a - tm ll a) ^ 2 / 6) =
      (tm1 ll a)⁻¹ := by
    rw [e1]; field_simp; ring
  simp only [Pi.div_apply] at hq
  rw [e2] at hq
  have hall := (uniform_contract (tm_strict hl h1 h2) hd hq).and ((hden.eventually_ne hn).and
    (((continuous_fst.tendsto (a, a)).eventually (eventually_gt_nhds h1)).and
      ((continuous_fst.tendsto (a, a)).eventually (eventually_ne_nhds h2))))
  obtain ⟨ρ, hρ, hb⟩ := Metric.eventually_nhds_iff_ball.1 hall
  refine ⟨min ρ 1, by positivity, min_le_right _ _, fun x r hx hr => ?_⟩
  have hmem : (x, r) ∈ Metric.ball (a, a) ρ := by
    rw [Metric.mem_ball, Prod.dist_eq, max_lt_iff, Real.dist_eq, Real.dist_eq]
    exact ⟨hx.trans_le (min_le_left _ _), hr.trans_le (min_le_left _ _)⟩
  obtain ⟨b1, b2, b3, b4⟩ := hb _ hmem
  exact ⟨_, step_eq hl b3 b4 b2, b1⟩

/-- The loop, from a point near the root. -/
theorem loop_near {ll T r ρ atol rtol : ℝ} (ha : 0 < atol) (hr : 0 ≤ rtol)
    (hst : ∀ x, |x - r| < ρ → ∃ x', householderStep x T ll 0 = .ok x' ∧ |x' - r| ≤ |x - r| / 2) :
    ∀ n : ℕ, ∀ x0, |x0 - r| < ρ → 2 * |x0 - r| < atol * 2 ^ n →
      ∃ p p', householder T ll 0 atol rtol (n + 1) x0 = .ok p ∧ |p - r| < ρ ∧ |p' - r| < ρ ∧
        |p - r| ≤ rtol * |p'| + atol := by
  intro n
  induction n with
  | zero =>
    intro x0 hx0 hlt
    obtain ⟨p, hp, hb⟩ := hst x0 hx0
    have hd : |p - x0| ≤ |p - r| + |x0 - r| := by
      have := abs_sub (p - r) (x0 - r); rwa [show p - r - (x0 - r) = p - x0 by ring] at this
    have h0 := mul_nonneg hr (abs_nonneg x0)
    have h1 := abs_nonneg (x0 - r)
    simp only [pow_zero, mul_one] at hlt
    rw [householder, hp, ok_bind, if_pos (by linarith)]
    exact ⟨p, x0, rfl, by linarith, hx0, by linarith⟩
  | succ n ih =>
    intro x0 hx0 hlt
    obtain ⟨p, hp, hb⟩ := hst x0 hx0
    have h1 := abs_nonneg (x0 - r)
    rw [householder, hp, ok_bind]
    split
    · rename_i ht
      have hd : |x0 - r| ≤ |p - r| + |p - x0| := by
        have := abs_sub (p - r) (p - x0); rwa [show p - r - (p - x0) = x0 - r by ring] at this
      exact ⟨p, x0, rfl, by linarith, hx0, by linarith⟩
    · refine ih p (by linarith) ?_
      rw [pow_succ] at hlt
      linarith

/-- The first guess for times near the one of least energy. -/
theorem guess_near {ll : ℝ} (hl : ll ^ 2 < 1) (low : Bool) :
    ∃ g : ℝ → ℝ, Tendsto g (𝓝 (Real.arccos ll + ll * Real.sqrt (1 - ll ^ 2))) (𝓝 0) ∧
      ∀ᶠ T in 𝓝 (Real.arccos ll + ll * Real.sqrt (1 - ll ^ 2)), initialGuess T ll 0 low = .ok (g T) := by
  have hl' := abs_lt.1 ((sq_lt_one_iff_abs_lt_one _).1 hl)
  obtain ⟨hT0, hTpi⟩ := T00_bounds hl
  have h1 := T1_lt_T0 hl
  have h3 : ll ^ 3 < 1 := by nlinarith
  have hgs := fun T => guess_slow (T := T) hl low
  set T0 := Real.arccos ll + ll * Real.sqrt (1 - ll ^ 2) with hT0d
  set T1 := 2 * (1 - ll ^ 3) / 3 with hT1
  have hT1p : 0 < T1 := by rw [hT1]; linarith
  have hlog : Real.log (T1 / T0) ≠ 0 := (Real.log_neg (by positivity) (by rw [div_lt_one hT0]; exact h1)).ne
  classical
  refine ⟨fun T => if T0 ≤ T then (T0 / T) ^ (2 / 3 : ℝ) - 1
    else Real.exp (Real.log 2 * Real.log (T / T0) / Real.log (T1 / T0)) - 1, ?_, ?_⟩
  · refine Tendsto.if' ?_ ?_
    · have h : ContinuousAt (fun T : ℝ => (T0 / T) ^ (2 / 3 : ℝ) - 1) T0 :=
        ((continuousAt_const.div continuousAt_id hT0.ne').rpow_const (.inr (by norm_num))).sub continuousAt_const
      have := h.tendsto
      simpa [div_self hT0.ne'] using this
    · have h : ContinuousAt (fun T : ℝ => Real.exp (Real.log 2 * Real.log (T / T0) / Real.log (T1 / T0)) - 1) T0 := by
        refine ContinuousAt.sub (Real.continuous_exp.continuousAt.comp ?_) continuousAt_const
        refine ContinuousAt.div (continuousAt_const.mul (ContinuousAt.log (by fun_prop) ?_)) continuousAt_const hlog
        rw [div_self hT0.ne']; norm_num
      have := h.tendsto
      simpa [div_self hT0.ne'] using this
  · filter_upwards [eventually_gt_nhds h1] with T hT
    split
    · rename_i h
      exact hgs T h
    · rename_i h
      have hTp : 0 < T := by linarith
      unfold initialGuess initialGuess0
      rw [if_pos rfl, pacos, if_pos ⟨hl'.1.le, hl'.2.le⟩, ok_bind, psqrt_eq (by linarith), ok_bind]
      have e : Real.arccos ll + ll * Real.sqrt (1 - ll ^ 2) + ((0 : ℤ) : ℝ) * Real.pi = T0 := by
        rw [hT0d]; push_cast; ring
      simp only [e, ← hT1]
      rw [if_neg h, if_neg (by linarith), pdiv_eq hT0.ne', ok_bind, plog, if_pos (by positivity), ok_bind,
        pdiv_eq hT0.ne', ok_bind, plog, if_pos (by positivity), ok_bind, pdiv_eq hlog, ok_bind]

end Izzo

/-- **C73, near the least energy.**  For every geometry there is a neighbourhood of the time of the least-energy
transfer in which `izzo2015` solves every problem, for all tolerances, with a number of iterations that
depends on `atol` only; the flight time is accurate to `3 (rtol + atol)` units of time. -/
theorem izzo_near_least_energy_solved {mu : ℝ} (hmu : 0 < mu) {r1 r2 : V3} (hnp : NotPolar r1 r2) (pro low : Bool) :
    ∃ ε : ℝ, 0 < ε ∧ ∀ atol rtol : ℝ, 0 < atol → 0 ≤ rtol → ∀ n : ℕ, 2 ≤ atol * 2 ^ n →
      ∀ tof, |tof - leastEnergyTime mu r1 r2 pro 0| < ε → ∃ v1 v2 T,
        izzo2015 mu r1 r2 tof 0 pro low (n + 1) atol rtol = .ok (v1, v2) ∧ LambertArc mu r1 r2 v1 v2 T 0 ∧
        Sense pro r1 v1 ∧ |T - tof| ≤ 3 * (rtol + atol) * timeUnit mu r1 r2 := by
  have hna : NotAligned r1 r2 := fun h => hnp h.2.2
  obtain ⟨U, ll, hU, hU', hl, h0, hle, hrun⟩ := run_zero hmu hna pro
  obtain ⟨-, hT, -⟩ := hle hnp
  obtain ⟨hT0, hTpi⟩ := T00_bounds hl
  have hd : tm1 ll 0 = -2 := by rw [tm1, lancT1]; norm_num
  have hm0 : tm ll 0 = Real.arccos ll + ll * Real.sqrt (1 - ll ^ 2) := by
    rw [tm, lancT, if_pos one_pos, lancY]; norm_num
  have hstr := tm_strict hl (show (-1 : ℝ) < 0 by norm_num) (by norm_num : (0 : ℝ) ≠ 1)
  obtain ⟨ρ, hρ, hρ1, hst⟩ := step_near hl (show (-1 : ℝ) < 0 by norm_num) (by norm_num : (0 : ℝ) ≠ 1) (by rw [hd]; norm_num)
  -- slope of the time
  have hslope : ∀ᶠ p in 𝓝 ((0 : ℝ), (0 : ℝ)), |tm ll p.1 - tm ll p.2| ≤ 3 * |p.1 - p.2| := by
    have h1 := hstr.hasStrictFDerivAt.isLittleO.def (show (0 : ℝ) < 1 by norm_num)
    filter_upwards [h1] with p hp
    simp only [Real.norm_eq_abs, ContinuousLinearMap.toSpanSingleton_apply, smul_eq_mul, hd] at hp
    have e : tm ll p.1 - tm ll p.2 = (tm ll p.1 - tm ll p.2 - (p.1 - p.2) * -2) + (p.1 - p.2) * -2 := by ring
    have h2 := abs_add_le (tm ll p.1 - tm ll p.2 - (p.1 - p.2) * -2) ((p.1 - p.2) * -2)
    rw [← e, abs_mul (p.1 - p.2) (-2), abs_neg, abs_two] at h2
    linarith
  obtain ⟨η, hη, hsl⟩ := Metric.eventually_nhds_iff_ball.1 hslope
  obtain ⟨κ, hκ⟩ : ∃ κ, κ = min ρ (min η 1) / 4 := ⟨_, rfl⟩
  have hκ0 : 0 < κ := by rw [hκ]; positivity
  have hκρ : 4 * κ ≤ ρ := by rw [hκ]; linarith [min_le_left ρ (min η 1)]
  have hκη : 4 * κ ≤ η := by rw [hκ]; linarith [min_le_right ρ (min η 1), min_le_left η 1]
  have hκ1 : 4 * κ ≤ 1 := by rw [hκ]; linarith [min_le_right ρ (min η 1), min_le_right η 1]
  obtain ⟨g, hg, hgu⟩ := guess_near hl low
  rw [← hm0] at hg hgu hT0 hTpi
  have hroot : ∀ᶠ T in 𝓝 (tm ll 0), ∃ r, |r| < κ ∧ tm ll r = T := by
    have h := hstr.map_nhds_eq (by rw [hd]; norm_num)
    rw [← h]
    refine Filter.mem_map.2 ?_
    filter_upwards [Metric.ball_mem_nhds (0 : ℝ) hκ0] with r hr
    rw [Metric.mem_ball, Real.dist_eq, sub_zero] at hr
    exact ⟨r, hr, rfl⟩
  have hg' := hg.abs
  rw [abs_zero] at hg'
  have hall := hroot.and (hgu.and ((hg'.eventually (gt_mem_nhds hκ0)).and
    ((eventually_gt_nhds hT0).and (eventually_lt_nhds hTpi))))
  obtain ⟨δ, hδ, hb⟩ := Metric.eventually_nhds_iff_ball.1 hall
  refine ⟨U * δ, by positivity, fun atol rtol ha hr n hn tof htof => ?_⟩
  have hmem : tof / U ∈ Metric.ball (tm ll 0) δ := by
    rw [Metric.mem_ball, Real.dist_eq]
    have e : tof / U - tm ll 0 = (tof - leastEnergyTime mu r1 r2 pro 0) / U := by
      rw [hT, hm0]; field_simp
    rw [e, abs_div, abs_of_pos hU, div_lt_iff₀ hU]
    linarith
  obtain ⟨⟨r, hr1, hr2⟩, hge, hgs, hp0, hp1⟩ := hb _ hmem
  have hx0 : |g (tof / U) - r| < 2 * κ := by
    have := abs_sub (g (tof / U)) r
    linarith
  obtain ⟨p, p', hp, hpr, hpr', hacc⟩ := loop_near (T := tof / U) (ll := ll) (r := r) (ρ := 2 * κ) ha hr (fun x hx => by
      rw [← hr2]
      refine hst x r ?_ ?_
      · rw [sub_zero]
        have := abs_sub_abs_le_abs_sub x r
        linarith
      · rw [sub_zero]; linarith) n (g (tof / U)) hx0 (by linarith)
  have hf := findXY_of_guess hl hp0 hp1 hge hp
  obtain ⟨v1, v2, e, -, hs, harc⟩ := (hrun tof low (n + 1) atol rtol).2 _ _ hf
  have hpa : |p| < 3 * κ := by
    have := abs_sub_abs_le_abs_sub p r
    linarith
  have hpa' : |p'| ≤ 1 := by
    have := abs_sub_abs_le_abs_sub p' r
    linarith
  refine ⟨v1, v2, _, e, harc (by linarith [(abs_lt.1 hpa).1]), hs hnp, ?_⟩
  have hsl' := hsl (p, r) (by
    rw [Metric.mem_ball, Prod.dist_eq, max_lt_iff, Real.dist_eq, Real.dist_eq, sub_zero, sub_zero]
    exact ⟨by simp only []; linarith, by simp only []; linarith⟩)
  simp only [] at hsl'
  rw [hr2] at hsl'
  have e2 : U * tm ll p - tof = U * (tm ll p - tof / U) := by field_simp
  rw [e2, abs_mul, abs_of_pos hU, ← hU', mul_comm]
  refine mul_le_mul_of_nonneg_right (hsl'.trans ?_) hU.le
  have := mul_le_mul_of_nonneg_left hpa' hr
  linarith

/-- A quarter turn, the default tolerances and limit. -/
example : ∃ ε : ℝ, 0 < ε ∧ ∀ tof, |tof - leastEnergyTime 1 ⟨1, 0, 0⟩ ⟨0, 1, 0⟩ true 0| < ε → ∃ v1 v2 T,
    izzo2015 1 ⟨1, 0, 0⟩ ⟨0, 1, 0⟩ tof 0 true true 35 1e-5 1e-7 = .ok (v1, v2) ∧
    LambertArc 1 ⟨1, 0, 0⟩ ⟨0, 1, 0⟩ v1 v2 T 0 ∧ Sense true ⟨1, 0, 0⟩ v1 ∧
    |T - tof| ≤ 3 * (1e-7 + 1e-5) * timeUnit 1 ⟨1, 0, 0⟩ ⟨0, 1, 0⟩ := by
  obtain ⟨ε, hε, h⟩ := izzo_near_least_energy_solved one_pos (r1 := ⟨1, 0, 0⟩) (r2 := ⟨0, 1, 0⟩)
    (by simp [NotPolar]) true true
  exact ⟨ε, hε, h 1e-5 1e-7 (by norm_num) (by norm_num) 34 (by norm_num)⟩

end Lamberthub
