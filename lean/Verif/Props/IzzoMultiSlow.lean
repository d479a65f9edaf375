import Verif.Proofs.IzzoMultiSlow
import Verif.Props.IzzoSlow

/-!
# C80 (slow transfers with revolutions): `izzo2015` solves them

The guess for `M ≥ 1` has the right leading term at both ends of `-1 < x < 1`, so the one pass made before the
absolute test accepts is enough, unlike for `M = 0` (C73).
-/

set_option autoImplicit false

namespace Lamberthub
open Filter Topology Spec LC

/-- Period of the orbit through `r` with velocity `v` (negative energy): `2π √(a³/μ)` with `a = μ/(-2E)`. -/
noncomputable def Spec.periodOf (μ : ℝ) (r v : V3) : ℝ :=
  2 * Real.pi * Real.sqrt ((μ / (-2 * energyOf μ r v)) ^ 3 / μ)

namespace Izzo

/-- `izzo2015` in terms of the `x` found by `_find_xy`, for any number of revolutions. -/
theorem run_multi {mu : ℝ} (hmu : 0 < mu) {r1 r2 : V3} (hna : NotAligned r1 r2) (pro : Bool) (M : ℕ) :
    ∃ U ll : ℝ, 0 < U ∧ U = timeUnit mu r1 r2 ∧ ll ^ 2 < 1 ∧
      ∀ (tof : ℝ) (low : Bool) (n : ℕ) (atol rtol : ℝ) x y,
        findXY ll (tof / U) M n atol rtol low = .ok (x, y) → -1 < x → x < 1 →
          ∃ v1 v2, izzo2015 mu r1 r2 tof M pro low n atol rtol = .ok (v1, v2) ∧
            (NotPolar r1 r2 → Sense pro r1 v1) ∧ energyOf mu r1 v1 < 0 ∧
            U * rv ll M x / periodOf mu r1 v1 = rv ll M x * ((1 - x ^ 2) * Real.sqrt (1 - x ^ 2)) / Real.pi ∧
            LambertArc mu r1 r2 v1 v2 (U * rv ll M x) M := by
  obtain ⟨s, ll, it1, it2, hgeo⟩ := geometry_eq hna pro
  obtain ⟨ε, hε, hG, hS, hεl, h1, h2, hsw⟩ := geometry_ok hgeo
  have hs := hS.spos
  have hl := hS.lam_lt
  have hU : 0 < Real.sqrt (s ^ 3 / (2 * mu)) := by positivity
  have hqU : Real.sqrt (2 * mu / s ^ 3) = (Real.sqrt (s ^ 3 / (2 * mu)))⁻¹ := by
    rw [← Real.sqrt_inv, inv_div]
  have hsg : NotPolar r1 r2 → (0 < ll ↔ ShortWay pro r1 r2) := by
    intro hnp
    rw [← hsw hnp]
    exact ⟨fun h => pos_of_mul_pos_left hεl h.le, fun h => pos_of_mul_pos_right hεl h.le⟩
  refine ⟨_, ll, hU, (Der.unit_eq hS).symm, hl, fun tof low n atol rtol x y hxy hx hx1 => ?_⟩
  have hy : computeY x ll = .ok y := by
    have h := hxy
    unfold findXY at h
    simp only [bind_ok, Except.ok.injEq, Prod.mk.injEq] at h
    obtain ⟨_, -, a, -, q, -, m, -, _, -, x0, -, x', -, y', hy', rfl, rfl⟩ := h
    exact hy'
  have hL := computeY_ok hy hl
  have hyy : y = lancY ll x := by rw [computeY] at hy; exact (psqrt_ok.1 hy).2
  have hc := hS.cpos
  have hrho : 0 ≤ 1 - ((V3.norm r1 - V3.norm r2) / V3.norm (r2 - r1)) ^ 2 := by
    rw [div_pow, sub_nonneg, div_le_one (by positivity), sub_norm_sq]
    linarith [(abs_lt.1 (abs_dot_lt hna)).2]
  have hrec : ∃ vr1 vr2 vt1 vt2, reconstruct x y (V3.norm r1) (V3.norm r2) ll (Real.sqrt (mu * s / 2))
      ((V3.norm r1 - V3.norm r2) / V3.norm (r2 - r1))
      (Real.sqrt (1 - ((V3.norm r1 - V3.norm r2) / V3.norm (r2 - r1)) ^ 2)) = .ok (vr1, vr2, vt1, vt2) := by
    simp only [reconstruct]
    rw [pdiv_eq hG.R1.ne', ok_bind, pdiv_eq hG.R2.ne', ok_bind, pdiv_eq hG.R1.ne', ok_bind,
      pdiv_eq hG.R2.ne', ok_bind]
    exact ⟨_, _, _, _, rfl⟩
  obtain ⟨vr1, vr2, vt1, vt2, hrec⟩ := hrec
  obtain ⟨hv1, hv2⟩ := reconstruct_ok hmu hε hG hS hεl hL rfl rfl hrho rfl hrec
  have hV : 0 < s * (y - ll * x) ^ 2 := by have := hL.eta_pos; positivity
  have hw : 0 < 1 - x ^ 2 := by nlinarith
  have hE : energyOf mu r1 (fgV1 mu r1 r2 (Real.sqrt 2 * s * ll) (s * (y - ll * x) ^ 2)) = -mu * (1 - x ^ 2) / s := by
    rw [energyOf, hL.energy hmu hs hG hS.sum]
  refine ⟨fgV1 mu r1 r2 (Real.sqrt 2 * s * ll) (s * (y - ll * x) ^ 2),
    fgV2 mu r1 r2 (Real.sqrt 2 * s * ll) (s * (y - ll * x) ^ 2), ?_, ?_, ?_, ?_, ?_⟩
  · unfold izzo2015
    rw [hgeo]
    simp only [ok_bind]
    rw [pdiv_eq (by positivity), ok_bind, psqrt_eq (by positivity), ok_bind, hqU, mul_comm, ← div_eq_mul_inv,
      hxy, ok_bind, psqrt_eq (by positivity), ok_bind, pdiv_eq hc.ne', ok_bind, psqrt_eq hrho, ok_bind, hrec, ok_bind,
      vdiv_eq hG.R1.ne', ok_bind, vdiv_eq hG.R2.ne', ok_bind, h1, h2, hv1, hv2]
  · intro hnp
    refine sense_of_sign hmu hV hG.hA hnp ?_
    rw [← hsg hnp]
    have hr2p : 0 < Real.sqrt 2 := by positivity
    exact ⟨fun h => pos_of_mul_pos_right h (by positivity), fun h => by positivity⟩
  · rw [hE, neg_mul, neg_div, neg_lt_zero]; positivity
  · have hpi := Real.pi_pos
    rw [periodOf, hE, show mu / (-2 * (-mu * (1 - x ^ 2) / s)) = s / (2 * (1 - x ^ 2)) by field_simp]
    rw [show (s / (2 * (1 - x ^ 2))) ^ 3 / mu = (s ^ 3 / (2 * mu)) * ((1 / (2 * (1 - x ^ 2))) ^ 2 / (1 - x ^ 2)) by
      field_simp]
    rw [Real.sqrt_mul (by positivity), Real.sqrt_div (sq_nonneg (1 / (2 * (1 - x ^ 2)))), Real.sqrt_sq (by positivity)]
    have := Real.sqrt_pos.2 hw
    generalize Real.sqrt (s ^ 3 / (2 * mu)) = U at *
    field_simp
  · obtain ⟨T, hpath, hT⟩ := hL.path hmu hs (M := M) hx (.inr hx1)
    rw [← hS.sum] at hpath
    have e : Real.sqrt (s ^ 3 / (2 * mu)) * rv ll M x = T := by
      rw [rv, ← hyy, ← hT, hqU]; field_simp
    rw [e]
    exact hpath.arc hmu hG

/-- Distance of the guess to the end of the interval. -/
noncomputable def guessU (s : ℝ) (M : ℕ) (T : ℝ) : ℝ :=
  2 * (((1 - s) / 2 + M) * Real.pi / (8 * T)) ^ (2 / 3 : ℝ) / (1 + (((1 - s) / 2 + M) * Real.pi / (8 * T)) ^ (2 / 3 : ℝ))

theorem guess_const_pos {s : ℝ} (hs : s = 1 ∨ s = -1) {M : ℕ} (hM : 1 ≤ M) : 0 < ((1 - s) / 2 + M) * Real.pi := by
  have := Real.pi_pos
  have : (1 : ℝ) ≤ M := by exact_mod_cast hM
  rcases hs with rfl | rfl <;> norm_num <;> positivity

theorem guessU_lim {s : ℝ} (hs : s = 1 ∨ s = -1) {M : ℕ} (hM : 1 ≤ M) : Tendsto (guessU s M) atTop (𝓝[>] 0) := by
  have hc := guess_const_pos hs hM
  unfold guessU
  generalize ((1 - s) / 2 + M) * Real.pi = c at *
  rw [tendsto_nhdsWithin_iff]
  constructor
  · have h1 : Tendsto (fun T : ℝ => c / (8 * T)) atTop (𝓝 0) :=
      tendsto_const_nhds.div_atTop (tendsto_id.const_mul_atTop (by norm_num))
    have h2 := h1.rpow_const (p := (2 / 3 : ℝ)) (.inr (by norm_num))
    rw [Real.zero_rpow (by norm_num)] at h2
    have := (h2.const_mul 2).div (h2.const_add 1) (by norm_num)
    rwa [mul_zero, zero_div] at this
  · filter_upwards [eventually_gt_atTop 0] with T hT
    have : 0 < (c / (8 * T)) ^ (2 / 3 : ℝ) := Real.rpow_pos_of_pos (by positivity) _
    exact Set.mem_Ioi.2 (by positivity)

theorem slowT_guessU {s : ℝ} (hs : s = 1 ∨ s = -1) {M : ℕ} (hM : 1 ≤ M) {T : ℝ} (hT : 0 < T) :
    slowT s M (guessU s M T) = T := by
  have hc := guess_const_pos hs hM
  unfold slowT guessU
  generalize ((1 - s) / 2 + M) * Real.pi = c at *
  have hq : 0 < c / (8 * T) := by positivity
  have hw : 0 < (c / (8 * T)) ^ (2 / 3 : ℝ) := Real.rpow_pos_of_pos hq _
  have hww : (c / (8 * T)) ^ (2 / 3 : ℝ) * Real.sqrt ((c / (8 * T)) ^ (2 / 3 : ℝ)) = c / (8 * T) := by
    rw [Real.sqrt_eq_rpow, ← Real.rpow_mul hq.le, ← Real.rpow_add hq]
    norm_num
  generalize (c / (8 * T)) ^ (2 / 3 : ℝ) = w at *
  have e1 : 2 - 2 * w / (1 + w) = 2 / (1 + w) := by field_simp; ring
  have e2 : 2 * w / (1 + w) = w * (2 / (1 + w)) := by ring
  have hv : 0 < 2 / (1 + w) := by positivity
  rw [e1, e2]
  generalize 2 / (1 + w) = v at *
  have hsv := Real.sqrt_pos.2 hv
  have hsw := Real.sqrt_pos.2 hw
  rw [Real.sqrt_mul hw.le, show w * v * (Real.sqrt w * Real.sqrt v) = (w * Real.sqrt w) * (v * Real.sqrt v) by ring, hww]
  field_simp

theorem guess_multi (ll : ℝ) {M : ℕ} (hM : 1 ≤ M) (low : Bool) :
    ∀ᶠ T in atTop, initialGuess T ll M low =
      .ok ((if low = true then (1 : ℝ) else -1) * (1 - guessU (if low = true then (1 : ℝ) else -1) M T)) := by
  have hpi := Real.pi_pos
  have hM0 : (1 : ℝ) ≤ M := by exact_mod_cast hM
  filter_upwards [(guessU_lim (.inl rfl) hM).eventually (nhdsWithin_le_nhds (gt_mem_nhds (show (0 : ℝ) < 1 by norm_num))),
    (guessU_lim (.inr rfl) hM).eventually (nhdsWithin_le_nhds (gt_mem_nhds (show (0 : ℝ) < 1 by norm_num))),
    eventually_gt_atTop 0] with T h1 h2 hT
  have hl : guessRatio (((M : ℤ) : ℝ) * Real.pi + Real.pi) (8 * T) = .ok (-1 * (1 - guessU (-1) M T)) := by
    have e : ((M : ℤ) : ℝ) * Real.pi + Real.pi = ((1 - -1) / 2 + M) * Real.pi := by push_cast; ring
    rw [guessRatio, pdiv_eq (by positivity), ok_bind, e]
    have hc := guess_const_pos (.inr rfl : (-1 : ℝ) = 1 ∨ (-1 : ℝ) = -1) hM
    unfold guessU
    generalize ((1 - (-1 : ℝ)) / 2 + M) * Real.pi = c at *
    have hq : 0 < c / (8 * T) := by positivity
    rw [prpow, if_pos (Or.inl hq), ok_bind]
    have hw : 0 < (c / (8 * T)) ^ (2 / 3 : ℝ) := Real.rpow_pos_of_pos hq _
    generalize (c / (8 * T)) ^ (2 / 3 : ℝ) = w at *
    rw [pdiv_eq (by positivity)]
    congr 1
    field_simp
    ring
  have hr : guessRatio (8 * T) (((M : ℤ) : ℝ) * Real.pi) = .ok (1 * (1 - guessU 1 M T)) := by
    have e : ((M : ℤ) : ℝ) * Real.pi = ((1 - 1) / 2 + M) * Real.pi := by push_cast; ring
    have hc := guess_const_pos (.inl rfl : (1 : ℝ) = 1 ∨ (1 : ℝ) = -1) hM
    rw [guessRatio, e]
    unfold guessU
    generalize ((1 - (1 : ℝ)) / 2 + M) * Real.pi = c at *
    have hq : 0 < c / (8 * T) := by positivity
    rw [pdiv_eq hc.ne', ok_bind, prpow, if_pos (Or.inl (by positivity)), ok_bind]
    have hw : 0 < (c / (8 * T)) ^ (2 / 3 : ℝ) := Real.rpow_pos_of_pos hq _
    rw [show 8 * T / c = (c / (8 * T))⁻¹ by rw [inv_div], Real.inv_rpow hq.le]
    generalize (c / (8 * T)) ^ (2 / 3 : ℝ) = w at *
    rw [pdiv_eq (by positivity)]
    congr 1
    field_simp
    ring
  rw [initialGuess, if_neg (by exact_mod_cast (by omega : M ≠ 0)), hl, ok_bind, hr, ok_bind]
  have hlt : -1 * (1 - guessU (-1) M T) < 1 * (1 - guessU 1 M T) := by linarith
  cases low
  · rw [if_neg (by decide), if_neg (by decide), min_eq_left hlt.le]
  · rw [if_pos rfl, if_pos rfl, max_eq_right hlt.le]

/-- What `_find_xy` returns for long times with revolutions. -/
theorem findXY_multi_slow {ll : ℝ} (hl : ll ^ 2 < 1) {atol rtol : ℝ} (ha : 0 < atol) (hr : 0 ≤ rtol) {M : ℕ} (hM : 1 ≤ M)
    (low : Bool) {s : ℝ} (hsd : s = if low = true then 1 else -1) :
    ∃ v : ℝ → ℝ, Tendsto v atTop (𝓝[>] 0) ∧ Tendsto (fun T => rv ll M (s * (1 - v T)) - T) atTop (𝓝 0) ∧
      ∃ N : ℕ, ∀ n, N ≤ n → ∀ᶠ T in atTop, ∃ y, findXY ll T M n atol rtol low = .ok (s * (1 - v T), y) := by
  have hs : s = 1 ∨ s = -1 := by rw [hsd]; split <;> simp
  have hsa : |s| = 1 := by rcases hs with rfl | rfl <;> norm_num
  have hl' := abs_lt.1 ((sq_lt_one_iff_abs_lt_one _).1 hl)
  obtain ⟨Z, hZ, hst, hres⟩ := step_multi hl hs hM
  have hu := guessU_lim hs hM
  obtain ⟨N, hN⟩ := refineMMax_large hl ha hr
  have hid : Tendsto (fun u : ℝ => u) (𝓝[>] 0) (𝓝 0) := nhdsWithin_le_nhds
  have hv : Tendsto (fun u : ℝ => u * Z u) (𝓝[>] 0) (𝓝[>] 0) := by
    rw [tendsto_nhdsWithin_iff]
    constructor
    · have := hid.mul hZ
      rwa [zero_mul] at this
    · filter_upwards [self_mem_nhdsWithin, hZ.eventually (lt_mem_nhds one_pos)] with u h1 h2
      exact mul_pos h1 h2
  refine ⟨fun T => guessU s M T * Z (guessU s M T), hv.comp hu, ?_, N + 1, fun n hn => ?_⟩
  · refine (hres.comp hu).congr' ?_
    filter_upwards [eventually_gt_atTop 0] with T hT
    simp only [Function.comp]
    rw [slowT_guessU hs hM hT]
  · have hsm : Tendsto (fun u : ℝ => |s * (1 - u * Z u) - s * (1 - u)|) (𝓝[>] 0) (𝓝 0) := by
      have := ((((hid.mul hZ).const_sub 1).const_mul s).sub ((hid.const_sub 1).const_mul s)).abs
      simpa using this
    have hfl : ∀ᶠ T : ℝ in atTop, (M : ℤ) + 1 ≤ ⌊T / Real.pi⌋ := by
      filter_upwards [eventually_ge_atTop ((M + 1) * Real.pi)] with T hT
      rw [Int.le_floor, le_div_iff₀ Real.pi_pos]; push_cast; linarith
    filter_upwards [hu.eventually hst, hu.eventually (hsm.eventually (gt_mem_nhds ha)),
      hN n (by omega) (Real.arccos ll + ll * Real.sqrt (1 - ll ^ 2)), hfl, guess_multi ll hM low,
      eventually_gt_atTop 0] with T h1 h2 ⟨m, _, hmf, hm⟩ hf hg hT
    rw [← hsd] at hg
    rw [slowT_guessU hs hM hT] at h1
    obtain ⟨n, rfl⟩ : ∃ j, n = j + 1 := ⟨n - 1, by omega⟩
    refine ⟨lancY ll (s * (1 - guessU s M T * Z (guessU s M T))), ?_⟩
    unfold findXY
    rw [raiseIf_neg _ (not_not.2 (abs_lt.2 hl')), ok_bind, pacos, if_pos ⟨hl'.1.le, hl'.2.le⟩, ok_bind,
      psqrt_eq (by linarith), ok_bind]
    simp only []
    rw [hm, ok_bind, raiseIf_neg _ (by omega), ok_bind, hg, ok_bind, householder, h1, ok_bind, if_pos, ok_bind,
      computeY_lancY hl]
    · rfl
    · have := mul_nonneg hr (abs_nonneg (s * (1 - guessU s M T)))
      linarith

end Izzo

open Izzo

/-- **C80.**  For every geometry, every number of revolutions `M ≥ 1`, both branches and all tolerances
`atol > 0`, `rtol ≥ 0`: from some flight time on, `izzo2015` returns a transfer with exactly `M` revolutions, the
sense requested and a flight time that differs from the one requested by as little as one wishes; with
`low_path` the transfer takes nearly `M` periods of its orbit, otherwise nearly `M + 1`. -/
theorem izzo_multi_slow_solved {mu : ℝ} (hmu : 0 < mu) {r1 r2 : V3} (hnp : NotPolar r1 r2) (pro low : Bool)
    {atol rtol : ℝ} (ha : 0 < atol) (hr : 0 ≤ rtol) {M : ℕ} (hM : 1 ≤ M) :
    ∃ N : ℕ, ∀ n, N ≤ n → ∀ ε > 0, ∀ᶠ tof in atTop, ∃ v1 v2 T',
      izzo2015 mu r1 r2 tof M pro low n atol rtol = .ok (v1, v2) ∧ LambertArc mu r1 r2 v1 v2 T' M ∧
      Sense pro r1 v1 ∧ |T' - tof| < ε ∧ energyOf mu r1 v1 < 0 ∧
      |T' / periodOf mu r1 v1 - (if low = true then (M : ℝ) else M + 1)| < ε := by
  have hna : NotAligned r1 r2 := fun h => hnp h.2.2
  obtain ⟨U, ll, hU, -, hl, hrun⟩ := run_multi hmu hna pro M
  obtain ⟨s, hsd⟩ : ∃ s : ℝ, s = if low = true then 1 else -1 := ⟨_, rfl⟩
  have hs : s = 1 ∨ s = -1 := by rw [hsd]; split <;> simp
  obtain ⟨v, hv, hres, N, hN⟩ := findXY_multi_slow hl ha hr hM low hsd
  have hdiv : Tendsto (fun tof : ℝ => tof / U) atTop atTop := tendsto_id.atTop_div_const hU
  have hper : Tendsto (fun w => rv ll M (s * (1 - w)) * ((1 - (s * (1 - w)) ^ 2) * Real.sqrt (1 - (s * (1 - w)) ^ 2)) / Real.pi)
      (𝓝[>] 0) (𝓝 (if low = true then (M : ℝ) else M + 1)) := by
    have hid : Tendsto (fun u : ℝ => u) (𝓝[>] 0) (𝓝 0) := nhdsWithin_le_nhds
    have h2 : Tendsto (fun w : ℝ => 2 - w) (𝓝[>] 0) (𝓝 2) := by
      have := hid.const_sub 2
      rwa [sub_zero] at this
    have := ((rv_end_lim hl hs M).mul (h2.mul ((Real.continuous_sqrt.tendsto _).comp h2))).div_const Real.pi
    have e : endC s M * (2 * Real.sqrt 2) / Real.pi = if low = true then (M : ℝ) else M + 1 := by
      have hpi := Real.pi_pos
      have h2 : 0 < Real.sqrt 2 := by positivity
      rw [endC, hsd]
      cases low
      · rw [if_neg (by decide), if_neg (by decide)]; field_simp; ring
      · rw [if_pos rfl, if_pos rfl]; field_simp; ring
    rw [e] at this
    refine this.congr' ?_
    filter_upwards [self_mem_nhdsWithin] with w hw
    have hw' : 0 < w := hw
    have e2 : 1 - (s * (1 - w)) ^ 2 = w * (2 - w) := by rcases hs with rfl | rfl <;> ring
    simp only [Function.comp]
    rw [e2, Real.sqrt_mul hw'.le]
    ring
  refine ⟨N, fun n hn ε hε => ?_⟩
  have hlt : ∀ᶠ w in 𝓝[>] (0 : ℝ), w < 1 := nhdsWithin_le_nhds (gt_mem_nhds one_pos)
  have hd := (Metric.tendsto_nhds.1 (hres.comp hdiv) (ε / U) (by positivity))
  have hp := hdiv.eventually (hv.eventually (Metric.tendsto_nhds.1 hper ε hε))
  filter_upwards [hdiv.eventually (hN n hn), hdiv.eventually (hv.eventually self_mem_nhdsWithin),
    hdiv.eventually (hv.eventually hlt), hd, hp] with tof ⟨y, hy⟩ h1 h2 h3 h4
  have h1' : 0 < v (tof / U) := h1
  obtain ⟨v1, v2, e, hsn, hE, hP, harc⟩ := hrun tof low n atol rtol _ _ hy
    (by rcases hs with rfl | rfl <;> linarith) (by rcases hs with rfl | rfl <;> linarith)
  refine ⟨v1, v2, _, e, harc, hsn hnp, ?_, hE, ?_⟩
  · simp only [Function.comp, Real.dist_eq, sub_zero] at h3
    have e3 : U * rv ll M (s * (1 - v (tof / U))) - tof = U * (rv ll M (s * (1 - v (tof / U))) - tof / U) := by field_simp
    rw [e3, abs_mul, abs_of_pos hU]
    calc _ < U * (ε / U) := mul_lt_mul_of_pos_left h3 hU
      _ = ε := by field_simp
  · rw [hP]
    rwa [Real.dist_eq] at h4

/-- Two complete revolutions around a quarter turn, default tolerances. -/
example : ∃ N : ℕ, ∀ n, N ≤ n → ∀ ε > 0, ∀ᶠ tof in atTop, ∃ v1 v2 T',
    izzo2015 1 ⟨1, 0, 0⟩ ⟨0, 1, 0⟩ tof (2 : ℕ) true false n 1e-5 1e-7 = .ok (v1, v2) ∧
    LambertArc 1 ⟨1, 0, 0⟩ ⟨0, 1, 0⟩ v1 v2 T' 2 ∧ Sense true ⟨1, 0, 0⟩ v1 ∧ |T' - tof| < ε ∧
    energyOf 1 ⟨1, 0, 0⟩ v1 < 0 ∧ |T' / periodOf 1 ⟨1, 0, 0⟩ v1 - 3| < ε := by
  obtain ⟨N, h⟩ := izzo_multi_slow_solved one_pos (r1 := ⟨1, 0, 0⟩) (r2 := ⟨0, 1, 0⟩) (by simp [NotPolar]) true false
    (atol := 1e-5) (rtol := 1e-7) (by norm_num) (by norm_num) (M := 2) (by norm_num)
  refine ⟨N, fun n hn ε hε => (h n hn ε hε).mono ?_⟩
  rintro tof ⟨v1, v2, T', h1, h2, h3, h4, h5, h6⟩
  refine ⟨v1, v2, T', h1, h2, h3, h4, h5, ?_⟩
  rw [if_neg (by decide)] at h6
  norm_num at h6
  exact h6

end Lamberthub
