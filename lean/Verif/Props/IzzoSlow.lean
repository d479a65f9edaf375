import Verif.Proofs.IzzoHalley
import Verif.Props.JiangFast

/-!
# C73 (slow transfers): `izzo2015` stops after one pass with a wrong flight time

The convergence test of `_householder` compares two successive values of `x` with an absolute tolerance,
but on slow transfers `x` is so close to `-1` that any two values pass it.
-/

set_option autoImplicit false

namespace Lamberthub
open Filter Topology Spec LC

/-- Time of the least-energy transfer over `π/2^(3/2)` units of time. -/
noncomputable def Spec.slowK (μ : ℝ) (r1 r2 : V3) (pro : Bool) : ℝ :=
  leastEnergyTime μ r1 r2 pro 0 / (timeUnit μ r1 r2 * (Real.pi / Real.sqrt 2 / 2))

/-- Factor by which the first pass multiplies `1 + x`. -/
noncomputable def Spec.slowFactor (k : ℝ) : ℝ := (5 * k ^ 2 + 44 * k + 5) / (35 * k ^ 2 + 20 * k - 1)

/-- Limit of the flight time obtained over the flight time requested. -/
noncomputable def Spec.slowRatio (k : ℝ) : ℝ := 1 / (k * (slowFactor k * Real.sqrt (slowFactor k)))

/-- The ratio is below one except for `k = 1`. -/
theorem slowRatio_lt_one {k : ℝ} (hk : 0 < k) (hD : 0 < 35 * k ^ 2 + 20 * k - 1) (h1 : k ≠ 1) :
    0 < slowRatio k ∧ slowRatio k < 1 := by
  have hN : 0 < 5 * k ^ 2 + 44 * k + 5 := by positivity
  have hρ : 0 < slowFactor k := div_pos hN hD
  have hs := Real.sqrt_pos.2 hρ
  have hp : 0 < k * (slowFactor k * Real.sqrt (slowFactor k)) := by positivity
  refine ⟨div_pos one_pos hp, ?_⟩
  rw [slowRatio, div_lt_one hp]
  have hsq : (k * (slowFactor k * Real.sqrt (slowFactor k))) ^ 2 = k ^ 2 * slowFactor k ^ 3 := by
    rw [mul_pow, mul_pow, Real.sq_sqrt hρ.le]; ring
  have h4 : 0 < (k - 1) ^ 4 := by have := sub_ne_zero.2 h1; positivity
  have hQ : 0 < 125 * k ^ 4 + 3800 * k ^ 3 + 990 * k ^ 2 - 56 * k + 1 := by
    have : 0 < 990 * k ^ 2 - 56 * k + 1 := by nlinarith [sq_nonneg (990 * k - 28)]
    have h3 : 0 < k ^ 3 := by positivity
    have h4 : 0 < k ^ 4 := by positivity
    linarith
  have h5 : (1 : ℝ) < k ^ 2 * slowFactor k ^ 3 := by
    rw [slowFactor, div_pow, ← mul_div_assoc, one_lt_div (by positivity)]
    nlinarith [mul_pos h4 hQ]
  by_contra h
  rw [← hsq] at h5
  nlinarith [not_lt.1 h]

namespace Izzo

theorem refineMMax_large {ll : ℝ} (hl : ll ^ 2 < 1) {atol rtol : ℝ} (ha : 0 < atol) (hr : 0 ≤ rtol) :
    ∃ N : ℕ, ∀ n, N ≤ n → ∀ T00, ∀ᶠ T in atTop, ∃ m : ℤ,
      0 ≤ m ∧ ⌊T / Real.pi⌋ - 1 ≤ m ∧ refineMMax ll T T00 n atol rtol = .ok m := by
  obtain ⟨N, hN⟩ := halley_large hl ha hr
  refine ⟨N, fun n hn T00 => ?_⟩
  have hL := lanc_lancY hl 0.1
  have hM : Tendsto (fun M : ℕ => lancT ll 0.1 (lancY ll 0.1) M) atTop atTop := by
    have e : (fun M : ℕ => lancT ll 0.1 (lancY ll 0.1) M) = fun M : ℕ =>
        (Real.pi / (Real.sqrt (1 - 0.1 ^ 2) * (1 - 0.1 ^ 2))) * (M : ℝ) + lancT ll 0.1 (lancY ll 0.1) 0 := by
      funext M
      have h9 : (0 : ℝ) < 1 - 0.1 ^ 2 := by norm_num
      have hs := Real.sqrt_pos.2 h9
      rw [lancT, lancT, if_pos (by norm_num), if_pos (by norm_num)]
      generalize (1 : ℝ) - 0.1 ^ 2 = w at *
      push_cast
      field_simp
      ring
    rw [e]
    refine tendsto_atTop_add_const_right _ _ (tendsto_natCast_atTop_atTop.const_mul_atTop ?_)
    have := Real.pi_pos
    have h9 : (0 : ℝ) < 1 - 0.1 ^ 2 := by norm_num
    have hs := Real.sqrt_pos.2 h9
    positivity
  have hF : Tendsto (fun T : ℝ => ⌊T / Real.pi⌋.toNat) atTop atTop := by
    have : (fun T : ℝ => ⌊T / Real.pi⌋.toNat) = fun T : ℝ => ⌊T / Real.pi⌋₊ := by
      funext T; exact Int.floor_toNat _
    rw [this]
    exact tendsto_nat_floor_atTop.comp (tendsto_id.atTop_div_const Real.pi_pos)
  filter_upwards [(hM.comp hF).eventually (hN n hn), eventually_ge_atTop Real.pi] with T ⟨x, hx, hx1⟩ hT
  have hfl : 1 ≤ ⌊T / Real.pi⌋ := by
    rw [Int.le_floor, le_div_iff₀ Real.pi_pos]; push_cast; linarith
  obtain ⟨m, hm⟩ : ∃ m : ℕ, ⌊T / Real.pi⌋ = (m : ℤ) := ⟨⌊T / Real.pi⌋.toNat, by omega⟩
  have hm1 : 1 ≤ m := by omega
  simp only [Function.comp, hm, Int.toNat_natCast] at hx
  unfold refineMMax
  rw [hm]
  split
  · have hx' := abs_le.1 hx1
    have hl' := abs_lt.1 ((sq_lt_one_iff_abs_lt_one _).1 hl)
    rw [computeTMin, if_neg (by linarith [hl'.2]), if_neg (by omega), tofEquation, computeY_lancY hl, ok_bind,
      tofEquationY_eq hL (by norm_num) (.inr (by norm_num)), ok_bind, sub_zero, hx, ok_bind, tofEquation,
      computeY_lancY hl, ok_bind, tofEquationY_eq (lanc_lancY hl x) (by linarith) (.inr (by linarith)), ok_bind]
    exact ⟨_, by split <;> omega, by split <;> omega, rfl⟩
  · exact ⟨_, by omega, by omega, rfl⟩

theorem guess_slow {ll T : ℝ} (hl : ll ^ 2 < 1) (low : Bool)
    (hT : Real.arccos ll + ll * Real.sqrt (1 - ll ^ 2) ≤ T) :
    initialGuess T ll 0 low = .ok (((Real.arccos ll + ll * Real.sqrt (1 - ll ^ 2)) / T) ^ (2 / 3 : ℝ) - 1) := by
  have hl' := abs_lt.1 ((sq_lt_one_iff_abs_lt_one _).1 hl)
  have hT0 := (T00_bounds hl).1
  unfold initialGuess initialGuess0
  rw [if_pos rfl, pacos, if_pos ⟨hl'.1.le, hl'.2.le⟩, ok_bind, psqrt_eq (by linarith), ok_bind]
  have e : Real.arccos ll + ll * Real.sqrt (1 - ll ^ 2) + ((0 : ℤ) : ℝ) * Real.pi =
    Real.arccos ll + ll * Real.sqrt (1 - ll ^ 2) := by push_cast; ring
  simp only [e]
  generalize Real.arccos ll + ll * Real.sqrt (1 - ll ^ 2) = T0 at *
  have hTp : 0 < T := by linarith
  rw [if_pos hT, pdiv_eq hTp.ne', ok_bind, prpow, if_pos (Or.inl (by positivity)), ok_bind]

/-- What `_find_xy` returns for long times. -/
theorem findXY_slow {ll : ℝ} (hl : ll ^ 2 < 1) {atol rtol : ℝ} (ha : 0 < atol) (hr : 0 ≤ rtol) {k : ℝ}
    (hk : k = (Real.arccos ll + ll * Real.sqrt (1 - ll ^ 2)) / slowC) (hD : 35 * k ^ 2 + 20 * k - 1 ≠ 0) :
    ∃ u Z : ℝ → ℝ, Tendsto u atTop (𝓝[>] 0) ∧ Tendsto Z atTop (𝓝 (slowFactor k)) ∧
      (∀ᶠ T in atTop, T = k * slowC / (u T * Real.sqrt (u T))) ∧
      ∃ N : ℕ, ∀ n, N ≤ n → ∀ᶠ T in atTop, ∀ low, ∃ y, findXY ll T 0 n atol rtol low = .ok (u T * Z T - 1, y) := by
  have hT0 := (T00_bounds hl).1
  have hl' := abs_lt.1 ((sq_lt_one_iff_abs_lt_one _).1 hl)
  set T0 := Real.arccos ll + ll * Real.sqrt (1 - ll ^ 2) with hT0d
  obtain ⟨u, hu⟩ : ∃ u : ℝ → ℝ, u = fun T => (T0 / T) ^ (2 / 3 : ℝ) := ⟨_, rfl⟩
  have hu0 : Tendsto u atTop (𝓝[>] 0) := by
    rw [tendsto_nhdsWithin_iff]
    constructor
    · have h1 : Tendsto (fun T : ℝ => T0 / T) atTop (𝓝 0) := tendsto_const_nhds.div_atTop tendsto_id
      have h2 := h1.rpow_const (p := (2 / 3 : ℝ)) (.inr (by norm_num))
      rw [Real.zero_rpow (by norm_num)] at h2
      rw [hu]; exact h2
    · filter_upwards [eventually_gt_atTop 0] with T hT
      rw [hu]; exact Real.rpow_pos_of_pos (by positivity) _
  have huT : ∀ T, 0 < T → T = T0 / (u T * Real.sqrt (u T)) := by
    intro T hT
    have hq : 0 < T0 / T := by positivity
    have : u T * Real.sqrt (u T) = T0 / T := by
      rw [hu]
      simp only []
      rw [Real.sqrt_eq_rpow, ← Real.rpow_mul hq.le, ← Real.rpow_add hq]
      norm_num
    rw [this]; field_simp
  have hkC : k * slowC = T0 := by rw [hk, div_mul_cancel₀ _ slowC_pos.ne']
  obtain ⟨Z, hZ, hst⟩ := step_slow (τ := T0) hl (by rw [← hk]; exact hD)
  rw [← hk] at hZ
  obtain ⟨N, hN⟩ := refineMMax_large hl ha hr
  refine ⟨u, Z ∘ u, hu0, hZ.comp hu0, ?_, N + 1, fun n hn => ?_⟩
  · filter_upwards [eventually_gt_atTop 0] with T hT
    rw [hkC]; exact huT T hT
  · have hsm : Tendsto (fun v : ℝ => v * Z v - 1 - (v - 1)) (𝓝[>] 0) (𝓝 0) := by
      have hid : Tendsto (fun v : ℝ => v) (𝓝[>] 0) (𝓝 0) := nhdsWithin_le_nhds
      have := ((hid.mul hZ).sub_const 1).sub (hid.sub_const 1)
      simpa using this
    have hsm' := hsm.abs
    rw [abs_zero] at hsm'
    filter_upwards [hu0.eventually hst, hu0.eventually (hsm'.eventually (gt_mem_nhds ha)), hN n (by omega) T0,
      eventually_ge_atTop T0] with T h1 h2 ⟨m, hm0, _, hm⟩ hT low
    have hTp : 0 < T := by linarith
    obtain ⟨n, rfl⟩ : ∃ j, n = j + 1 := ⟨n - 1, by omega⟩
    rw [← huT T hTp] at h1
    refine ⟨lancY ll (u T * Z (u T) - 1), ?_⟩
    unfold findXY
    rw [raiseIf_neg _ (not_not.2 (abs_lt.2 hl')), ok_bind, pacos, if_pos ⟨hl'.1.le, hl'.2.le⟩, ok_bind,
      psqrt_eq (by linarith), ok_bind]
    simp only [← hT0d]
    have hg := guess_slow hl low (T := T) hT
    rw [← hT0d, show (T0 / T) ^ (2 / 3 : ℝ) = u T by rw [hu]] at hg
    rw [hm, ok_bind, raiseIf_neg _ (by omega), ok_bind, hg, ok_bind, householder, h1, ok_bind, if_pos, ok_bind,
      computeY_lancY hl]
    · rfl
    · have := mul_nonneg hr (abs_nonneg (u T - 1))
      linarith

end Izzo

open Izzo

theorem Spec.slowK_eq {mu U ll : ℝ} {r1 r2 : V3} {pro : Bool} (hU : 0 < U) (hU' : U = timeUnit mu r1 r2)
    (h : leastEnergyTime mu r1 r2 pro 0 = U * (Real.arccos ll + ll * Real.sqrt (1 - ll ^ 2))) :
    slowK mu r1 r2 pro = (Real.arccos ll + ll * Real.sqrt (1 - ll ^ 2)) / slowC := by
  have := slowC_pos
  rw [slowK, h, ← hU', show Real.pi / Real.sqrt 2 / 2 = slowC from rfl, mul_div_mul_left _ _ hU.ne']

/-- **C73, slow transfers.**  For every geometry with `35 k² + 20 k > 1` and all tolerances: as the flight time
requested grows, `izzo2015` returns a transfer whose flight time over the one requested tends to
`slowRatio k`. -/
theorem izzo_slow_ratio {mu : ℝ} (hmu : 0 < mu) {r1 r2 : V3} (hnp : NotPolar r1 r2) (pro low : Bool) {atol rtol : ℝ}
    (ha : 0 < atol) (hr : 0 ≤ rtol)
    (hk : 0 < 35 * slowK mu r1 r2 pro ^ 2 + 20 * slowK mu r1 r2 pro - 1) :
    ∃ N : ℕ, ∀ n, N ≤ n → ∃ (w1 w2 : ℝ → V3) (T' : ℝ → ℝ),
      Tendsto (fun tof => T' tof / tof) atTop (𝓝 (slowRatio (slowK mu r1 r2 pro))) ∧
      ∀ᶠ tof in atTop, izzo2015 mu r1 r2 tof 0 pro low n atol rtol = .ok (w1 tof, w2 tof) ∧
        LambertArc mu r1 r2 (w1 tof) (w2 tof) (T' tof) 0 ∧ Sense pro r1 (w1 tof) := by
  have hna : NotAligned r1 r2 := fun h => hnp h.2.2
  obtain ⟨U, ll, hU, hU', hl, h0, hle, hrun⟩ := run_zero hmu hna pro
  have hke := slowK_eq hU hU' (hle hnp).2.1
  have hT0 := (T00_bounds hl).1
  set k := slowK mu r1 r2 pro with hkd
  have hkp : 0 < k := by rw [hke]; exact div_pos hT0 slowC_pos
  have hρ : 0 < slowFactor k := div_pos (by positivity) hk
  obtain ⟨u, Z, hu, hZ, hT, N, hN⟩ := findXY_slow hl ha hr hke hk.ne'
  have hdiv : Tendsto (fun tof : ℝ => tof / U) atTop atTop := tendsto_id.atTop_div_const hU
  have hlim : Tendsto (fun T => tm ll (u T * Z T - 1) / T) atTop (𝓝 (slowRatio k)) := by
    have ha0 : Tendsto (fun T => u T * Z T) atTop (𝓝[>] 0) := by
      rw [tendsto_nhdsWithin_iff]
      constructor
      · have := (hu.mono_right nhdsWithin_le_nhds).mul hZ
        rwa [zero_mul] at this
      · filter_upwards [hu.eventually self_mem_nhdsWithin, hZ.eventually (lt_mem_nhds hρ)] with T h1 h2
        exact mul_pos h1 h2
    have h1 := (tm_slow hl).comp ha0
    have h2 : Tendsto (fun T => k * slowC * (Z T * Real.sqrt (Z T))) atTop
        (𝓝 (k * slowC * (slowFactor k * Real.sqrt (slowFactor k)))) :=
      (hZ.mul ((Real.continuous_sqrt.tendsto _).comp hZ)).const_mul _
    have hsC := slowC_pos
    have hsq := Real.sqrt_pos.2 hρ
    have h3 := h1.div h2 (by positivity)
    have e : slowC / (k * slowC * (slowFactor k * Real.sqrt (slowFactor k))) = slowRatio k := by
      rw [slowRatio]; field_simp
    rw [e] at h3
    refine h3.congr' ?_
    filter_upwards [hT, hu.eventually self_mem_nhdsWithin, hZ.eventually (lt_mem_nhds hρ)] with T e1 h1 h2
    have h1' : 0 < u T := h1
    have s1 := Real.sqrt_pos.2 h1'
    have s2 := Real.sqrt_pos.2 h2
    simp only [Function.comp, Pi.div_apply]
    rw [Real.sqrt_mul h1'.le]
    generalize tm ll (u T * Z T - 1) = f
    rw [show f / T = f / (k * slowC / (u T * Real.sqrt (u T))) by rw [← e1]]
    field_simp
  refine ⟨N, fun n hn => ?_⟩
  obtain ⟨T', hT'⟩ : ∃ T' : ℝ → ℝ, T' = fun tof => U * tm ll (u (tof / U) * Z (tof / U) - 1) := ⟨_, rfl⟩
  have hev : ∀ᶠ tof in atTop, ∃ v : V3 × V3, izzo2015 mu r1 r2 tof 0 pro low n atol rtol = .ok v ∧
      LambertArc mu r1 r2 v.1 v.2 (T' tof) 0 ∧ Sense pro r1 v.1 := by
    filter_upwards [hdiv.eventually (hN n hn), hdiv.eventually (hu.eventually self_mem_nhdsWithin),
      hdiv.eventually (hZ.eventually (lt_mem_nhds hρ))] with tof h1 h2 h3
    obtain ⟨y, hy⟩ := h1 low
    obtain ⟨v1, v2, e, -, hs, harc⟩ := (hrun tof low n atol rtol).2 _ _ hy
    refine ⟨(v1, v2), e, ?_, hs hnp⟩
    rw [hT']
    exact harc (by have := mul_pos (show 0 < u (tof / U) from h2) h3; linarith)
  have hch : ∃ w : ℝ → V3 × V3, ∀ᶠ tof in atTop, izzo2015 mu r1 r2 tof 0 pro low n atol rtol = .ok (w tof) ∧
      LambertArc mu r1 r2 (w tof).1 (w tof).2 (T' tof) 0 ∧ Sense pro r1 (w tof).1 := by
    classical
    refine ⟨fun tof => if h : ∃ v : V3 × V3, izzo2015 mu r1 r2 tof 0 pro low n atol rtol = .ok v ∧
      LambertArc mu r1 r2 v.1 v.2 (T' tof) 0 ∧ Sense pro r1 v.1 then h.choose else (r1, r1), ?_⟩
    filter_upwards [hev] with tof h
    rw [dif_pos h]
    exact h.choose_spec
  obtain ⟨w, hw⟩ := hch
  refine ⟨fun t => (w t).1, fun t => (w t).2, T', ?_, hw⟩
  refine (hlim.comp hdiv).congr' ?_
  filter_upwards [eventually_gt_atTop 0] with tof h
  rw [hT']
  simp only [Function.comp]
  field_simp

/-- **Finding (C73).**  Unless `k = 1`, the difference between the flight time requested and the one obtained
grows without bound, for all tolerances and iteration limits above some number. -/
theorem izzo_slow_wrong {mu : ℝ} (hmu : 0 < mu) {r1 r2 : V3} (hnp : NotPolar r1 r2) (pro low : Bool) {atol rtol : ℝ}
    (ha : 0 < atol) (hr : 0 ≤ rtol)
    (hk : 0 < 35 * slowK mu r1 r2 pro ^ 2 + 20 * slowK mu r1 r2 pro - 1) (hk1 : slowK mu r1 r2 pro ≠ 1) :
    ∃ N : ℕ, ∀ n, N ≤ n → ∀ B : ℝ, ∀ᶠ tof in atTop, ∃ v1 v2 T',
      izzo2015 mu r1 r2 tof 0 pro low n atol rtol = .ok (v1, v2) ∧ LambertArc mu r1 r2 v1 v2 T' 0 ∧ T' < tof - B ∧
      ¬ LambertArc mu r1 r2 v1 v2 tof 0 := by
  have hna : NotAligned r1 r2 := fun h => hnp h.2.2
  have hkp : 0 < slowK mu r1 r2 pro := by
    obtain ⟨U, ll, hU, hU', hl, h0, hle, hrun⟩ := run_zero hmu hna pro
    rw [slowK_eq hU hU' (hle hnp).2.1]
    exact div_pos (T00_bounds hl).1 slowC_pos
  obtain ⟨N, hN⟩ := izzo_slow_ratio hmu hnp pro low ha hr hk
  obtain ⟨hr0, hr1⟩ := slowRatio_lt_one hkp hk hk1
  refine ⟨N, fun n hn B => ?_⟩
  obtain ⟨w1, w2, T', hlim, hev⟩ := hN n hn
  have hmid : slowRatio (slowK mu r1 r2 pro) < (1 + slowRatio (slowK mu r1 r2 pro)) / 2 := by linarith
  filter_upwards [hev, hlim.eventually (gt_mem_nhds hmid), eventually_gt_atTop 0,
    eventually_gt_atTop (2 * max B 0 / (1 - slowRatio (slowK mu r1 r2 pro)))] with tof ⟨e, harc, hs⟩ h1 h2 h3
  rw [div_lt_iff₀ h2] at h1
  rw [div_lt_iff₀ (by linarith)] at h3
  have hlt : T' tof < tof - max B 0 := by nlinarith
  refine ⟨w1 tof, w2 tof, T' tof, e, harc, by linarith [le_max_left B 0], fun h => ?_⟩
  have := arc_time_unique hmu hna harc h
  linarith [le_max_right B 0]

/-- **Finding (C73).**  For short transfers (`35 k² + 20 k < 1`) the first pass leaves the domain of the time
equation and the test accepts it: for all long times `izzo2015` returns a hyperbola, which is not a solution. -/
theorem izzo_slow_hyperbola {mu : ℝ} (hmu : 0 < mu) {r1 r2 : V3} (hnp : NotPolar r1 r2) (pro low : Bool)
    {atol rtol : ℝ} (ha : 0 < atol) (hr : 0 ≤ rtol)
    (hk : 35 * slowK mu r1 r2 pro ^ 2 + 20 * slowK mu r1 r2 pro - 1 < 0) :
    ∃ N : ℕ, ∀ n, N ≤ n → ∀ᶠ tof in atTop, ∃ v1 v2, izzo2015 mu r1 r2 tof 0 pro low n atol rtol = .ok (v1, v2) ∧
      0 < energyOf mu r1 v1 ∧ ¬ LambertArc mu r1 r2 v1 v2 tof 0 := by
  have hna : NotAligned r1 r2 := fun h => hnp h.2.2
  obtain ⟨U, ll, hU, hU', hl, h0, hle, hrun⟩ := run_zero hmu hna pro
  have hke := slowK_eq hU hU' (hle hnp).2.1
  have hT0 := (T00_bounds hl).1
  set k := slowK mu r1 r2 pro with hkd
  have hkp : 0 < k := by rw [hke]; exact div_pos hT0 slowC_pos
  have hρ : slowFactor k < 0 := div_neg_of_pos_of_neg (by positivity) hk
  obtain ⟨u, Z, hu, hZ, hT, N, hN⟩ := findXY_slow hl ha hr hke hk.ne
  have hdiv : Tendsto (fun tof : ℝ => tof / U) atTop atTop := tendsto_id.atTop_div_const hU
  refine ⟨N, fun n hn => ?_⟩
  filter_upwards [hdiv.eventually (hN n hn), hdiv.eventually (hu.eventually self_mem_nhdsWithin),
    hdiv.eventually (hZ.eventually (gt_mem_nhds hρ)), eventually_gt_atTop (parabolicTime mu r1 r2 pro)]
    with tof h1 h2 h3 h4
  obtain ⟨y, hy⟩ := h1 low
  obtain ⟨v1, v2, e, hen, hs, -⟩ := (hrun tof low n atol rtol).2 _ _ hy
  have hx : u (tof / U) * Z (tof / U) < 0 := mul_neg_of_pos_of_neg h2 h3
  have hsp : 0 < semiPerimeter r1 r2 := by
    have h1 := norm_pos_of_notAligned_left hna
    have h2 := norm_nonneg r2
    have h3 := norm_nonneg (r2 - r1)
    rw [semiPerimeter_eq]; linarith
  have hE : 0 < energyOf mu r1 v1 := by
    rw [hen]
    refine div_pos (mul_pos ?_ hmu) hsp
    nlinarith
  refine ⟨v1, v2, e, hE, fun h => ?_⟩
  have := ((conic_of_time hmu hnp h (hs hnp)).1 rfl).1.2 h4
  linarith

/-- `k` for a transfer of more than half a turn. -/
theorem slowK_long_way {mu : ℝ} (hmu : 0 < mu) {r1 r2 : V3} (hnp : NotPolar r1 r2) {pro : Bool}
    (hs : ¬ ShortWay pro r1 r2) : Real.sqrt 2 ≤ slowK mu r1 r2 pro := by
  have hna : NotAligned r1 r2 := fun h => hnp h.2.2
  obtain ⟨U, ll, hU, hU', hl, h0, hle, -⟩ := run_zero hmu hna pro
  obtain ⟨hsg, hT, -⟩ := hle hnp
  rw [slowK_eq hU hU' hT, le_div_iff₀ slowC_pos]
  have hneg : ll < 0 := lt_of_le_of_ne (not_lt.1 fun h => hs (hsg.1 h)) h0
  have hl' := abs_lt.1 ((sq_lt_one_iff_abs_lt_one _).1 hl)
  have e : Real.sqrt 2 * slowC = Real.pi / 2 := by
    rw [slowC]; field_simp
  rw [e, Real.arccos_eq_pi_div_two_sub_arcsin]
  have h1 : Real.arcsin ll ≤ ll := by
    have := Real.sin_le (x := -Real.arcsin ll) (by rw [neg_nonneg]; exact Real.arcsin_nonpos.2 hneg.le)
    rw [Real.sin_neg, Real.sin_arcsin hl'.1.le hl'.2.le] at this
    linarith
  have h2 : Real.sqrt (1 - ll ^ 2) ≤ 1 := by
    rw [Real.sqrt_le_one]; nlinarith [sq_nonneg ll]
  nlinarith

/-- **Finding (C73).**  In particular for every transfer of more than half a turn. -/
theorem izzo_slow_wrong_long_way {mu : ℝ} (hmu : 0 < mu) {r1 r2 : V3} (hnp : NotPolar r1 r2) {pro : Bool} (low : Bool)
    (hs : ¬ ShortWay pro r1 r2) {atol rtol : ℝ} (ha : 0 < atol) (hr : 0 ≤ rtol) :
    ∃ N : ℕ, ∀ n, N ≤ n → ∀ B : ℝ, ∀ᶠ tof in atTop, ∃ v1 v2 T',
      izzo2015 mu r1 r2 tof 0 pro low n atol rtol = .ok (v1, v2) ∧ LambertArc mu r1 r2 v1 v2 T' 0 ∧ T' < tof - B ∧
      ¬ LambertArc mu r1 r2 v1 v2 tof 0 := by
  have hk := slowK_long_way hmu hnp hs
  have h1 : (1 : ℝ) < slowK mu r1 r2 pro := lt_of_lt_of_le (by rw [Real.lt_sqrt] <;> norm_num) hk
  exact izzo_slow_wrong hmu hnp pro low ha hr (by nlinarith) h1.ne'

/-- A quarter turn taken the long way. -/
example : ∃ N : ℕ, ∀ n, N ≤ n → ∀ B : ℝ, ∀ᶠ tof in atTop, ∃ v1 v2 T',
    izzo2015 1 ⟨1, 0, 0⟩ ⟨0, 1, 0⟩ tof 0 false true n 1e-5 1e-7 = .ok (v1, v2) ∧
    LambertArc 1 ⟨1, 0, 0⟩ ⟨0, 1, 0⟩ v1 v2 T' 0 ∧ T' < tof - B ∧ ¬ LambertArc 1 ⟨1, 0, 0⟩ ⟨0, 1, 0⟩ v1 v2 tof 0 :=
  izzo_slow_wrong_long_way one_pos (by simp [NotPolar]) true (by norm_num [ShortWay, crossZ]) (by norm_num) (by norm_num)

/-- `k` for a short chord. -/
theorem slowK_short {mu : ℝ} (hmu : 0 < mu) {r1 r2 : V3} (hnp : NotPolar r1 r2) {pro : Bool}
    (hs : ShortWay pro r1 r2) (hc : 3600 * len (r2 - r1) ≤ semiPerimeter r1 r2) :
    0 < slowK mu r1 r2 pro ∧ slowK mu r1 r2 pro < 1 / 24 := by
  have hna : NotAligned r1 r2 := fun h => hnp h.2.2
  obtain ⟨U, ll, hU, hU', hl, h0, hle, -⟩ := run_zero hmu hna pro
  have hsp : 0 < semiPerimeter r1 r2 := by
    have h1 := norm_pos_of_notAligned_left hna
    have h2 := norm_nonneg r2
    have h3 := norm_nonneg (r2 - r1)
    rw [semiPerimeter_eq]; linarith
  refine ⟨?_, ?_⟩
  · rw [slowK_eq hU hU' (hle hnp).2.1]
    exact div_pos (T00_bounds hl).1 slowC_pos
  rw [slowK, leastEnergyTime, ← hU', if_pos hs, mul_div_mul_left _ _ hU.ne']
  have hq0 : 0 ≤ len (r2 - r1) / semiPerimeter r1 r2 := by
    rw [len_eq_norm]; exact div_nonneg (norm_nonneg _) hsp.le
  have hq1 : len (r2 - r1) / semiPerimeter r1 r2 ≤ (1 / 60) ^ 2 := by
    rw [div_le_iff₀ hsp]; linarith
  generalize len (r2 - r1) / semiPerimeter r1 r2 = q at *
  have hsq : Real.sqrt q ≤ 1 / 60 := by rw [Real.sqrt_le_left (by norm_num)]; exact hq1
  have h1 : Real.sqrt (1 - q) ≤ 1 := by rw [Real.sqrt_le_one]; linarith
  have ha : 2 / Real.pi * Real.arccos (Real.sqrt (1 - q)) ≤ Real.sqrt q := by
    have := Real.mul_le_sin (Real.arccos_nonneg (Real.sqrt (1 - q)))
      (Real.arccos_le_pi_div_two.2 (Real.sqrt_nonneg _))
    rwa [Real.sin_arccos, Real.sq_sqrt (by linarith), sub_sub_cancel] at this
  have hpi := Real.pi_gt_three
  have hpi' := Real.pi_lt_d2
  have ha' : Real.arccos (Real.sqrt (1 - q)) ≤ Real.pi / 2 * Real.sqrt q := by
    rw [div_mul_eq_mul_div, div_le_iff₀ Real.pi_pos] at ha
    linarith
  have hb : Real.sqrt (1 - q) * Real.sqrt q ≤ Real.sqrt q := mul_le_of_le_one_left (Real.sqrt_nonneg _) h1
  have h2 : Real.sqrt 2 < 1.4143 := by rw [Real.sqrt_lt' (by norm_num)]; norm_num
  have h2p : 0 < Real.sqrt 2 := by positivity
  have hC : 0 < Real.pi / Real.sqrt 2 / 2 := by positivity
  rw [div_lt_iff₀ hC, show 1 / 24 * (Real.pi / Real.sqrt 2 / 2) = Real.pi / 48 / Real.sqrt 2 by ring, lt_div_iff₀ h2p]
  push_cast
  have hsum : 0 * Real.pi + Real.arccos (1 * Real.sqrt (1 - q)) + 1 * Real.sqrt (1 - q) * Real.sqrt q ≤
      (Real.pi / 2 + 1) * (1 / 60) := by
    rw [one_mul, zero_mul, zero_add]
    nlinarith
  nlinarith

/-- **Finding (C73).**  In particular for every transfer of less than half a turn with a short chord. -/
theorem izzo_slow_hyperbola_short {mu : ℝ} (hmu : 0 < mu) {r1 r2 : V3} (hnp : NotPolar r1 r2) {pro : Bool} (low : Bool)
    (hs : ShortWay pro r1 r2) (hc : 3600 * len (r2 - r1) ≤ semiPerimeter r1 r2) {atol rtol : ℝ} (ha : 0 < atol)
    (hr : 0 ≤ rtol) :
    ∃ N : ℕ, ∀ n, N ≤ n → ∀ᶠ tof in atTop, ∃ v1 v2, izzo2015 mu r1 r2 tof 0 pro low n atol rtol = .ok (v1, v2) ∧
      0 < energyOf mu r1 v1 ∧ ¬ LambertArc mu r1 r2 v1 v2 tof 0 := by
  obtain ⟨h1, h2⟩ := slowK_short hmu hnp hs hc
  exact izzo_slow_hyperbola hmu hnp pro low ha hr (by nlinarith)

example : ∃ N : ℕ, ∀ n, N ≤ n → ∀ᶠ tof in atTop, ∃ v1 v2,
    izzo2015 1 ⟨1, 0, 0⟩ ⟨1, 1 / 10000, 0⟩ tof 0 true true n 1e-5 1e-7 = .ok (v1, v2) ∧
      0 < energyOf 1 ⟨1, 0, 0⟩ v1 ∧ ¬ LambertArc 1 ⟨1, 0, 0⟩ ⟨1, 1 / 10000, 0⟩ v1 v2 tof 0 := by
  have h1 : V3.norm (⟨1, 0, 0⟩ : V3) = 1 := by simp [V3.norm, V3.dot]
  have h2 : V3.norm ((⟨1, 1 / 10000, 0⟩ : V3) - ⟨1, 0, 0⟩) = 1 / 10000 := by
    rw [V3.norm, Real.sqrt_eq_iff_mul_self_eq_of_pos (by norm_num)]
    show _ = V3.dot ⟨1 - 1, 1 / 10000 - 0, 0 - 0⟩ ⟨1 - 1, 1 / 10000 - 0, 0 - 0⟩
    norm_num [V3.dot]
  refine izzo_slow_hyperbola_short one_pos (by simp [NotPolar]) true (by norm_num [ShortWay, crossZ]) ?_ (by norm_num) (by norm_num)
  rw [semiPerimeter_eq, len_eq_norm, h1, h2]
  have := norm_nonneg (⟨1, 1 / 10000, 0⟩ : V3)
  linarith

end Lamberthub
