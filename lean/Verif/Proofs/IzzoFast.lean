import Verif.Proofs.IzzoRun

/-! # The passes of `_householder` for very short times -/

set_option autoImplicit false

namespace Lamberthub
open Filter Topology Spec LC

namespace Izzo

/-- `y/x` for large `x`. -/
theorem lancY_fast {ll : ℝ} (hl : ll ^ 2 < 1) : Tendsto (fun x => lancY ll x / x) atTop (𝓝 |ll|) := by
  have h1 : Tendsto (fun x : ℝ => Real.sqrt ((1 - ll ^ 2) * x⁻¹ ^ 2 + ll ^ 2)) atTop
      (𝓝 (Real.sqrt ((1 - ll ^ 2) * 0 ^ 2 + ll ^ 2))) :=
    (Real.continuous_sqrt.tendsto _).comp (((tendsto_inv_atTop_zero.pow 2).const_mul _).add_const _)
  rw [zero_pow two_ne_zero, mul_zero, zero_add, Real.sqrt_sq_eq_abs] at h1
  refine h1.congr' ?_
  filter_upwards [eventually_gt_atTop 0] with x hx
  have hp : 0 ≤ (1 - ll ^ 2) * x⁻¹ ^ 2 + ll ^ 2 := by
    have : 0 < 1 - ll ^ 2 := by linarith
    positivity
  rw [lancY, eq_div_iff hx.ne']
  calc Real.sqrt ((1 - ll ^ 2) * x⁻¹ ^ 2 + ll ^ 2) * x
      = Real.sqrt ((1 - ll ^ 2) * x⁻¹ ^ 2 + ll ^ 2) * Real.sqrt (x ^ 2) := by rw [Real.sqrt_sq hx.le]
    _ = Real.sqrt (((1 - ll ^ 2) * x⁻¹ ^ 2 + ll ^ 2) * x ^ 2) := (Real.sqrt_mul hp _).symm
    _ = _ := by congr 1; field_simp; ring

/-- The constant of the short-time behaviour, `T ~ c/x`. -/
noncomputable def fastC (ll : ℝ) : ℝ := 1 - ll * |ll|

theorem fastC_pos {ll : ℝ} (hl : ll ^ 2 < 1) : 0 < fastC ll := by
  have h := (sq_lt_one_iff_abs_lt_one _).1 hl
  unfold fastC
  nlinarith [le_abs_self ll, abs_nonneg ll]

theorem arsinh_le {z x : ℝ} (hx : 1 ≤ x) (hz0 : 0 ≤ z) (hz : z ≤ 2 * x ^ 2) : Real.arsinh z ≤ 4 * x := by
  have h1 : Real.sqrt (1 + z ^ 2) ≤ 1 + z := by
    rw [Real.sqrt_le_left (by linarith)]; nlinarith
  have h2 : z + Real.sqrt (1 + z ^ 2) ≤ (1 + 2 * x) ^ 2 := by nlinarith
  have h3 : 0 < z + Real.sqrt (1 + z ^ 2) := by positivity
  rw [Real.arsinh]
  calc Real.log (z + Real.sqrt (1 + z ^ 2)) ≤ Real.log ((1 + 2 * x) ^ 2) := Real.log_le_log h3 h2
    _ = 2 * Real.log (1 + 2 * x) := by rw [Real.log_pow]; norm_num
    _ ≤ 2 * (1 + 2 * x - 1) := by
        have := Real.log_le_sub_one_of_pos (show 0 < 1 + 2 * x by linarith)
        linarith
    _ = 4 * x := by ring

theorem sq_ratio_fast : Tendsto (fun x : ℝ => x ^ 2 / (x ^ 2 - 1)) atTop (𝓝 1) := by
  have h1 : Tendsto (fun x : ℝ => (1 - x⁻¹ ^ 2)⁻¹) atTop (𝓝 ((1 - 0 ^ 2)⁻¹)) :=
    ((tendsto_inv_atTop_zero.pow 2).const_sub 1).inv₀ (by norm_num)
  norm_num at h1
  refine h1.congr' ?_
  filter_upwards [eventually_gt_atTop 1] with x hx
  have : 0 < x ^ 2 - 1 := by nlinarith
  field_simp

theorem tm_fast {ll : ℝ} (hl : ll ^ 2 < 1) : Tendsto (fun x => x * tm ll x) atTop (𝓝 (fastC ll)) := by
  have hs : Tendsto (fun x : ℝ => (Real.sqrt (x ^ 2 - 1))⁻¹) atTop (𝓝 0) := by
    refine tendsto_inv_atTop_zero.comp (Real.tendsto_sqrt_atTop.comp ?_)
    exact tendsto_atTop_add_const_right _ _ (tendsto_pow_atTop two_ne_zero)
  have hA : Tendsto (fun x : ℝ => Real.arsinh ((lancY ll x - x * ll) * Real.sqrt (x ^ 2 - 1)) / x *
      (Real.sqrt (x ^ 2 - 1))⁻¹) atTop (𝓝 0) := by
    have h4 := hs.const_mul 4
    rw [mul_zero] at h4
    refine squeeze_zero' ?_ ?_ h4
    · filter_upwards [eventually_gt_atTop 1] with x hx
      have hL := lanc_lancY hl x
      have := hL.eta_pos
      have : 0 ≤ Real.arsinh ((lancY ll x - x * ll) * Real.sqrt (x ^ 2 - 1)) := by
        rw [Real.arsinh_nonneg_iff, mul_comm x ll]; positivity
      positivity
    · filter_upwards [eventually_gt_atTop 1] with x hx
      have hL := lanc_lancY hl x
      have he := hL.eta_pos
      refine mul_le_mul_of_nonneg_right ?_ (by positivity)
      rw [div_le_iff₀ (by linarith)]
      have hw : 0 ≤ x ^ 2 - 1 := by nlinarith
      have hy : lancY ll x ≤ x := by
        rw [lancY, Real.sqrt_le_left (by linarith)]; nlinarith
      have hsx : Real.sqrt (x ^ 2 - 1) ≤ x := by
        rw [Real.sqrt_le_left (by linarith)]; linarith
      have hl1 : -1 < ll := (abs_lt.1 ((sq_lt_one_iff_abs_lt_one _).1 hl)).1
      refine arsinh_le hx.le (by rw [mul_comm x ll]; positivity) ?_
      have h1 : lancY ll x - x * ll ≤ 2 * x := by nlinarith
      calc (lancY ll x - x * ll) * Real.sqrt (x ^ 2 - 1) ≤ (2 * x) * x :=
            mul_le_mul h1 hsx (Real.sqrt_nonneg _) (by linarith)
        _ = 2 * x ^ 2 := by ring
  have h := ((((lancY_fast hl).const_mul ll).const_sub 1).sub hA).mul sq_ratio_fast
  rw [sub_zero, mul_one] at h
  refine h.congr' ?_
  filter_upwards [eventually_gt_atTop 1] with x hx
  have hw : 0 < x ^ 2 - 1 := by nlinarith
  have hsw := Real.sqrt_pos.2 hw
  rw [tm, lancT, if_neg (by linarith), if_neg hx.ne', show 1 - x ^ 2 = -(x ^ 2 - 1) by ring]
  generalize Real.arsinh ((lancY ll x - x * ll) * Real.sqrt (x ^ 2 - 1)) = A
  generalize Real.sqrt (x ^ 2 - 1) = q at *
  generalize hW : x ^ 2 - 1 = w at *
  have hx0 : 0 < x := by linarith
  field_simp
  ring

/-- The three normalised derivatives. -/
theorem tm_fast_deriv {ll : ℝ} (hl : ll ^ 2 < 1) (h0 : ll ≠ 0) :
    Tendsto (fun x => x * tm1 ll x / tm ll x) atTop (𝓝 (-1)) ∧
    Tendsto (fun x => x ^ 2 * tm2 ll x / tm ll x) atTop (𝓝 2) ∧
    Tendsto (fun x => x ^ 3 * tm3 ll x / tm ll x) atTop (𝓝 (-6)) := by
  have hf := tm_fast hl
  have hc := fastC_pos hl
  have hyl := lancY_fast hl
  have hla : 0 < |ll| := abs_pos.2 h0
  have hyp : ∀ x : ℝ, 0 < lancY ll x := fun x => (lanc_lancY hl x).y_pos
  have hpos : ∀ᶠ x in atTop, 0 < tm ll x ∧ 1 < x := by
    filter_upwards [hf.eventually (lt_mem_nhds hc), eventually_gt_atTop 1] with x h hx
    exact ⟨pos_of_mul_pos_right h (by linarith), hx⟩
  have hinv : Tendsto (fun x => (x * tm ll x)⁻¹) atTop (𝓝 (fastC ll)⁻¹) := hf.inv₀ hc.ne'
  have hxy : Tendsto (fun x => (lancY ll x / x)⁻¹) atTop (𝓝 |ll|⁻¹) := hyl.inv₀ hla.ne'
  have hi0 : Tendsto (fun x : ℝ => x⁻¹) atTop (𝓝 0) := tendsto_inv_atTop_zero
  have hq := sq_ratio_fast
  have a1 : Tendsto (fun x => x * tm1 ll x / tm ll x) atTop (𝓝 (-1)) := by
    have h := (((((hxy.const_mul (2 * ll ^ 3)).sub_const 2).mul hinv).const_add 3).mul hq).neg
    have e : -((3 + (2 * ll ^ 3 * |ll|⁻¹ - 2) * (fastC ll)⁻¹) * 1) = -1 := by
      have : ll ^ 3 * |ll|⁻¹ = ll * |ll| := by
        rw [← div_eq_mul_inv, div_eq_iff hla.ne', mul_assoc, abs_mul_abs_self]; ring
      have h2 : 2 * ll ^ 3 * |ll|⁻¹ - 2 = -2 * fastC ll := by rw [mul_assoc, this, fastC]; ring
      rw [h2]; field_simp; norm_num
    rw [e] at h
    refine h.congr' ?_
    filter_upwards [hpos] with x ⟨h, h1⟩
    have hy := hyp x
    have hw : 0 < x ^ 2 - 1 := by nlinarith
    have hx0 : 0 < x := by linarith
    rw [tm1, lancT1, show 1 - x ^ 2 = -(x ^ 2 - 1) by ring]
    generalize tm ll x = f at *
    generalize lancY ll x = y at *
    generalize x ^ 2 - 1 = w at *
    field_simp
    ring
  have a2 : Tendsto (fun x => x ^ 2 * tm2 ll x / tm ll x) atTop (𝓝 2) := by
    have h := ((((a1.const_mul 5).const_add 3).add
      (((((hxy.pow 3).const_mul (2 * (1 - ll ^ 2) * ll ^ 3)).mul (hi0.pow 2))).mul hinv)).mul hq).neg
    have e : -((3 + 5 * (-1 : ℝ) + 2 * (1 - ll ^ 2) * ll ^ 3 * |ll|⁻¹ ^ 3 * 0 ^ 2 * (fastC ll)⁻¹) * 1) = 2 := by
      norm_num
    rw [e] at h
    refine h.congr' ?_
    filter_upwards [hpos] with x ⟨h, h1⟩
    have hy := hyp x
    have hw : 0 < x ^ 2 - 1 := by nlinarith
    have hx0 : 0 < x := by linarith
    rw [tm2, lancT2, show 1 - x ^ 2 = -(x ^ 2 - 1) by ring]
    generalize tm1 ll x = f1 at *
    generalize tm ll x = f at *
    generalize lancY ll x = y at *
    generalize x ^ 2 - 1 = w at *
    field_simp
  refine ⟨a1, a2, ?_⟩
  have h := ((((a2.const_mul 7).add (a1.const_mul 8)).sub
      (((((hxy.pow 5).const_mul (6 * (1 - ll ^ 2) * ll ^ 5)).mul (hi0.pow 2))).mul hinv)).mul hq).neg
  have e : -((7 * 2 + 8 * (-1 : ℝ) - 6 * (1 - ll ^ 2) * ll ^ 5 * |ll|⁻¹ ^ 5 * 0 ^ 2 * (fastC ll)⁻¹) * 1) = -6 := by
    norm_num
  rw [e] at h
  refine h.congr' ?_
  filter_upwards [hpos] with x ⟨h, h1⟩
  have hy := hyp x
  have hw : 0 < x ^ 2 - 1 := by nlinarith
  have hx0 : 0 < x := by linarith
  rw [tm3, lancT3, show 1 - x ^ 2 = -(x ^ 2 - 1) by ring]
  generalize tm2 ll x = f2 at *
  generalize tm1 ll x = f1 at *
  generalize tm ll x = f at *
  generalize lancY ll x = y at *
  generalize x ^ 2 - 1 = w at *
  field_simp

/-- For short times one pass from any point of the right order of magnitude is asymptotically exact. -/
theorem step_fast {ll ζ : ℝ} (hl : ll ^ 2 < 1) (h0 : ll ≠ 0) (hζ : 0 < ζ) {X : ℝ → ℝ}
    (hX : Tendsto (fun T => X T * T) (𝓝[>] 0) (𝓝 ζ)) :
    ∃ X' : ℝ → ℝ, Tendsto (fun T => X' T * T) (𝓝[>] 0) (𝓝 (fastC ll)) ∧
      ∀ᶠ T in 𝓝[>] 0, householderStep (X T) T ll 0 = .ok (X' T) := by
  have hc := fastC_pos hl
  have hXi : Tendsto X (𝓝[>] 0) atTop := by
    have h := (hX.pos_mul_atTop hζ tendsto_inv_nhdsGT_zero)
    refine h.congr' ?_
    filter_upwards [self_mem_nhdsWithin] with T hT
    have : (0 : ℝ) < T := hT
    field_simp
  obtain ⟨b1, b2, b3⟩ := tm_fast_deriv hl h0
  obtain ⟨A1, hA1⟩ : ∃ A : ℝ → ℝ, A = fun T => X T * tm1 ll (X T) / tm ll (X T) := ⟨_, rfl⟩
  obtain ⟨A2, hA2⟩ : ∃ A : ℝ → ℝ, A = fun T => X T ^ 2 * tm2 ll (X T) / tm ll (X T) := ⟨_, rfl⟩
  obtain ⟨A3, hA3⟩ : ∃ A : ℝ → ℝ, A = fun T => X T ^ 3 * tm3 ll (X T) / tm ll (X T) := ⟨_, rfl⟩
  obtain ⟨W, hW⟩ : ∃ W : ℝ → ℝ, W = fun T => 1 - X T * T / (X T * tm ll (X T)) := ⟨_, rfl⟩
  have a1 : Tendsto A1 (𝓝[>] 0) (𝓝 (-1)) := by rw [hA1]; exact b1.comp hXi
  have a2 : Tendsto A2 (𝓝[>] 0) (𝓝 2) := by rw [hA2]; exact b2.comp hXi
  have a3 : Tendsto A3 (𝓝[>] 0) (𝓝 (-6)) := by rw [hA3]; exact b3.comp hXi
  have aw : Tendsto W (𝓝[>] 0) (𝓝 (1 - ζ / fastC ll)) := by
    rw [hW]; exact (hX.div ((tm_fast hl).comp hXi) hc.ne').const_sub 1
  set k := ζ / fastC ll with hk
  have hkp : 0 < k := div_pos hζ hc
  have hden := (a1.mul ((a1.pow 2).sub (aw.mul a2))).add ((a3.mul (aw.pow 2)).div_const 6)
  have hnum := (a1.pow 2).sub ((aw.mul a2).div_const 2)
  have e1 : (-1 : ℝ) * ((-1) ^ 2 - (1 - k) * 2) + -6 * (1 - k) ^ 2 / 6 = -k ^ 2 := by ring
  rw [e1] at hden
  have hd0 : -k ^ 2 ≠ 0 := neg_ne_zero.2 (by positivity)
  refine ⟨fun T => X T * (1 - W T * ((A1 T ^ 2 - W T * A2 T / 2) /
    (A1 T * (A1 T ^ 2 - W T * A2 T) + A3 T * W T ^ 2 / 6))), ?_, ?_⟩
  · have h := hX.mul ((aw.mul (hnum.div hden hd0)).const_sub 1)
    have e2 : ζ * (1 - (1 - k) * (((-1) ^ 2 - (1 - k) * 2 / 2) / -k ^ 2)) = fastC ll := by
      rw [show ζ = k * fastC ll by rw [hk, div_mul_cancel₀ _ hc.ne']]
      field_simp
      ring
    rw [e2] at h
    refine h.congr fun T => ?_
    simp only [Pi.div_apply]
    ring
  · filter_upwards [hXi.eventually ((tm_fast hl).eventually (lt_mem_nhds hc)), hXi.eventually (eventually_gt_atTop 1),
      hden.eventually_ne hd0] with T h hx hd
    have hx0 : 0 < X T := by linarith
    have hf : 0 < tm ll (X T) := pos_of_mul_pos_right h hx0.le
    have hF : tm ll (X T) - T = W T * tm ll (X T) := by rw [hW]; simp only []; field_simp
    have g1 : tm1 ll (X T) = A1 T * tm ll (X T) / X T := by rw [hA1]; simp only []; field_simp
    have g2 : tm2 ll (X T) = A2 T * tm ll (X T) / X T ^ 2 := by rw [hA2]; simp only []; field_simp
    have g3 : tm3 ll (X T) = A3 T * tm ll (X T) / X T ^ 3 := by rw [hA3]; simp only []; field_simp
    have hdd : tm1 ll (X T) * (tm1 ll (X T) ^ 2 - (tm ll (X T) - T) * tm2 ll (X T)) +
        tm3 ll (X T) * (tm ll (X T) - T) ^ 2 / 6 = (tm ll (X T) / X T) ^ 3 *
        (A1 T * (A1 T ^ 2 - W T * A2 T) + A3 T * W T ^ 2 / 6) := by
      rw [hF, g1, g2, g3]; field_simp
    have hnn : tm1 ll (X T) ^ 2 - (tm ll (X T) - T) * tm2 ll (X T) / 2 =
        (tm ll (X T) / X T) ^ 2 * (A1 T ^ 2 - W T * A2 T / 2) := by
      rw [hF, g1, g2]; field_simp
    rw [step_eq hl (by linarith) hx.ne' (by rw [hdd]; positivity), hdd, hnn, hF]
    congr 1
    generalize A1 T * (A1 T ^ 2 - W T * A2 T) + A3 T * W T ^ 2 / 6 = D at *
    generalize A1 T ^ 2 - W T * A2 T / 2 = N
    generalize tm ll (X T) = f at *
    field_simp

end Izzo
end Lamberthub
