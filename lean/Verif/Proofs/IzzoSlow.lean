import Verif.Props.Order
import Verif.Props.CharacteristicTimes

/-!
# The first pass of `_householder` for very long times

For a long time `T` the first guess is `x = u - 1` with `u = (T00/T)^(2/3)`, close to `-1`.
-/

set_option autoImplicit false

namespace Lamberthub
open Filter Topology Spec LC

namespace Izzo

/-- Dimensionless time of the zero-revolution transfer with parameter `x`. -/
noncomputable def tm (ll x : ℝ) : ℝ := lancT ll x (lancY ll x) 0
/-- Its first three derivatives. -/
noncomputable def tm1 (ll x : ℝ) : ℝ := lancT1 ll x (lancY ll x) (tm ll x)
noncomputable def tm2 (ll x : ℝ) : ℝ := lancT2 ll x (lancY ll x) (tm ll x) (tm1 ll x)
noncomputable def tm3 (ll x : ℝ) : ℝ := lancT3 ll x (lancY ll x) (tm1 ll x) (tm2 ll x)

theorem computeY_lancY {ll : ℝ} (hl : ll ^ 2 < 1) (x : ℝ) : computeY x ll = .ok (lancY ll x) := by
  obtain ⟨y, hy1, -⟩ := computeY_eq (x := x) hl
  rw [hy1]; congr 1; exact (psqrt_ok.1 hy1).2

/-- One pass of `_householder`, in the domain of the time equation. -/
theorem step_eq {ll x T : ℝ} (hl : ll ^ 2 < 1) (h1 : -1 < x) (h2 : x ≠ 1)
    (hd : tm1 ll x * (tm1 ll x ^ 2 - (tm ll x - T) * tm2 ll x) + tm3 ll x * (tm ll x - T) ^ 2 / 6 ≠ 0) :
    householderStep x T ll 0 = .ok (x - (tm ll x - T) * ((tm1 ll x ^ 2 - (tm ll x - T) * tm2 ll x / 2) /
      (tm1 ll x * (tm1 ll x ^ 2 - (tm ll x - T) * tm2 ll x) + tm3 ll x * (tm ll x - T) ^ 2 / 6))) := by
  have hL := lanc_lancY hl x
  have hyp := hL.y_pos
  have h0 := one_sub_sq_ne h1 h2
  have ht := tofEquationY_eq (T0 := T) hL (M := 0) h1 (.inl rfl)
  rw [Nat.cast_zero] at ht
  rw [householderStep, computeY_lancY hl, ok_bind, ht, ok_bind]
  simp only []
  rw [show lancT ll x (lancY ll x) 0 = tm ll x from rfl, sub_add_cancel,
    show tofP x (lancY ll x) (tm ll x) ll = .ok (tm1 ll x) by
      rw [tofP, pdiv_eq hyp.ne', ok_bind, pdiv_eq h0]; rfl, ok_bind,
    show tofP2 x (lancY ll x) (tm ll x) (tm1 ll x) ll = .ok (tm2 ll x) by
      rw [tofP2, pdiv_eq (by positivity), ok_bind, pdiv_eq h0]; rfl, ok_bind,
    show tofP3 x (lancY ll x) (tm1 ll x) (tm2 ll x) ll = .ok (tm3 ll x) by
      rw [tofP3, pdiv_eq (by positivity), ok_bind, pdiv_eq h0]; rfl, ok_bind, pdiv_eq hd, ok_bind]

theorem lancY_cont {ll : ℝ} (hl : ll ^ 2 < 1) : Continuous (lancY ll) :=
  continuous_iff_continuousAt.2 fun x => (lancY_hasDerivAt hl x).continuousAt

theorem lancY_at (ll : ℝ) : lancY ll (-1) = 1 := by rw [lancY]; norm_num

/-- The constant of the long-time behaviour, `T ~ (π / 2^(3/2)) (1+x)^(-3/2)`. -/
noncomputable def slowC : ℝ := Real.pi / Real.sqrt 2 / 2

theorem slowC_pos : 0 < slowC := by have := Real.pi_pos; unfold slowC; positivity

theorem tm_slow {ll : ℝ} (hl : ll ^ 2 < 1) :
    Tendsto (fun u => tm ll (u - 1) * (u * Real.sqrt u)) (𝓝[>] 0) (𝓝 slowC) := by
  have hY := lancY_cont hl
  have hc : ContinuousAt (fun u => (Real.arccos ((u - 1) * lancY ll (u - 1) + ll * (1 - (u - 1) ^ 2)) / Real.sqrt (2 - u)
      + Real.sqrt u * (-(u - 1) + ll * lancY ll (u - 1))) / (2 - u)) 0 := by
    have hY' : Continuous fun u => lancY ll (u - 1) := hY.comp (continuous_id.sub continuous_const)
    refine ContinuousAt.div (ContinuousAt.add (ContinuousAt.div ?_ ?_ ?_) ?_) ?_ (by norm_num)
    · exact (Real.continuous_arccos.comp (by fun_prop)).continuousAt
    · exact (Real.continuous_sqrt.comp (by fun_prop)).continuousAt
    · norm_num
    · exact (Real.continuous_sqrt.mul (by fun_prop)).continuousAt
    · fun_prop
  have h0 := hc.tendsto.mono_left (nhdsWithin_le_nhds (s := Set.Ioi 0))
  have e0 : (Real.arccos ((0 - 1) * lancY ll (0 - 1) + ll * (1 - (0 - 1) ^ 2)) / Real.sqrt (2 - 0)
      + Real.sqrt 0 * (-(0 - 1) + ll * lancY ll (0 - 1))) / (2 - 0) = slowC := by
    rw [show (0 : ℝ) - 1 = -1 by norm_num, lancY_at]
    norm_num [slowC]
  rw [e0] at h0
  refine h0.congr' ?_
  filter_upwards [Ioo_mem_nhdsGT (show (0 : ℝ) < 1 by norm_num)] with u hu
  have hu0 := hu.1
  have h2 : 0 < 2 - u := by linarith [hu.2]
  have e : 1 - (u - 1) ^ 2 = u * (2 - u) := by ring
  rw [tm, lancT, if_pos (by linarith [hu.2]), e, Real.sqrt_mul hu0.le]
  have hs := Real.sqrt_pos.2 hu0
  have hs2 := Real.sqrt_pos.2 h2
  have hss := Real.mul_self_sqrt hu0.le
  generalize Real.arccos ((u - 1) * lancY ll (u - 1) + ll * (u * (2 - u))) = ψ
  generalize Real.sqrt u = a at *
  generalize Real.sqrt (2 - u) = b at *
  generalize lancY ll (u - 1) = y
  subst hss
  push_cast
  field_simp
  ring

/-- The three normalised derivatives. -/
theorem tm_slow_deriv {ll : ℝ} (hl : ll ^ 2 < 1) :
    Tendsto (fun u => u * tm1 ll (u - 1) / tm ll (u - 1)) (𝓝[>] 0) (𝓝 (-3 / 2)) ∧
    Tendsto (fun u => u ^ 2 * tm2 ll (u - 1) / tm ll (u - 1)) (𝓝[>] 0) (𝓝 (15 / 4)) ∧
    Tendsto (fun u => u ^ 3 * tm3 ll (u - 1) / tm ll (u - 1)) (𝓝[>] 0) (𝓝 (-105 / 8)) := by
  have hY := lancY_cont hl
  have hY' : Continuous fun u => lancY ll (u - 1) := hY.comp (continuous_id.sub continuous_const)
  have hyp : ∀ u : ℝ, 0 < lancY ll (u - 1) := fun u => (lanc_lancY hl (u - 1)).y_pos
  have hf := tm_slow hl
  have hpos : ∀ᶠ u in 𝓝[>] (0 : ℝ), 0 < tm ll (u - 1) ∧ 0 < u ∧ u < 1 := by
    filter_upwards [hf.eventually (lt_mem_nhds slowC_pos), Ioo_mem_nhdsGT (show (0 : ℝ) < 1 by norm_num)] with u h hu
    have : 0 < u * Real.sqrt u := mul_pos hu.1 (Real.sqrt_pos.2 hu.1)
    exact ⟨pos_of_mul_pos_left h this.le, hu.1, hu.2⟩
  have hid : Tendsto (fun u : ℝ => u) (𝓝[>] 0) (𝓝 0) := nhdsWithin_le_nhds
  have hinv : Tendsto (fun u => (tm ll (u - 1))⁻¹) (𝓝[>] 0) (𝓝 0) := by
    have h1 : Tendsto (fun u : ℝ => u * Real.sqrt u) (𝓝[>] 0) (𝓝 (0 * Real.sqrt 0)) :=
      hid.mul ((Real.continuous_sqrt.tendsto 0).mono_left nhdsWithin_le_nhds)
    have h2 := h1.div hf slowC_pos.ne'
    rw [zero_mul, zero_div] at h2
    refine h2.congr' ?_
    filter_upwards [hpos] with u ⟨h, h0, _⟩
    have := Real.sqrt_pos.2 h0
    simp only [Pi.div_apply]
    field_simp
  have hb : ∀ g : ℝ → ℝ, Continuous g → Tendsto g (𝓝[>] 0) (𝓝 (g 0)) := fun g hg =>
    (hg.tendsto 0).mono_left nhdsWithin_le_nhds
  have hy0 : lancY ll (0 - 1) = 1 := by rw [show (0 : ℝ) - 1 = -1 by norm_num, lancY_at]
  have a1 : Tendsto (fun u => u * tm1 ll (u - 1) / tm ll (u - 1)) (𝓝[>] 0) (𝓝 (-3 / 2)) := by
    have h := (((hb (fun u => 3 * (u - 1)) (by fun_prop)).add
      ((hb (fun u => -2 + 2 * ll ^ 3 * (u - 1) / lancY ll (u - 1))
        (by have := fun u => (hyp u).ne'; fun_prop (disch := assumption))).mul hinv))).div (hb (fun u => 2 - u) (by fun_prop))
        (by norm_num)
    rw [mul_zero, show (3 * ((0 : ℝ) - 1) + 0) / (2 - 0) = -3 / 2 by norm_num] at h
    refine h.congr' ?_
    filter_upwards [hpos] with u ⟨h, h0, h1⟩
    have hy := hyp u
    have h2 : 0 < 2 - u := by linarith
    have e : 1 - (u - 1) ^ 2 = u * (2 - u) := by ring
    simp only [Pi.div_apply]
    rw [tm1, lancT1, e]
    generalize tm ll (u - 1) = f at *
    generalize lancY ll (u - 1) = y at *
    field_simp
    ring
  have a2 : Tendsto (fun u => u ^ 2 * tm2 ll (u - 1) / tm ll (u - 1)) (𝓝[>] 0) (𝓝 (15 / 4)) := by
    have h := (((hb (fun u => 3 * u) (by fun_prop)).add ((hb (fun u => 5 * (u - 1)) (by fun_prop)).mul a1)).add
      ((hb (fun u => u * (2 * (1 - ll ^ 2) * ll ^ 3 / lancY ll (u - 1) ^ 3))
        (by have := fun u => (pow_pos (hyp u) 3).ne'; fun_prop (disch := assumption))).mul hinv)).div
        (hb (fun u => 2 - u) (by fun_prop)) (by norm_num)
    rw [mul_zero, mul_zero, show ((0 : ℝ) + 5 * (0 - 1) * (-3 / 2) + 0) / (2 - 0) = 15 / 4 by norm_num] at h
    refine h.congr' ?_
    filter_upwards [hpos] with u ⟨h, h0, h1⟩
    have hy := hyp u
    have h2 : 0 < 2 - u := by linarith
    have e : 1 - (u - 1) ^ 2 = u * (2 - u) := by ring
    simp only [Pi.div_apply]
    rw [tm2, lancT2, e]
    generalize tm1 ll (u - 1) = f1 at *
    generalize tm ll (u - 1) = f at *
    generalize lancY ll (u - 1) = y at *
    field_simp
  refine ⟨a1, a2, ?_⟩
  have h := (((hb (fun u => 7 * (u - 1)) (by fun_prop)).mul a2).add ((hb (fun u => 8 * u) (by fun_prop)).mul a1)).sub
    ((hb (fun u => u ^ 2 * (6 * (1 - ll ^ 2) * ll ^ 5 * (u - 1) / lancY ll (u - 1) ^ 5))
        (by have := fun u => (pow_pos (hyp u) 5).ne'; fun_prop (disch := assumption))).mul hinv) |>.div
        (hb (fun u => 2 - u) (by fun_prop)) (by norm_num)
  rw [mul_zero, mul_zero, show ((7 : ℝ) * (0 - 1) * (15 / 4) + 0 * (-3 / 2) - 0) / (2 - 0) = -105 / 8 by norm_num] at h
  refine h.congr' ?_
  filter_upwards [hpos] with u ⟨h, h0, h1⟩
  have hy := hyp u
  have h2 : 0 < 2 - u := by linarith
  have e : 1 - (u - 1) ^ 2 = u * (2 - u) := by ring
  simp only [Pi.div_apply]
  rw [tm3, lancT3, e]
  generalize tm2 ll (u - 1) = f2 at *
  generalize tm1 ll (u - 1) = f1 at *
  generalize tm ll (u - 1) = f at *
  generalize lancY ll (u - 1) = y at *
  field_simp

/-- The first pass for a long time: the distance of `x` to `-1` is multiplied by a factor with a limit. -/
theorem step_slow {ll τ : ℝ} (hl : ll ^ 2 < 1) (hD : 35 * (τ / slowC) ^ 2 + 20 * (τ / slowC) - 1 ≠ 0) :
    ∃ Z : ℝ → ℝ, Tendsto Z (𝓝[>] 0) (𝓝 ((5 * (τ / slowC) ^ 2 + 44 * (τ / slowC) + 5) /
        (35 * (τ / slowC) ^ 2 + 20 * (τ / slowC) - 1))) ∧
      ∀ᶠ u in 𝓝[>] (0 : ℝ), householderStep (u - 1) (τ / (u * Real.sqrt u)) ll 0 = .ok (u * Z u - 1) := by
  have hf := tm_slow hl
  obtain ⟨a1, a2, a3⟩ := tm_slow_deriv hl
  set k := τ / slowC with hk
  obtain ⟨A1, hA1⟩ : ∃ A : ℝ → ℝ, A = fun u => u * tm1 ll (u - 1) / tm ll (u - 1) := ⟨_, rfl⟩
  obtain ⟨A2, hA2⟩ : ∃ A : ℝ → ℝ, A = fun u => u ^ 2 * tm2 ll (u - 1) / tm ll (u - 1) := ⟨_, rfl⟩
  obtain ⟨A3, hA3⟩ : ∃ A : ℝ → ℝ, A = fun u => u ^ 3 * tm3 ll (u - 1) / tm ll (u - 1) := ⟨_, rfl⟩
  obtain ⟨W, hW⟩ : ∃ W : ℝ → ℝ, W = fun u => 1 - τ / (tm ll (u - 1) * (u * Real.sqrt u)) := ⟨_, rfl⟩
  rw [← hA1] at a1; rw [← hA2] at a2; rw [← hA3] at a3
  have aw : Tendsto W (𝓝[>] 0) (𝓝 (1 - k)) := by
    rw [hW, hk]; exact (tendsto_const_nhds.div hf slowC_pos.ne').const_sub 1
  have hden := (a1.mul ((a1.pow 2).sub (aw.mul a2))).add ((a3.mul (aw.pow 2)).div_const 6)
  have hnum := (a1.pow 2).sub ((aw.mul a2).div_const 2)
  have e1 : (-3 / 2 : ℝ) * ((-3 / 2) ^ 2 - (1 - k) * (15 / 4)) + -105 / 8 * (1 - k) ^ 2 / 6 =
      -(35 * k ^ 2 + 20 * k - 1) / 16 := by ring
  rw [e1] at hden
  have hd0 : -(35 * k ^ 2 + 20 * k - 1) / 16 ≠ 0 := div_ne_zero (neg_ne_zero.2 hD) (by norm_num)
  refine ⟨fun u => 1 - W u * ((A1 u ^ 2 - W u * A2 u / 2) / (A1 u * (A1 u ^ 2 - W u * A2 u) + A3 u * W u ^ 2 / 6)), ?_, ?_⟩
  · have h := (aw.mul (hnum.div hden hd0)).const_sub 1
    have e2 : 1 - (1 - k) * (((-3 / 2) ^ 2 - (1 - k) * (15 / 4) / 2) / (-(35 * k ^ 2 + 20 * k - 1) / 16)) =
        (5 * k ^ 2 + 44 * k + 5) / (35 * k ^ 2 + 20 * k - 1) := by
      clear_value k
      obtain ⟨E, hE⟩ : ∃ E, E = 35 * k ^ 2 + 20 * k - 1 := ⟨_, rfl⟩
      rw [← hE] at hD ⊢
      field_simp
      rw [hE]
      ring
    rw [e2] at h
    exact h
  · have hpos : ∀ᶠ u in 𝓝[>] (0 : ℝ), 0 < tm ll (u - 1) ∧ 0 < u ∧ u < 1 := by
      filter_upwards [hf.eventually (lt_mem_nhds slowC_pos), Ioo_mem_nhdsGT (show (0 : ℝ) < 1 by norm_num)] with u h hu
      have : 0 < u * Real.sqrt u := mul_pos hu.1 (Real.sqrt_pos.2 hu.1)
      exact ⟨pos_of_mul_pos_left h this.le, hu.1, hu.2⟩
    filter_upwards [hpos, hden.eventually_ne hd0] with u ⟨h, h0, h1⟩ hd
    have hs := Real.sqrt_pos.2 h0
    have hF : tm ll (u - 1) - τ / (u * Real.sqrt u) = W u * tm ll (u - 1) := by
      rw [hW]; simp only []; field_simp
    have g1 : tm1 ll (u - 1) = A1 u * tm ll (u - 1) / u := by rw [hA1]; simp only []; field_simp
    have g2 : tm2 ll (u - 1) = A2 u * tm ll (u - 1) / u ^ 2 := by rw [hA2]; simp only []; field_simp
    have g3 : tm3 ll (u - 1) = A3 u * tm ll (u - 1) / u ^ 3 := by rw [hA3]; simp only []; field_simp
    have hdd : tm1 ll (u - 1) * (tm1 ll (u - 1) ^ 2 - (tm ll (u - 1) - τ / (u * Real.sqrt u)) * tm2 ll (u - 1)) +
        tm3 ll (u - 1) * (tm ll (u - 1) - τ / (u * Real.sqrt u)) ^ 2 / 6 = (tm ll (u - 1) / u) ^ 3 *
        (A1 u * (A1 u ^ 2 - W u * A2 u) + A3 u * W u ^ 2 / 6) := by
      rw [hF, g1, g2, g3]; field_simp
    have hnn : tm1 ll (u - 1) ^ 2 - (tm ll (u - 1) - τ / (u * Real.sqrt u)) * tm2 ll (u - 1) / 2 =
        (tm ll (u - 1) / u) ^ 2 * (A1 u ^ 2 - W u * A2 u / 2) := by
      rw [hF, g1, g2]; field_simp
    rw [step_eq hl (by linarith) (by linarith) (by rw [hdd]; positivity), hdd, hnn, hF]
    congr 1
    generalize A1 u * (A1 u ^ 2 - W u * A2 u) + A3 u * W u ^ 2 / 6 = D at *
    generalize A1 u ^ 2 - W u * A2 u / 2 = N
    generalize tm ll (u - 1) = f at *
    field_simp
    ring

end Izzo
end Lamberthub
