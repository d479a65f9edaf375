import Verif.Proofs.IzzoRun

/-! # The minimum search of `izzo2015` for many revolutions

`_halley` never updates the time it is given; for a large time its iteration is close to the one with limit
`0`, and it returns. -/

set_option autoImplicit false

namespace Lamberthub
open Filter Topology Spec LC

namespace Izzo

/-- `fder`, `fder2`, `fder3` of `_halley`, divided by the time; `e` is the inverse of the time. -/
noncomputable def g1 (ll p e : ℝ) : ℝ := (3 * p + e * (-2 + 2 * ll ^ 3 * p / lancY ll p)) / (1 - p ^ 2)
noncomputable def g2 (ll p e : ℝ) : ℝ :=
  (3 + 5 * p * g1 ll p e + e * (2 * (1 - ll ^ 2) * ll ^ 3 / lancY ll p ^ 3)) / (1 - p ^ 2)
noncomputable def g3 (ll p e : ℝ) : ℝ :=
  (7 * p * g2 ll p e + 8 * g1 ll p e - e * (6 * (1 - ll ^ 2) * ll ^ 5 * p / lancY ll p ^ 5)) / (1 - p ^ 2)
/-- The new iterate of `_halley`. -/
noncomputable def hstep (ll p e : ℝ) : ℝ :=
  p - 2 * g1 ll p e * g2 ll p e / (2 * g2 ll p e ^ 2 - g1 ll p e * g3 ll p e)

theorem halley_pass {ll T p atol rtol : ℝ} {n : ℕ} (hl : ll ^ 2 < 1) (hT : 0 < T) (h1 : -1 < p) (h2 : p < 1)
    (hg : g2 ll p T⁻¹ ≠ 0) (hd : 2 * g2 ll p T⁻¹ ^ 2 - g1 ll p T⁻¹ * g3 ll p T⁻¹ ≠ 0) :
    halley T ll atol rtol (n + 1) p = if |hstep ll p T⁻¹ - p| < rtol * |p| + atol then .ok (hstep ll p T⁻¹)
      else halley T ll atol rtol n (hstep ll p T⁻¹) := by
  have hL := lanc_lancY hl p
  have hyp := hL.y_pos
  have h0 := one_sub_sq_ne h1 h2.ne
  have e1 : tofP p (lancY ll p) T ll = .ok (T * g1 ll p T⁻¹) := by
    rw [tofP, pdiv_eq hyp.ne', ok_bind, pdiv_eq h0, g1]
    congr 1; field_simp; ring
  have e2 : tofP2 p (lancY ll p) T (T * g1 ll p T⁻¹) ll = .ok (T * g2 ll p T⁻¹) := by
    rw [tofP2, pdiv_eq (by positivity), ok_bind, pdiv_eq h0, g2]
    congr 1
    generalize g1 ll p T⁻¹ = a
    field_simp
  have e3 : tofP3 p (lancY ll p) (T * g1 ll p T⁻¹) (T * g2 ll p T⁻¹) ll = .ok (T * g3 ll p T⁻¹) := by
    rw [tofP3, pdiv_eq (by positivity), ok_bind, pdiv_eq h0, g3]
    congr 1
    generalize g1 ll p T⁻¹ = a
    generalize g2 ll p T⁻¹ = b
    field_simp
  have hd' : 2 * (T * g2 ll p T⁻¹) ^ 2 - T * g1 ll p T⁻¹ * (T * g3 ll p T⁻¹) =
      T ^ 2 * (2 * g2 ll p T⁻¹ ^ 2 - g1 ll p T⁻¹ * g3 ll p T⁻¹) := by ring
  rw [halley, computeY_lancY hl, ok_bind, e1, ok_bind, e2, ok_bind, raiseIf_neg _ (by positivity), ok_bind, e3, ok_bind,
    hd', pdiv_eq (by positivity), ok_bind]
  have : 2 * (T * g1 ll p T⁻¹) * (T * g2 ll p T⁻¹) / (T ^ 2 * (2 * g2 ll p T⁻¹ ^ 2 - g1 ll p T⁻¹ * g3 ll p T⁻¹)) =
      2 * g1 ll p T⁻¹ * g2 ll p T⁻¹ / (2 * g2 ll p T⁻¹ ^ 2 - g1 ll p T⁻¹ * g3 ll p T⁻¹) := by
    rw [show 2 * (T * g1 ll p T⁻¹) * (T * g2 ll p T⁻¹) = T ^ 2 * (2 * g1 ll p T⁻¹ * g2 ll p T⁻¹) by ring,
      mul_div_mul_left _ _ (by positivity)]
  simp only [this]
  rfl

theorem g_zero {ll p : ℝ} (h1 : -1 < p) (h2 : p < 1) :
    g1 ll p 0 = 3 * p / (1 - p ^ 2) ∧ g2 ll p 0 = (3 + 12 * p ^ 2) / (1 - p ^ 2) ^ 2 ∧
    2 * g2 ll p 0 ^ 2 - g1 ll p 0 * g3 ll p 0 = (18 + 9 * p ^ 2 + 108 * p ^ 4) / (1 - p ^ 2) ^ 4 ∧
    hstep ll p 0 = p * (-45 * p ^ 2 + 180 * p ^ 4) / (18 + 9 * p ^ 2 + 108 * p ^ 4) := by
  have h0 := one_sub_sq_ne h1 h2.ne
  have a1 : g1 ll p 0 = 3 * p / (1 - p ^ 2) := by rw [g1, zero_mul, add_zero]
  have a2 : g2 ll p 0 = (3 + 12 * p ^ 2) / (1 - p ^ 2) ^ 2 := by
    rw [g2, a1, zero_mul, add_zero]; field_simp; ring
  have a3 : g3 ll p 0 = p * (45 + 60 * p ^ 2) / (1 - p ^ 2) ^ 3 := by
    rw [g3, a1, a2, zero_mul, sub_zero]; field_simp; ring
  have a4 : 2 * g2 ll p 0 ^ 2 - g1 ll p 0 * g3 ll p 0 = (18 + 9 * p ^ 2 + 108 * p ^ 4) / (1 - p ^ 2) ^ 4 := by
    rw [a1, a2, a3]; field_simp; ring
  refine ⟨a1, a2, a4, ?_⟩
  have hd : 0 < 18 + 9 * p ^ 2 + 108 * p ^ 4 := by positivity
  rw [hstep, a4, a1, a2]
  generalize hD : 18 + 9 * p ^ 2 + 108 * p ^ 4 = D at *
  field_simp
  rw [← hD]
  ring

/-- Uniformly on `|p| ≤ 1/10`, for large times. -/
theorem hstep_large {ll : ℝ} (hl : ll ^ 2 < 1) {δ : ℝ} (hδ : 0 < δ) :
    ∀ᶠ T in atTop, 0 < T ∧ ∀ p ∈ Set.Icc (-1 / 10 : ℝ) (1 / 10), g2 ll p T⁻¹ ≠ 0 ∧
      2 * g2 ll p T⁻¹ ^ 2 - g1 ll p T⁻¹ * g3 ll p T⁻¹ ≠ 0 ∧ |hstep ll p T⁻¹| ≤ |p| / 2 + δ := by
  have hY := lancY_cont hl
  have key : ∀ᶠ e in 𝓝 (0 : ℝ), ∀ p ∈ Set.Icc (-1 / 10 : ℝ) (1 / 10), g2 ll p e ≠ 0 ∧
      2 * g2 ll p e ^ 2 - g1 ll p e * g3 ll p e ≠ 0 ∧ |hstep ll p e| < |p| / 2 + δ := by
    refine isCompact_Icc.eventually_forall_of_forall_eventually fun p hp => ?_
    have h1 : -1 < p := by linarith [hp.1]
    have h2 : p < 1 := by linarith [hp.2]
    have h0 := one_sub_sq_ne h1 h2.ne
    have hy : lancY ll p ≠ 0 := (lanc_lancY hl p).y_pos.ne'
    obtain ⟨a1, a2, a3, a4⟩ := g_zero (ll := ll) h1 h2
    have hq : 0 < 18 + 9 * p ^ 2 + 108 * p ^ 4 := by positivity
    have n2 : g2 ll p 0 ≠ 0 := by rw [a2]; exact div_ne_zero (by positivity) (pow_ne_zero _ h0)
    have n3 : 2 * g2 ll p 0 ^ 2 - g1 ll p 0 * g3 ll p 0 ≠ 0 := by
      rw [a3]; exact div_ne_zero hq.ne' (pow_ne_zero _ h0)
    have n4 : |hstep ll p 0| < |p| / 2 + δ := by
      have : |hstep ll p 0| ≤ |p| / 2 := by
        rw [a4, mul_div_assoc, abs_mul, div_eq_mul_one_div |p|]
        refine mul_le_mul_of_nonneg_left ?_ (abs_nonneg p)
        have hp2 : p ^ 2 ≤ 1 / 100 := by nlinarith [hp.1, hp.2]
        rw [abs_div, abs_of_pos hq, div_le_div_iff₀ hq two_pos, abs_of_nonpos (by nlinarith [sq_nonneg p])]
        nlinarith [sq_nonneg p, sq_nonneg (p ^ 2)]
      linarith
    have cY : ContinuousAt (fun z : ℝ × ℝ => lancY ll z.2) (0, p) := (hY.comp continuous_snd).continuousAt
    have c1 : ContinuousAt (fun z : ℝ × ℝ => g1 ll z.2 z.1) (0, p) := by
      unfold g1
      refine ContinuousAt.div (ContinuousAt.add (by fun_prop) (ContinuousAt.mul (by fun_prop)
        (ContinuousAt.add (by fun_prop) (ContinuousAt.div (by fun_prop) cY hy)))) (by fun_prop) h0
    have c2 : ContinuousAt (fun z : ℝ × ℝ => g2 ll z.2 z.1) (0, p) := by
      unfold g2
      refine ContinuousAt.div (ContinuousAt.add (ContinuousAt.add (by fun_prop) (ContinuousAt.mul (by fun_prop) c1))
        (ContinuousAt.mul (by fun_prop) (ContinuousAt.div (by fun_prop) (cY.pow 3) (pow_ne_zero _ hy)))) (by fun_prop) h0
    have c3 : ContinuousAt (fun z : ℝ × ℝ => g3 ll z.2 z.1) (0, p) := by
      unfold g3
      refine ContinuousAt.div (ContinuousAt.sub (ContinuousAt.add (ContinuousAt.mul (by fun_prop) c2)
        (ContinuousAt.mul (by fun_prop) c1))
        (ContinuousAt.mul (by fun_prop) (ContinuousAt.div (by fun_prop) (cY.pow 5) (pow_ne_zero _ hy)))) (by fun_prop) h0
    have c4 : ContinuousAt (fun z : ℝ × ℝ => 2 * g2 ll z.2 z.1 ^ 2 - g1 ll z.2 z.1 * g3 ll z.2 z.1) (0, p) :=
      ((c2.pow 2).const_mul 2).sub (c1.mul c3)
    have c5 : ContinuousAt (fun z : ℝ × ℝ => hstep ll z.2 z.1) (0, p) := by
      unfold hstep
      exact ContinuousAt.sub (by fun_prop) (((c1.const_mul 2).mul c2).div c4 n3)
    have c6 : ContinuousAt (fun z : ℝ × ℝ => |z.2| / 2 + δ) (0, p) := by fun_prop

    filter_upwards [c2.eventually_ne n2, c4.eventually_ne n3, c5.abs.eventually_lt c6 n4] with z z1 z2 z3
    exact ⟨z1, z2, z3⟩
  filter_upwards [eventually_gt_atTop 0, tendsto_inv_atTop_zero.eventually key] with T hT h
  exact ⟨hT, fun p hp => ⟨(h p hp).1, (h p hp).2.1, (h p hp).2.2.le⟩⟩

/-- `_halley` returns for every sufficiently large time. -/
theorem halley_large {ll : ℝ} (hl : ll ^ 2 < 1) {atol rtol : ℝ} (ha : 0 < atol) (hr : 0 ≤ rtol) :
    ∃ N : ℕ, ∀ n, N ≤ n → ∀ᶠ T in atTop, ∃ x, halley T ll atol rtol n 0.1 = .ok x ∧ |x| ≤ 1 / 10 := by
  obtain ⟨δ, hδ, hδ1, hδ2⟩ : ∃ δ : ℝ, 0 < δ ∧ δ ≤ 1 / 20 ∧ 16 * δ ≤ atol :=
    ⟨min (1 / 20) (atol / 16), by positivity, min_le_left _ _, by linarith [min_le_right (1 / 20 : ℝ) (atol / 16)]⟩
  obtain ⟨N, hN⟩ := pow_unbounded_of_one_lt (1 / atol) (one_lt_two : (1 : ℝ) < 2)
  refine ⟨N + 1, fun n hn => ?_⟩
  filter_upwards [hstep_large hl hδ] with T ⟨hT, h⟩
  have main : ∀ m : ℕ, ∀ k, m + 1 ≤ k → ∀ p, |p| ≤ 1 / 10 → 2 * (|p| - 2 * δ) < atol * 2 ^ m →
      ∃ x, halley T ll atol rtol k p = .ok x ∧ |x| ≤ 1 / 10 := by
    intro m
    induction m with
    | zero =>
      intro k hk p hp hlt
      obtain ⟨k, rfl⟩ : ∃ j, k = j + 1 := ⟨k - 1, by omega⟩
      have hp' := abs_le.1 hp
      obtain ⟨z1, z2, z3⟩ := h p ⟨by linarith, by linarith⟩
      rw [halley_pass hl hT (by linarith) (by linarith) z1 z2, if_pos]
      · exact ⟨_, rfl, by linarith⟩
      · have h1 := abs_sub (hstep ll p T⁻¹) p
        have := mul_nonneg hr (abs_nonneg p)
        simp only [pow_zero, mul_one] at hlt
        linarith
    | succ m ih =>
      intro k hk p hp hlt
      obtain ⟨k, rfl⟩ : ∃ j, k = j + 1 := ⟨k - 1, by omega⟩
      have hp' := abs_le.1 hp
      obtain ⟨z1, z2, z3⟩ := h p ⟨by linarith, by linarith⟩
      rw [halley_pass hl hT (by linarith) (by linarith) z1 z2]
      split
      · exact ⟨_, rfl, by linarith⟩
      · refine ih k (by omega) _ (by linarith) ?_
        rw [pow_succ] at hlt
        linarith
  refine main N n hn 0.1 (by norm_num) ?_
  rw [div_lt_iff₀ ha] at hN
  norm_num [abs_of_pos]
  linarith

end Izzo
end Lamberthub
