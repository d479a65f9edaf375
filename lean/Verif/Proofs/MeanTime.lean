import Verif.Proofs.ConicMotion

/-! # The mean anomaly grows linearly in time along a Kepler motion -/

set_option autoImplicit false

namespace Lamberthub.LC
open Lamberthub Spec

theorem tan_half_eq {ν : ℝ} (h1 : -Real.pi < ν) (h2 : ν < Real.pi) :
    Real.sin ν / (1 + Real.cos ν) = Real.tan (ν / 2) := by
  have hc := (cos_half_pos h1 h2).ne'
  rw [cos_of_tan_half hc, sin_of_tan_half hc]
  generalize Real.tan (ν / 2) = t
  have h4 : (0 : ℝ) < 1 + t ^ 2 := by positivity
  have : 1 + (1 - t ^ 2) / (1 + t ^ 2) = 2 / (1 + t ^ 2) := by field_simp; ring
  rw [this]
  field_simp

/-- true anomaly of a point of the plane -/
noncomputable def nuOf (e1 e2 q : V3) : ℝ := 2 * Real.arctan (inner q e2 / (len q + inner q e1))

theorem nuOf_conicPos {p e ν : ℝ} (hp : 0 < p) (h : NuDom e ν) {e1 e2 : V3}
    (hf : Orthonormal e1 e2) : nuOf e1 e2 (conicPos p e ν e1 e2) = ν := by
  obtain ⟨h1, h2, h3⟩ := h
  obtain ⟨-, -, -, hl⟩ := conic_conserved (μ := 1) one_pos hp h3 hf
  have hpos : conicPos p e ν e1 e2 = (p / (1 + e * Real.cos ν) * Real.cos ν) • e1 +
      (p / (1 + e * Real.cos ν) * Real.sin ν) • e2 := by
    unfold conicPos; ext <;> simp <;> ring
  obtain ⟨i1, i2⟩ := inner_comb hf (p / (1 + e * Real.cos ν) * Real.cos ν)
    (p / (1 + e * Real.cos ν) * Real.sin ν)
  unfold nuOf
  rw [hl, hpos, i1, i2]
  have hr : 0 < p / (1 + e * Real.cos ν) := by positivity
  generalize p / (1 + e * Real.cos ν) = r at *
  rw [show r * Real.sin ν / (r + r * Real.cos ν) = Real.sin ν / (1 + Real.cos ν) by
    rw [show r + r * Real.cos ν = r * (1 + Real.cos ν) by ring, mul_div_mul_left _ _ hr.ne'],
    tan_half_eq h1 h2, two_arctan_tan_half h1 h2]

variable {μ p e : ℝ} {e1 e2 : V3} {pos vel : ℝ → V3}

/-- off the apoapsis direction, `nuOf` is the true anomaly -/
theorem OnConic.nu (hp : 0 < p) {q w : V3} (hq : q ≠ 0) (h : OnConic μ p e e1 e2 q w)
    (hop : ¬ OppositeDirection e1 q) :
    0 < len q + inner q e1 ∧ NuDom e (nuOf e1 e2 q) ∧
      Real.cos (nuOf e1 e2 q) = inner q e1 / len q ∧
      Real.sin (nuOf e1 e2 q) = inner q e2 / len q := by
  have hR := len_pos hq
  have h2 := h.dist_sq
  have hpl := h.inPlane
  have hd := h.dist
  unfold nuOf
  generalize hX : inner q e1 = X at *
  generalize hY : inner q e2 = Y at *
  generalize hRR : len q = R at *
  have hge : 0 ≤ R + X := by nlinarith [sq_nonneg Y]
  have hD : 0 < R + X := by
    rcases hge.lt_or_eq with h | h
    · exact h
    · exfalso; apply hop
      have hx : X = -R := by linarith
      have hy : Y = 0 := by
        have : Y ^ 2 = 0 := by rw [hx] at h2; linarith
        exact pow_eq_zero_iff two_ne_zero |>.1 this
      refine ⟨X, by linarith, ?_⟩
      rw [hpl, hy]; ext <;> simp
  have hc : Real.cos (2 * Real.arctan (Y / (R + X))) = X / R := by
    rw [cos_two_arctan]
    have : 0 < (R + X) ^ 2 + Y ^ 2 := by positivity
    field_simp
    have hy : Y ^ 2 = (R - X) * (R + X) := by linear_combination -h2
    rw [hy]; ring
  have hs : Real.sin (2 * Real.arctan (Y / (R + X))) = Y / R := by
    rw [sin_two_arctan]
    have : 0 < (R + X) ^ 2 + Y ^ 2 := by positivity
    field_simp
    have hy : Y ^ 2 = (R - X) * (R + X) := by linear_combination -h2
    rw [hy]; ring
  refine ⟨hD, ⟨(two_arctan_range _).1, (two_arctan_range _).2, ?_⟩, hc, hs⟩
  rw [hc]
  have : 1 + e * (X / R) = p / R := by
    field_simp; linarith
  rw [this]; positivity

/-- The area law. -/
theorem nu_deriv (hp : 0 < p) (hμ : 0 < μ) (hk : KeplerMotion μ pos vel)
    (hc : ∀ t, OnConic μ p e e1 e2 (pos t) (vel t)) {t : ℝ}
    (hop : ¬ OppositeDirection e1 (pos t)) :
    HasDerivAt (fun t => nuOf e1 e2 (pos t))
      (Real.sqrt (μ / p) / p * (1 + e * Real.cos (nuOf e1 e2 (pos t))) ^ 2) t := by
  obtain ⟨hD, -, hcos, -⟩ := (hc t).nu hp (hk.no_collision t) hop
  have hR := len_pos (hk.no_collision t)
  obtain ⟨p1, p2, p3⟩ := hk.velocity t
  have dX : HasDerivAt (fun t => inner (pos t) e1) (inner (vel t) e1) t :=
    ((p1.mul_const e1.x).add (p2.mul_const e1.y)).add (p3.mul_const e1.z)
  have dY : HasDerivAt (fun t => inner (pos t) e2) (inner (vel t) e2) t :=
    ((p1.mul_const e2.x).add (p2.mul_const e2.y)).add (p3.mul_const e2.z)
  have hlen : (fun t => len (pos t) + inner (pos t) e1) = fun t => p + (1 - e) * inner (pos t) e1 := by
    funext s; rw [(hc s).dist]; ring
  have dD : HasDerivAt (fun t => len (pos t) + inner (pos t) e1) ((1 - e) * inner (vel t) e1) t := by
    rw [hlen]
    exact (dX.const_mul (1 - e)).const_add p
  have := ((dY.div dD hD.ne').arctan).const_mul 2
  refine (this.congr_deriv ?_).congr_of_eventuallyEq (Filter.Eventually.of_forall fun y => rfl)
  simp only [Pi.div_apply]
  rw [hcos, (hc t).velx, (hc t).vely]
  have h2 := (hc t).dist_sq
  have hd := (hc t).dist
  generalize inner (pos t) e1 = X at *
  generalize inner (pos t) e2 = Y at *
  generalize len (pos t) = R at *
  generalize Real.sqrt (μ / p) = k at *
  have hy : Y ^ 2 = (R - X) * (R + X) := by linear_combination -h2
  have hpR : p = R + e * X := by linarith
  have e0 : 1 + (Y / (R + X)) ^ 2 = 2 * R / (R + X) := by
    rw [div_pow, hy]; field_simp; ring
  have e1 : k * (e + X / R) * (R + X) - Y * ((1 - e) * (-k * (Y / R))) =
      k * (R + X) / R * p := by
    rw [hpR]
    field_simp
    linear_combination k * (1 - e) * hy
  rw [e0, e1]
  have e2 : 1 + e * (X / R) = p / R := by rw [hpR]; field_simp
  rw [e2]
  field_simp

/-- mean motion -/
noncomputable def meanRate (μ p e : ℝ) : ℝ := Real.sqrt (μ / p) / p * meanFactor e

theorem meanRate_pos (hμ : 0 < μ) (hp : 0 < p) (he : 0 ≤ e) : 0 < meanRate μ p e := by
  have := meanFactor_pos he
  unfold meanRate; positivity

theorem mean_linear (hμ : 0 < μ) (hp : 0 < p) (he : 0 ≤ e) (hk : KeplerMotion μ pos vel)
    (hc : ∀ t, OnConic μ p e e1 e2 (pos t) (vel t)) {T : ℝ} (hT : 0 ≤ T)
    (hop : ∀ t, 0 ≤ t → t ≤ T → ¬ OppositeDirection e1 (pos t)) :
    meanOf e (nuOf e1 e2 (pos T)) - meanOf e (nuOf e1 e2 (pos 0)) = meanRate μ p e * T := by
  have hd : ∀ t ∈ Set.Icc 0 T, HasDerivAt
      (fun t => meanOf e (nuOf e1 e2 (pos t)) - meanRate μ p e * t) 0 t := by
    intro t ht
    have ho := hop t ht.1 ht.2
    obtain ⟨-, hn, -, -⟩ := (hc t).nu hp (hk.no_collision t) ho
    have h1 := (meanOf_deriv he hn).comp t (nu_deriv hp hμ hk hc ho)
    have h2 := h1.sub ((hasDerivAt_id t).const_mul (meanRate μ p e))
    refine (h2.congr_deriv ?_).congr_of_eventuallyEq (Filter.Eventually.of_forall fun y => rfl)
    unfold meanRate
    have := hn.2.2.ne'
    field_simp
    ring
  have := constant_of_has_deriv_right_zero
    (f := fun t => meanOf e (nuOf e1 e2 (pos t)) - meanRate μ p e * t) (a := 0) (b := T)
    (fun t ht => (hd t ht).continuousAt.continuousWithinAt)
    (fun t ht => (hd t ⟨ht.1, ht.2.le⟩).hasDerivWithinAt) T ⟨hT, le_rfl⟩
  simp only [mul_zero, sub_zero] at this
  linarith

end Lamberthub.LC
