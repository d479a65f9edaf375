import Verif.Proofs.IzzoLemmas
import Mathlib.Analysis.SpecialFunctions.Trigonometric.InverseDeriv
import Mathlib.Analysis.SpecialFunctions.Sqrt

/-! # Derivatives of Lancaster's time function -/

set_option autoImplicit false

namespace Lamberthub

/-- `y` as a function of `x`. -/
noncomputable def lancY (lam x : ℝ) : ℝ := Real.sqrt (1 - lam ^ 2 * (1 - x ^ 2))

theorem lanc_lancY {lam : ℝ} (hl : lam ^ 2 < 1) (x : ℝ) : Lanc lam x (lancY lam x) :=
  lanc_of_sqrt hl rfl

theorem lancY_hasDerivAt {lam : ℝ} (hl : lam ^ 2 < 1) (x : ℝ) :
    HasDerivAt (lancY lam) (lam ^ 2 * x / lancY lam x) x := by
  have hL := lanc_lancY hl x
  have hy := hL.y_pos
  have h0 : 1 - lam ^ 2 * (1 - x ^ 2) ≠ 0 := by
    intro h; rw [lancY, h, Real.sqrt_zero] at hy; exact lt_irrefl _ hy
  have d : HasDerivAt (fun x : ℝ => 1 - lam ^ 2 * (1 - x ^ 2)) (lam ^ 2 * (2 * x)) x := by
    have := (((hasDerivAt_pow 2 x).const_sub 1).const_mul (lam ^ 2)).const_sub 1
    refine this.congr_deriv ?_
    push_cast; ring
  refine (d.sqrt h0).congr_deriv ?_
  change lam ^ 2 * (2 * x) / (2 * lancY lam x) = _
  field_simp

/-- first derivative formula (`_tof_equation_p`) -/
noncomputable def lancT1 (lam x y T : ℝ) : ℝ := (3 * T * x - 2 + 2 * lam ^ 3 * x / y) / (1 - x ^ 2)
/-- second derivative formula (`_tof_equation_p2`) -/
noncomputable def lancT2 (lam x y T dT : ℝ) : ℝ :=
  (3 * T + 5 * x * dT + 2 * (1 - lam ^ 2) * lam ^ 3 / y ^ 3) / (1 - x ^ 2)
/-- third derivative formula (`_tof_equation_p3`) -/
noncomputable def lancT3 (lam x y dT ddT : ℝ) : ℝ :=
  (7 * x * ddT + 8 * dT - 6 * (1 - lam ^ 2) * lam ^ 5 * x / y ^ 5) / (1 - x ^ 2)

theorem lancT_hasDerivAt_ell {lam x : ℝ} (hl : lam ^ 2 < 1) (h1 : -1 < x) (h2 : x < 1) (M : ℕ) :
    HasDerivAt (fun t => lancT lam t (lancY lam t) M)
      (lancT1 lam x (lancY lam x) (lancT lam x (lancY lam x) M)) x := by
  have hL := lanc_lancY hl x
  have hw : 0 < 1 - x ^ 2 := by nlinarith
  have dy := lancY_hasDerivAt hl x
  obtain ⟨ψ, hψ, hψ0, hψ1, hc, hsn⟩ := hL.ell h1 h2
  have hη := hL.eta_pos
  have hyp := hL.y_pos
  have hwp : 0 < Real.sqrt (1 - x ^ 2) := Real.sqrt_pos.2 hw
  have hw2 : Real.sqrt (1 - x ^ 2) ^ 2 = 1 - x ^ 2 := Real.sq_sqrt hw.le
  have dw : HasDerivAt (fun t : ℝ => Real.sqrt (1 - t ^ 2)) (-x / Real.sqrt (1 - x ^ 2)) x := by
    have d : HasDerivAt (fun t : ℝ => 1 - t ^ 2) (-(2 * x)) x := by
      refine ((hasDerivAt_pow 2 x).const_sub 1).congr_deriv ?_
      push_cast; ring
    refine (d.sqrt hw.ne').congr_deriv ?_
    field_simp
  have dk : HasDerivAt (fun t => t * lancY lam t + lam * (1 - t ^ 2))
      ((lancY lam x - lam * x) ^ 2 / lancY lam x) x := by
    have d : HasDerivAt (fun t : ℝ => lam * (1 - t ^ 2)) (lam * -(2 * x)) x := by
      refine (((hasDerivAt_pow 2 x).const_sub 1).const_mul lam).congr_deriv ?_
      push_cast; ring
    refine (((hasDerivAt_id x).mul dy).add d).congr_deriv ?_
    simp only [id]
    field_simp
    ring
  have hs0 : 0 < Real.sin ψ := Real.sin_pos_of_pos_of_lt_pi hψ0 hψ1
  have hk1 : x * lancY lam x + lam * (1 - x ^ 2) ≠ -1 := by
    rw [← hc]; intro h
    have := Real.sin_sq_add_cos_sq ψ
    rw [h] at this; nlinarith
  have hk2 : x * lancY lam x + lam * (1 - x ^ 2) ≠ 1 := by
    rw [← hc]; intro h
    have := Real.sin_sq_add_cos_sq ψ
    rw [h] at this; nlinarith
  have hsq : Real.sqrt (1 - (x * lancY lam x + lam * (1 - x ^ 2)) ^ 2) =
      (lancY lam x - lam * x) * Real.sqrt (1 - x ^ 2) := by
    rw [hL.sin_sq, Real.sqrt_mul (by positivity), Real.sqrt_sq hη.le]
  have dpsi : HasDerivAt (fun t => Real.arccos (t * lancY lam t + lam * (1 - t ^ 2)))
      (-((lancY lam x - lam * x) / (lancY lam x * Real.sqrt (1 - x ^ 2)))) x := by
    have := (Real.hasDerivAt_arccos hk1 hk2).comp x dk
    refine this.congr_deriv ?_
    rw [hsq]
    field_simp
  have dx2 : HasDerivAt (fun t : ℝ => 1 - t ^ 2) (-(2 * x)) x := by
    refine ((hasDerivAt_pow 2 x).const_sub 1).congr_deriv ?_
    push_cast; ring
  have dT := (((((dpsi.add_const ((M : ℝ) * Real.pi)).div dw hwp.ne').sub (hasDerivAt_id x)).add
    (dy.const_mul lam)).div dx2 hw.ne')
  have hev : (fun t => lancT lam t (lancY lam t) M) =ᶠ[nhds x] (fun t =>
      ((Real.arccos (t * lancY lam t + lam * (1 - t ^ 2)) + M * Real.pi) / Real.sqrt (1 - t ^ 2) - t +
        lam * lancY lam t) / (1 - t ^ 2)) := by
    filter_upwards [Iio_mem_nhds h2] with t ht
    have ht : t < 1 := ht
    rw [lancT, if_pos ht]
  refine HasDerivAt.congr_of_eventuallyEq (dT.congr_deriv ?_) hev
  simp only [Pi.div_apply, Pi.sub_apply, Pi.add_apply, id]
  rw [lancT1, lancT, if_pos h2]
  have hy2 := hL.y_sq
  generalize Real.arccos (x * lancY lam x + lam * (1 - x ^ 2)) = p at *
  generalize Real.sqrt (1 - x ^ 2) = w at *
  generalize lancY lam x = y at *
  rw [← hw2] at hy2 ⊢
  field_simp
  have hx2 : x ^ 2 = 1 - w ^ 2 := by linarith
  linear_combination y * w * hx2 - lam * x * w * hy2

theorem lancT_hasDerivAt_hyp {lam x : ℝ} (hl : lam ^ 2 < 1) (h2 : 1 < x) (M : ℕ) :
    HasDerivAt (fun t => lancT lam t (lancY lam t) M)
      (lancT1 lam x (lancY lam x) (lancT lam x (lancY lam x) M)) x := by
  have hL := lanc_lancY hl x
  have hw : 0 < x ^ 2 - 1 := by nlinarith
  have hw' : 1 - x ^ 2 ≠ 0 := by linarith
  have dy := lancY_hasDerivAt hl x
  obtain ⟨ψ, hψ, hψ0, hc, hsn⟩ := hL.hyp h2
  have hη := hL.eta_pos
  have hyp := hL.y_pos
  have hwp : 0 < Real.sqrt (x ^ 2 - 1) := Real.sqrt_pos.2 hw
  have hw2 : Real.sqrt (x ^ 2 - 1) ^ 2 = x ^ 2 - 1 := Real.sq_sqrt hw.le
  have dw : HasDerivAt (fun t : ℝ => Real.sqrt (t ^ 2 - 1)) (x / Real.sqrt (x ^ 2 - 1)) x := by
    have d : HasDerivAt (fun t : ℝ => t ^ 2 - 1) (2 * x) x := by
      refine ((hasDerivAt_pow 2 x).sub_const 1).congr_deriv ?_
      push_cast; ring
    refine (d.sqrt hw.ne').congr_deriv ?_
    field_simp
  have dη : HasDerivAt (fun t => lancY lam t - t * lam)
      (lam ^ 2 * x / lancY lam x - 1 * lam) x := dy.sub ((hasDerivAt_id x).mul_const lam)
  have hkp : 0 < x * lancY lam x + lam * (1 - x ^ 2) := by rw [← hc]; exact Real.cosh_pos ψ
  have hsq : Real.sqrt (1 + ((lancY lam x - x * lam) * Real.sqrt (x ^ 2 - 1)) ^ 2) =
      x * lancY lam x + lam * (1 - x ^ 2) := by
    rw [← Real.sqrt_sq hkp.le]
    congr 1
    rw [mul_pow, hw2]
    linear_combination hL.sin_sq
  have dpsi : HasDerivAt (fun t => Real.arsinh ((lancY lam t - t * lam) * Real.sqrt (t ^ 2 - 1)))
      ((lancY lam x - lam * x) / (lancY lam x * Real.sqrt (x ^ 2 - 1))) x := by
    have := (dη.mul dw).arsinh
    refine this.congr_deriv ?_
    simp only [Pi.mul_apply]
    rw [hsq, smul_eq_mul]
    generalize Real.sqrt (x ^ 2 - 1) = w at *
    have hx2 : x ^ 2 = 1 + w ^ 2 := by linarith
    field_simp
    rw [hw2]
    ring
  have dx2 : HasDerivAt (fun t : ℝ => 1 - t ^ 2) (-(2 * x)) x := by
    refine ((hasDerivAt_pow 2 x).const_sub 1).congr_deriv ?_
    push_cast; ring
  have dT := ((((dpsi.div dw hwp.ne').sub (hasDerivAt_id x)).add
    (dy.const_mul lam)).div dx2 hw')
  have hev : (fun t => lancT lam t (lancY lam t) M) =ᶠ[nhds x] (fun t =>
      (Real.arsinh ((lancY lam t - t * lam) * Real.sqrt (t ^ 2 - 1)) / Real.sqrt (t ^ 2 - 1) - t +
        lam * lancY lam t) / (1 - t ^ 2)) := by
    filter_upwards [Ioi_mem_nhds h2] with t ht
    have ht : 1 < t := ht
    rw [lancT, if_neg (not_lt.2 ht.le), if_neg ht.ne']
  refine HasDerivAt.congr_of_eventuallyEq (dT.congr_deriv ?_) hev
  simp only [Pi.div_apply, Pi.sub_apply, Pi.add_apply, id]
  rw [lancT1, lancT, if_neg (not_lt.2 h2.le), if_neg h2.ne']
  have hy2 := hL.y_sq
  generalize Real.arsinh ((lancY lam x - x * lam) * Real.sqrt (x ^ 2 - 1)) = p at *
  generalize Real.sqrt (x ^ 2 - 1) = w at *
  generalize lancY lam x = y at *
  have e : 1 - x ^ 2 = -w ^ 2 := by linarith
  rw [e] at hy2 ⊢
  field_simp
  have hx2 : x ^ 2 = 1 + w ^ 2 := by linarith
  linear_combination y * w * hx2 - lam * x * w * hy2

/-- First derivative. -/
theorem lancT_hasDerivAt {lam x : ℝ} (hl : lam ^ 2 < 1) (h1 : -1 < x) (h2 : x ≠ 1) (M : ℕ) :
    HasDerivAt (fun t => lancT lam t (lancY lam t) M)
      (lancT1 lam x (lancY lam x) (lancT lam x (lancY lam x) M)) x := by
  rcases lt_or_gt_of_ne h2 with h | h
  · exact lancT_hasDerivAt_ell hl h1 h M
  · exact lancT_hasDerivAt_hyp hl h M

/-- Second derivative, for any function with first derivative `lancT1`. -/
theorem lancT1_hasDerivAt {lam x : ℝ} (hl : lam ^ 2 < 1) (h0 : 1 - x ^ 2 ≠ 0) {T : ℝ → ℝ}
    (hT : HasDerivAt T (lancT1 lam x (lancY lam x) (T x)) x) :
    HasDerivAt (fun t => lancT1 lam t (lancY lam t) (T t))
      (lancT2 lam x (lancY lam x) (T x) (lancT1 lam x (lancY lam x) (T x))) x := by
  have hL := lanc_lancY hl x
  have hyp := hL.y_pos
  have dy := lancY_hasDerivAt hl x
  have dx2 : HasDerivAt (fun t : ℝ => 1 - t ^ 2) (-(2 * x)) x := by
    refine ((hasDerivAt_pow 2 x).const_sub 1).congr_deriv ?_
    push_cast; ring
  have d := ((((hT.const_mul 3).mul (hasDerivAt_id x)).sub_const 2).add
    (((hasDerivAt_id x).const_mul (2 * lam ^ 3)).div dy hyp.ne')).div dx2 h0
  refine HasDerivAt.congr_of_eventuallyEq (d.congr_deriv ?_)
    (Filter.Eventually.of_forall fun t => rfl)
  simp only [Pi.div_apply, Pi.add_apply, Pi.mul_apply, id]
  unfold lancT2
  have hy2 := hL.y_sq
  have hd : lancT1 lam x (lancY lam x) (T x) * (1 - x ^ 2) =
      3 * T x * x - 2 + 2 * lam ^ 3 * x / lancY lam x := by
    unfold lancT1; rw [div_mul_cancel₀ _ h0]
  generalize lancT1 lam x (lancY lam x) (T x) = d1 at *
  generalize lancY lam x = y at *
  generalize T x = T0 at *
  rw [div_eq_div_iff (by positivity) h0]
  have e1 : 3 * T0 * x - 2 + 2 * lam ^ 3 * x / y = d1 * (1 - x ^ 2) := hd.symm
  rw [e1]
  field_simp
  linear_combination 2 * lam ^ 3 * hy2

/-- Third derivative. -/
theorem lancT2_hasDerivAt {lam x : ℝ} (hl : lam ^ 2 < 1) (h0 : 1 - x ^ 2 ≠ 0) {T T1 : ℝ → ℝ}
    (hT : HasDerivAt T (T1 x) x)
    (hT1 : HasDerivAt T1 (lancT2 lam x (lancY lam x) (T x) (T1 x)) x) :
    HasDerivAt (fun t => lancT2 lam t (lancY lam t) (T t) (T1 t))
      (lancT3 lam x (lancY lam x) (T1 x) (lancT2 lam x (lancY lam x) (T x) (T1 x))) x := by
  have hL := lanc_lancY hl x
  have hyp := hL.y_pos
  have dy := lancY_hasDerivAt hl x
  have dx2 : HasDerivAt (fun t : ℝ => 1 - t ^ 2) (-(2 * x)) x := by
    refine ((hasDerivAt_pow 2 x).const_sub 1).congr_deriv ?_
    push_cast; ring
  have d := (((hT.const_mul 3).add (((hasDerivAt_id x).const_mul 5).mul hT1)).add
    ((hasDerivAt_const x (2 * (1 - lam ^ 2) * lam ^ 3)).div (dy.pow 3) (pow_ne_zero 3 hyp.ne'))).div dx2 h0
  refine HasDerivAt.congr_of_eventuallyEq (d.congr_deriv ?_)
    (Filter.Eventually.of_forall fun t => rfl)
  simp only [Pi.div_apply, Pi.add_apply, Pi.mul_apply, Pi.pow_apply, id]
  unfold lancT3
  have hd : lancT2 lam x (lancY lam x) (T x) (T1 x) * (1 - x ^ 2) =
      3 * T x + 5 * x * T1 x + 2 * (1 - lam ^ 2) * lam ^ 3 / lancY lam x ^ 3 := by
    unfold lancT2; rw [div_mul_cancel₀ _ h0]
  generalize lancT2 lam x (lancY lam x) (T x) (T1 x) = d2 at *
  generalize lancY lam x = y at *
  rw [← hd, div_eq_div_iff (by positivity) h0]
  field_simp
  push_cast
  ring

end Lamberthub
