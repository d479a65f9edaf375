import Verif.Props.McElreath
import Mathlib.Analysis.SpecialFunctions.Sqrt
import Mathlib.Analysis.Calculus.Deriv.Inv
import Mathlib.Analysis.Real.Pi.Bounds

/-! # C46: the derivatives used by the McElreath iteration -/

set_option autoImplicit false

namespace Lamberthub
open Spec LC McElreath

namespace McElreath
variable {P m x : ℝ}

theorem alpha_deriv (hP : |2 * m| < P) (hx : Real.cos x ≠ 1) :
    HasDerivAt (rAlpha P m) (rAlpha P m x * (2 * Real.cos (x / 2) - m * rAlpha P m x) / (2 * Real.sin (x / 2))) x := by
  have hV := V_pos (x := x) hP
  have hs : Real.sin (x / 2) ≠ 0 := by
    intro h
    have := one_sub_cos x
    rw [h] at this
    apply hx; linarith
  have d1 : HasDerivAt (fun y => 1 - Real.cos y) (Real.sin x) x :=
    ((Real.hasDerivAt_cos x).const_sub 1).congr_deriv (by ring)
  have dh : HasDerivAt (fun y : ℝ => y / 2) (1 / 2) x := (hasDerivAt_id x).div_const 2
  have d2 : HasDerivAt (fun y => P - 2 * m * Real.cos (y / 2)) (m * Real.sin (x / 2)) x :=
    ((dh.cos.const_mul (2 * m)).const_sub P).congr_deriv (by ring)
  refine ((d1.div d2 hV.ne').congr_deriv ?_).congr_of_eventuallyEq (Filter.Eventually.of_forall fun y => rfl)
  have e1 : Real.sin x = 2 * Real.sin (x / 2) * Real.cos (x / 2) := by
    rw [← Real.sin_two_mul]; congr 1; ring
  unfold rAlpha
  rw [e1, one_sub_cos]
  generalize P - 2 * m * Real.cos (x / 2) = V at *
  field_simp

/-- `alpha'`, `alpha''`, `alpha'''`, `U3`, and the four returned values in terms of
`s = sin (x/2)`, `c = cos (x/2)`, `w = √alpha`, `S = sin x`, `C = cos x`. -/
noncomputable def a1 (m s c w : ℝ) : ℝ := w ^ 2 * (2 * c - m * w ^ 2) / (2 * s)
noncomputable def a2 (m s c w : ℝ) : ℝ := -(w ^ 2 / 2) + (c / 2 - m * w ^ 2) * a1 m s c w / s
noncomputable def a3 (m s c w : ℝ) : ℝ :=
  (m * w ^ 2 / (4 * s ^ 2) * (m * w ^ 2 - c / 2) - 1 / (2 * s) * (c / (2 * w ^ 2) + m) * a1 m s c w - 3 / 4) *
    a1 m s c w + 1 / (2 * s) * (c - 2 * m * w ^ 2) * a2 m s c w
noncomputable def u3 (x w S : ℝ) : ℝ := (x - S) / w ^ 3
noncomputable def tt (m s w x S : ℝ) : ℝ := 2 * m * s / w + u3 x w S
noncomputable def t1 (m s c w x S C : ℝ) : ℝ :=
  ((m * c + (1 - C) / w ^ 2) * w - (tt m s w x S + 2 * u3 x w S) * a1 m s c w / 2) / w ^ 2
noncomputable def t2 (m s c w x S C : ℝ) : ℝ :=
  ((-3 * t1 m s c w x S C + 2 * m * c / w) * a1 m s c w - 3 / 4 * tt m s w x S * a1 m s c w ^ 2 / w ^ 2 +
    S / w - m * w * s / 2 - (tt m s w x S / 2 + u3 x w S) * a2 m s c w) / w ^ 2
noncomputable def t3 (m s c w x S C : ℝ) : ℝ :=
  (C / w - m * c * w / 4 - a1 m s c w * (9 / 2 * t2 m s c w x S C + 3 / 2 * m * s / w +
      (9 / 4 * t1 m s c w x S C / w ^ 2 - 3 / 8 / w ^ 4 * tt m s w x S * a1 m s c w) * a1 m s c w) +
    (2 * m * c / w - (1 - C) / w ^ 3 - 7 / 2 * t1 m s c w x S C +
      (u3 x w S / w ^ 2 - 7 / 4 * tt m s w x S / w ^ 2) * a1 m s c w) * a2 m s c w -
    (tt m s w x S / 2 + u3 x w S) * a3 m s c w) / w ^ 2

theorem sin_half_ne (hx : Real.cos x ≠ 1) : Real.sin (x / 2) ≠ 0 := by
  intro h
  have := one_sub_cos x
  rw [h] at this
  apply hx; linarith

noncomputable def rW (P m x : ℝ) : ℝ := Real.sqrt (rAlpha P m x)

theorem rFull_eq (hP : |2 * m| < P) (hx : Real.cos x ≠ 1) :
    rFull P m x =
      (tt m (Real.sin (x / 2)) (rW P m x) x (Real.sin x),
       t1 m (Real.sin (x / 2)) (Real.cos (x / 2)) (rW P m x) x (Real.sin x) (Real.cos x),
       t2 m (Real.sin (x / 2)) (Real.cos (x / 2)) (rW P m x) x (Real.sin x) (Real.cos x),
       t3 m (Real.sin (x / 2)) (Real.cos (x / 2)) (rW P m x) x (Real.sin x) (Real.cos x)) := by
  have hα := rAlpha_pos hP hx
  have hw := Real.sqrt_pos.2 hα
  have hs := sin_half_ne hx
  have hsq : rAlpha P m x = Real.sqrt (rAlpha P m x) ^ 2 := (Real.sq_sqrt hα.le).symm
  unfold rFull rW rDerivs
  generalize Real.sqrt (rAlpha P m x) = w at *
  simp only []
  rw [hsq]
  generalize Real.sin (x / 2) = s at *
  generalize Real.cos (x / 2) = c at *
  generalize Real.sin x = S at *
  generalize Real.cos x = C at *
  have ea1 : 1 / 2 * (1 / (s * (1 / w))) * w * (2 * c - m * w ^ 2) = a1 m s c w := by
    unfold a1; field_simp
  have eu3 : (x * (1 / w) - S * (1 / w)) * (1 / w ^ 2) = u3 x w S := by
    unfold u3; field_simp
  have et : 2 * (s * (1 / w)) * m + u3 x w S = tt m s w x S := by
    unfold tt; ring
  have ea2 : -1 / 2 * w ^ 2 + (1 / 2 * c * (1 / w) - m * w) * a1 m s c w * (1 / (s * (1 / w))) = a2 m s c w := by
    unfold a2; field_simp
  have ea3 : (1 / 4 * m * (1 / (s * (1 / w))) ^ 2 * (m * w ^ 2 - 1 / 2 * c) -
      1 / 2 * (1 / w) * (1 / (s * (1 / w))) * (1 / 2 * c * (1 / w ^ 2) + m) * a1 m s c w - 3 / 4) * a1 m s c w +
      1 / 2 * (1 / w) * (1 / (s * (1 / w))) * (c - 2 * m * w ^ 2) * a2 m s c w = a3 m s c w := by
    unfold a3; field_simp
  have et1 : 1 / w ^ 2 * ((m * c + (1 - C) * (1 / w ^ 2)) * w - 1 / 2 * (tt m s w x S + 2 * u3 x w S) * a1 m s c w) =
      t1 m s c w x S C := by
    unfold t1; ring
  simp only [ea1, eu3, et, ea2, ea3, et1]
  have et2 : 1 / w ^ 2 * ((-3 * t1 m s c w x S C + 2 * m * c * (1 / w)) * a1 m s c w -
      3 / 4 * tt m s w x S * (1 / w ^ 2) * a1 m s c w ^ 2 + S * (1 / w) - 1 / 2 * m * w ^ 2 * (s * (1 / w)) -
      (1 / 2 * tt m s w x S + u3 x w S) * a2 m s c w) = t2 m s c w x S C := by
    unfold t2; field_simp
  simp only [et2]
  have et3 : 1 / w ^ 2 * (C * (1 / w) - 1 / 4 * m * c * w - a1 m s c w * (9 / 2 * t2 m s c w x S C +
      3 / 2 * m * (s * (1 / w)) + (9 / 4 * t1 m s c w x S C * (1 / w ^ 2) -
        3 / 8 * (1 / w ^ 2) ^ 2 * tt m s w x S * a1 m s c w) * a1 m s c w) +
      (2 * m * c * (1 / w) - (1 - C) * (1 / w ^ 2) * (1 / w) - 7 / 2 * t1 m s c w x S C +
        (u3 x w S * (1 / w ^ 2) - 7 / 4 * tt m s w x S * (1 / w ^ 2)) * a1 m s c w) * a2 m s c w -
      (1 / 2 * tt m s w x S + u3 x w S) * a3 m s c w) = t3 m s c w x S C := by
    unfold t3; field_simp
  simp only [et3]

/-! ### the derivatives -/

/-- The values at a point and their derivatives. -/
structure Pt (m : ℝ) (s c w S C : ℝ → ℝ) (x : ℝ) : Prop where
  ds : HasDerivAt s (c x / 2) x
  dc : HasDerivAt c (-(s x) / 2) x
  dS : HasDerivAt S (C x) x
  dC : HasDerivAt C (-(S x)) x
  dw : HasDerivAt w (a1 m (s x) (c x) (w x) / (2 * w x)) x
  hs : s x ≠ 0
  hw : w x ≠ 0
  sc : s x ^ 2 + c x ^ 2 = 1
  hS : S x = 2 * s x * c x
  hC : C x = 1 - 2 * s x ^ 2

section
variable {s c w S C : ℝ → ℝ}

theorem Pt.da1 (h : Pt m s c w S C x) : HasDerivAt (fun y => a1 m (s y) (c y) (w y)) (a2 m (s x) (c x) (w x)) x := by
  obtain ⟨ds, dc, -, -, dw, hs, hw, sc, -, -⟩ := h
  have d := ((dw.pow 2).mul ((dc.const_mul 2).sub ((dw.pow 2).const_mul m))).div (ds.const_mul 2)
    (mul_ne_zero two_ne_zero hs)
  refine (d.congr_deriv ?_).congr_of_eventuallyEq (Filter.Eventually.of_forall fun y => rfl)
  simp only [Pi.mul_apply, Pi.sub_apply, Pi.pow_apply]
  unfold a2 a1
  generalize s x = s at *
  generalize c x = c at *
  generalize w x = w at *
  field_simp
  ring

theorem Pt.da2 (h : Pt m s c w S C x) : HasDerivAt (fun y => a2 m (s y) (c y) (w y)) (a3 m (s x) (c x) (w x)) x := by
  have da := h.da1
  obtain ⟨ds, dc, -, -, dw, hs, hw, sc, -, -⟩ := h
  have d := (((dw.pow 2).div_const 2).neg).add
    ((((dc.div_const 2).sub ((dw.pow 2).const_mul m)).mul da).div ds hs)
  refine (d.congr_deriv ?_).congr_of_eventuallyEq (Filter.Eventually.of_forall fun y => rfl)
  simp only [Pi.mul_apply, Pi.sub_apply, Pi.pow_apply]
  unfold a3 a2 a1
  generalize s x = s at *
  generalize c x = c at *
  generalize w x = w at *
  field_simp
  ring

theorem Pt.du3 (h : Pt m s c w S C x) : HasDerivAt (fun y => u3 y (w y) (S y))
    ((1 - C x) / w x ^ 3 - 3 / 2 * u3 x (w x) (S x) * a1 m (s x) (c x) (w x) / w x ^ 2) x := by
  obtain ⟨ds, dc, dS, dC, dw, hs, hw, sc, -, -⟩ := h
  have d := ((hasDerivAt_id x).sub dS).div (dw.pow 3) (pow_ne_zero 3 hw)
  refine (d.congr_deriv ?_).congr_of_eventuallyEq (Filter.Eventually.of_forall fun y => rfl)
  simp only [Pi.sub_apply, Pi.pow_apply, id]
  unfold u3
  generalize a1 m (s x) (c x) (w x) = A at *
  generalize w x = w at *
  field_simp
  ring

theorem Pt.dt (h : Pt m s c w S C x) : HasDerivAt (fun y => tt m (s y) (w y) y (S y))
    (t1 m (s x) (c x) (w x) x (S x) (C x)) x := by
  have du := h.du3
  obtain ⟨ds, dc, dS, dC, dw, hs, hw, sc, -, -⟩ := h
  have d := ((ds.const_mul (2 * m)).div dw hw).add du
  refine (d.congr_deriv ?_).congr_of_eventuallyEq (Filter.Eventually.of_forall fun y => rfl)
  unfold t1 tt
  generalize u3 x (w x) (S x) = U at *
  generalize a1 m (s x) (c x) (w x) = A at *
  generalize w x = w at *
  field_simp
  ring

theorem Pt.dt1 (h : Pt m s c w S C x) : HasDerivAt (fun y => t1 m (s y) (c y) (w y) y (S y) (C y))
    (t2 m (s x) (c x) (w x) x (S x) (C x)) x := by
  have du := h.du3
  have dt := h.dt
  have da := h.da1
  obtain ⟨ds, dc, dS, dC, dw, hs, hw, sc, -, -⟩ := h
  have d := (((((dc.const_mul m).add ((dC.const_sub 1).div (dw.pow 2) (pow_ne_zero 2 hw))).mul dw).sub
    (((dt.add (du.const_mul 2)).mul da).div_const 2)).div (dw.pow 2) (pow_ne_zero 2 hw))
  refine (d.congr_deriv ?_).congr_of_eventuallyEq (Filter.Eventually.of_forall fun y => rfl)
  simp only [Pi.sub_apply, Pi.pow_apply, Pi.mul_apply, Pi.add_apply, Pi.div_apply]
  unfold t2 t1 tt
  generalize u3 x (w x) (S x) = U at *
  generalize a2 m (s x) (c x) (w x) = A2 at *
  generalize a1 m (s x) (c x) (w x) = A at *
  generalize w x = w at *
  field_simp
  ring

theorem Pt.dt2 (h : Pt m s c w S C x) : HasDerivAt (fun y => t2 m (s y) (c y) (w y) y (S y) (C y))
    (t3 m (s x) (c x) (w x) x (S x) (C x)) x := by
  have du := h.du3
  have dt := h.dt
  have dt1 := h.dt1
  have da := h.da1
  have da2 := h.da2
  obtain ⟨ds, dc, dS, dC, dw, hs, hw, sc, hS, hC⟩ := h
  have d := (((((((dt1.const_mul (-3)).add ((dc.const_mul (2 * m)).div dw hw)).mul da).sub
    (((dt.const_mul (3 / 4)).mul (da.pow 2)).div (dw.pow 2) (pow_ne_zero 2 hw))).add
    (dS.div dw hw)).sub (((dw.const_mul m).mul ds).div_const 2)).sub
    (((dt.div_const 2).add du).mul da2)).div (dw.pow 2) (pow_ne_zero 2 hw)
  refine (d.congr_deriv ?_).congr_of_eventuallyEq (Filter.Eventually.of_forall fun y => rfl)
  simp only [Pi.sub_apply, Pi.pow_apply, Pi.mul_apply, Pi.add_apply, Pi.div_apply]
  unfold t3 t2 t1 tt
  generalize u3 x (w x) (S x) = U at *
  generalize a3 m (s x) (c x) (w x) = A3 at *
  generalize a2 m (s x) (c x) (w x) = A2 at *
  generalize a1 m (s x) (c x) (w x) = A at *
  generalize w x = w at *
  field_simp
  ring

end

theorem pt (hP : |2 * m| < P) (hx : Real.cos x ≠ 1) :
    Pt m (fun y => Real.sin (y / 2)) (fun y => Real.cos (y / 2)) (rW P m) Real.sin Real.cos x := by
  have hα := rAlpha_pos hP hx
  have hw := Real.sqrt_pos.2 hα
  have dh : HasDerivAt (fun y : ℝ => y / 2) (1 / 2) x := (hasDerivAt_id x).div_const 2
  refine ⟨dh.sin.congr_deriv (by ring), dh.cos.congr_deriv (by ring), Real.hasDerivAt_sin x, Real.hasDerivAt_cos x,
    ?_, sin_half_ne hx, hw.ne', Real.sin_sq_add_cos_sq _, ?_, ?_⟩
  · refine ((alpha_deriv hP hx).sqrt hα.ne').congr_deriv ?_
    unfold a1 rW
    rw [Real.sq_sqrt hα.le]
  · rw [← Real.sin_two_mul]; congr 1; ring
  · linarith [one_sub_cos x]

theorem eventually_ne (hx : Real.cos x ≠ 1) : ∀ᶠ y in nhds x, Real.cos y ≠ 1 :=
  Real.continuous_cos.continuousAt.eventually_ne hx

end McElreath

/-- **C46**.  The three analytic derivatives returned by `_tof_equation_full` are the first,
second and third derivatives of the time it returns, at every real argument where it is
defined. -/
theorem mcelreath_derivatives {P m x : ℝ} (hP : |2 * m| < P) (hx : Real.cos x ≠ 1) :
    ∃ f f1 f2 f3 : ℝ → ℝ,
      (∀ᶠ y : ℝ in nhds x, tofEquationFull y P m = .ok ((f y : ℂ), (f1 y : ℂ), (f2 y : ℂ), (f3 y : ℂ))) ∧
      (∀ᶠ y : ℝ in nhds x, tofEquation y P m = .ok (f y : ℂ)) ∧
      HasDerivAt f (f1 x) x ∧ HasDerivAt f1 (f2 x) x ∧ HasDerivAt f2 (f3 x) x := by
  refine ⟨fun y => (rFull P m y).1, fun y => (rFull P m y).2.1, fun y => (rFull P m y).2.2.1,
    fun y => (rFull P m y).2.2.2, ?_, ?_, ?_, ?_, ?_⟩
  · filter_upwards [eventually_ne hx] with y hy using tofEquationFull_real hP hy
  · filter_upwards [eventually_ne hx] with y hy using tofEquation_real hP hy
  · simp only [rFull_eq hP hx]
    exact (pt hP hx).dt.congr_of_eventuallyEq (by
      filter_upwards [eventually_ne hx] with y hy; rw [rFull_eq hP hy])
  · simp only [rFull_eq hP hx]
    exact (pt hP hx).dt1.congr_of_eventuallyEq (by
      filter_upwards [eventually_ne hx] with y hy; rw [rFull_eq hP hy])
  · simp only [rFull_eq hP hx]
    exact (pt hP hx).dt2.congr_of_eventuallyEq (by
      filter_upwards [eventually_ne hx] with y hy; rw [rFull_eq hP hy])

/-- The hypotheses of `mcelreath_derivatives` are met by a right angle between unit vectors. -/
example : |2 * (Real.sqrt 2 / 2)| < 2 ∧ Real.cos (Real.pi / 2) ≠ 1 := by
  constructor
  · rw [abs_of_pos (by positivity)]
    have := Real.sqrt_lt_sqrt (by norm_num) (by norm_num : (2 : ℝ) < 4)
    rw [show (4 : ℝ) = 2 ^ 2 by norm_num, Real.sqrt_sq (by norm_num)] at this
    linarith
  · rw [Real.cos_pi_div_two]; norm_num

/-- Forward evaluation of the reconstruction at a real `x`. -/
theorem McElreath.reconstruct_real {mu θ x : ℝ} {r1 r2 : V3} {pro : Bool} (M : ℕ) (hmu : 0 < mu)
    (hna : NotAligned r1 r2) (hA : Angle pro r1 r2 θ) (hx : Real.cos x ≠ 1) :
    ∃ v1 v2, reconstruct mu r1 r2 (V3.norm r1) (V3.norm r2) θ
      ((-1) ^ M * Real.sqrt (V3.norm r1 * V3.norm r2) * Real.cos (θ / 2)) x = .ok (v1, v2) := by
  have hR1 := norm_pos_of_notAligned_left hna
  have hR2 := norm_pos_of_notAligned_right hna
  have hc := hA.cos_lt_one
  have hsin := sin_ne hA
  have hcn := chord_ne hna
  have hP := m_lt hna hA M
  generalize (-1) ^ M * Real.sqrt (V3.norm r1 * V3.norm r2) * Real.cos (θ / 2) = m at *
  have hα := rAlpha_pos hP hx
  have hw := Real.sqrt_pos.2 hα
  have hV := V_pos (x := x) hP
  have hh : (x : ℂ) / 2 = 0.5 * x := by rw [lits.1]; ring
  have hden := den_real (x := x) hP
  have hα' : (rAlpha (V3.norm r1 + V3.norm r2) m x : ℂ) ≠ 0 := by exact_mod_cast hα.ne'
  have hw' : ((Real.sqrt (rAlpha (V3.norm r1 + V3.norm r2) m x) : ℝ) : ℂ) ≠ 0 := by exact_mod_cast hw.ne'
  have hre : (Complex.cos (0.5 * (x : ℂ))).re = Real.cos (x / 2) := by
    rw [half_real, Complex.cos_ofReal_re]
  have hal := alpha_real (V3.norm r1 + V3.norm r2) m x
  push_cast at hal hden
  unfold reconstruct alphaAndUniversalValues
  simp only [hh]
  rw [cdiv_eq hden, ok_bind, hal, csqrt_ofReal hα.le, cdiv_eq hw', ok_bind,
    cdiv_eq (mul_ne_zero hα' hw'), ok_bind, ok_bind]
  simp only [hre]
  have h1 : 0 < 1 - Real.cos θ := by linarith
  have hp : 0 < V3.norm r1 * V3.norm r2 * (1 - Real.cos θ) / (V3.norm r1 + V3.norm r2 - 2 * m * Real.cos (x / 2)) := by
    positivity
  rw [pdiv_eq hV.ne', ok_bind, psqrt_eq (by positivity), ok_bind, pdiv_eq (by positivity), ok_bind, pdiv_eq hp.ne',
    ok_bind, psqrt_eq (by positivity), ok_bind, pdiv_eq hsin, ok_bind, vdiv_eq hR1.ne', ok_bind, vdiv_eq hR2.ne',
    ok_bind, vdiv_eq hcn, ok_bind]
  exact ⟨_, _, rfl⟩

/-- Beside C24: for every geometry, number of revolutions `M` and real
`x ∈ (2πM, 2π(M+1))`, the velocities reconstructed from `x` belong to a Kepler motion from
`r1` to `r2` with `M` revolutions, and the value of the time equation at `x` is `√mu` times
the flight time of that motion. -/
theorem mcelreath_time_equation {mu θ x : ℝ} {r1 r2 : V3} {pro : Bool} {M : ℕ} (hmu : 0 < mu)
    (hna : NotAligned r1 r2) (hθ : getTransferAngle r1 r2 pro = .ok θ) (h1 : 2 * Real.pi * M < x)
    (h2 : x < 2 * Real.pi * (M + 1)) :
    ∃ v1 v2 T, LambertArc mu r1 r2 v1 v2 T M ∧
      reconstruct mu r1 r2 (V3.norm r1) (V3.norm r2) θ
        ((-1) ^ M * Real.sqrt (V3.norm r1 * V3.norm r2) * Real.cos (θ / 2)) x = .ok (v1, v2) ∧
      tofEquation x (V3.norm r1 + V3.norm r2)
        ((-1) ^ M * Real.sqrt (V3.norm r1 * V3.norm r2) * Real.cos (θ / 2)) = .ok ((Real.sqrt mu * T : ℝ) : ℂ) := by
  have hA := angle_of_eq hna hθ
  obtain ⟨hG, hsh⟩ := hA.halfGeo hna
  have e1 : M * Real.pi < x / 2 := by linarith
  have e2 : x / 2 < (M + 1) * Real.pi := by linarith
  have hsg := neg_one_pow_sin e1 e2
  have habs := abs_sin_eq e1 e2
  have hs0 : Real.sin (x / 2) ≠ 0 := by intro h; rw [h, mul_zero] at hsg; exact lt_irrefl _ hsg
  have hx : Real.cos x ≠ 1 := by
    intro h
    have := one_sub_cos x
    rw [h] at this
    exact hs0 (pow_eq_zero_iff two_ne_zero |>.1 (by linarith))
  obtain ⟨v1, v2, hr⟩ := reconstruct_real (M := M) hmu hna hA hx
  obtain ⟨-, hV, rfl, rfl⟩ := reconstruct_ok hmu hna hA hr
  have hP := m_lt hna hA M
  have hmeq := m_eq (R1 := V3.norm r1) (R2 := V3.norm r2) (θ := θ) M
  have hcr : (Complex.cos ((x : ℂ) / 2)).re = Real.cos (x / 2) := by
    rw [show ((x : ℂ) / 2) = ((x / 2 : ℝ) : ℂ) by push_cast; rfl, Complex.cos_ofReal_re]
  rw [hcr] at hV hr
  refine ⟨_, _, _, Path.arc hmu hG (Path.ell e1 e2 hV (by rw [hmeq])), hr, ?_⟩
  rw [tofEquation_real hP hx, rFull_eq hP hx]
  congr 2
  have hα := rAlpha_pos hP hx
  have hRP := m_lt hna hA M
  generalize hm : (-1) ^ M * Real.sqrt (V3.norm r1 * V3.norm r2) * Real.cos (θ / 2) = m at *
  generalize halfA (V3.norm r1) (V3.norm r2) θ = A at *
  have hw : rW (V3.norm r1 + V3.norm r2) m x = Real.sqrt 2 * |Real.sin (x / 2)| /
      Real.sqrt (V3.norm r1 + V3.norm r2 - 2 * m * Real.cos (x / 2)) := by
    unfold rW rAlpha
    rw [one_sub_cos, Real.sqrt_div (by positivity), Real.sqrt_mul (by norm_num), Real.sqrt_sq_eq_abs]
  have hVs : Real.sqrt mu * Real.sqrt ((V3.norm r1 + V3.norm r2 - 2 * m * Real.cos (x / 2)) / mu) =
      Real.sqrt (V3.norm r1 + V3.norm r2 - 2 * m * Real.cos (x / 2)) := by
    rw [← Real.sqrt_mul hmu.le, mul_div_cancel₀ _ hmu.ne']
  have hr2 : Real.sqrt 2 * Real.sqrt 2 = 2 := Real.mul_self_sqrt (by norm_num)
  have h22 : Real.sqrt 2 ^ 2 = 2 := Real.sq_sqrt (by norm_num)
  unfold tt u3 Tell
  rw [mul_div_cancel₀ _ (two_ne_zero' ℝ), ← mul_assoc, hVs, hw]
  generalize hVV : V3.norm r1 + V3.norm r2 - 2 * m * Real.cos (x / 2) = V at *
  have hq := Real.sq_sqrt hV.le
  have hqp := Real.sqrt_pos.2 hV
  have hk : 2 * m * Real.sin (x / 2) = Real.sqrt 2 * A * |Real.sin (x / 2)| := by
    rw [hmeq, habs]; ring
  have ha : 0 < |Real.sin (x / 2)| := abs_pos.2 hs0
  rw [hk]
  generalize |Real.sin (x / 2)| = a at *
  generalize Real.sqrt V = q at *
  rw [← hq]
  have h23 : Real.sqrt 2 ^ 3 = 2 * Real.sqrt 2 := by rw [pow_succ, h22]
  rw [div_pow, mul_pow, h23]
  field_simp
  ring

/-- Finding (C24).  A zero-revolution problem whose time is within the tolerance of the
parabolic time is never solved: the code takes `x = 0` and then divides by
`sqrt(alpha) = 0`.  (The hypothesis on the sine is the negation of the code's own test for a
half-turn.) -/
theorem mcelreath_parabolic_undefined {mu : ℝ} {r1 r2 : V3} {tof : ℝ} {pro : Bool} {atol rtol : ℝ} (hmu : 0 < mu)
    (htof : 0 < tof) (hna : NotAligned r1 r2)
    (hsin : ∀ θ, getTransferAngle r1 r2 pro = .ok θ → 1e-14 < |Real.sin θ|)
    (hcl : |Real.sqrt mu * tof - Real.sqrt mu * parabolicTime mu r1 r2 pro| ≤
      atol + rtol * |Real.sqrt mu * parabolicTime mu r1 r2 pro|) (low : Bool) (maxiter : ℕ)
    (full : Bool) (clock : ℝ) :
    mcelreath2025 mu r1 r2 tof 0 pro low maxiter atol rtol full clock = .error .undefined := by
  have h10 : r1 ≠ 0 := by rintro rfl; simp [NotAligned] at hna
  have h12 : r1 ≠ r2 := by rintro rfl; simp [NotAligned, mul_comm] at hna
  obtain ⟨θ, hθ⟩ : ∃ θ, getTransferAngle r1 r2 pro = .ok θ := ⟨_, transferAngle_eq hna pro⟩
  have hA := angle_of_eq hna hθ
  have hsn := hsin θ hθ
  have hf : findX (Real.sqrt mu * tof) (V3.norm r1) (V3.norm r2)
      ((-1) ^ 0 * Real.sqrt (V3.norm r1 * V3.norm r2) * Real.cos (θ / 2)) θ 0 low maxiter atol rtol = .ok (0, 1) := by
    unfold findX
    rw [if_pos rfl, findSingleRevolutionX, parabolicTof_eq hmu hna hA, ok_bind, if_pos hcl]
  have hr : reconstruct mu r1 r2 (V3.norm r1) (V3.norm r2) θ
      ((-1) ^ 0 * Real.sqrt (V3.norm r1 * V3.norm r2) * Real.cos (θ / 2)) 0 = .error .undefined := by
    unfold reconstruct alphaAndUniversalValues
    simp only []
    have hP := m_lt hna hA 0
    generalize (-1) ^ 0 * Real.sqrt (V3.norm r1 * V3.norm r2) * Real.cos (θ / 2) = m at *
    have hden : (V3.norm r1 : ℂ) + V3.norm r2 - 2 * m * Complex.cos (0 / 2) ≠ 0 := by
      have := (V_pos (x := 0) hP).ne'
      rw [zero_div, Real.cos_zero] at this
      rw [zero_div, Complex.cos_zero]
      exact_mod_cast this
    rw [cdiv_eq hden, ok_bind]
    rw [Complex.cos_zero, sub_self, zero_div, zero_div, csqrt_zero, cdiv_zero, error_bind, error_bind]
  obtain ⟨tpi, htpi⟩ := timePerIter_pos full clock le_rfl
  unfold mcelreath2025
  rw [assertParameters_eq hmu h10 h12 htof le_rfl, ok_bind]
  simp only []
  rw [hθ, ok_bind, assertTransferAngleNotZero, raiseIf_neg _ hA.pos.ne', ok_bind, raiseIf_neg _ (by
    rw [show (0.0 : ℝ) = 0 by norm_num, sub_zero, abs_zero, mul_zero, add_zero]; exact not_le.2 hsn), ok_bind,
    Int.toNat_zero, hf, ok_bind]
  simp only []
  rw [htpi, ok_bind, hr, error_bind]

/-- Non-vacuity of `mcelreath_kepler_transfer_partial`: a quarter of the unit circle, with
the default tolerances, is solved in one pass. -/
theorem mcelreath_quarter_circle (low full : Bool) (clock : ℝ) (maxiter : ℕ) (hmax : 1 ≤ maxiter) :
    ∃ out, mcelreath2025 1 ⟨1, 0, 0⟩ ⟨0, 1, 0⟩ (Real.pi / 2) 0 true low maxiter 1e-5 1e-7 full clock = .ok out := by
  have hpi := Real.pi_pos
  have hpi3 := Real.pi_gt_three
  have hpi4 := Real.pi_le_four
  have hna : NotAligned ⟨1, 0, 0⟩ ⟨0, 1, 0⟩ := by simp [NotAligned]
  have n1 : V3.norm ⟨1, 0, 0⟩ = 1 := by simp [V3.norm, V3.dot]
  have n2 : V3.norm ⟨0, 1, 0⟩ = 1 := by simp [V3.norm, V3.dot]
  have hr2 : Real.sqrt 2 * Real.sqrt 2 = 2 := Real.mul_self_sqrt (by norm_num)
  have h22 : Real.sqrt 2 ^ 2 = 2 := Real.sq_sqrt (by norm_num)
  have hr0 : 1.414 < Real.sqrt 2 := Real.lt_sqrt_of_sq_lt (by norm_num)
  have hr1 : Real.sqrt 2 < 1.415 := (Real.sqrt_lt' (by norm_num)).2 (by norm_num)
  norm_num at hr0 hr1
  obtain ⟨θ, hθ⟩ : ∃ θ, getTransferAngle ⟨1, 0, 0⟩ ⟨0, 1, 0⟩ true = .ok θ := ⟨_, transferAngle_eq hna true⟩
  have hA := angle_of_eq hna hθ
  have hθ2 : θ = Real.pi / 2 := by
    have hc := hA.cos_eq
    rw [n1, n2] at hc
    simp only [V3.dot] at hc
    have hlt : θ < Real.pi := hA.short.2 (by simp [ShortWay, crossZ])
    refine Real.injOn_cos ⟨hA.pos.le, hlt.le⟩ ⟨by positivity, by linarith⟩ ?_
    rw [Real.cos_pi_div_two]; linarith
  subst hθ2
  have hm : (-1 : ℝ) ^ 0 * Real.sqrt (1 * 1) * Real.cos (Real.pi / 2 / 2) = Real.sqrt 2 / 2 := by
    rw [show Real.pi / 2 / 2 = Real.pi / 4 by ring, Real.cos_pi_div_four]; simp
  have hs4 : Real.sin (Real.pi / 2 / 2) = Real.sqrt 2 / 2 := by
    rw [show Real.pi / 2 / 2 = Real.pi / 4 by ring, Real.sin_pi_div_four]
  have hc4 : Real.cos (Real.pi / 2 / 2) = Real.sqrt 2 / 2 := by
    rw [show Real.pi / 2 / 2 = Real.pi / 4 by ring, Real.cos_pi_div_four]
  have hx : Real.cos (Real.pi / 2) ≠ 1 := by rw [Real.cos_pi_div_two]; norm_num
  have hP : |2 * (Real.sqrt 2 / 2)| < 1 + 1 := by
    rw [abs_of_pos (by positivity)]; linarith
  have hw : rW (1 + 1) (Real.sqrt 2 / 2) (Real.pi / 2) = 1 := by
    unfold rW rAlpha
    rw [Real.cos_pi_div_two, hc4, show (1 + 1 - 2 * (Real.sqrt 2 / 2) * (Real.sqrt 2 / 2)) = 1 by linarith]
    norm_num
  have ha1 : a1 (Real.sqrt 2 / 2) (Real.sqrt 2 / 2) (Real.sqrt 2 / 2) 1 = 1 / 2 := by
    unfold a1; field_simp; norm_num
  have ht : (rFull (1 + 1) (Real.sqrt 2 / 2) (Real.pi / 2)).1 = Real.pi / 2 := by
    rw [rFull_eq hP hx, hw, hs4]
    simp only [tt, u3, Real.sin_pi_div_two]
    linear_combination hr2 / 2
  have ht1 : (rFull (1 + 1) (Real.sqrt 2 / 2) (Real.pi / 2)).2.1 ≠ 0 := by
    rw [rFull_eq hP hx, hw, hs4, hc4]
    simp only [t1, ha1, tt, u3, Real.sin_pi_div_two, Real.cos_pi_div_two]
    apply ne_of_gt
    have : Real.pi < 3.15 := Real.pi_lt_d2
    norm_num at this
    nlinarith
  obtain ⟨v1, v2, hr⟩ := reconstruct_real (mu := 1) (M := 0) one_pos hna hA hx
  rw [n1, n2, hm] at hr
  have hchi : Real.sqrt (2 * (1 + 1 - 2 * (Real.sqrt 2 / 2))) < 109 / 100 := by
    rw [Real.sqrt_lt' (by norm_num)]; norm_num; linarith
  have htp : ∃ tp, getParabolicTof (1 + 1) (Real.sqrt 2 / 2) = .ok tp ∧ 0 ≤ tp ∧ tp < 11 / 10 := by
    unfold getParabolicTof
    rw [psqrt_eq (by linarith), ok_bind]
    have h0 := Real.sqrt_nonneg (2 * (1 + 1 - 2 * (Real.sqrt 2 / 2)))
    refine ⟨_, rfl, by positivity, ?_⟩
    generalize Real.sqrt (2 * (1 + 1 - 2 * (Real.sqrt 2 / 2))) = chi at *
    have h3 := pow_le_pow_left₀ h0 hchi.le 3
    have h4 : Real.sqrt 2 * chi ≤ 283 / 200 * (109 / 100) := mul_le_mul hr1.le hchi.le h0 (by norm_num)
    linarith
  obtain ⟨tp, htp, htp0, htp1⟩ := htp
  have hf : findX (Real.sqrt 1 * (Real.pi / 2)) 1 1 (Real.sqrt 2 / 2) (Real.pi / 2) 0 low maxiter 1e-5 1e-7 =
      .ok ((Real.pi / 2 : ℝ), 1) := by
    unfold findX
    rw [if_pos rfl, findSingleRevolutionX, htp, ok_bind, Real.sqrt_one, one_mul, if_neg (by
      rw [abs_of_pos (by linarith), abs_of_nonneg htp0]; norm_num; linarith), if_pos (by linarith)]
    have hs : ellipticStart (Real.pi / 2) tp (1 + 1) (Real.sqrt 2 / 2) (Real.pi / 2) = .ok ((Real.pi / 2 : ℝ) : ℂ) := by
      unfold ellipticStart
      rw [tofEquation_real hP hx, ok_bind, Complex.ofReal_re, ht, pdiv_eq (by linarith), ok_bind,
        div_self (by linarith), psqrt_eq (by norm_num), ok_bind, pdiv_eq (by linarith), ok_bind, Real.sqrt_one]
      simp only []
      have e : (1 : ℝ) * (Real.pi / 2 / (2 * Real.pi - Real.pi / 2)) = 1 / 3 := by
        rw [one_mul, div_eq_iff (by linarith)]; ring
      rw [e, pdiv_eq (by norm_num), ok_bind]
      congr 2
      ring
    rw [hs, ok_bind]
    unfold solveDesiredX
    obtain ⟨k, rfl⟩ : ∃ k, maxiter = k + 1 := ⟨maxiter - 1, by omega⟩
    rw [desiredLoop, tofEquationFull_real hP hx, ok_bind]
    simp only []
    have hh : ∀ t2 t3 : ℂ, householderStep ((Real.pi / 2 : ℝ) : ℂ) (Real.pi / 2)
        ((rFull (1 + 1) (Real.sqrt 2 / 2) (Real.pi / 2)).1 : ℂ)
        ((rFull (1 + 1) (Real.sqrt 2 / 2) (Real.pi / 2)).2.1 : ℂ) t2 t3 0 (some (2 * Real.pi)) =
        .ok ((Real.pi / 2 : ℝ) : ℂ) := by
      intro t2 t3
      unfold householderStep
      rw [ht, sub_self]
      simp only []
      have h1 : ((rFull (1 + 1) (Real.sqrt 2 / 2) (Real.pi / 2)).2.1 : ℂ) ≠ 0 := by exact_mod_cast ht1
      rw [cdiv_eq (by simp [h1]), ok_bind]
      have hz : ((Real.pi / 2 : ℝ) : ℂ) + -((6 * 0 * ((rFull (1 + 1) (Real.sqrt 2 / 2) (Real.pi / 2)).2.1 : ℂ) ^ 2 -
        3 * 0 ^ 2 * t2) / (6 * ((rFull (1 + 1) (Real.sqrt 2 / 2) (Real.pi / 2)).2.1 : ℂ) ^ 3 -
        6 * 0 * ((rFull (1 + 1) (Real.sqrt 2 / 2) (Real.pi / 2)).2.1 : ℂ) * t2 + 0 ^ 2 * t3)) = ((Real.pi / 2 : ℝ) : ℂ) := by
        simp
      rw [hz, if_neg]
      rintro (⟨h, hh, h'⟩ | h')
      · simp only [Option.mem_def, Option.some.injEq] at hh
        rw [← hh, Complex.ofReal_re, Complex.ofReal_im] at h'
        linarith
      · rw [Complex.ofReal_re, Complex.ofReal_im] at h'
        linarith
    rw [hh, ok_bind, sub_self, cdiv_eq (by
      have : Real.pi / 2 - 2 * Real.pi * (0 : ℕ) + 2 * Real.pi ≠ 0 := by
        rw [Nat.cast_zero, mul_zero, sub_zero]; linarith
      exact_mod_cast this), ok_bind, zero_div, norm_zero, if_pos (by norm_num)]
    congr 2
    unfold cleanRoot
    rw [Complex.ofReal_im, Complex.ofReal_re]
    simp
  obtain ⟨tpi, htpi⟩ := timePerIter_pos full clock le_rfl
  refine ⟨mkOutput full v1 v2 1 tpi, ?_⟩
  unfold mcelreath2025
  rw [assertParameters_eq one_pos (by rintro h; simpa using congrArg V3.x h) (by rintro h; simpa using congrArg V3.x h)
    (by positivity) le_rfl, ok_bind]
  simp only []
  rw [hθ, ok_bind, assertTransferAngleNotZero, raiseIf_neg _ (by positivity), ok_bind, raiseIf_neg _ (by
    rw [Real.sin_pi_div_two]; norm_num), ok_bind, Int.toNat_zero, n1, n2, hm, hf, ok_bind]
  simp only []
  rw [htpi, ok_bind, hr, ok_bind]

end Lamberthub
