import Verif.Proofs.IzzoLemmas

/-! Lagrange's form of the time of flight in Lancaster's variables. -/

set_option autoImplicit false

namespace Lamberthub

theorem sqrt_cube_div {s w μ : ℝ} (hμ : 0 < μ) (hs : 0 < s) (hw : 0 < w) :
    Real.sqrt ((s / (2 * w ^ 2)) ^ 3 / μ) = Real.sqrt (s ^ 3 / (2 * μ)) / (2 * w ^ 3) := by
  rw [show (s / (2 * w ^ 2)) ^ 3 / μ = (s ^ 3 / (2 * μ)) / (2 * w ^ 3) ^ 2 by field_simp,
    Real.sqrt_div (by positivity), Real.sqrt_sq (by positivity)]

/-- Hyperbolic branch. -/
theorem lancT_hyp_lagrange {lam x y w : ℝ} (h : Lanc lam x y) (hx : 1 < x) (hw : 0 < w)
    (hw2 : w ^ 2 = x ^ 2 - 1) :
    lancT lam x y 0 * (2 * w ^ 3) =
      Real.sinh (2 * Real.arsinh w) - 2 * Real.arsinh w -
        (Real.sinh (2 * Real.arsinh (lam * w)) - 2 * Real.arsinh (lam * w)) := by
  have e : Real.sqrt (x ^ 2 - 1) = w := by rw [← hw2, Real.sqrt_sq hw.le]
  have hc1 : Real.cosh (Real.arsinh w) = x := by
    rw [Real.cosh_arsinh, hw2, show 1 + (x ^ 2 - 1) = x ^ 2 by ring, Real.sqrt_sq (by linarith)]
  have hc2 : Real.cosh (Real.arsinh (lam * w)) = y := by
    rw [Real.cosh_arsinh, mul_pow, hw2, ← Real.sqrt_sq h.y_pos.le, h.y_sq]; congr 1; ring
  have hsub : Real.arsinh ((y - x * lam) * w) = Real.arsinh w - Real.arsinh (lam * w) := by
    rw [← Real.arsinh_sinh (Real.arsinh w - Real.arsinh (lam * w)), Real.sinh_sub, hc1, hc2,
      Real.sinh_arsinh, Real.sinh_arsinh]
    congr 1; ring
  rw [lancT, if_neg (by linarith), if_neg hx.ne', e, hsub, Real.sinh_two_mul, Real.sinh_two_mul, hc1, hc2,
    Real.sinh_arsinh, Real.sinh_arsinh, show 1 - x ^ 2 = - w ^ 2 by linarith]
  field_simp
  ring

/-- Elliptic branches: `x ≥ 0`. -/
theorem lancT_ellA_lagrange {lam x y w : ℝ} (h : Lanc lam x y) (hx : x < 1) (hx0 : 0 ≤ x) (hw : 0 < w)
    (hw2 : w ^ 2 = 1 - x ^ 2) :
    lancT lam x y 0 * (2 * w ^ 3) =
      2 * Real.arcsin w - Real.sin (2 * Real.arcsin w) -
        (2 * Real.arcsin (lam * w) - Real.sin (2 * Real.arcsin (lam * w))) := by
  have e : Real.sqrt (1 - x ^ 2) = w := by rw [← hw2, Real.sqrt_sq hw.le]
  have hw1 : w ≤ 1 := by nlinarith
  have hl := abs_lt.1 ((sq_lt_one_iff_abs_lt_one _).1 h.lam_lt)
  have hlw : |lam * w| ≤ w := by
    rw [abs_mul, abs_of_pos hw]
    have := (sq_lt_one_iff_abs_lt_one _).1 h.lam_lt
    nlinarith [abs_nonneg lam]
  have hlw' := abs_le.1 hlw
  have hs1 : Real.sin (Real.arcsin w) = w := Real.sin_arcsin (by linarith) hw1
  have hs2 : Real.sin (Real.arcsin (lam * w)) = lam * w := Real.sin_arcsin (by linarith) (by linarith)
  have hc1 : Real.cos (Real.arcsin w) = x := by
    rw [Real.cos_arcsin, hw2, sub_sub_cancel, Real.sqrt_sq hx0]
  have hc2 : Real.cos (Real.arcsin (lam * w)) = y := by
    rw [Real.cos_arcsin, mul_pow, hw2, ← h.y_sq, Real.sqrt_sq h.y_pos.le]
  have hle : Real.arcsin (lam * w) ≤ Real.arcsin w := Real.monotone_arcsin hlw'.2
  have hge : -Real.arcsin w ≤ Real.arcsin (lam * w) := by
    rw [← Real.arcsin_neg]; exact Real.monotone_arcsin hlw'.1
  have hpi2 := Real.arcsin_le_pi_div_two w
  have hsub : Real.arccos (x * y + lam * (1 - x ^ 2)) = Real.arcsin w - Real.arcsin (lam * w) := by
    rw [← Real.arccos_cos (x := Real.arcsin w - Real.arcsin (lam * w)) (by linarith) (by linarith),
      Real.cos_sub, hc1, hc2, hs1, hs2]
    congr 1; linear_combination (-lam) * hw2
  rw [lancT, if_pos hx, e, hsub, Real.sin_two_mul, Real.sin_two_mul, hc1, hc2, hs1, hs2, ← hw2]
  push_cast
  field_simp
  ring

/-- Elliptic branches: `x ≤ 0`. -/
theorem lancT_ellB_lagrange {lam x y w : ℝ} (h : Lanc lam x y) (hx0 : x ≤ 0) (hw : 0 < w)
    (hw2 : w ^ 2 = 1 - x ^ 2) :
    lancT lam x y 0 * (2 * w ^ 3) =
      2 * Real.pi - (2 * Real.arcsin w - Real.sin (2 * Real.arcsin w)) -
        (2 * Real.arcsin (lam * w) - Real.sin (2 * Real.arcsin (lam * w))) := by
  have e : Real.sqrt (1 - x ^ 2) = w := by rw [← hw2, Real.sqrt_sq hw.le]
  have hw1 : w ≤ 1 := by nlinarith
  have hl := abs_lt.1 ((sq_lt_one_iff_abs_lt_one _).1 h.lam_lt)
  have hlw : |lam * w| ≤ w := by
    rw [abs_mul, abs_of_pos hw]
    have := (sq_lt_one_iff_abs_lt_one _).1 h.lam_lt
    nlinarith [abs_nonneg lam]
  have hlw' := abs_le.1 hlw
  have hs1 : Real.sin (Real.arcsin w) = w := Real.sin_arcsin (by linarith) hw1
  have hs2 : Real.sin (Real.arcsin (lam * w)) = lam * w := Real.sin_arcsin (by linarith) (by linarith)
  have hc1 : Real.cos (Real.arcsin w) = -x := by
    rw [Real.cos_arcsin, hw2, sub_sub_cancel, Real.sqrt_sq_eq_abs, abs_of_nonpos hx0]
  have hc2 : Real.cos (Real.arcsin (lam * w)) = y := by
    rw [Real.cos_arcsin, mul_pow, hw2, ← h.y_sq, Real.sqrt_sq h.y_pos.le]
  have hle : Real.arcsin (lam * w) ≤ Real.arcsin w := Real.monotone_arcsin hlw'.2
  have hge : -Real.arcsin w ≤ Real.arcsin (lam * w) := by
    rw [← Real.arcsin_neg]; exact Real.monotone_arcsin hlw'.1
  have hpi2 := Real.arcsin_le_pi_div_two w
  have hsub : Real.arccos (x * y + lam * (1 - x ^ 2)) =
      Real.pi - Real.arcsin w - Real.arcsin (lam * w) := by
    rw [← Real.arccos_cos (x := Real.pi - Real.arcsin w - Real.arcsin (lam * w)) (by linarith) (by linarith),
      Real.cos_sub, Real.cos_pi_sub, Real.sin_pi_sub, hc1, hc2, hs1, hs2]
    congr 1; linear_combination (-lam) * hw2
  rw [lancT, if_pos (by linarith), e, hsub, Real.sin_two_mul, Real.sin_two_mul, hc1, hc2, hs1, hs2, ← hw2]
  push_cast
  field_simp
  ring

end Lamberthub
