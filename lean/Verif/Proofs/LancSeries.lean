import Verif.Proofs.PSeries
import Verif.Proofs.IzzoLemmas

/-! # Lancaster's series for the time of flight near the parabola -/

set_option autoImplicit false

namespace Lamberthub
open Real

theorem Lanc.sigma {lam x y : ℝ} (h : Lanc lam x y) (h0 : 0 < x) (h1 : |1 - x ^ 2| < 1) :
    2 * lancT lam x y 0 = ps sigC (1 - x ^ 2) - lam ^ 3 * ps sigC (lam ^ 2 * (1 - x ^ 2)) := by
  have hy := h.y_pos
  have hl := abs_lt.1 ((sq_lt_one_iff_abs_lt_one _).1 h.lam_lt)
  have hpi := pi_pos
  rcases lt_trichotomy x 1 with hx | hx | hx
  · have hw : 0 < 1 - x ^ 2 := by nlinarith
    have hwp : 0 < sqrt (1 - x ^ 2) := sqrt_pos.2 hw
    have hw2 : sqrt (1 - x ^ 2) ^ 2 = 1 - x ^ 2 := sq_sqrt hw.le
    have hsa : sin (arccos x) = sqrt (1 - x ^ 2) := sin_arccos x
    have hca : cos (arccos x) = x := cos_arccos (by linarith) hx.le
    have ha0 : 0 < arccos x := arccos_pos.2 hx
    have ha1 : arccos x < π / 2 := arccos_lt_pi_div_two.2 h0
    have hw1 : sqrt (1 - x ^ 2) < 1 := by nlinarith
    have hlw : |lam * sqrt (1 - x ^ 2)| < 1 := by
      rw [abs_mul, abs_of_pos hwp]; nlinarith [abs_lt.2 hl, abs_nonneg lam]
    have hlw' := abs_lt.1 hlw
    have hsb : sin (arcsin (lam * sqrt (1 - x ^ 2))) = lam * sqrt (1 - x ^ 2) :=
      sin_arcsin hlw'.1.le hlw'.2.le
    have hcb : cos (arcsin (lam * sqrt (1 - x ^ 2))) = y := by
      rw [cos_arcsin, mul_pow, hw2, ← h.y_sq, sqrt_sq hy.le]
    have hb1 : -(π / 2) < arcsin (lam * sqrt (1 - x ^ 2)) := neg_pi_div_two_lt_arcsin.2 hlw'.1
    have hb2 : arcsin (lam * sqrt (1 - x ^ 2)) < π / 2 := arcsin_lt_pi_div_two.2 hlw'.2
    have hab : arcsin (lam * sqrt (1 - x ^ 2)) < arccos x := by
      by_contra hcon
      push Not at hcon
      have h3 := strictMonoOn_sin.monotoneOn ⟨by linarith, ha1.le⟩ ⟨hb1.le, hb2.le⟩ hcon
      rw [hsa, hsb] at h3
      nlinarith
    have key1 := sigC_sin (a := arccos x) (by linarith) ha1
    have key2 := sigC_sin hb1 hb2
    rw [hsa, hca, hw2] at key1
    rw [hsb, hcb, mul_pow, mul_pow, hw2] at key2
    have hpsi : arccos (x * y + lam * (1 - x ^ 2)) =
        arccos x - arcsin (lam * sqrt (1 - x ^ 2)) := by
      rw [← arccos_cos (x := arccos x - arcsin (lam * sqrt (1 - x ^ 2))) (by linarith) (by linarith),
        cos_sub, hsa, hca, hsb, hcb]
      congr 1
      linear_combination (-lam) * hw2
    rw [lancT, if_pos hx, hpsi]
    generalize ps sigC (1 - x ^ 2) = G1 at *
    generalize ps sigC (lam ^ 2 * (1 - x ^ 2)) = G2 at *
    generalize sqrt (1 - x ^ 2) = w at *
    rw [← hw2]
    have : w ^ 3 * (G1 - lam ^ 3 * G2) = 2 * (arccos x - arcsin (lam * w) - w * x + lam * w * y) := by
      linear_combination key1 - key2
    push_cast
    field_simp
    linear_combination (-1 : ℝ) * this
  · subst hx
    have hy1 : y = 1 := by
      have h3 := h.y_sq
      have : (y - 1) * (y + 1) = 0 := by linear_combination h3
      rcases mul_eq_zero.1 this with h5 | h5 <;> linarith
    rw [lancT, if_neg (lt_irrefl _), if_pos rfl, hy1]
    norm_num
    rw [ps_zero]
    unfold sigC binC
    norm_num
    ring
  · have hw : 0 < x ^ 2 - 1 := by nlinarith
    have hwp : 0 < sqrt (x ^ 2 - 1) := sqrt_pos.2 hw
    have hw2 : sqrt (x ^ 2 - 1) ^ 2 = x ^ 2 - 1 := sq_sqrt hw.le
    have hwlt : x ^ 2 - 1 < 1 := by linarith [(abs_lt.1 h1).1]
    have hsa : sinh (arsinh (sqrt (x ^ 2 - 1))) = sqrt (x ^ 2 - 1) := sinh_arsinh _
    have hca : cosh (arsinh (sqrt (x ^ 2 - 1))) = x := by
      rw [cosh_arsinh, hw2, show 1 + (x ^ 2 - 1) = x ^ 2 by ring, sqrt_sq h0.le]
    have hsb : sinh (arsinh (lam * sqrt (x ^ 2 - 1))) = lam * sqrt (x ^ 2 - 1) := sinh_arsinh _
    have hcb : cosh (arsinh (lam * sqrt (x ^ 2 - 1))) = y := by
      rw [cosh_arsinh, mul_pow, hw2, show 1 + lam ^ 2 * (x ^ 2 - 1) = y ^ 2 by rw [h.y_sq]; ring,
        sqrt_sq hy.le]
    have key1 := sigC_sinh (a := arsinh (sqrt (x ^ 2 - 1))) (by rw [hsa, hw2]; exact hwlt)
    have key2 := sigC_sinh (a := arsinh (lam * sqrt (x ^ 2 - 1))) (by
      rw [hsb, mul_pow, hw2]; nlinarith [h.lam_lt, sq_nonneg lam])
    rw [hsa, hca, hw2] at key1
    rw [hsb, hcb, mul_pow, mul_pow, hw2] at key2
    have hpsi : arsinh ((y - x * lam) * sqrt (x ^ 2 - 1)) =
        arsinh (sqrt (x ^ 2 - 1)) - arsinh (lam * sqrt (x ^ 2 - 1)) := by
      rw [← arsinh_sinh (arsinh (sqrt (x ^ 2 - 1)) - arsinh (lam * sqrt (x ^ 2 - 1))),
        sinh_sub, hsa, hca, hsb, hcb]
      congr 1
      ring
    rw [lancT, if_neg (not_lt.2 hx.le), if_neg hx.ne', hpsi]
    rw [show -(x ^ 2 - 1) = 1 - x ^ 2 by ring] at key1
    rw [show -(lam ^ 2 * (x ^ 2 - 1)) = lam ^ 2 * (1 - x ^ 2) by ring] at key2
    generalize ps sigC (1 - x ^ 2) = G1 at *
    generalize ps sigC (lam ^ 2 * (1 - x ^ 2)) = G2 at *
    rw [show 1 - x ^ 2 = -sqrt (x ^ 2 - 1) ^ 2 by linarith]
    generalize sqrt (x ^ 2 - 1) = w at *
    have : w ^ 3 * (G1 - lam ^ 3 * G2) = 2 * (w * x - arsinh w - (lam * w * y - arsinh (lam * w))) := by
      linear_combination key1 - key2
    field_simp
    linear_combination (-1 : ℝ) * this

end Lamberthub
