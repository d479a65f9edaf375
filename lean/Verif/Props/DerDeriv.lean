import Verif.Proofs.DerLemmas

/-! # C42 (Der): derivatives of the elliptic time equation -/

set_option autoImplicit false

namespace Lamberthub
open Spec LC Der

theorem Der.prime_eq {σ x T : ℝ} (hl : σ ^ 2 < 1) (h0 : 0 < σ) (h1 : -1 < x) (h2 : x < 1) :
    tofEllipticPrime σ x (computeY σ x) T = .ok (lancT1 σ x (lancY σ x) T) := by
  have hy := (lanc_lancY hl x).y_pos
  have hx : 0 < 1 - x ^ 2 := by nlinarith
  have hsg : sg σ = 1 := by unfold sg; rw [if_neg (by linarith)]
  unfold tofEllipticPrime
  rw [computeY_eq hl h0.ne', hsg, one_mul, pdiv_eq hy.ne', ok_bind, pdiv_eq hx.ne']
  unfold lancT1
  congr 2
  ring

/-- **C42 (Der), transfer angle below π.** For `0 < σ < 1`, every number of revolutions and
every elliptic path parameter `x`: `_tof_elliptic_prime` returns the derivative of the time
equation, and `_tof_elliptic_second` (for `x ≠ 0`) its second derivative. -/
theorem der_derivatives_partial {σ : ℝ} (h0 : 0 < σ) (h1 : σ < 1) (M : ℕ) :
    ∃ T T1 T2 : ℝ → ℝ, ∀ x, -1 < x → x < 1 →
      tofElliptic x (computeY σ x) M = .ok (T x) ∧
      tofEllipticPrime σ x (computeY σ x) (T x) = .ok (T1 x) ∧ HasDerivAt T (T1 x) x ∧ HasDerivAt T1 (T2 x) x ∧
      (x ≠ 0 → tofEllipticSecond σ x (computeY σ x) (T1 x) = .ok (T2 x)) := by
  have hl : σ ^ 2 < 1 := by nlinarith
  refine ⟨fun t => lancT σ t (lancY σ t) M, fun t => lancT1 σ t (lancY σ t) (lancT σ t (lancY σ t) M),
    fun t => lancT2 σ t (lancY σ t) (lancT σ t (lancY σ t) M)
      (lancT1 σ t (lancY σ t) (lancT σ t (lancY σ t) M)), fun x hx1 hx2 => ?_⟩
  have hw : 0 < 1 - x ^ 2 := by nlinarith
  have d1 := lancT_hasDerivAt hl hx1 hx2.ne M
  have d2 := lancT1_hasDerivAt hl hw.ne' d1
  refine ⟨tofElliptic_eq hl h0.ne' hx1 hx2 M, prime_eq hl h0 hx1 hx2, d1, d2, fun hx0 => ?_⟩
  have hL := lanc_lancY hl x
  have hy := hL.y_pos
  have hsg : sg σ = 1 := by unfold sg; rw [if_neg (by linarith)]
  unfold tofEllipticSecond
  simp only []
  rw [if_pos hx0, computeY_eq hl h0.ne', hsg, one_mul, pdiv_eq (by positivity), ok_bind,
    pdiv_eq (mul_ne_zero hx0 hw.ne')]
  congr 1
  generalize lancT σ x (lancY σ x) M = T
  have hd : lancT1 σ x (lancY σ x) T * (1 - x ^ 2) = 3 * T * x - 2 + 2 * σ ^ 3 * x / lancY σ x := by
    unfold lancT1; rw [div_mul_cancel₀ _ hw.ne']
  have hy2 := hL.y_sq
  unfold lancT2
  generalize lancT1 σ x (lancY σ x) T = d at *
  generalize lancY σ x = y at *
  rw [div_eq_div_iff (mul_ne_zero hx0 hw.ne') hw.ne']
  have hd' : 3 * T * x = d * (1 - x ^ 2) + 2 - 2 * σ ^ 3 * x / y := by linarith
  have e : (3 * T + 5 * x * d + 2 * (1 - σ ^ 2) * σ ^ 3 / y ^ 3) * (x * (1 - x ^ 2)) =
      (3 * T * x + 5 * x ^ 2 * d + 2 * (1 - σ ^ 2) * σ ^ 3 * x / y ^ 3) * (1 - x ^ 2) := by ring
  rw [e, hd']
  field_simp
  linear_combination (2 * σ ^ 3 * x) * hy2

/-- **C42 (Der), negation for transfer angles above π.** For `-1 < σ < 0` the value returned
by `_tof_elliptic_prime` is not the derivative of the time equation, at any `x ≠ 0`: the
formula needs `|y|` where the code has the signed `y`. -/
theorem der_derivative_wrong {σ : ℝ} (h0 : σ < 0) (h1 : -1 < σ) (M : ℕ) {x : ℝ} (hx1 : -1 < x) (hx2 : x < 1)
    (hx0 : x ≠ 0) :
    ∃ (T : ℝ → ℝ) (d : ℝ), (∀ t, -1 < t → t < 1 → tofElliptic t (computeY σ t) M = .ok (T t)) ∧
      tofEllipticPrime σ x (computeY σ x) (T x) = .ok d ∧ ¬ HasDerivAt T d x := by
  have hl : σ ^ 2 < 1 := by nlinarith
  have hw : 0 < 1 - x ^ 2 := by nlinarith
  have hL := lanc_lancY hl x
  have hy := hL.y_pos
  have hsg : sg σ = -1 := by unfold sg; rw [if_pos h0]
  refine ⟨fun t => lancT σ t (lancY σ t) M,
    (3 * x * lancT σ x (lancY σ x) M - 2 * (1 - σ ^ 3 * x / (-1 * lancY σ x))) / (1 - x ^ 2),
    fun t ht1 ht2 => tofElliptic_eq hl h0.ne ht1 ht2 M, ?_, ?_⟩
  · unfold tofEllipticPrime
    rw [computeY_eq hl h0.ne, hsg, pdiv_eq (by nlinarith), ok_bind, pdiv_eq hw.ne']
  · intro hd
    have d1 := lancT_hasDerivAt hl hx1 hx2.ne M
    have e := hd.unique d1
    unfold lancT1 at e
    rw [div_left_inj' hw.ne'] at e
    have e2 : σ ^ 3 * x / lancY σ x = 0 := by
      have : σ ^ 3 * x / (-1 * lancY σ x) = - (σ ^ 3 * x / lancY σ x) := by field_simp
      rw [this] at e
      have e3 : 2 * σ ^ 3 * x / lancY σ x = 2 * (σ ^ 3 * x / lancY σ x) := by ring
      rw [e3] at e
      linarith
    rcases div_eq_zero_iff.1 e2 with h | h
    · rcases mul_eq_zero.1 h with h | h
      · exact h0.ne (pow_eq_zero_iff (by norm_num) |>.1 h)
      · exact hx0 h
    · exact hy.ne' h

example := der_derivative_wrong (σ := -1 / 2) (by norm_num) (by norm_num) 0 (x := 1 / 2) (by norm_num) (by norm_num)
  (by norm_num)

example := der_derivatives_partial (σ := 1 / 2) (by norm_num) (by norm_num) 3

end Lamberthub
