import Verif.Props.Gooding
import Verif.Props.Izzo
import Mathlib.Analysis.Real.Pi.Bounds

/-! # More about Gooding's solver: iteration budget, convergence reports, derivatives -/

set_option autoImplicit false

namespace Lamberthub
open Spec LC Gooding

namespace Gooding

/-- What the iteration of `_xlamb_iter` returns: the pass number is within the budget, and
either the last two iterates are close or the whole budget has been used. -/
theorem xlambIter_ok {m : ℤ} {q w tin atol rtol : ℝ} {maxiter : ℕ} :
    ∀ {rem num : ℕ} {x xold x' : ℝ} {k : ℕ}, num + rem = maxiter + 1 →
      xlambIter m q w tin atol rtol maxiter rem num x xold = .ok (x', k) →
      k ≤ maxiter ∧ (k = maxiter ∨ num ≤ k) ∧
        (k = maxiter ∨ ∃ p, |x' - p| ≤ atol ∧ |x' / p - 1| ≤ rtol) := by
  intro rem
  induction rem with
  | zero =>
    intro num x xold x' k hn h
    simp only [xlambIter, Except.ok.injEq, Prod.mk.injEq] at h
    exact ⟨h.2.ge, Or.inl h.2.symm, Or.inl h.2.symm⟩
  | succ rem ih =>
    intro num x xold x' k hn h
    rw [xlambIter] at h
    simp only [bind_ok, pdiv_ok] at h
    obtain ⟨⟨t0, dt, d2t, d3⟩, -, ⟨y, yo⟩, -, ratio, ⟨-, hr⟩, h⟩ := h
    simp only [] at h hr
    split at h
    · rename_i hc
      simp only [Except.ok.injEq, Prod.mk.injEq] at h
      obtain ⟨rfl, rfl⟩ := h
      subst hr
      exact ⟨by omega, Or.inr le_rfl, Or.inr ⟨yo, hc⟩⟩
    · obtain ⟨h1, h2, h3⟩ := ih (by omega) h
      exact ⟨h1, by omega, h3⟩

end Gooding

theorem serC_half (n : ℕ) : serC (1 / 2) n = 4 * binC n / (2 * n + 3) * (1 - (1 / 2) ^ (2 * n + 3)) := rfl

/-- The starting point of the witness below is exactly the parabola. -/
theorem Gooding.witness_start : ∃ t : ℝ, 1.25 < t ∧ t < 1.27 ∧
    ∀ thr2, singleStart (1 / 2) (1 - (1 / 2) ^ 2) t thr2 = .ok 1 := by
  have hL := lanc_lancY (lam := 1 / 2) (by norm_num) 0
  have hy : lancY (1 / 2) 0 = Real.sqrt 3 / 2 := by
    unfold lancY
    rw [show (1 : ℝ) - (1 / 2) ^ 2 * (1 - 0 ^ 2) = 3 / 2 ^ 2 by norm_num,
      Real.sqrt_div (by norm_num), Real.sqrt_sq (by norm_num)]
  have hT : 2 * lancT (1 / 2) 0 (lancY (1 / 2) 0) 0 = 2 * Real.pi / 3 + Real.sqrt 3 / 2 := by
    rw [lancT, if_pos one_pos, hy]
    have ha : Real.arccos (1 / 2) = Real.pi / 3 := by
      rw [← Real.cos_pi_div_three, Real.arccos_cos (by positivity) (by linarith [Real.pi_pos])]
    norm_num
    norm_num at ha
    rw [ha]
    ring
  obtain ⟨d, hd⟩ := tlamb_time hL (M := 0) (by norm_num) (Or.inl rfl) (n := 0) (by norm_num)
  rw [hT] at hd
  set t0 := 2 * Real.pi / 3 + Real.sqrt 3 / 2 with ht0
  have h1 := Real.pi_gt_d2
  have h2 := Real.pi_lt_d2
  have s1 : 1.73 < Real.sqrt 3 := Real.lt_sqrt_of_sq_lt (by norm_num)
  have s2 : Real.sqrt 3 < 1.74 := by rw [Real.sqrt_lt' (by norm_num)]; norm_num
  have b1 : 2.95 < t0 := by rw [ht0]; norm_num at *; linarith
  have b2 : t0 < 2.971 := by rw [ht0]; norm_num at *; linarith
  refine ⟨t0 ^ 2 / (4 + t0), ?_, ?_, fun thr2 => ?_⟩
  · rw [lt_div_iff₀ (by linarith)]; norm_num at *; nlinarith
  · rw [div_lt_iff₀ (by linarith)]; norm_num at *; nlinarith
  · unfold singleStart
    norm_num at hd ⊢
    rw [hd, ok_bind]
    have hp : 0 < t0 := by linarith
    have e : t0 ^ 2 / (4 + t0) - t0 = -(4 * t0 / (4 + t0)) := by field_simp; ring
    simp only []
    have hq : 0 < 4 * t0 / (4 + t0) := by positivity
    rw [if_pos (by linarith), pdiv_eq (by
      have : 0 < 4 * (t0 ^ 2 / (4 + t0)) := by positivity
      linarith), e]
    congr 1
    field_simp

/-- geometry of the witness: `s = 8`, `q = 1/2` -/
theorem Gooding.witness_geo {s q : ℝ}
    (hS : Semi (V3.norm ⟨4, -3, 0⟩) (V3.norm ⟨4, 3, 0⟩)
      (V3.norm ((⟨4, 3, 0⟩ : V3) - ⟨4, -3, 0⟩)) s q)
    (hq : 0 < q ↔ ShortWay true ⟨4, -3, 0⟩ ⟨4, 3, 0⟩) : s = 8 ∧ q = 1 / 2 := by
  have n1 : V3.norm ⟨4, -3, 0⟩ = 5 := by
    unfold V3.norm V3.dot; rw [show (4 : ℝ) * 4 + -3 * -3 + 0 * 0 = 5 ^ 2 by norm_num]
    exact Real.sqrt_sq (by norm_num)
  have n2 : V3.norm ⟨4, 3, 0⟩ = 5 := by
    unfold V3.norm V3.dot; rw [show (4 : ℝ) * 4 + 3 * 3 + 0 * 0 = 5 ^ 2 by norm_num]
    exact Real.sqrt_sq (by norm_num)
  have n3 : V3.norm ((⟨4, 3, 0⟩ : V3) - ⟨4, -3, 0⟩) = 6 := by
    unfold V3.norm V3.dot
    simp only [V3.sub_x, V3.sub_y, V3.sub_z]
    rw [show ((4 : ℝ) - 4) * (4 - 4) + (3 - -3) * (3 - -3) + (0 - 0) * (0 - 0) = 6 ^ 2 by norm_num]
    exact Real.sqrt_sq (by norm_num)
  have hs := hS.hs
  rw [n1, n2, n3] at hs
  have hs : s = 8 := by rw [hs]; norm_num
  have hc := hS.chord
  rw [n3, hs] at hc
  have hq0 : 0 < q := hq.2 (by simp [ShortWay, crossZ]; norm_num)
  refine ⟨hs, ?_⟩
  have : (q - 1 / 2) * (q + 1 / 2) = 0 := by linarith
  rcases mul_eq_zero.1 this with h | h <;> linarith

/-- **C38 and C31 fail (negation).**  `gooding1990` accepts iterates that have not
converged.  For `r1 = (4,-3,0)`, `r2 = (4,3,0)`, `mu = 64` there is a time of flight such
that
* with the iteration budget 1 and the default tolerances the solver returns, although its
  only step moves the iterate by more than `0.05`, five thousand times the tolerance;
* with the budget 0 it returns, without reporting anything, a transfer whose flight time
  is less than 94 percent of the requested one. -/
theorem gooding_unconverged_accepted (low : Bool) (clock : ℝ) :
    ∃ tof, 0 < tof ∧
      (∃ out x, gooding1990 64 ⟨4, -3, 0⟩ ⟨4, 3, 0⟩ tof 0 true low 1 1e-5 1e-7 true clock = .ok out ∧
        xlambIter 0 (1 / 2) (1 - (1 / 2) ^ 2) tof 1e-5 1e-7 1 1 1 1 1 = .ok (x, 1) ∧
        0.05 < |x - 1|) ∧
      (∃ out T, gooding1990 64 ⟨4, -3, 0⟩ ⟨4, 3, 0⟩ tof 0 true low 0 1e-5 1e-7 false clock = .ok out ∧
        LambertArc 64 ⟨4, -3, 0⟩ ⟨4, 3, 0⟩ out.v1 out.v2 T 0 ∧ T < 0.94 * tof) ∧
      gooding1990 64 ⟨4, -3, 0⟩ ⟨4, 3, 0⟩ tof 0 true low 0 1e-5 1e-7 true clock =
        .error .undefined := by
  obtain ⟨tof, h1, h2, hst⟩ := witness_start
  have htof : 0 < tof := by norm_num at h1; linarith
  have hna : NotAligned ⟨4, -3, 0⟩ ⟨4, 3, 0⟩ := by simp [NotAligned]; norm_num
  have hsq : Real.sqrt (8 * 64 / 8 ^ 3) * tof = tof := by norm_num
  have hsq' : ∀ T : ℝ, Real.sqrt (8 * 64 / 8 ^ 3) * T = T := fun T => by norm_num
  have b1 : binC 1 = 1 / 2 := by simp [binC]
  have b2 : binC 2 = 3 / 8 := by simp [binC]; norm_num
  have hL := lanc_lancY (lam := 1 / 2) (by norm_num) 1
  have hK : 2 * lancT (1 / 2) 1 (lancY (1 / 2) 1) 0 = 7 / 6 := by
    rw [← serK_eq hL one_pos (by norm_num), serK, one_pow, sub_self, ps_zero, serC_half, binC]
    norm_num
  have htl : tlamb 0 (1 / 2) (1 - (1 / 2) ^ 2) 1 2 = .ok (7 / 6, -2 * (31 / 80),
      2 * (2 * (2 * (3 / 14 * (127 / 128))) - 31 / 80), 0) := by
    unfold tlamb
    rw [if_neg (by norm_num), if_neg (by norm_num), tlambSeries_eq hL one_pos (by norm_num), hK]
    have c1 : serC (1 / 2) 1 = 31 / 80 := by rw [serC_half, b1]; norm_num
    have c2 : serC (1 / 2) 2 = 3 / 14 * (127 / 128) := by rw [serC_half, b2]; norm_num
    rw [one_pow, sub_self, ps_zero, ps_zero, psD, psD, psD]
    norm_num
    norm_num at c1 c2
    rw [c1, c2]
    norm_num
  have hit : ∃ x, xlambIter 0 (1 / 2) (1 - (1 / 2) ^ 2) tof 1e-5 1e-7 1 1 1 1 1 = .ok (x, 1) ∧
      0.05 < |x - 1| := by
    rw [xlambIter, htl, ok_bind]
    simp only [halleyStep]
    rw [show (2.0 : ℝ) = 2 by norm_num]
    set d2 : ℝ := 2 * (2 * (2 * (3 / 14 * (127 / 128))) - 31 / 80) with hd2
    have hd2v : 0.92 < d2 ∧ d2 < 0.93 := by rw [hd2]; constructor <;> norm_num
    set D : ℝ := -2 * (31 / 80) * (-2 * (31 / 80)) + (tof - 7 / 6) * d2 / 2 with hD
    have hDv : 0.6 < D ∧ D < 0.66 := by
      obtain ⟨a, b⟩ := hd2v
      rw [hD]
      constructor <;> norm_num at * <;> nlinarith
    have hs : 0.05 < |(tof - 7 / 6) * (-2 * (31 / 80)) / D| := by
      rw [abs_div, abs_mul, abs_of_pos (show 0 < tof - 7 / 6 by norm_num at h1 ⊢; linarith),
        abs_of_pos (show 0 < D by norm_num at hDv ⊢; linarith), lt_div_iff₀ (by norm_num at hDv ⊢; linarith)]
      norm_num at *
      linarith
    rw [if_pos (by norm_num), pdiv_eq (show D ≠ 0 by norm_num at hDv ⊢; linarith), ok_bind, ok_bind]
    simp only []
    rw [pdiv_eq one_ne_zero, ok_bind, if_neg]
    · exact ⟨_, rfl, by rw [add_sub_cancel_left]; exact hs⟩
    · rintro ⟨hc, -⟩
      rw [add_sub_cancel_left] at hc
      norm_num at hc hs
      linarith
  refine ⟨tof, htof, ?_, ?_, ?_⟩
  · obtain ⟨x, hx, hx'⟩ := hit
    obtain ⟨s, q, hS, hG, hqs, heq⟩ := gooding_eq (mu := 64) (M := 0) true low 1 1e-5 1e-7 clock true
      hna (by norm_num) htof
    obtain ⟨rfl, rfl⟩ := witness_geo hS hqs
    rw [hsq] at heq
    rw [Nat.cast_zero] at heq
    rw [heq, xlamb, if_pos rfl, hst, ok_bind, finish, hx, ok_bind]
    simp only []
    rw [if_pos trivial, pdiv_eq (by norm_num), ok_bind, ok_bind]
    exact ⟨_, x, rfl, rfl, hx'⟩
  · obtain ⟨s, q, hS, hG, hqs, heq⟩ := gooding_eq (mu := 64) (M := 0) true low 0 1e-5 1e-7 clock false
      hna (by norm_num) htof
    obtain ⟨rfl, rfl⟩ := witness_geo hS hqs
    rw [hsq] at heq
    rw [Nat.cast_zero] at heq
    rw [heq, xlamb, if_pos rfl, hst, ok_bind, finish, xlambIter, ok_bind]
    simp only []
    rw [if_neg (by simp), ok_bind, ok_bind]
    obtain ⟨T, hpath, hT⟩ := hL.path (μ := 64) (s := 8) (by norm_num) (by norm_num) (M := 0)
      (by norm_num) (Or.inl rfl)
    refine ⟨_, T, rfl, ?_, ?_⟩
    · have hsum := hS.sum
      rw [mkOutput_v1, mkOutput_v2]
      simp only [selectRoot]
      rw [if_neg (by norm_num)]
      rw [← hsum] at hpath
      exact hpath.arc (by norm_num) hG
    · have e : Real.sqrt (2 * 64 / 8 ^ 3) = 1 / 2 := by
        rw [show (2 * 64 / 8 ^ 3 : ℝ) = (1 / 2) ^ 2 by norm_num, Real.sqrt_sq (by norm_num)]
      rw [e] at hT
      have : T = 7 / 6 := by linarith
      rw [this]
      norm_num at h1 ⊢
      linarith
  · obtain ⟨s, q, hS, hG, hqs, heq⟩ := gooding_eq (mu := 64) (M := 0) true low 0 1e-5 1e-7 clock true
      hna (by norm_num) htof
    obtain ⟨rfl, rfl⟩ := witness_geo hS hqs
    rw [hsq] at heq
    rw [Nat.cast_zero] at heq
    rw [heq, xlamb, if_pos rfl, hst, ok_bind, finish, xlambIter, ok_bind]
    simp only []
    rw [if_pos trivial, pdiv, if_pos (by norm_num)]
    rfl

/-- A finding about C38: the test `(numiter + 1) == maxiter` of `xlamb`.  When the search for
the minimum time converges in the pass before the last one allowed, the solver raises
"Exceeded max iterations!". -/
theorem gooding_converged_rejected {m : ℤ} {q w tin atol rtol clock thr2 xm0 xm tmin d2t : ℝ}
    {full : Bool} {k : ℕ} (h0 : xmStart m thr2 = .ok xm0)
    (hconv : tminLoop m q w atol rtol (k + 1) 1 xm0 = .ok (xm, tmin, d2t, k)) :
    xlambMulti m q w tin (k + 1) atol rtol full clock thr2 =
      .error (.valueError "Exceeded max iterations!") := by
  unfold xlambMulti
  rw [h0, ok_bind, hconv, ok_bind]
  simp only []
  rw [raiseIf_pos _ trivial]
  rfl

/-- ... and when the passes of that search are used up without convergence (the loop ends
with `numiter = maxiter`), the search result is used all the same: the test is not met. -/
theorem gooding_unconverged_minimum_kept {m : ℤ} {q w tin atol rtol clock thr2 xm0 xm tmin d2t : ℝ}
    {full : Bool} {maxiter : ℕ} (h0 : xmStart m thr2 = .ok xm0)
    (hconv : tminLoop m q w atol rtol maxiter 1 xm0 = .ok (xm, tmin, d2t, maxiter))
    (ht : tmin = tin) :
    xlambMulti m q w tin maxiter atol rtol full clock thr2 = .ok (.four 1 xm maxiter) := by
  unfold xlambMulti
  rw [h0, ok_bind, hconv, ok_bind]
  simp only []
  rw [raiseIf_neg _ (by omega), ok_bind, raiseIf_neg _ (by rw [ht]; simp), ok_bind,
    if_pos (by rw [ht]; ring)]

/-- A finding about C19/C38: at exactly the minimum-energy flight time the iteration starts
at its root `x = 0` and divides `0` by `0`; the solver fails for every pair of positions
and every positive iteration budget. -/
theorem gooding_minimum_energy_undefined {mu : ℝ} (hmu : 0 < mu) {r1 r2 : V3}
    (hna : NotAligned r1 r2) (pro low full : Bool) (n : ℕ) (atol rtol clock : ℝ) :
    ∃ tof, 0 < tof ∧
      gooding1990 mu r1 r2 tof 0 pro low (n + 1) atol rtol full clock = .error .undefined := by
  obtain ⟨s, q, hS, hG, hqs, -⟩ := gooding_eq (tof := 1) (M := 0) pro low (n + 1) atol rtol clock full
    hna hmu one_pos
  have hs := hS.spos
  have hl := hS.lam_lt
  have hl' := abs_lt.1 ((sq_lt_one_iff_abs_lt_one _).1 hl)
  have hL := lanc_lancY hl 0
  obtain ⟨hT0, -⟩ := Izzo.T00_bounds hl
  have hlT : lancT q 0 (lancY q 0) 0 = Real.arccos q + q * Real.sqrt (1 - q ^ 2) := by
    rw [lancT, if_pos one_pos]; unfold lancY; norm_num
  set T := Real.arccos q + q * Real.sqrt (1 - q ^ 2) with hT
  have hk : 0 < Real.sqrt (8 * mu / s ^ 3) := by positivity
  have htof : 0 < 2 * T / Real.sqrt (8 * mu / s ^ 3) := by positivity
  refine ⟨2 * T / Real.sqrt (8 * mu / s ^ 3), htof, ?_⟩
  obtain ⟨s', q', hS', hG', hqs', heq⟩ := gooding_eq (M := 0) pro low (n + 1) atol rtol clock full
    hna hmu htof
  have hss : s' = s := by rw [hS.hs, hS'.hs]
  subst hss
  have hqq : q' = q := by
    have h1 : q' ^ 2 = q ^ 2 := by
      have e : s' * (1 - q' ^ 2) = s' * (1 - q ^ 2) := by rw [← hS.chord, ← hS'.chord]
      have := mul_left_cancel₀ hs.ne' e
      linarith
    have hq0 : q ≠ 0 := by rintro rfl; exact hG.hA (by ring)
    rcases sq_eq_sq_iff_eq_or_eq_neg.1 h1 with h | h
    · exact h
    · exfalso
      have h2 := hqs'.trans hqs.symm
      rw [h] at h2
      rcases lt_or_gt_of_ne hq0 with h3 | h3
      · exact absurd (h2.1 (by linarith)) (by linarith)
      · exact absurd (h2.2 h3) (by linarith)
  subst hqq
  have e : Real.sqrt (8 * mu / s' ^ 3) * (2 * T / Real.sqrt (8 * mu / s' ^ 3)) = 2 * T := by field_simp
  rw [e, Nat.cast_zero] at heq
  obtain ⟨d, hd⟩ := tlamb_time hL (M := 0) (by norm_num) (Or.inl rfl) (n := 0) (by norm_num)
  obtain ⟨d1, d2, d3, hd2, hdd, -⟩ := tlambDirect_eq hL (M := 0) (by norm_num) (by norm_num)
    (Or.inl rfl) 2
  rw [hlT, Nat.cast_zero] at hd hd2
  have hdt := hdd (by norm_num)
  have hne : d1 ≠ 0 := by rw [hdt]; unfold lancT1; norm_num
  have htl : tlamb 0 q' (1 - q' ^ 2) 0 2 = .ok (2 * T, d1, d2, d3) := by
    unfold tlamb
    rw [if_neg (by norm_num), if_pos (by norm_num), hd2]
  rw [heq, xlamb, if_pos rfl, singleStart]
  rw [show (0.0 : ℝ) = 0 by norm_num, hd, ok_bind]
  simp only [sub_self, le_refl, if_true, mul_zero]
  rw [pdiv_eq (by norm_num; exact hT0.ne'), zero_div, ok_bind, finish, xlambIter, htl, ok_bind]
  simp only [sub_self, zero_mul, halleyStep]
  rw [if_pos hne, pdiv_eq (by norm_num; exact hne), zero_div, ok_bind, ok_bind]
  simp only [add_zero]
  rw [pdiv, if_pos rfl]
  rfl

/-- The derivatives computed by `tlamb` are the true derivatives of the time equation it
computes: for every geometry parameter `|q| < 1`, number of revolutions, and admissible
`x`, including the parabola `x = 1` and its neighbourhood (series branch). -/
theorem gooding_derivatives {q : ℝ} (hq : q ^ 2 < 1) (M : ℕ) :
    ∃ T T1 T2 T3 : ℝ → ℝ, ∀ x, -1 < x → (M = 0 ∨ x < 1) →
      (∃ d, tlamb M q (1 - q ^ 2) x 0 = .ok (T x, d)) ∧
      (∃ d, tlamb M q (1 - q ^ 2) x 2 = .ok (T x, T1 x, T2 x, d)) ∧
      tlamb M q (1 - q ^ 2) x 3 = .ok (T x, T1 x, T2 x, T3 x) ∧
      HasDerivAt T (T1 x) x ∧ HasDerivAt T1 (T2 x) x ∧ HasDerivAt T2 (T3 x) x := by
  have main : ∀ x, -1 < x → (M = 0 ∨ x < 1) → ∃ T1 T2 : ℝ → ℝ, ∃ d1 d2 d3 e,
      tlamb M q (1 - q ^ 2) x 2 = .ok (2 * lancT q x (lancY q x) M, d1, d2, e) ∧
      tlamb M q (1 - q ^ 2) x 3 = .ok (2 * lancT q x (lancY q x) M, d1, d2, d3) ∧
      (∀ᶠ t in nhds x, HasDerivAt (fun t => 2 * lancT q t (lancY q t) M) (T1 t) t) ∧
      (∀ᶠ t in nhds x, HasDerivAt T1 (T2 t) t) ∧ HasDerivAt T2 d3 x ∧ T1 x = d1 ∧ T2 x = d2 := by
    intro x h1 h2
    have hL := lanc_lancY hq x
    by_cases hc : (M : ℤ) > 0 ∨ x < 0 ∨ |1 - x ^ 2| > 0.4
    · have hx1 : x ≠ 1 := by
        rintro rfl
        rcases h2 with rfl | h2
        · norm_num at hc
        · exact lt_irrefl _ h2
      obtain ⟨a1, a2, a3, ha, f1, f2, f3⟩ := tlambDirect_eq hL h1 hx1 h2 2
      obtain ⟨c1, c2, c3, hcc, g1, g2, g3⟩ := tlambDirect_eq hL h1 hx1 h2 3
      have hgood : ∀ᶠ t in nhds x, -1 < t ∧ t ≠ 1 :=
        (eventually_gt_nhds h1).and (eventually_ne_nhds hx1)
      have h0 : ∀ t : ℝ, -1 < t ∧ t ≠ 1 → 1 - t ^ 2 ≠ 0 := by
        rintro t ⟨k1, k2⟩ h
        have : (1 - t) * (1 + t) = 0 := by linear_combination h
        rcases mul_eq_zero.1 this with h | h
        · exact k2 (by linarith)
        · linarith
      have D1 : ∀ t : ℝ, -1 < t ∧ t ≠ 1 → _ := fun t ht => lancT_hasDerivAt hq ht.1 ht.2 M
      have D2 : ∀ t : ℝ, -1 < t ∧ t ≠ 1 → _ := fun t ht => lancT1_hasDerivAt hq (h0 t ht) (D1 t ht)
      have D3 := lancT2_hasDerivAt hq (h0 x ⟨h1, hx1⟩) (T1 := fun t => lancT1 q t (lancY q t)
        (lancT q t (lancY q t) M)) (D1 x ⟨h1, hx1⟩) (D2 x ⟨h1, hx1⟩)
      refine ⟨fun t => 2 * lancT1 q t (lancY q t) (lancT q t (lancY q t) M),
        fun t => 2 * lancT2 q t (lancY q t) (lancT q t (lancY q t) M)
          (lancT1 q t (lancY q t) (lancT q t (lancY q t) M)), c1, c2, c3, a3, ?_, ?_, ?_, ?_, ?_, ?_, ?_⟩
      · unfold tlamb
        rw [if_neg (by norm_num), u_eq, if_pos hc, ha, f1 (by norm_num), f2 (by norm_num),
          g1 (by norm_num), g2 (by norm_num)]
      · unfold tlamb
        rw [if_neg (by norm_num), u_eq, if_pos hc, hcc]
      · filter_upwards [hgood] with t ht
        exact (D1 t ht).const_mul 2
      · filter_upwards [hgood] with t ht
        exact (D2 t ht).const_mul 2
      · rw [g3 rfl]; exact D3.const_mul 2
      · rw [g1 (by norm_num)]
      · rw [g2 (by norm_num)]
    · have hc' := hc
      push Not at hc'
      obtain ⟨hM, hx, hu⟩ := hc'
      have hM0 : M = 0 := by omega
      subst hM0
      have hx0 : 0 < x := lt_of_le_of_ne hx (by rintro rfl; norm_num at hu)
      have hu1 : |1 - x ^ 2| < 1 := lt_of_le_of_lt hu (by norm_num)
      have hgood : ∀ᶠ t in nhds x, 0 < t ∧ |1 - t ^ 2| < 1 := by
        refine (eventually_gt_nhds hx0).and ?_
        have hcont : ContinuousAt (fun t : ℝ => |1 - t ^ 2|) x := by fun_prop
        exact hcont.eventually (eventually_lt_nhds hu1)
      have hB := serC_bdd hq
      have dx2 : ∀ t : ℝ, HasDerivAt (fun t : ℝ => 1 - t ^ 2) (-(2 * t)) t := by
        intro t
        refine ((hasDerivAt_pow 2 t).const_sub 1).congr_deriv ?_
        push_cast; ring
      have E0 : ∀ t : ℝ, |1 - t ^ 2| < 1 → HasDerivAt (fun t => ps (serC q) (1 - t ^ 2))
          (ps (psD (serC q)) (1 - t ^ 2) * -(2 * t)) t := fun t ht => 
        HasDerivAt.comp (h := fun t : ℝ => 1 - t ^ 2) t (hB.hasDerivAt ht) (dx2 t)
      have E1 : ∀ t : ℝ, |1 - t ^ 2| < 1 → HasDerivAt (fun t => ps (psD (serC q)) (1 - t ^ 2))
          (ps (psD (psD (serC q))) (1 - t ^ 2) * -(2 * t)) t :=
        fun t ht => 
        HasDerivAt.comp (h := fun t : ℝ => 1 - t ^ 2) t (hB.psD.hasDerivAt ht) (dx2 t)
      have E2 : ∀ t : ℝ, |1 - t ^ 2| < 1 → HasDerivAt (fun t => ps (psD (psD (serC q))) (1 - t ^ 2))
          (ps (psD (psD (psD (serC q)))) (1 - t ^ 2) * -(2 * t)) t :=
        fun t ht => 
        HasDerivAt.comp (h := fun t : ℝ => 1 - t ^ 2) t (hB.psD.psD.hasDerivAt ht) (dx2 t)
      refine ⟨fun t => -2 * t * ps (psD (serC q)) (1 - t ^ 2),
        fun t => 2 * (2 * t ^ 2 * ps (psD (psD (serC q))) (1 - t ^ 2) - ps (psD (serC q)) (1 - t ^ 2)),
        _, _, 8 * x * (1.5 * ps (psD (psD (serC q))) (1 - x ^ 2) -
        x ^ 2 * ps (psD (psD (psD (serC q)))) (1 - x ^ 2)), 0, ?_, ?_, ?_, ?_, ?_, rfl, rfl⟩
      · unfold tlamb
        rw [if_neg (by norm_num), u_eq, if_neg hc, tlambSeries_eq hL hx0 hu1]
        norm_num
      · unfold tlamb
        rw [if_neg (by norm_num), u_eq, if_neg hc, tlambSeries_eq hL hx0 hu1]
        norm_num
      · filter_upwards [hgood.eventually_nhds] with t ht
        refine HasDerivAt.congr_of_eventuallyEq ((E0 t ht.self_of_nhds.2).congr_deriv (by ring)) ?_
        filter_upwards [ht] with t' ht'
        exact (serK_eq (lanc_lancY hq t') ht'.1 ht'.2).symm
      · filter_upwards [hgood] with t ht
        have d := (((hasDerivAt_id t).const_mul (-2)).mul (E1 t ht.2))
        refine (d.congr_deriv ?_).congr_of_eventuallyEq (Filter.Eventually.of_forall fun y => rfl)
        simp only [id]; ring
      · have d := ((((hasDerivAt_pow 2 x).const_mul 2).mul (E2 x hu1)).sub (E1 x hu1)).const_mul 2
        refine (d.congr_deriv ?_).congr_of_eventuallyEq (Filter.Eventually.of_forall fun y => rfl)
        push_cast
        norm_num
        ring
  set T : ℝ → ℝ := fun t => 2 * lancT q t (lancY q t) M with hT
  refine ⟨T, deriv T, deriv (deriv T), deriv (deriv (deriv T)), fun x h1 h2 => ?_⟩
  obtain ⟨T1, T2, d1, d2, d3, e, k2, k3, e1, e2, e3, r1, r2⟩ := main x h1 h2
  have q1 : deriv T =ᶠ[nhds x] T1 := e1.mono fun t ht => ht.deriv
  have q2 : deriv (deriv T) =ᶠ[nhds x] T2 := by
    have : deriv (deriv T) =ᶠ[nhds x] deriv T1 := by
      filter_upwards [q1.eventuallyEq_nhds] with t ht
      exact ht.deriv_eq
    exact this.trans (e2.mono fun t ht => ht.deriv)
  have v1 : deriv T x = d1 := by rw [q1.self_of_nhds, r1]
  have v2 : deriv (deriv T) x = d2 := by rw [q2.self_of_nhds, r2]
  have v3 : HasDerivAt (deriv (deriv T)) d3 x := e3.congr_of_eventuallyEq q2
  obtain ⟨d, hd⟩ := tlamb_time (lanc_lancY hq x) h1 h2 (n := 0) (by norm_num)
  refine ⟨⟨d, hd⟩, ⟨e, by rw [k2, v1, v2]⟩, by rw [k3, v1, v2, v3.deriv], ?_, ?_, ?_⟩
  · rw [v1, ← r1]; exact e1.self_of_nhds
  · rw [v2, ← r2]; exact e2.self_of_nhds.congr_of_eventuallyEq q1
  · rw [v3.deriv]; exact v3

/-- Non-vacuity of `gooding_derivatives`: at the parabola, and with two revolutions. -/
example : ((1 / 2 : ℝ) ^ 2 < 1) ∧ (-1 < (1 : ℝ)) ∧ (-1 < (0.3 : ℝ) ∧ (0.3 : ℝ) < 1) := by norm_num

/-- Non-vacuity of `gooding_kepler_transfer_partial`: see `gooding_unconverged_accepted`. -/
example : ∃ tof out, gooding1990 64 ⟨4, -3, 0⟩ ⟨4, 3, 0⟩ tof ((0 : ℕ) : ℤ) true true 1 1e-5 1e-7 true 0 =
    .ok out ∧ NotPolar ⟨4, -3, 0⟩ ⟨4, 3, 0⟩ := by
  obtain ⟨tof, -, ⟨out, x, h, -⟩, -⟩ := gooding_unconverged_accepted true 0
  exact ⟨tof, out, h, by simp [NotPolar]; norm_num⟩

end Lamberthub
