import Verif.Model.Gooding
import Verif.Proofs.LancSeries
import Verif.Proofs.IzzoDeriv
import Verif.Proofs.PForm
import Mathlib.Analysis.SpecialFunctions.Log.Deriv

/-! # Lemmas about the Gooding solver: the routine `tlamb` -/

set_option autoImplicit false

namespace Lamberthub
open Spec LC

theorem plim_eq {f : ℕ → ℝ} {l : ℝ} (h : Filter.Tendsto f Filter.atTop (nhds l)) :
    plim f = .ok l := by
  have hex : ∃ l, Filter.Tendsto f Filter.atTop (nhds l) := ⟨l, h⟩
  rw [plim, dif_pos hex]
  congr 1
  exact tendsto_nhds_unique (Classical.choose_spec hex) h

theorem arctan2_sin_cos {ψ : ℝ} (h1 : -Real.pi < ψ) (h2 : ψ ≤ Real.pi) :
    arctan2 (Real.sin ψ) (Real.cos ψ) = ψ := by
  have h := Complex.arg_cos_add_sin_mul_I (θ := ψ) ⟨h1, h2⟩
  have e : (⟨Real.cos ψ, Real.sin ψ⟩ : ℂ) = Complex.cos ψ + Complex.sin ψ * Complex.I := by
    apply Complex.ext <;> simp [← Complex.ofReal_cos, ← Complex.ofReal_sin]
  unfold arctan2
  rw [e, h]

namespace Gooding

theorem logState_eq (z : ℝ) (k : ℕ) : logState z k = ((2 * k + 1 : ℝ), 2 * z ^ (2 * k + 1),
    ∑ j ∈ Finset.range (k + 1), (2 : ℝ) * (1 / (2 * j + 1)) * z ^ (2 * j + 1)) := by
  induction k with
  | zero => simp [logState]; norm_num
  | succ k ih =>
    rw [logState, ih, Finset.sum_range_succ (n := k + 1)]
    simp only [Prod.mk.injEq]
    refine ⟨by push_cast; norm_num; linarith, by ring, ?_⟩
    congr 1
    push_cast
    norm_num
    ring

theorem logState_lim {ψ : ℝ} (h : 0 < ψ) :
    plim (fun k => (logState (Real.sinh ψ / (Real.cosh ψ + 1.0)) k).2.2) = .ok ψ := by
  have hc := Real.cosh_pos ψ
  have hs : 0 < Real.sinh ψ := Real.sinh_pos_iff.2 h
  have hlt : Real.sinh ψ < Real.cosh ψ := Real.sinh_lt_cosh ψ
  set z := Real.sinh ψ / (Real.cosh ψ + 1.0) with hz
  have hz0 : 0 < z := by rw [hz]; positivity
  have hz1 : z < 1 := by rw [hz, div_lt_one (by positivity)]; norm_num; linarith
  have h1 := Real.hasSum_log_sub_log_of_abs_lt_one (x := z) (by rw [abs_lt]; constructor <;> linarith)
  have h2 := h1.tendsto_sum_nat.comp (Filter.tendsto_add_atTop_nat 1)
  apply plim_eq
  have hval : Real.log (1 + z) - Real.log (1 - z) = ψ := by
    rw [← Real.log_div (by linarith) (by linarith)]
    have : (1 + z) / (1 - z) = Real.exp ψ := by
      have := Real.cosh_sq ψ
      rw [div_eq_iff (by linarith), hz]
      norm_num
      rw [← Real.cosh_add_sinh]
      field_simp
      linear_combination (-1 : ℝ) * this
    rw [this, Real.log_exp]
  rw [hval] at h2
  refine h2.congr fun k => ?_
  simp only [Function.comp]
  rw [logState_eq]

section Direct
variable {q x z : ℝ}

theorem u_eq (x : ℝ) : (1.0 - x) * (1.0 + x) = 1 - x ^ 2 := by norm_num; ring

theorem psqrt_z (h : Lanc q x z) : psqrt (1 - q ^ 2 + q * q * (x * x)) = .ok z := by
  have h2 : 1 - q ^ 2 + q * q * (x * x) = z ^ 2 := by rw [h.y_sq]; ring
  rw [h2, psqrt_eq (by positivity), Real.sqrt_sq h.y_pos.le]

theorem qz_prod (h : Lanc q x z) :
    (q * z - x) * (q * z + x) = (1 - q ^ 2) * (q * q * (1 - x ^ 2) - x * x) := by
  linear_combination q ^ 2 * h.y_sq

theorem bb_ne (h : Lanc q x z) (hq : 0 < q * x) : q * z + x ≠ 0 := by
  have hz := h.y_pos
  intro h0
  have : q * (q * z + x) = q ^ 2 * z + q * x := by ring
  rw [h0, mul_zero] at this
  have h2 : 0 ≤ q ^ 2 * z := by positivity
  linarith

theorem directCoeffs_eq (h : Lanc q x z) :
    directCoeffs q (1 - q ^ 2) x (1 - x ^ 2) z = .ok (z - q * x, q * z - x) := by
  unfold directCoeffs
  by_cases hc : q * x ≤ 0
  · rw [if_pos hc]
  · rw [if_neg hc]
    push Not at hc
    have h1 := h.add_pos
    have h2 := bb_ne h hc
    simp only []
    rw [pdiv_eq h1.ne', ok_bind, pdiv_eq h2, ok_bind]
    congr 2
    · rw [div_eq_iff h1.ne']; linear_combination (-1 : ℝ) * h.prod
    · rw [div_eq_iff h2]; linear_combination (-1 : ℝ) * qz_prod h

theorem velCoeffs_eq (h : Lanc q x z) (hq : q ≠ 0) :
    velCoeffs q (1 - q ^ 2) x (1 - x ^ 2) z = .ok (q * z - x, q * z + x, z + q * x) := by
  unfold velCoeffs
  have hz := h.y_pos
  have h1 := h.add_pos
  have h3 := h.eta_pos
  by_cases hc : q * x ≤ 0
  · rw [if_pos hc]
    have h2 : q * z - x ≠ 0 := by
      intro h0
      have : q * (q * z - x) = q ^ 2 * z - q * x := by ring
      rw [h0, mul_zero] at this
      have h2 : 0 < q ^ 2 * z := by positivity
      linarith
    simp only []
    rw [pdiv_eq h3.ne', ok_bind, pdiv_eq h2, ok_bind]
    split
    · rfl
    · congr 3
      · rw [div_eq_iff h2]; linear_combination (-1 : ℝ) * qz_prod h
      · rw [div_eq_iff h3.ne']; linear_combination (-1 : ℝ) * h.prod
  · rw [if_neg hc]
    push Not at hc
    have h2 := bb_ne h hc
    simp only []
    rw [pdiv_eq h1.ne', ok_bind, pdiv_eq h2, ok_bind]
    congr 2
    · rw [div_eq_iff h2]; linear_combination (-1 : ℝ) * qz_prod h

theorem gValue_eq (h : Lanc q x z) : gValue q x (1 - x ^ 2) z = .ok (x * z + q * (1 - x ^ 2)) := by
  unfold gValue
  split
  · rfl
  · rename_i hc
    push Not at hc
    have hz := h.y_pos
    have hne : x * z - q * (1 - x ^ 2) ≠ 0 := by
      intro h0
      have h1 : x * (x * z - q * (1 - x ^ 2)) = x ^ 2 * z - q * x * (1 - x ^ 2) := by ring
      rw [h0, mul_zero] at h1
      have : 0 ≤ x ^ 2 * z := by positivity
      linarith
    rw [pdiv_eq hne]
    congr 1
    rw [div_eq_iff hne]
    linear_combination (-x ^ 2) * h.y_sq

theorem directDerivs_eq (h : Lanc q x z) (h0 : 1 - x ^ 2 ≠ 0) (T : ℝ) (n : ℤ) :
    ∃ d1 d2 d3, directDerivs q (1 - q ^ 2) x (1 - x ^ 2) z (z - q * x) (2 * T) n = .ok (d1, d2, d3) ∧
      (1 ≤ n → d1 = 2 * lancT1 q x z T) ∧ (2 ≤ n → d2 = 2 * lancT2 q x z T (lancT1 q x z T)) ∧
      (n = 3 → d3 = 2 * lancT3 q x z (lancT1 q x z T) (lancT2 q x z T (lancT1 q x z T))) := by
  have hz := h.y_pos
  unfold directDerivs
  by_cases hn : 1 ≤ n
  · rw [if_pos ⟨hn, hz.ne'⟩, pdiv_eq hz.ne', ok_bind]
    simp only []
    rw [pdiv_eq hz.ne', ok_bind, pdiv_eq h0, ok_bind]
    have e1 : (3.0 * x * (2 * T) - 4.0 * (z - q * x + q * x * (1 - q ^ 2)) / z) / (1 - x ^ 2) =
        2 * lancT1 q x z T := by
      unfold lancT1
      norm_num
      field_simp
      ring
    rw [e1]
    generalize lancT1 q x z T = T1
    have e2 : (3.0 * (2 * T) + 5.0 * x * (2 * T1) + 4.0 * (q / z * (q / z * (q / z))) * (1 - q ^ 2)) /
        (1 - x ^ 2) = 2 * lancT2 q x z T T1 := by
      unfold lancT2
      norm_num
      field_simp
      ring
    have e3 : ∀ T2, (8.0 * (2 * T1) + 7.0 * x * (2 * T2) -
        12.0 * (q / z * (q / z * (q / z))) * (q / z * (q / z)) * x * (1 - q ^ 2)) /
        (1 - x ^ 2) = 2 * lancT3 q x z T1 T2 := by
      intro T2
      unfold lancT3
      norm_num
      field_simp
      ring
    by_cases hn2 : 2 ≤ n
    · rw [if_pos hn2, pdiv_eq h0, ok_bind, e2]
      by_cases hn3 : n = 3
      · rw [if_pos hn3, pdiv_eq h0, ok_bind, e3]
        exact ⟨_, _, _, rfl, fun _ => rfl, fun _ => rfl, fun _ => rfl⟩
      · rw [if_neg hn3, ok_bind]
        exact ⟨_, _, _, rfl, fun _ => rfl, fun _ => rfl, fun h => absurd h hn3⟩
    · rw [if_neg hn2, ok_bind, if_neg (by omega), ok_bind]
      exact ⟨_, _, _, rfl, fun _ => rfl, fun h => absurd h hn2, fun h => by omega⟩
  · rw [if_neg (fun h => hn h.1)]
    exact ⟨_, _, _, rfl, fun h => absurd h hn, fun h => by omega, fun h => by omega⟩

/-- The direct branch of `tlamb`. -/
theorem tlambDirect_eq (h : Lanc q x z) {M : ℕ} (h1 : -1 < x) (hx1 : x ≠ 1) (h2 : M = 0 ∨ x < 1)
    (n : ℤ) : ∃ d1 d2 d3, tlambDirect M q (1 - q ^ 2) x n = .ok (2 * lancT q x z M, d1, d2, d3) ∧
      (1 ≤ n → d1 = 2 * lancT1 q x z (lancT q x z M)) ∧
      (2 ≤ n → d2 = 2 * lancT2 q x z (lancT q x z M) (lancT1 q x z (lancT q x z M))) ∧
      (n = 3 → d3 = 2 * lancT3 q x z (lancT1 q x z (lancT q x z M))
        (lancT2 q x z (lancT q x z M) (lancT1 q x z (lancT q x z M)))) := by
  have h0 : 1 - x ^ 2 ≠ 0 := by
    intro h
    have : (1 - x) * (1 + x) = 0 := by linear_combination h
    rcases mul_eq_zero.1 this with h | h
    · exact hx1 (by linarith)
    · linarith
  unfold tlambDirect
  rw [u_eq]
  simp only []
  rw [psqrt_eq (abs_nonneg _), ok_bind, psqrt_z h, ok_bind, directCoeffs_eq h, ok_bind]
  simp only []
  rw [gValue_eq h]
  simp only [ok_bind]
  have key : ∃ t0, angleValue M x ((z - q * x) * Real.sqrt |1 - x ^ 2|) (x * z + q * (1 - x ^ 2)) =
      .ok t0 ∧ 2.0 * (t0 / Real.sqrt |1 - x ^ 2| + (q * z - x)) / (1 - x ^ 2) = 2 * lancT q x z M := by
    unfold angleValue
    rcases lt_or_gt_of_ne hx1 with hx | hx
    · obtain ⟨ψ, hψ, hψ0, hψ1, hc, hsn⟩ := h.ell h1 hx
      have hw : 0 < 1 - x ^ 2 := by nlinarith
      rw [abs_of_pos hw, if_pos (by norm_num; exact hx.le), ← hsn, ← hc,
        arctan2_sin_cos (by linarith) hψ1.le]
      refine ⟨_, rfl, ?_⟩
      rw [lancT, if_pos hx, ← hψ]
      push_cast
      norm_num
      ring
    · obtain ⟨ψ, hψ, hψ0, hc, hsn⟩ := h.hyp hx
      have hM : M = 0 := by rcases h2 with h2 | h2; exact h2; linarith
      have hw : 0 < x ^ 2 - 1 := by nlinarith
      rw [show |1 - x ^ 2| = x ^ 2 - 1 by rw [abs_of_neg (by linarith)]; ring,
        if_neg (by norm_num; exact hx), ← hsn, ← hc]
      refine ⟨ψ, ?_, ?_⟩
      · split
        · rw [plog, if_pos (by rw [Real.sinh_add_cosh]; positivity), Real.sinh_add_cosh, Real.log_exp]
        · rw [pdiv_eq (by have := Real.cosh_pos ψ; positivity), ok_bind, logState_lim hψ0]
      · rw [lancT, if_neg (not_lt.2 hx.le), if_neg hx.ne', ← hψ]
        norm_num
        ring
  obtain ⟨t0, ht0, ht⟩ := key
  have hsq : Real.sqrt |1 - x ^ 2| ≠ 0 := (Real.sqrt_pos.2 (abs_pos.2 h0)).ne'
  rw [ht0, ok_bind, pdiv_eq hsq, ok_bind, pdiv_eq h0, ok_bind, ht]
  obtain ⟨d1, d2, d3, hd, e⟩ := directDerivs_eq h h0 (lancT q x z M) n
  rw [hd]
  exact ⟨d1, d2, d3, rfl, e⟩

end Direct

/-! ## The series branch -/

/-- coefficients of the series of the time of flight -/
noncomputable def serC (q : ℝ) (j : ℕ) : ℝ := sigC j * (1 - q ^ (2 * j + 3))

theorem serC_bdd {q : ℝ} (hq : q ^ 2 < 1) : PBdd (serC q) := by
  refine ⟨8, 0, by norm_num, fun n => ?_⟩
  unfold serC
  have hl := (sq_lt_one_iff_abs_lt_one _).1 hq
  have h1 : |q ^ (2 * n + 3)| ≤ 1 := by
    rw [abs_pow]; exact pow_le_one₀ (abs_nonneg _) hl.le
  have h2 : |1 - q ^ (2 * n + 3)| ≤ 2 := by
    have := abs_le.1 h1; rw [abs_le]; constructor <;> linarith
  have h3 : |sigC n| ≤ 4 := by
    rw [abs_of_pos (sigC_pos n)]
    unfold sigC
    rw [div_le_iff₀ (by positivity)]
    have h1 := binC_le n
    have h0 : (0 : ℝ) ≤ n := by positivity
    nlinarith
  rw [abs_mul, pow_zero, mul_one]
  nlinarith [abs_nonneg (sigC n), abs_nonneg (1 - q ^ (2 * n + 3))]

theorem serInit_eq {q : ℝ} (hq : q ^ 2 < 1) : serInit q (1 - q ^ 2) =
    .ok ⟨0, 1, 1, 1, 1, 4, q * (1 - q ^ 2), 1 - q ^ 3, 4 / 3, 4 / 3 * (1 - q ^ 3), 0, 0, 0⟩ := by
  have hl := abs_lt.1 ((sq_lt_one_iff_abs_lt_one _).1 hq)
  unfold serInit
  simp only []
  split
  · rw [ok_bind]
    congr 2 <;> norm_num <;> ring
  · have : (1.0 : ℝ) + q ≠ 0 := by norm_num; linarith
    rw [pdiv_eq this, ok_bind, ok_bind]
    have e : (1.0 / (1.0 + q) + q) * (1 - q ^ 2) = 1 - q ^ 3 := by
      norm_num at this ⊢
      field_simp
      ring
    rw [e]
    norm_num

/-- The state of the series loop after `k` passes. -/
theorem serState_eq {q u : ℝ} (n : ℤ) (k : ℕ) {s : Ser}
    (hs : s = serState (q * q) u n
      ⟨0, 1, 1, 1, 1, 4, q * (1 - q ^ 2), 1 - q ^ 3, 4 / 3, 4 / 3 * (1 - q ^ 3), 0, 0, 0⟩ k) :
    s.i = k ∧ s.u0i = u ^ k ∧ s.term = 4 * binC k ∧ s.tq = q * (1 - q ^ 2) * (q ^ 2) ^ k ∧
    s.tqsum = 1 - q ^ (2 * k + 3) ∧ s.ttmold = sigC k ∧
    s.t = ∑ j ∈ Finset.range (k + 1), serC q j * u ^ j -
      u * ∑ j ∈ Finset.range k, serC q j * u ^ j := by
  induction k generalizing s with
  | zero =>
    subst hs
    simp [serState, binC, sigC, serC]
  | succ k ih =>
    obtain ⟨e1, e2, e3, e4, e5, e6, e7⟩ := ih rfl
    rw [serState] at hs
    set s0 := serState (q * q) u n
      ⟨0, 1, 1, 1, 1, 4, q * (1 - q ^ 2), 1 - q ^ 3, 4 / 3, 4 / 3 * (1 - q ^ 3), 0, 0, 0⟩ k with hs0
    subst hs
    have hk : ((k : ℝ) + 1) ≠ 0 := by positivity
    have ht : s0.term * (((k + 1 : ℕ) : ℝ) - 0.5) / ((k + 1 : ℕ) : ℝ) = 4 * binC (k + 1) := by
      rw [e3, binC]; push_cast; norm_num; ring
    have htq : s0.tq * (q * q) = q * (1 - q ^ 2) * (q ^ 2) ^ (k + 1) := by rw [e4]; ring
    have hts : s0.tqsum + q * (1 - q ^ 2) * (q ^ 2) ^ (k + 1) = 1 - q ^ (2 * (k + 1) + 3) := by
      rw [e5, ← pow_mul]; ring
    have htt : 4 * binC (k + 1) / (2.0 * ((k + 1 : ℕ) : ℝ) + 3.0) = sigC (k + 1) := by
      rw [sigC]; norm_num
    unfold serStep
    simp only [e1]
    rw [ht, htq, hts, htt, e2, e6]
    refine ⟨trivial, by ring, rfl, rfl, rfl, rfl, ?_⟩
    rw [e7, Finset.sum_range_succ (n := k + 1), Finset.sum_range_succ (n := k)]
    have hrec : (1.5 * ((k + 1 : ℕ) : ℝ) + 0.25) * sigC (k + 1) /
        (((k + 1 : ℕ) : ℝ) * ((k + 1 : ℕ) : ℝ) - 0.25) = sigC k - sigC (k + 1) := by
      have h1 : (((k + 1 : ℕ) : ℝ) * ((k + 1 : ℕ) : ℝ) - 0.25) = (k + 1 / 2) * (k + 3 / 2) := by
        push_cast; norm_num; ring
      rw [h1, div_eq_iff (by positivity), sigC, sigC, binC]
      push_cast
      norm_num
      field_simp
      ring
    rw [show (1.5 * ((k + 1 : ℕ) : ℝ) + 0.25) * (sigC (k + 1) * (1 - q ^ (2 * (k + 1) + 3))) /
        (((k + 1 : ℕ) : ℝ) * ((k + 1 : ℕ) : ℝ) - 0.25) =
        (1.5 * ((k + 1 : ℕ) : ℝ) + 0.25) * sigC (k + 1) /
        (((k + 1 : ℕ) : ℝ) * ((k + 1 : ℕ) : ℝ) - 0.25) * (1 - q ^ (2 * (k + 1) + 3)) by ring, hrec]
    unfold serC
    rw [← pow_mul]
    ring

theorem serState_derivs {q u : ℝ} (n : ℤ) (k : ℕ) {s : Ser}
    (hs : s = serState (q * q) u n
      ⟨0, 1, 1, 1, 1, 4, q * (1 - q ^ 2), 1 - q ^ 3, 4 / 3, 4 / 3 * (1 - q ^ 3), 0, 0, 0⟩ k) :
    (if 1 ≤ n then s.u1i = u ^ (k - 1) ∧
      s.dt = ∑ j ∈ Finset.range (k + 1), j * serC q j * u ^ (j - 1) else s.dt = 0) ∧
    (if 2 ≤ n then s.u2i = u ^ (k - 2) ∧
      s.d2t = ∑ j ∈ Finset.range (k + 1), j * (j - 1) * serC q j * u ^ (j - 2) else s.d2t = 0) ∧
    (if n = 3 then s.u3i = u ^ (k - 3) ∧
      s.d3t = ∑ j ∈ Finset.range (k + 1), j * (j - 1) * (j - 2) * serC q j * u ^ (j - 3)
      else s.d3t = 0) := by
  induction k generalizing s with
  | zero =>
    subst hs
    simp [serState]
  | succ k ih =>
    obtain ⟨e1, e2, e3, e4, e5, e6, e7⟩ := serState_eq (q := q) (u := u) n k rfl
    obtain ⟨f1, f2, f3⟩ := ih rfl
    rw [serState] at hs
    set s0 := serState (q * q) u n
      ⟨0, 1, 1, 1, 1, 4, q * (1 - q ^ 2), 1 - q ^ 3, 4 / 3, 4 / 3 * (1 - q ^ 3), 0, 0, 0⟩ k with hs0
    subst hs
    have hk : ((k : ℝ) + 1) ≠ 0 := by positivity
    have ht : s0.term * (((k + 1 : ℕ) : ℝ) - 0.5) / ((k + 1 : ℕ) : ℝ) = 4 * binC (k + 1) := by
      rw [e3, binC]; push_cast; norm_num; ring
    have htq : s0.tq * (q * q) = q * (1 - q ^ 2) * (q ^ 2) ^ (k + 1) := by rw [e4]; ring
    have hts : s0.tqsum + q * (1 - q ^ 2) * (q ^ 2) ^ (k + 1) = 1 - q ^ (2 * (k + 1) + 3) := by
      rw [e5, ← pow_mul]; ring
    have htt : 4 * binC (k + 1) / (2.0 * ((k + 1 : ℕ) : ℝ) + 3.0) = sigC (k + 1) := by
      rw [sigC]; norm_num
    unfold serStep
    simp only [e1]
    rw [ht, htq, hts, htt]
    have hu : ∀ (c : ℕ), c ≤ k → u ^ (k - c) * u = u ^ (k + 1 - c) := fun c hc => by
      rw [← pow_succ]; congr 1; omega
    refine ⟨?_, ?_, ?_⟩
    · by_cases hn : 1 ≤ n
      · simp only [hn, if_true, ge_iff_le, true_and] at f1 ⊢
        obtain ⟨g1, g2⟩ := f1
        have hu1 : (if k + 1 > 1 then s0.u1i * u else s0.u1i) = u ^ (k + 1 - 1) := by
          split
          · rw [g1, hu 1 (by omega)]
          · rw [g1]; congr 1; omega
        rw [hu1]
        refine ⟨rfl, ?_⟩
        rw [g2, Finset.sum_range_succ (n := k + 1)]
        unfold serC; push_cast; ring
      · simp only [hn, if_false, ge_iff_le] at f1 ⊢
        exact f1
    · by_cases hn : 2 ≤ n
      · simp only [hn, if_true, ge_iff_le, true_and] at f2 ⊢
        obtain ⟨g1, g2⟩ := f2
        have hu1 : (if k + 1 > 2 then s0.u2i * u else s0.u2i) = u ^ (k + 1 - 2) := by
          split
          · rw [g1, hu 2 (by omega)]
          · rw [g1]; congr 1; omega
        rw [hu1]
        refine ⟨rfl, ?_⟩
        rw [g2, Finset.sum_range_succ (n := k + 1)]
        unfold serC; push_cast; norm_num; ring
      · simp only [hn, if_false, ge_iff_le] at f2 ⊢
        exact f2
    · by_cases hn : n = 3
      · simp only [hn, if_true, true_and] at f3 ⊢
        obtain ⟨g1, g2⟩ := f3
        have hu1 : (if k + 1 > 3 then s0.u3i * u else s0.u3i) = u ^ (k + 1 - 3) := by
          split
          · rw [g1, hu 3 (by omega)]
          · rw [g1]; congr 1; omega
        rw [hu1]
        refine ⟨rfl, ?_⟩
        rw [g2, Finset.sum_range_succ (n := k + 1)]
        unfold serC; push_cast; norm_num; ring
      · simp only [hn, if_false] at f3 ⊢
        exact f3

/-- The sum of the series. -/
noncomputable def serK (q u : ℝ) : ℝ := ps (serC q) u

section Limits
variable {q u : ℝ}

theorem lim_ps {a : ℕ → ℝ} (ha : PBdd a) {u : ℝ} (hu : |u| < 1) :
    Filter.Tendsto (fun k => ∑ j ∈ Finset.range k, a j * u ^ j) Filter.atTop (nhds (ps a u)) :=
  (ha.summable hu).hasSum.tendsto_sum_nat

theorem shift_sum (a : ℕ → ℝ) (f : ℕ → ℝ) (h : ∀ j, f (j + 1) = a j) (h0 : f 0 = 0) (k : ℕ) :
    ∑ j ∈ Finset.range (k + 1), f j = ∑ j ∈ Finset.range k, a j := by
  rw [Finset.sum_range_succ', h0, add_zero]
  exact Finset.sum_congr rfl fun j _ => h j

theorem lim_d1 {a : ℕ → ℝ} (ha : PBdd a) {u : ℝ} (hu : |u| < 1) :
    Filter.Tendsto (fun k => ∑ j ∈ Finset.range (k + 1), (j : ℝ) * a j * u ^ (j - 1)) Filter.atTop
      (nhds (ps (psD a) u)) := by
  refine (lim_ps ha.psD hu).congr fun k => ?_
  rw [shift_sum (fun j => psD a j * u ^ j)]
  · intro j; simp [psD]
  · simp

theorem lim_d2 {a : ℕ → ℝ} (ha : PBdd a) {u : ℝ} (hu : |u| < 1) :
    Filter.Tendsto (fun k => ∑ j ∈ Finset.range (k + 1), (j : ℝ) * (j - 1) * a j * u ^ (j - 2))
      Filter.atTop (nhds (ps (psD (psD a)) u)) := by
  rw [← Filter.tendsto_add_atTop_iff_nat 1]
  refine (lim_ps ha.psD.psD hu).congr fun k => ?_
  rw [shift_sum (fun j => (j : ℝ) * psD a j * u ^ (j - 1)),
    shift_sum (fun j => psD (psD a) j * u ^ j)]
  · intro j; simp [psD]
  · simp
  · intro j
    simp only [psD]; push_cast
    ring
  · simp

theorem lim_d3 {a : ℕ → ℝ} (ha : PBdd a) {u : ℝ} (hu : |u| < 1) :
    Filter.Tendsto (fun k => ∑ j ∈ Finset.range (k + 1),
        (j : ℝ) * (j - 1) * (j - 2) * a j * u ^ (j - 3))
      Filter.atTop (nhds (ps (psD (psD (psD a))) u)) := by
  rw [← Filter.tendsto_add_atTop_iff_nat 1]
  refine (lim_d2 ha.psD hu).congr fun k => ?_
  symm
  apply shift_sum
  · intro j
    simp only [psD]; push_cast
    ring
  · simp

theorem ser_t_lim (hq : q ^ 2 < 1) (hu : |u| < 1) (n : ℤ) :
    plim (fun k => (serState (q * q) u n
      ⟨0, 1, 1, 1, 1, 4, q * (1 - q ^ 2), 1 - q ^ 3, 4 / 3, 4 / 3 * (1 - q ^ 3), 0, 0, 0⟩ k).t) =
    .ok ((1 - u) * serK q u) := by
  apply plim_eq
  have h1 := lim_ps (serC_bdd hq) hu
  have h2 := (h1.comp (Filter.tendsto_add_atTop_nat 1)).sub (h1.const_mul u)
  have e : (1 - u) * serK q u = ps (serC q) u - u * ps (serC q) u := by unfold serK; ring
  rw [e]
  refine h2.congr fun k => ?_
  rw [(serState_eq (q := q) (u := u) n k rfl).2.2.2.2.2.2]
  rfl

theorem ser_dt_lim (hq : q ^ 2 < 1) (hu : |u| < 1) (n : ℤ) :
    plim (fun k => (serState (q * q) u n
      ⟨0, 1, 1, 1, 1, 4, q * (1 - q ^ 2), 1 - q ^ 3, 4 / 3, 4 / 3 * (1 - q ^ 3), 0, 0, 0⟩ k).dt) =
    .ok (if 1 ≤ n then ps (psD (serC q)) u else 0) := by
  apply plim_eq
  by_cases hn : 1 ≤ n
  · rw [if_pos hn]
    refine (lim_d1 (serC_bdd hq) hu).congr fun k => ?_
    have h := (serState_derivs (q := q) (u := u) n k rfl).1
    rw [if_pos hn] at h
    exact h.2.symm
  · rw [if_neg hn]
    refine tendsto_const_nhds.congr fun k => ?_
    have h := (serState_derivs (q := q) (u := u) n k rfl).1
    rw [if_neg hn] at h
    exact h.symm

theorem ser_d2t_lim (hq : q ^ 2 < 1) (hu : |u| < 1) (n : ℤ) :
    plim (fun k => (serState (q * q) u n
      ⟨0, 1, 1, 1, 1, 4, q * (1 - q ^ 2), 1 - q ^ 3, 4 / 3, 4 / 3 * (1 - q ^ 3), 0, 0, 0⟩ k).d2t) =
    .ok (if 2 ≤ n then ps (psD (psD (serC q))) u else 0) := by
  apply plim_eq
  by_cases hn : 2 ≤ n
  · rw [if_pos hn]
    refine (lim_d2 (serC_bdd hq) hu).congr fun k => ?_
    have h := (serState_derivs (q := q) (u := u) n k rfl).2.1
    rw [if_pos hn] at h
    exact h.2.symm
  · rw [if_neg hn]
    refine tendsto_const_nhds.congr fun k => ?_
    have h := (serState_derivs (q := q) (u := u) n k rfl).2.1
    rw [if_neg hn] at h
    exact h.symm

theorem ser_d3t_lim (hq : q ^ 2 < 1) (hu : |u| < 1) (n : ℤ) :
    plim (fun k => (serState (q * q) u n
      ⟨0, 1, 1, 1, 1, 4, q * (1 - q ^ 2), 1 - q ^ 3, 4 / 3, 4 / 3 * (1 - q ^ 3), 0, 0, 0⟩ k).d3t) =
    .ok (if n = 3 then ps (psD (psD (psD (serC q)))) u else 0) := by
  apply plim_eq
  by_cases hn : n = 3
  · rw [if_pos hn]
    refine (lim_d3 (serC_bdd hq) hu).congr fun k => ?_
    have h := (serState_derivs (q := q) (u := u) n k rfl).2.2
    rw [if_pos hn] at h
    exact h.2.symm
  · rw [if_neg hn]
    refine tendsto_const_nhds.congr fun k => ?_
    have h := (serState_derivs (q := q) (u := u) n k rfl).2.2
    rw [if_neg hn] at h
    exact h.symm

end Limits

theorem serK_eq {q x z : ℝ} (h : Lanc q x z) (h0 : 0 < x) (h1 : |1 - x ^ 2| < 1) :
    serK q (1 - x ^ 2) = 2 * lancT q x z 0 := by
  rw [h.sigma h0 h1, serK]
  have hq2 := h.lam_lt
  have hu2 : |q ^ 2 * (1 - x ^ 2)| < 1 := by
    rw [abs_mul, abs_of_nonneg (by positivity)]
    nlinarith [abs_nonneg (1 - x ^ 2), sq_nonneg q]
  have s1 := (sigC_bdd.summable h1).hasSum
  have s2 := (sigC_bdd.summable hu2).hasSum.mul_left (q ^ 3)
  have s3 := s1.sub s2
  unfold ps
  rw [← s3.tsum_eq]
  refine tsum_congr fun j => ?_
  unfold serC
  rw [mul_pow, ← pow_mul]
  ring

/-- The series branch of `tlamb`. -/
theorem tlambSeries_eq {q x z : ℝ} (h : Lanc q x z) (h0 : 0 < x) (h1 : |1 - x ^ 2| < 1) (n : ℤ) :
    tlambSeries q (1 - q ^ 2) x n = .ok (2 * lancT q x z 0,
      if 1 ≤ n then -2 * x * ps (psD (serC q)) (1 - x ^ 2) else 0,
      if 2 ≤ n then 2 * (2 * x ^ 2 * ps (psD (psD (serC q))) (1 - x ^ 2) -
        ps (psD (serC q)) (1 - x ^ 2)) else 0,
      if n = 3 then 8 * x * (1.5 * ps (psD (psD (serC q))) (1 - x ^ 2) -
        x ^ 2 * ps (psD (psD (psD (serC q)))) (1 - x ^ 2)) else 0) := by
  have hq := h.lam_lt
  unfold tlambSeries
  rw [u_eq]
  simp only []
  rw [serInit_eq hq, ok_bind, ser_t_lim hq h1, ok_bind, ser_dt_lim hq h1, ok_bind,
    ser_d2t_lim hq h1, ok_bind, ser_d3t_lim hq h1, ok_bind, pdiv_eq (by positivity), ok_bind,
    serK_eq h h0 h1]
  have e : (1 - (1 - x ^ 2)) * (2 * lancT q x z 0) / (x * x) = 2 * lancT q x z 0 := by
    field_simp; ring
  rw [e]
  by_cases h3 : n = 3
  · subst h3; norm_num; ring_nf; simp
  by_cases h2 : 2 ≤ n
  · have : 1 ≤ n := by omega
    simp only [h3, h2, this, ge_iff_le, if_true, if_false]; norm_num; ring_nf; simp
  by_cases h1 : 1 ≤ n
  · simp only [h3, h2, h1, ge_iff_le, if_true, if_false]; norm_num
  · simp only [h3, h2, h1, ge_iff_le, if_false]

/-- `tlamb` computes twice the dimensionless time of flight. -/
theorem tlamb_time {q x z : ℝ} (h : Lanc q x z) {M : ℕ} (h1 : -1 < x) (h2 : M = 0 ∨ x < 1) {n : ℤ}
    (hn : n ≠ -1) : ∃ d, tlamb M q (1 - q ^ 2) x n = .ok (2 * lancT q x z M, d) := by
  unfold tlamb
  rw [u_eq, if_neg hn]
  split
  · rename_i hc
    have hx1 : x ≠ 1 := by
      rintro rfl
      rcases h2 with rfl | h2
      · norm_num at hc
      · exact lt_irrefl _ h2
    obtain ⟨d1, d2, d3, hd, _⟩ := tlambDirect_eq h h1 hx1 h2 n
    exact ⟨_, hd⟩
  · rename_i hc
    push Not at hc
    obtain ⟨hM, hx, hu⟩ := hc
    have hM0 : M = 0 := by omega
    subst hM0
    have hx0 : x ≠ 0 := by rintro rfl; norm_num at hu
    have hu1 : |1 - x ^ 2| < 1 := lt_of_le_of_lt hu (by norm_num)
    exact ⟨_, tlambSeries_eq h (lt_of_le_of_ne hx (Ne.symm hx0)) hu1 n⟩

end Gooding
end Lamberthub
