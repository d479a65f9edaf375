import Verif.Proofs.Absorb
import Verif.Proofs.StumpffCont

/-!
# C82: the loops that stop when rounding absorbs a term

The specification of the arithmetic is the standard model of floating point (`Spec.StandardModel`), that rounding keeps representable
numbers and absorbs what is much smaller (`Spec.Absorbs`), and a relative error for the library functions.  The
specification of the results are the series themselves (`HasSum`).
-/

set_option autoImplicit false

namespace Lamberthub
open Spec

/-- Arithmetic with unit roundoff `u` whose library functions have relative errors of at most `w`. -/
structure Spec.LibModel (F : LibArith) (u w : ℝ) : Prop where
  std : StandardModel F.toArith u
  abs : Absorbs F.toArith u
  nonneg : 0 ≤ w
  pow : ∀ x k, |F.pow x k - x ^ k| ≤ w * |x ^ k|
  gamma : ∀ n, 1 ≤ n → |F.gamma n - ((n - 1).factorial : ℝ)| ≤ w * ((n - 1).factorial : ℝ)
  cos : ∀ x, |F.cos x - Real.cos x| ≤ w * |Real.cos x|
  sin : ∀ x, |F.sin x - Real.sin x| ≤ w * |Real.sin x|
  cosh : ∀ x, |F.cosh x - Real.cosh x| ≤ w * Real.cosh x
  sinh : ∀ x, |F.sinh x - Real.sinh x| ≤ w * |Real.sinh x|

namespace Rounded

/-- binary64 with correctly rounded functions is such an arithmetic. -/
theorem lib64_model : LibModel lib64 (2⁻¹ ^ 53) (2⁻¹ ^ 53) where
  std := binary64_standard
  abs := binary64_absorbs
  nonneg := by positivity
  pow x k := rnd64_err _
  gamma n _ := by
    have := rnd64_err ((n - 1).factorial : ℝ)
    rwa [abs_of_nonneg (by positivity : (0 : ℝ) ≤ ((n - 1).factorial : ℝ))] at this
  cos x := rnd64_err _
  sin x := rnd64_err _
  cosh x := by
    have := rnd64_err (Real.cosh x)
    rwa [abs_of_pos (Real.cosh_pos x)] at this
  sinh x := rnd64_err _

section Stumpff
variable {F : LibArith} {u w : ℝ} {j : ℕ} {psi : ℝ}

/-- The terms as computed. -/
noncomputable def stumpffD (F : LibArith) (j : ℕ) (psi : ℝ) (k : ℕ) : ℝ :=
  if k = 1 then F.rnd (-psi / F.gamma (2 * 1 + j + 1)) else F.rnd (F.pow (-psi) k / F.gamma (2 * k + j + 1))

theorem gamma_pos (h : LibModel F u w) (hw : w ≤ 1 / 1000) (n : ℕ) (hn : 1 ≤ n) : 0 < F.gamma n := by
  have h1 := (abs_le.1 (h.gamma n hn)).1
  have h2 : (1 : ℝ) ≤ ((n - 1).factorial : ℝ) := by exact_mod_cast Nat.one_le_iff_ne_zero.2 (Nat.factorial_ne_zero _)
  nlinarith

/-- A quotient of inexact numbers, rounded. -/
theorem quot_error (h : StandardModel F.toArith u) (hu : u ≤ 1 / 1000) (hw0 : 0 ≤ w) (hw : w ≤ 1 / 1000) {p q P Q : ℝ} (hq : 0 < q)
    (hP : |P - p| ≤ w * |p|) (hQ : |Q - q| ≤ w * q) : |F.rnd (P / Q) - p / q| ≤ (u + 21 / 10 * w) * |p / q| := by
  have hu0 := h.nonneg
  have hQ' := abs_le.1 hQ
  have hQ0 : 0 < Q := by nlinarith
  have e1 : |P / Q - p / q| ≤ 2003 / 1000 * w * |p / q| := by
    rw [show P / Q - p / q = ((P - p) * q - p * (Q - q)) / (Q * q) by field_simp; ring, abs_div, abs_div, abs_of_pos hq,
      abs_of_pos (mul_pos hQ0 hq), div_le_iff₀ (mul_pos hQ0 hq)]
    have e2 : |(P - p) * q - p * (Q - q)| ≤ 2 * w * |p| * q := by
      refine (abs_sub _ _).trans ?_
      rw [abs_mul, abs_mul, abs_of_pos hq]
      have a1 := mul_le_mul_of_nonneg_right hP hq.le
      have a2 := mul_le_mul_of_nonneg_left hQ (abs_nonneg p)
      linarith
    refine e2.trans ?_
    rw [show 2003 / 1000 * w * (|p| / q) * (Q * q) = 2003 / 1000 * w * |p| * Q by field_simp]
    have a3 : 2 * q ≤ 2003 / 1000 * Q := by nlinarith
    have a4 := mul_le_mul_of_nonneg_left a3 (mul_nonneg hw0 (abs_nonneg p))
    linarith
  have e3 := rnd_err h e1 le_rfl
  have hz := abs_nonneg (p / q)
  have : u * (2003 / 1000 * w * |p / q|) ≤ 1 / 1000 * (2003 / 1000 * w * |p / q|) :=
    mul_le_mul_of_nonneg_right hu (by positivity)
  have := mul_nonneg hw0 hz
  nlinarith

theorem stumpffD_error (h : LibModel F u w) (hu : u ≤ 1 / 1000) (hw : w ≤ 1 / 1000) (k : ℕ) :
    |stumpffD F j psi k - stumpffTerm j psi k| ≤ (u + 21 / 10 * w) * |stumpffTerm j psi k| := by
  unfold stumpffD stumpffTerm
  have hg := h.gamma (2 * k + j + 1) (by omega)
  rw [Nat.add_sub_cancel] at hg
  split_ifs with hk
  · subst hk
    rw [pow_one]
    exact quot_error h.std hu h.nonneg hw (by positivity) (by rw [sub_self, abs_zero]; exact mul_nonneg h.nonneg (abs_nonneg _)) hg
  · exact quot_error h.std hu h.nonneg hw (by positivity) (h.pow _ _) hg

theorem term_ratio (hj : 2 ≤ j) (hp : |psi| ≤ 1) (k : ℕ) : 12 * |stumpffTerm j psi (k + 1)| ≤ |stumpffTerm j psi k| := by
  have hf : (0 : ℝ) < ((2 * k + j).factorial : ℝ) := by positivity
  unfold stumpffTerm
  rw [show 2 * (k + 1) + j = (2 * k + j) + 1 + 1 by ring, Nat.factorial_succ, Nat.factorial_succ, abs_div, abs_div, abs_pow, abs_pow,
    abs_neg, pow_succ]
  push_cast
  have hf2 : (0 : ℝ) < (2 * k + j + 1 + 1) * ((2 * k + j + 1) * ((2 * k + j).factorial : ℝ)) := by positivity
  rw [abs_of_pos hf, abs_of_pos hf2, mul_div_assoc', div_le_div_iff₀ (by positivity) hf]
  have hj' : (2 : ℝ) ≤ j := by exact_mod_cast hj
  have hk : (0 : ℝ) ≤ k := by positivity
  have h1 : (12 : ℝ) ≤ (2 * k + j + 1 + 1) * (2 * k + j + 1) := by nlinarith
  have h2 : 0 ≤ |psi| ^ k := by positivity
  have h3 : |psi| ^ k * |psi| ≤ |psi| ^ k := mul_le_of_le_one_right h2 hp
  have h4 : 12 * (|psi| ^ k * |psi|) ≤ (2 * k + j + 1 + 1) * (2 * k + j + 1) * |psi| ^ k := by nlinarith
  have := mul_le_mul_of_nonneg_right h4 hf.le
  linarith

/-- What the sums of the computed terms are compared with the exact ones. -/
theorem stumpff_sums (h : LibModel F u w) (hu : u ≤ 1 / 1000) (hw : w ≤ 1 / 1000) (hj : 2 ≤ j) (hp : |psi| ≤ 1) {r0 : ℝ}
    (hr : |r0 - 1 / (j.factorial : ℝ)| ≤ u * (1 / (j.factorial : ℝ))) (n : ℕ) :
    |stumpffPartial j psi n - 1 / (j.factorial : ℝ)| ≤ (1 / (j.factorial : ℝ) - |stumpffTerm j psi n|) / 11 ∧
    |psum (stumpffD F j psi) r0 n - stumpffPartial j psi n| ≤
      u * (1 / (j.factorial : ℝ)) + (u + 21 / 10 * w) * ((1 / (j.factorial : ℝ) - |stumpffTerm j psi n|) / 11) := by
  have hu0 := h.std.nonneg
  have hw0 := h.nonneg
  have e0 : stumpffTerm j psi 0 = 1 / (j.factorial : ℝ) := by simp [stumpffTerm]
  have hc : (0 : ℝ) < 1 / (j.factorial : ℝ) := by positivity
  induction n with
  | zero =>
    rw [psum, stumpffPartial, e0, abs_of_pos hc]
    simpa using hr
  | succ n ih =>
    have h1 := term_ratio hj hp n
    have h2 := stumpffD_error (j := j) (psi := psi) h hu hw (n + 1)
    rw [psum, stumpffPartial]
    generalize 1 / (j.factorial : ℝ) = c at *
    constructor
    · rw [show stumpffPartial j psi n + stumpffTerm j psi (n + 1) - c = (stumpffPartial j psi n - c) + stumpffTerm j psi (n + 1) by ring]
      refine (abs_add_le _ _).trans ?_
      linarith [ih.1]
    · rw [show psum (stumpffD F j psi) r0 n + stumpffD F j psi (n + 1) - (stumpffPartial j psi n + stumpffTerm j psi (n + 1)) =
        (psum (stumpffD F j psi) r0 n - stumpffPartial j psi n) + (stumpffD F j psi (n + 1) - stumpffTerm j psi (n + 1)) by ring]
      refine (abs_add_le _ _).trans ?_
      have h3 : 0 ≤ u + 21 / 10 * w := by linarith
      have h4 := mul_le_mul_of_nonneg_left h1 h3
      linarith [ih.2]

/-- The loops of `stumpff.py` stop and what they return. -/
theorem stumpffLoop_ok (h : LibModel F u w) (hu : u ≤ 1 / 1000) (hw : w ≤ 1 / 1000) (hj : 2 ≤ j) (hp : |psi| ≤ 1) {r0 : ℝ}
    (hr : |r0 - 1 / (j.factorial : ℝ)| ≤ u * (1 / (j.factorial : ℝ))) (hr0 : F.rnd r0 = r0) {N : ℕ} (hN : 200 * (N * u) ≤ 1)
    (hNu : 9 * (j.factorial : ℝ) ≤ u * ((2 * N + 2 + j).factorial : ℝ)) :
    ∃ s, stumpffLoop F j psi ⟨r0, stumpffD F j psi 1, 1⟩ = .ok s ∧ s.k ≤ N + 1 ∧
      |s.res - stumpffSeries j psi| ≤ ((6 / 5 * N + 7 / 2) * u + w / 4) / (j.factorial : ℝ) := by
  have hu0 := h.std.nonneg
  have hw0 := h.nonneg
  have hsum := fun n => stumpff_sums h hu hw hj hp hr n
  have hc : (0 : ℝ) < 1 / (j.factorial : ℝ) := by positivity
  have hD := fun k => stumpffD_error (j := j) (psi := psi) h hu hw k
  have hdN : 9 * |stumpffTerm j psi (N + 1)| ≤ u * (1 / (j.factorial : ℝ)) := by
    have e1 : |stumpffTerm j psi (N + 1)| ≤ 1 / ((2 * N + 2 + j).factorial : ℝ) := by
      unfold stumpffTerm
      rw [abs_div, abs_pow, abs_neg, show 2 * (N + 1) + j = 2 * N + 2 + j by ring, Nat.abs_cast]
      exact div_le_div_of_nonneg_right (pow_le_one₀ (abs_nonneg _) hp) (by positivity)
    have e2 : 9 * (1 / ((2 * N + 2 + j).factorial : ℝ)) ≤ u * (1 / (j.factorial : ℝ)) := by
      rw [mul_one_div, mul_one_div, div_le_div_iff₀ (by positivity) (by positivity)]
      exact hNu
    linarith
  have key : ((6 / 5 * N + 7 / 2) * u + w / 4) / (j.factorial : ℝ) = ((6 / 5 * N + 7 / 2) * u + w / 4) * (1 / (j.factorial : ℝ)) := by ring
  rw [key]
  generalize 1 / (j.factorial : ℝ) = c at *
  have hη : u + 21 / 10 * w ≤ 4 / 1000 := by linarith
  have hη0 : 0 ≤ u + 21 / 10 * w := by linarith
  have hps : ∀ n, |psum (stumpffD F j psi) r0 n - c| ≤ c / 10 := by
    intro n
    obtain ⟨s1, s2⟩ := hsum n
    have ht := abs_nonneg (stumpffTerm j psi n)
    have e1 := abs_sub_le (psum (stumpffD F j psi) r0 n) (stumpffPartial j psi n) c
    have e2 : (u + 21 / 10 * w) * ((c - |stumpffTerm j psi n|) / 11) ≤ 4 / 1000 * (c / 11) := by
      refine (mul_le_mul_of_nonneg_left (by linarith : _ ≤ c / 11) hη0).trans ?_
      exact mul_le_mul_of_nonneg_right hη (by positivity)
    have e3 : u * c ≤ 1 / 1000 * c := mul_le_mul_of_nonneg_right hu hc.le
    linarith
  obtain ⟨k, hk, hstop, hgo, herr, hdk⟩ := acc_stop h.std h.abs (d := stumpffD F j psi) (r0 := r0) (B := 11 / 10 * c) (L := 9 / 10 * c)
    (N := N) hr0
    (fun n _ => by
      have := abs_le.1 (hps n)
      rw [abs_le]; constructor <;> linarith)
    (fun n _ => by
      have := abs_le.1 (hps n)
      exact le_trans (by linarith) (le_abs_self _)) hN
    (by nlinarith) (by
      have e1 := hD (N + 1)
      have e2 : |stumpffD F j psi (N + 1)| ≤ (1 + (u + 21 / 10 * w)) * |stumpffTerm j psi (N + 1)| := by
        have := abs_add_le (stumpffD F j psi (N + 1) - stumpffTerm j psi (N + 1)) (stumpffTerm j psi (N + 1))
        rw [sub_add_cancel] at this
        linarith
      have e3 := abs_nonneg (stumpffTerm j psi (N + 1))
      have e4 : (1 + (u + 21 / 10 * w)) * |stumpffTerm j psi (N + 1)| ≤ 1004 / 1000 * |stumpffTerm j psi (N + 1)| :=
        mul_le_mul_of_nonneg_right (by linarith) e3
      nlinarith)
  refine ⟨⟨acc F.toArith (stumpffD F j psi) r0 k, stumpffD F j psi (k + 1), k + 1⟩, ?_, by simp only; omega, ?_⟩
  · refine whileLoop_states (fun i => (⟨acc F.toArith (stumpffD F j psi) r0 i, stumpffD F j psi (i + 1), i + 1⟩ : AccState)) k
      (fun i hi => ⟨hgo i hi, ?_⟩) (fun hn => hn hstop)
    simp only []
    rw [div, pdiv_eq (gamma_pos h hw _ (by omega)).ne', ok_bind, ok_bind]
    simp only [acc]
    have e : stumpffD F j psi (i + 1 + 1) = F.rnd (F.pow (-psi) (i + 1 + 1) / F.gamma (2 * (i + 1 + 1) + j + 1)) := by
      rw [stumpffD, if_neg (by omega)]
    rw [e]
  · simp only []
    obtain ⟨s1, s2⟩ := hsum k
    have t := stumpff_truncation (j := j) hp k
    have ht := abs_nonneg (stumpffTerm j psi k)
    have e2 : (u + 21 / 10 * w) * ((c - |stumpffTerm j psi k|) / 11) ≤ (u + 21 / 10 * w) * (c / 11) :=
      mul_le_mul_of_nonneg_left (by linarith : _ ≤ c / 11) hη0
    have e3 : |stumpffTerm j psi (k + 1)| ≤ 1005 / 1000 * |stumpffD F j psi (k + 1)| := by
      have a1 := hD (k + 1)
      have a2 := abs_sub (stumpffD F j psi (k + 1)) (stumpffD F j psi (k + 1) - stumpffTerm j psi (k + 1))
      rw [sub_sub_cancel] at a2
      have a3 := abs_nonneg (stumpffTerm j psi (k + 1))
      nlinarith
    have e4 := abs_sub_le (acc F.toArith (stumpffD F j psi) r0 k) (psum (stumpffD F j psi) r0 k) (stumpffSeries j psi)
    have e5 := abs_sub_le (psum (stumpffD F j psi) r0 k) (stumpffPartial j psi k) (stumpffSeries j psi)
    rw [abs_sub_comm (stumpffPartial j psi k)] at e5
    have e6 : (k : ℝ) * u ≤ N * u := mul_le_mul_of_nonneg_right (by exact_mod_cast hk) hu0
    have e7 := mul_le_mul_of_nonneg_right e6 hc.le
    have e8 : 0 ≤ (N : ℝ) * u * c := by positivity
    have e9 : 0 ≤ u * c := by positivity
    have e10 : 0 ≤ w * c := by positivity
    nlinarith

end Stumpff

/-- **C82** for `c2`: on `[-1, 1]` the loop stops in rounded arithmetic and returns the Stumpff function up to a few
units of roundoff. -/
theorem c2_loop_rounded {F : LibArith} {u w : ℝ} (h : LibModel F u w) (hu : u ≤ 1 / 1000) (hw : w ≤ 1 / 1000) {N : ℕ}
    (hN : 200 * (N * u) ≤ 1) (hNu : 18 ≤ u * ((2 * N + 4).factorial : ℝ)) {psi : ℝ} (hp : |psi| ≤ 1) {C : ℝ}
    (hC : HasSum (fun k : ℕ => (-psi) ^ k / ((2 * k + 2).factorial : ℝ)) C) :
    ∃ r, c2 F psi = .ok r ∧ |r - C| ≤ ((6 / 5 * N + 7 / 2) * u + w / 4) / 2 := by
  obtain ⟨p1, p2⟩ := abs_le.1 hp
  have hr : |F.rnd (1 / 2) - 1 / ((2 : ℕ).factorial : ℝ)| ≤ u * (1 / ((2 : ℕ).factorial : ℝ)) := by
    have := h.std.rnd (1 / 2)
    rw [abs_of_pos (by norm_num : (0 : ℝ) < 1 / 2)] at this
    simpa [Nat.factorial] using this
  obtain ⟨s, hs, -, he⟩ := stumpffLoop_ok h hu hw le_rfl hp hr (h.abs.idem _) hN (by
    rw [show 2 * N + 2 + 2 = 2 * N + 4 by ring]
    norm_num [Nat.factorial] at hNu ⊢
    linarith)
  refine ⟨s.res, ?_, ?_⟩
  · rw [c2, if_neg (by linarith), if_neg (by linarith), div, pdiv_eq two_ne_zero, ok_bind, ok_bind, div,
      pdiv_eq (gamma_pos h hw _ (by omega)).ne', ok_bind, ok_bind]
    rw [stumpffD, if_pos rfl] at hs
    rw [hs, ok_bind]
  · have : C = stumpffSeries 2 psi := hC.tsum_eq.symm
    rw [this]
    simpa [Nat.factorial] using he

/-- **C82** for `c3`. -/
theorem c3_loop_rounded {F : LibArith} {u w : ℝ} (h : LibModel F u w) (hu : u ≤ 1 / 1000) (hw : w ≤ 1 / 1000) {N : ℕ}
    (hN : 200 * (N * u) ≤ 1) (hNu : 54 ≤ u * ((2 * N + 5).factorial : ℝ)) {psi : ℝ} (hp : |psi| ≤ 1) {C : ℝ}
    (hC : HasSum (fun k : ℕ => (-psi) ^ k / ((2 * k + 3).factorial : ℝ)) C) :
    ∃ r, c3 F psi = .ok r ∧ |r - C| ≤ ((6 / 5 * N + 7 / 2) * u + w / 4) / 6 := by
  obtain ⟨p1, p2⟩ := abs_le.1 hp
  have hr : |F.rnd (1 / 6) - 1 / ((3 : ℕ).factorial : ℝ)| ≤ u * (1 / ((3 : ℕ).factorial : ℝ)) := by
    have := h.std.rnd (1 / 6)
    rw [abs_of_pos (by norm_num : (0 : ℝ) < 1 / 6)] at this
    simpa [Nat.factorial] using this
  obtain ⟨s, hs, -, he⟩ := stumpffLoop_ok h hu hw (by norm_num : 2 ≤ 3) hp hr (h.abs.idem _) hN (by
    rw [show 2 * N + 2 + 3 = 2 * N + 5 by ring]
    norm_num [Nat.factorial] at hNu ⊢
    linarith)
  refine ⟨s.res, ?_, ?_⟩
  · rw [c3, if_neg (by linarith), if_neg (by linarith), div, pdiv_eq (by norm_num), ok_bind, ok_bind, div,
      pdiv_eq (gamma_pos h hw _ (by omega)).ne', ok_bind, ok_bind]
    rw [stumpffD, if_pos rfl] at hs
    rw [hs, ok_bind]
  · have : C = stumpffSeries 3 psi := hC.tsum_eq.symm
    rw [this]
    simpa [Nat.factorial] using he

/-! ## Products of relative errors -/

/-- A factor that `k` roundings can make. -/
def Fac (u : ℝ) (k : ℕ) (a : ℝ) : Prop := (1 - u) ^ k ≤ a ∧ a * (1 - u) ^ k ≤ 1

theorem Fac.mul {u a b : ℝ} {k l : ℕ} (hu : u < 1) (h1 : Fac u k a) (h2 : Fac u l b) : Fac u (k + l) (a * b) := by
  have p1 : 0 < (1 - u) ^ k := by have := sub_pos.2 hu; positivity
  have p2 : 0 < (1 - u) ^ l := by have := sub_pos.2 hu; positivity
  have a0 := p1.trans_le h1.1
  have b0 := p2.trans_le h2.1
  constructor
  · rw [pow_add]
    exact mul_le_mul h1.1 h2.1 p2.le a0.le
  · rw [pow_add, show a * b * ((1 - u) ^ k * (1 - u) ^ l) = (a * (1 - u) ^ k) * (b * (1 - u) ^ l) by ring]
    exact mul_le_one₀ h1.2 (by positivity) h2.2

theorem Fac.inv {u a : ℝ} {k : ℕ} (hu : u < 1) (h : Fac u k a) : Fac u k a⁻¹ := by
  have p1 : 0 < (1 - u) ^ k := by have := sub_pos.2 hu; positivity
  have a0 := p1.trans_le h.1
  constructor
  · rw [le_inv_comm₀ p1 a0, ← one_div, le_div_iff₀ p1]
    exact h.2
  · rw [inv_mul_le_iff₀ a0, mul_one]
    exact h.1

/-- Rounding multiplies by a factor. -/
theorem rnd_fac {F : Arith} {u : ℝ} (h : StandardModel F u) (hu : u < 1) (x : ℝ) : ∃ a, Fac u 1 a ∧ F.rnd x = x * a := by
  have h1 := h.rnd x
  have hu0 := h.nonneg
  rcases eq_or_ne x 0 with rfl | hx
  · refine ⟨1, ⟨by simpa using hu0, by simpa using hu0⟩, ?_⟩
    rw [abs_zero, mul_zero, sub_zero, abs_nonpos_iff] at h1
    rw [h1, zero_mul]
  · refine ⟨F.rnd x / x, ?_, by field_simp⟩
    have h2 : |F.rnd x / x - 1| ≤ u := by
      rw [show F.rnd x / x - 1 = (F.rnd x - x) / x by field_simp, abs_div, div_le_iff₀ (abs_pos.2 hx)]
      exact h1
    obtain ⟨h3, h4⟩ := abs_le.1 h2
    rw [Fac, pow_one]
    constructor
    · linarith
    · nlinarith

theorem Fac.err {u a : ℝ} {k : ℕ} (hu0 : 0 ≤ u) (hu : k * u ≤ 1 / 10) (h : Fac u k a) : |a - 1| ≤ 10 / 9 * (k * u) := by
  have hk : (0 : ℝ) ≤ k := Nat.cast_nonneg k
  have hb : 1 - k * u ≤ (1 - u) ^ k := by
    rcases Nat.eq_zero_or_pos k with rfl | hk1
    · simp
    · have hk1' : (1 : ℝ) ≤ k := by exact_mod_cast hk1
      have := one_add_mul_le_pow (a := -u) (by nlinarith) k
      rw [← sub_eq_add_neg] at this
      linarith
  have hku : 0 ≤ k * u := mul_nonneg hk hu0
  have a0 : 0 ≤ a := le_trans (by linarith) h.1
  have h2 : a * (1 - k * u) ≤ 1 := (mul_le_mul_of_nonneg_left hb a0).trans h.2
  rw [abs_le]
  constructor
  · linarith [h.1]
  · nlinarith

/-! ## The hypergeometric function of `izzo2015` -/

section Hyp
variable {F : Arith} {u x : ℝ}

/-- The terms of `hyp2f1b` as computed. -/
noncomputable def hypD (F : Arith) (x : ℝ) : ℕ → ℝ
  | 0 => 1
  | n + 1 => F.rnd (F.rnd (F.rnd (F.rnd (F.rnd (hypD F x n * F.rnd (3 + n)) * F.rnd (1 + n)) / F.rnd (5 / 2 + n)) * x) / F.rnd (n + 1))

/-- The exact terms. -/
noncomputable def hypT (x : ℝ) (n : ℕ) : ℝ := (∏ k ∈ Finset.range n, (3 + k : ℝ) / (5 / 2 + k)) * x ^ n

theorem hypT_succ (x : ℝ) (n : ℕ) : hypT x (n + 1) = hypT x n * ((3 + n) / (5 / 2 + n) * x) := by
  rw [hypT, hypT, Finset.prod_range_succ, pow_succ]; ring

theorem rnd_ne {h : StandardModel F u} (hu : u < 1) {y : ℝ} (hy : y ≠ 0) : F.rnd y ≠ 0 := by
  obtain ⟨a, ha, e⟩ := rnd_fac h hu y
  have p1 : 0 < 1 - u := sub_pos.2 hu
  have := p1.trans_le (by simpa using ha.1)
  rw [e]
  exact mul_ne_zero hy this.ne'

theorem hypD_step (h : StandardModel F u) (hu : u ≤ 1 / 10000) (n : ℕ) :
    |hypD F x (n + 1) - hypD F x n * ((3 + n) / (5 / 2 + n) * x)| ≤ 10 * u * |hypD F x n * ((3 + n) / (5 / 2 + n) * x)| := by
  have hu1 : u < 1 := by linarith
  have hu0 := h.nonneg
  obtain ⟨a1, f1, e1⟩ := rnd_fac h hu1 (3 + n)
  obtain ⟨a2, f2, e2⟩ := rnd_fac h hu1 (hypD F x n * F.rnd (3 + n))
  obtain ⟨a3, f3, e3⟩ := rnd_fac h hu1 (1 + n)
  obtain ⟨a4, f4, e4⟩ := rnd_fac h hu1 (F.rnd (hypD F x n * F.rnd (3 + n)) * F.rnd (1 + n))
  obtain ⟨a5, f5, e5⟩ := rnd_fac h hu1 (5 / 2 + n)
  obtain ⟨a6, f6, e6⟩ := rnd_fac h hu1 (F.rnd (F.rnd (hypD F x n * F.rnd (3 + n)) * F.rnd (1 + n)) / F.rnd (5 / 2 + n))
  obtain ⟨a7, f7, e7⟩ := rnd_fac h hu1 (F.rnd (F.rnd (F.rnd (hypD F x n * F.rnd (3 + n)) * F.rnd (1 + n)) / F.rnd (5 / 2 + n)) * x)
  obtain ⟨a8, f8, e8⟩ := rnd_fac h hu1 (n + 1)
  obtain ⟨a9, f9, e9⟩ := rnd_fac h hu1
    (F.rnd (F.rnd (F.rnd (F.rnd (hypD F x n * F.rnd (3 + n)) * F.rnd (1 + n)) / F.rnd (5 / 2 + n)) * x) / F.rnd (n + 1))
  have hf := ((((((((f1.mul hu1 f2).mul hu1 f3).mul hu1 f4).mul hu1 (f5.inv hu1)).mul hu1 f6).mul hu1 f7).mul hu1
    (f8.inv hu1)).mul hu1 f9)
  have hE := hf.err hu0 (by norm_num; linarith)
  have e : hypD F x (n + 1) = hypD F x n * ((3 + n) / (5 / 2 + n) * x) *
      (a1 * a2 * a3 * a4 * a5⁻¹ * a6 * a7 * a8⁻¹ * a9) := by
    rw [hypD, e9, e7, e6, e4, e2, e1, e3, e5, e8]
    have n1 : ((n : ℝ) + 1) * ((n : ℝ) + 1)⁻¹ = 1 := mul_inv_cancel₀ (by positivity)
    clear hE hf
    rw [show (1 : ℝ) + n = n + 1 by ring]
    simp only [div_eq_mul_inv, mul_inv]
    generalize ((n : ℝ) + 1)⁻¹ = p at *
    generalize ((5 * 2⁻¹ : ℝ) + n)⁻¹ = q at *
    linear_combination hypD F x n * (3 + n) * q * x * (a1 * a2 * a3 * a4 * a5⁻¹ * a6 * a7 * a8⁻¹ * a9) * n1
  rw [e]
  generalize hypD F x n * ((3 + n) / (5 / 2 + n) * x) = y at *
  generalize a1 * a2 * a3 * a4 * a5⁻¹ * a6 * a7 * a8⁻¹ * a9 = a at *
  rw [show y * a - y = (a - 1) * y by ring, abs_mul]
  refine mul_le_mul_of_nonneg_right (hE.trans ?_) (abs_nonneg y)
  norm_num
  linarith

theorem ratio_le (hx : |x| ≤ 41 / 100) (n : ℕ) : |(3 + n : ℝ) / (5 / 2 + n) * x| ≤ 492 / 1000 := by
  have hn : (0 : ℝ) ≤ n := Nat.cast_nonneg n
  have h1 : (3 + n : ℝ) / (5 / 2 + n) ≤ 6 / 5 := by rw [div_le_div_iff₀ (by positivity) (by norm_num)]; linarith
  have h0 : (0 : ℝ) ≤ (3 + n : ℝ) / (5 / 2 + n) := by positivity
  rw [abs_mul, abs_of_nonneg h0]
  have := mul_le_mul h1 hx (abs_nonneg x) (by norm_num)
  linarith

theorem hypD_ratio (h : StandardModel F u) (hu : u ≤ 1 / 10000) (hx : |x| ≤ 41 / 100) (n : ℕ) :
    |hypD F x (n + 1)| ≤ 99 / 200 * |hypD F x n| := by
  have h1 := hypD_step (x := x) h hu n
  have h2 := ratio_le hx n
  have h3 := abs_add_le (hypD F x (n + 1) - hypD F x n * ((3 + n) / (5 / 2 + n) * x)) (hypD F x n * ((3 + n) / (5 / 2 + n) * x))
  rw [sub_add_cancel] at h3
  have h4 : |hypD F x n * ((3 + n) / (5 / 2 + n) * x)| ≤ |hypD F x n| * (492 / 1000) := by
    rw [abs_mul]; exact mul_le_mul_of_nonneg_left h2 (abs_nonneg _)
  have h5 := abs_nonneg (hypD F x n)
  have h6 : 10 * u * |hypD F x n * ((3 + n) / (5 / 2 + n) * x)| ≤ 10 / 10000 * |hypD F x n * ((3 + n) / (5 / 2 + n) * x)| :=
    mul_le_mul_of_nonneg_right (by linarith) (abs_nonneg _)
  linarith

theorem hypD_geom (h : StandardModel F u) (hu : u ≤ 1 / 10000) (hx : |x| ≤ 41 / 100) (n : ℕ) :
    |hypD F x n| ≤ (1 / 2) ^ n := by
  induction n with
  | zero => simp [hypD]
  | succ n ih =>
    have := hypD_ratio h hu hx n
    have := abs_nonneg (hypD F x n)
    rw [pow_succ]; linarith

/-- The sums of the computed terms against the exact ones, and against each other. -/
theorem hyp_sums (h : StandardModel F u) (hu : u ≤ 1 / 10000) (hx : |x| ≤ 41 / 100) (n : ℕ) :
    |psum (hypD F x) 1 n - psum (hypT x) 1 n| + 3 / 2 * |hypD F x n - hypT x n| + 30 * u * |hypD F x n| ≤ 30 * u := by
  have hu0 := h.nonneg
  induction n with
  | zero => simp [psum, hypD, hypT]
  | succ n ih =>
    have h1 := hypD_step (x := x) h hu n
    have h2 := ratio_le hx n
    have h3 := hypD_ratio h hu hx n
    have h4 : |hypD F x (n + 1) - hypT x (n + 1)| ≤ 492 / 1000 * |hypD F x n - hypT x n| + 10 * u * (492 / 1000 * |hypD F x n|) := by
      rw [hypT_succ, show hypD F x (n + 1) - hypT x n * ((3 + n) / (5 / 2 + n) * x) =
        (hypD F x n - hypT x n) * ((3 + n) / (5 / 2 + n) * x) + (hypD F x (n + 1) - hypD F x n * ((3 + n) / (5 / 2 + n) * x)) by ring]
      refine (abs_add_le _ _).trans (add_le_add ?_ (h1.trans ?_))
      · rw [abs_mul, mul_comm]; exact mul_le_mul_of_nonneg_right h2 (abs_nonneg _)
      · refine mul_le_mul_of_nonneg_left ?_ (by linarith)
        rw [abs_mul, mul_comm]; exact mul_le_mul_of_nonneg_right h2 (abs_nonneg _)
    have h5 : |psum (hypD F x) 1 (n + 1) - psum (hypT x) 1 (n + 1)| ≤
        |psum (hypD F x) 1 n - psum (hypT x) 1 n| + |hypD F x (n + 1) - hypT x (n + 1)| := by
      rw [psum, psum, add_sub_add_comm]
      exact abs_add_le _ _
    have h6 := mul_le_mul_of_nonneg_left h3 (by linarith : 0 ≤ 30 * u)
    have h7 := mul_nonneg hu0 (abs_nonneg (hypD F x n))
    have h8 := abs_nonneg (hypD F x n - hypT x n)
    linarith

theorem hyp_tail (h : StandardModel F u) (hu : u ≤ 1 / 10000) (hx : |x| ≤ 41 / 100) (n m : ℕ) :
    |psum (hypD F x) 1 (n + m) - psum (hypD F x) 1 n| ≤ 200 / 101 * (|hypD F x (n + 1)| - |hypD F x (n + m + 1)|) := by
  induction m with
  | zero => simp
  | succ m ih =>
    have h3 := hypD_ratio h hu hx (n + m + 1)
    rw [show n + (m + 1) = n + m + 1 by ring, psum,
      show psum (hypD F x) 1 (n + m) + hypD F x (n + m + 1) - psum (hypD F x) 1 n =
        (psum (hypD F x) 1 (n + m) - psum (hypD F x) 1 n) + hypD F x (n + m + 1) by ring]
    refine (abs_add_le _ _).trans ?_
    linarith

end Hyp

/-- **C82** for `hyp2f1b`: for arguments up to 0.41, which include all that `izzo2015` uses (`izzo_series_argument`), the loop
stops in rounded arithmetic and returns the hypergeometric function `₂F₁(3, 1; 5/2; x)`, whose coefficients are the
products of `(3 + k)/(5/2 + k)`, up to some tens of units of roundoff. -/
theorem hyp2f1b_rounded {F : Arith} {u : ℝ} (h : StandardModel F u) (ha : Absorbs F u) (h1 : F.rnd 1 = 1) (hu : u ≤ 1 / 10000) {N : ℕ}
    (hN : 400 * (N * u) ≤ 1) (hNu : 408 ≤ u * 2 ^ (N + 1)) {x : ℝ} (hx : |x| ≤ 41 / 100) {C : ℝ}
    (hC : HasSum (fun n : ℕ => (∏ k ∈ Finset.range n, (3 + k : ℝ) / (5 / 2 + k)) * x ^ n) C) :
    ∃ r, hyp2f1b F x = .ok r ∧ |r - C| ≤ (41 / 20 * N + 35) * u := by
  have hu0 := h.nonneg
  have hu1 : u < 1 := by linarith
  have hNu0 : 0 ≤ N * u := mul_nonneg (Nat.cast_nonneg N) hu0
  obtain ⟨x1, x2⟩ := abs_le.1 hx
  have hps : ∀ n, |psum (hypD F x) 1 n - 1| ≤ 99 / 101 := by
    intro n
    have e1 := hyp_tail (x := x) h hu hx 0 n
    have e2 := hypD_ratio (x := x) h hu hx 0
    have e3 := abs_nonneg (hypD F x (0 + n + 1))
    rw [show hypD F x 0 = 1 from rfl, abs_one] at e2
    rw [zero_add, show psum (hypD F x) 1 0 = 1 from rfl] at e1
    rw [zero_add] at e3
    rw [zero_add] at e2 e1
    linarith
  have hgeom : |hypD F x (N + 1)| ≤ u / 8 * (2 / 101) := by
    have e1 := hypD_geom (x := x) h hu hx (N + 1)
    have e2 : (408 : ℝ) * (1 / 2) ^ (N + 1) ≤ u := by
      rw [one_div, inv_pow, ← div_eq_mul_inv, div_le_iff₀ (by positivity)]
      exact hNu
    linarith
  obtain ⟨k, hk, hstop, hgo, herr, hdk⟩ := acc_stop h ha (d := hypD F x) (r0 := 1) (B := 2) (L := 2 / 101) (N := N) h1
    (fun n _ => by have := abs_le.1 (hps n); rw [abs_le]; constructor <;> linarith)
    (fun n _ => by have := abs_le.1 (hps n); exact le_trans (by linarith) (le_abs_self _)) (by linarith) (by linarith) hgeom
  have hpass : ∀ n : ℕ, hypPass F x (hypD F x n) (acc F (hypD F x) 1 n) n =
      .ok ⟨hypD F x (n + 1), acc F (hypD F x) 1 (n + 1), acc F (hypD F x) 1 n, n⟩ := by
    intro n
    have n1 : (n : ℝ) + 1 ≠ 0 := by positivity
    have n2 : (5 / 2 : ℝ) + n ≠ 0 := by positivity
    simp only [hypPass, div]
    rw [pdiv_eq (rnd_ne (h := h) hu1 n2), ok_bind, ok_bind, pdiv_eq (rnd_ne (h := h) hu1 n1), ok_bind, ok_bind]
    rfl
  refine ⟨acc F (hypD F x) 1 (k + 1), ?_, ?_⟩
  · rw [hyp2f1b, if_neg (by linarith)]
    have e0 := hpass 0
    rw [show hypD F x 0 = 1 from rfl, show acc F (hypD F x) 1 0 = 1 from rfl] at e0
    rw [e0, ok_bind]
    have := whileLoop_states (cond := fun s : HypState => s.resOld ≠ s.res) (body := fun s => hypPass F x s.term s.res (s.ii + 1))
      (fun i => (⟨hypD F x (i + 1), acc F (hypD F x) 1 (i + 1), acc F (hypD F x) 1 i, i⟩ : HypState)) k
      (fun i hi => ⟨fun hn => hgo i hi hn.symm, hpass (i + 1)⟩) (fun hn => hn hstop.symm)
    rw [show (⟨hypD F x (0 + 1), acc F (hypD F x) 1 (0 + 1), 1, 0⟩ : HypState) =
      ⟨hypD F x (0 + 1), acc F (hypD F x) 1 (0 + 1), acc F (hypD F x) 1 0, 0⟩ from rfl, this, ok_bind]
  · have hacc : acc F (hypD F x) 1 (k + 1) = acc F (hypD F x) 1 k := hstop
    rw [hacc]
    have hT : ∀ m, ∑ i ∈ Finset.range (m + 1), hypT x i = psum (hypT x) 1 m := by
      intro m
      induction m with
      | zero => simp [psum, hypT]
      | succ m ih => rw [Finset.sum_range_succ, ih, psum]
    have hlim : Filter.Tendsto (fun m => |psum (hypD F x) 1 k - psum (hypT x) 1 (k + m)|) Filter.atTop
        (nhds |psum (hypD F x) 1 k - C|) := by
      have e1 := hC.tendsto_sum_nat.comp (Filter.tendsto_add_atTop_nat (k + 1))
      refine ((tendsto_const_nhds.sub e1).abs).congr fun m => ?_
      simp only [Function.comp]
      rw [show m + (k + 1) = (k + m) + 1 by ring]
      congr 2
      exact hT _
    have hbound : |psum (hypD F x) 1 k - C| ≤ 30 * u + 200 / 101 * |hypD F x (k + 1)| := by
      refine le_of_tendsto' hlim fun m => ?_
      have e1 := hyp_tail (x := x) h hu hx k m
      have e2 := hyp_sums (x := x) h hu hx (k + m)
      have e3 := abs_nonneg (hypD F x (k + m + 1))
      have e4 := abs_nonneg (hypD F x (k + m) - hypT x (k + m))
      have e5 := mul_nonneg hu0 (abs_nonneg (hypD F x (k + m)))
      have e6 := abs_sub_le (psum (hypD F x) 1 k) (psum (hypD F x) 1 (k + m)) (psum (hypT x) 1 (k + m))
      rw [abs_sub_comm (psum (hypD F x) 1 k) (psum (hypD F x) 1 (k + m))] at e6
      linarith
    have e1 := abs_sub_le (acc F (hypD F x) 1 k) (psum (hypD F x) 1 k) C
    have e2 : (k : ℝ) * u ≤ N * u := mul_le_mul_of_nonneg_right (by exact_mod_cast hk) hu0
    nlinarith

/-- The arguments of `hyp2f1b` in `izzo2015` (`izzo.py` l.207-211) are between -0.4 and 0.4. -/
theorem izzo_series_argument {x y ll : ℝ} (hl : ll ^ 2 < 1) (h0 : Real.sqrt 0.6 < x) (h1 : x < Real.sqrt 1.4)
    (hy : y = Real.sqrt (1 - ll ^ 2 * (1 - x ^ 2))) : |(1 - ll - x * (y - ll * x)) * 0.5| < 2 / 5 := by
  have hx0 : 0 < x := lt_of_le_of_lt (Real.sqrt_nonneg _) h0
  have hx2 : 3 / 5 < x ^ 2 := by
    have := (Real.sqrt_lt' hx0).1 h0
    norm_num at this; linarith
  have hx3 : x ^ 2 < 7 / 5 := by
    have := (Real.lt_sqrt hx0.le).1 h1
    norm_num at this; linarith
  have hl0 := sq_nonneg ll
  have hq : 0 ≤ 1 - ll ^ 2 * (1 - x ^ 2) := by nlinarith
  have hy0 : 0 ≤ y := by rw [hy]; exact Real.sqrt_nonneg _
  have hy2 : y ^ 2 = 1 - ll ^ 2 * (1 - x ^ 2) := by rw [hy]; exact Real.sq_sqrt hq
  obtain ⟨l1, l2⟩ := abs_lt_of_sq_lt_sq' (a := ll) (b := 1) (by rw [one_pow]; exact hl) zero_le_one
  obtain ⟨c, hc⟩ : ∃ c, c = x * y + ll * (1 - x ^ 2) := ⟨_, rfl⟩
  have e : (1 - ll - x * (y - ll * x)) * 0.5 = (1 - c) / 2 := by rw [hc]; norm_num; ring
  have hid : 1 - c ^ 2 = (1 - x ^ 2) * (y - ll * x) ^ 2 := by
    rw [hc]; linear_combination (-1) * hy2
  rw [e, abs_lt]
  rcases le_or_gt x 1 with hx | hx
  · have hxx : x ^ 2 ≤ 1 := by nlinarith
    have hyx : x ≤ y := by
      refine abs_le_of_sq_le_sq' ?_ hy0 |>.2
      nlinarith
    have k1 : 1 / 5 < c := by
      rw [hc]
      nlinarith [mul_nonneg hx0.le (sub_nonneg.2 hyx), mul_nonneg (by linarith : 0 ≤ 1 + ll) (sub_nonneg.2 hxx)]
    have k2 : c ^ 2 ≤ 1 := by nlinarith [mul_nonneg (sub_nonneg.2 hxx) (sq_nonneg (y - ll * x))]
    constructor <;> nlinarith
  · have hxx : 1 < x ^ 2 := by nlinarith
    have hyx : y < x := by
      refine abs_lt_of_sq_lt_sq' ?_ hx0.le |>.2
      nlinarith
    have k1 : c < 9 / 5 := by
      rw [hc]
      nlinarith [mul_pos hx0 (sub_pos.2 hyx), mul_pos (by linarith : 0 < 1 + ll) (sub_pos.2 hxx)]
    have k2 : 1 ≤ c ^ 2 := by nlinarith [mul_nonneg (sub_nonneg.2 hxx.le) (sq_nonneg (y - ll * x))]
    have k3 : 0 < c := by
      by_contra hcon
      push Not at hcon
      rw [hc] at hcon
      have hy3 : 0 < y := by
        rcases hy0.eq_or_lt with h | h
        · rw [← h] at hy2; nlinarith
        · exact h
      have a1 : x * y ≤ ll * (x ^ 2 - 1) := by linarith
      have a2 : (x * y) ^ 2 ≤ (ll * (x ^ 2 - 1)) ^ 2 := pow_le_pow_left₀ (by positivity) a1 2
      rw [mul_pow, mul_pow, hy2] at a2
      nlinarith [mul_nonneg hl0 (sub_pos.2 hxx).le]
    constructor <;> nlinarith

/-! ## The logarithm of `gooding1990` -/

section Log
variable {F : Arith} {u : ℝ}

/-- `twoi1` as computed. -/
noncomputable def logC (F : Arith) : ℕ → ℝ
  | 0 => 1
  | n + 1 => F.rnd (logC F n + 2)

/-- `term` as computed. -/
noncomputable def logT (F : Arith) (t0 q : ℝ) : ℕ → ℝ
  | 0 => t0
  | n + 1 => F.rnd (logT F t0 q n * q)

/-- What is added, as computed. -/
noncomputable def logD (F : Arith) (t0 q : ℝ) (n : ℕ) : ℝ := F.rnd (logT F t0 q n / logC F n)

theorem logC_fac (h : StandardModel F u) (hu : u < 1) (n : ℕ) : ∃ a, Fac u n a ∧ logC F n = (2 * n + 1) * a := by
  induction n with
  | zero => exact ⟨1, by simp [Fac], by simp [logC]⟩
  | succ n ih =>
    obtain ⟨a, ha, e⟩ := ih
    obtain ⟨b, hb, e'⟩ := rnd_fac h hu (logC F n + 2)
    have p : 0 < 1 - u := sub_pos.2 hu
    have hp : 0 < (1 - u) ^ n := by positivity
    have hp1 : (1 - u) ^ n ≤ 1 := pow_le_one₀ p.le (by linarith [h.nonneg])
    have hn : (0 : ℝ) < 2 * n + 3 := by positivity
    have hc : Fac u n (((2 * n + 1) * a + 2) / (2 * n + 3)) := by
      constructor
      · rw [le_div_iff₀ hn]
        have := mul_le_mul_of_nonneg_left ha.1 (by positivity : (0 : ℝ) ≤ 2 * n + 1)
        linarith
      · rw [div_mul_eq_mul_div, div_le_one hn]
        have := mul_le_mul_of_nonneg_left ha.2 (by positivity : (0 : ℝ) ≤ 2 * n + 1)
        linarith
    refine ⟨_, hc.mul hu hb, ?_⟩
    rw [logC, e', e]
    push_cast
    field_simp
    ring

theorem logC_ge (h : StandardModel F u) (hu : u ≤ 1 / 10000) (n : ℕ) : 19 / 10 ≤ logC F (n + 1) := by
  obtain ⟨a, ha, e⟩ := logC_fac h (by linarith : u < 1) n
  obtain ⟨b, hb, e'⟩ := rnd_fac h (by linarith : u < 1) (logC F n + 2)
  have p : 0 < 1 - u := by linarith
  have h1 : 0 ≤ logC F n := by
    rw [e]
    have := ha.1
    have : 0 < (1 - u) ^ n := by positivity
    have : 0 < a := by linarith
    positivity
  have h2 : 1 - u ≤ b := by simpa using hb.1
  rw [logC, e']
  nlinarith

theorem logT_fac (h : StandardModel F u) (hu : u < 1) {t0 q w : ℝ} (ht : ∃ a, Fac u 3 a ∧ t0 = 2 * w * a)
    (hq : ∃ a, Fac u 5 a ∧ q = w ^ 2 * a) (n : ℕ) : ∃ a, Fac u (3 + 6 * n) a ∧ logT F t0 q n = 2 * w ^ (2 * n + 1) * a := by
  induction n with
  | zero => obtain ⟨a, ha, e⟩ := ht; exact ⟨a, ha, by rw [logT, e]; ring⟩
  | succ n ih =>
    obtain ⟨a, ha, e⟩ := ih
    obtain ⟨b, hb, e'⟩ := hq
    obtain ⟨c, hc, e''⟩ := rnd_fac h hu (logT F t0 q n * q)
    have hf := (ha.mul hu hb).mul hu hc
    refine ⟨_, by convert hf using 1; omega, ?_⟩
    rw [logT, e'', e, e']
    ring

theorem logD_fac (h : StandardModel F u) (hu : u < 1) {t0 q w : ℝ} (ht : ∃ a, Fac u 3 a ∧ t0 = 2 * w * a)
    (hq : ∃ a, Fac u 5 a ∧ q = w ^ 2 * a) (n : ℕ) :
    ∃ a, Fac u (4 + 7 * n) a ∧ logD F t0 q n = 2 * (1 / (2 * n + 1)) * w ^ (2 * n + 1) * a := by
  obtain ⟨a, ha, e⟩ := logT_fac h hu ht hq n
  obtain ⟨b, hb, e'⟩ := logC_fac h hu n
  obtain ⟨c, hc, e''⟩ := rnd_fac h hu (logT F t0 q n / logC F n)
  have hf := (ha.mul hu (hb.inv hu)).mul hu hc
  refine ⟨_, by convert hf using 1; omega, ?_⟩
  rw [logD, e'', e, e']
  have p : 0 < 1 - u := sub_pos.2 hu
  have hb0 : b ≠ 0 := ((by positivity : 0 < (1 - u) ^ n).trans_le hb.1).ne'
  have hn : (2 * (n : ℝ) + 1) ≠ 0 := by positivity
  field_simp

/-- What is missing from a sum whose terms fall at least like powers of `1/16`. -/
theorem geom_tail {E : ℕ → ℝ} {C : ℝ} (hEr : ∀ n, 16 * |E (n + 1)| ≤ |E n|) (hC : HasSum E C) (k : ℕ) :
    |psum E (E 0) k - C| ≤ 16 / 15 * |E (k + 1)| := by
  have hpE : ∀ m, ∑ i ∈ Finset.range (m + 1), E i = psum E (E 0) m := by
    intro m
    induction m with
    | zero => simp [psum]
    | succ m ih => rw [Finset.sum_range_succ, ih, psum]
  have htail : ∀ m, |psum E (E 0) k - psum E (E 0) (k + m)| ≤ 16 / 15 * (|E (k + 1)| - |E (k + m + 1)|) := by
    intro m
    induction m with
    | zero => simp
    | succ m ih =>
      rw [show k + (m + 1) = k + m + 1 by ring, psum,
        show psum E (E 0) k - (psum E (E 0) (k + m) + E (k + m + 1)) = (psum E (E 0) k - psum E (E 0) (k + m)) - E (k + m + 1) by ring]
      refine (abs_sub _ _).trans ?_
      have := hEr (k + m + 1)
      linarith
  have hlim : Filter.Tendsto (fun m => |psum E (E 0) k - psum E (E 0) (k + m)|) Filter.atTop (nhds |psum E (E 0) k - C|) := by
    have e1 := hC.tendsto_sum_nat.comp (Filter.tendsto_add_atTop_nat (k + 1))
    refine ((tendsto_const_nhds.sub e1).abs).congr fun m => ?_
    simp only [Function.comp]
    rw [show m + (k + 1) = (k + m) + 1 by ring, hpE]
  refine le_of_tendsto' hlim fun m => (htail m).trans ?_
  have := abs_nonneg (E (k + m + 1))
  linarith

end Log

/-- **C82** for the logarithm of `tlamb`: the loop stops in rounded arithmetic; with `w = f/(g+1)` it returns
`log ((1 + w)/(1 - w))`, which is `log (f + g)` when `g² = f² + 1`, up to some units of roundoff, relatively. -/
theorem logSeries_rounded {F : Arith} {u : ℝ} (h : StandardModel F u) (ha : Absorbs F u) (hu : u ≤ 1 / 10000) {N : ℕ}
    (hN : 200 * (N * u) ≤ 1) (hNu : 5 ≤ u * 15 ^ (N + 1)) {f g : ℝ} (hg : 0 ≤ g) (hw : |f / (g + 1)| ≤ 1 / 4) :
    ∃ r, logSeries F f g = .ok r ∧
      |r - (Real.log (1 + f / (g + 1)) - Real.log (1 - f / (g + 1)))| ≤ (11 / 10 * N + 6) * u * (2 * |f / (g + 1)|) := by
  have hu0 := h.nonneg
  have hu1 : u < 1 := by linarith
  have p : 0 < 1 - u := sub_pos.2 hu1
  have hg1 : g + 1 ≠ 0 := by positivity
  have hNu0 : 0 ≤ N * u := mul_nonneg (Nat.cast_nonneg N) hu0
  -- the numbers before the loop
  obtain ⟨a1, f1, e1⟩ := rnd_fac h hu1 (g + 1)
  obtain ⟨a2, f2, e2⟩ := rnd_fac h hu1 (f / F.rnd (g + 1))
  obtain ⟨fg1, hfg⟩ : ∃ y, y = F.rnd (f / F.rnd (g + 1)) := ⟨_, rfl⟩
  obtain ⟨a3, f3, e3⟩ := rnd_fac h hu1 (2 * fg1)
  obtain ⟨a4, f4, e4⟩ := rnd_fac h hu1 (fg1 * fg1)
  obtain ⟨w, hwd⟩ : ∃ w, w = f / (g + 1) := ⟨_, rfl⟩
  rw [← hwd] at hw ⊢
  have hb1 : a1 ≠ 0 := (p.trans_le (by simpa using f1.1)).ne'
  have hfgw : fg1 = w * (a1⁻¹ * a2) := by rw [hfg, e2, e1, hwd]; field_simp
  have hff := (f1.inv hu1).mul hu1 f2
  obtain ⟨t0, ht0⟩ : ∃ t0, t0 = F.rnd (2 * fg1) := ⟨_, rfl⟩
  obtain ⟨q, hq⟩ : ∃ q, q = F.rnd (fg1 * fg1) := ⟨_, rfl⟩
  have htf : ∃ a, Fac u 3 a ∧ t0 = 2 * w * a := ⟨_, hff.mul hu1 f3, by rw [ht0, e3, hfgw]; ring⟩
  have hqf : ∃ a, Fac u 5 a ∧ q = w ^ 2 * a := ⟨_, (hff.mul hu1 hff).mul hu1 f4, by rw [hq, e4, hfgw]; ring⟩
  have hw2 : w ^ 2 ≤ 1 / 16 := by rw [← sq_abs]; nlinarith [abs_nonneg w]
  have hq0 : |q| ≤ 199 / 3000 := by
    obtain ⟨a, hf, e⟩ := hqf
    have := hf.err hu0 (by norm_num; linarith)
    norm_num at this
    have ha' := abs_le.1 this
    rw [e, abs_mul, abs_of_nonneg (sq_nonneg w), abs_of_nonneg (by linarith)]
    nlinarith [sq_nonneg w]
  have hTr : ∀ n, 15 * |logT F t0 q (n + 1)| ≤ |logT F t0 q n| := by
    intro n
    have e := rnd_abs h (logT F t0 q n * q)
    rw [abs_mul] at e
    rw [logT]
    have h0 := abs_nonneg (logT F t0 q n)
    have h1 := mul_le_mul_of_nonneg_left hq0 h0
    have h2 : (1 + u) * (|logT F t0 q n| * |q|) ≤ (1 + 1 / 10000) * (|logT F t0 q n| * |q|) :=
      mul_le_mul_of_nonneg_right (by linarith) (by positivity)
    linarith
  have hDT : ∀ n, |logD F t0 q (n + 1)| ≤ 10 / 18 * |logT F t0 q (n + 1)| := by
    intro n
    have e := rnd_abs h (logT F t0 q (n + 1) / logC F (n + 1))
    have hc := logC_ge h hu n
    rw [abs_div, abs_of_pos (by linarith : 0 < logC F (n + 1))] at e
    have h1 : |logT F t0 q (n + 1)| / logC F (n + 1) ≤ |logT F t0 q (n + 1)| / (19 / 10) :=
      div_le_div_of_nonneg_left (abs_nonneg _) (by norm_num) hc
    have h2 : (1 + u) * (|logT F t0 q (n + 1)| / logC F (n + 1)) ≤ (1 + 1 / 10000) * (|logT F t0 q (n + 1)| / logC F (n + 1)) :=
      mul_le_mul_of_nonneg_right (by linarith) (div_nonneg (abs_nonneg _) (by linarith))
    have h3 := abs_nonneg (logT F t0 q (n + 1))
    rw [logD]
    linarith
  have hps : ∀ n, |psum (logD F t0 q) t0 n - t0| ≤ 1 / 25 * (|t0| - |logT F t0 q n|) := by
    intro n
    induction n with
    | zero => simp [psum, logT]
    | succ n ih =>
      rw [psum, show psum (logD F t0 q) t0 n + logD F t0 q (n + 1) - t0 = (psum (logD F t0 q) t0 n - t0) + logD F t0 q (n + 1) by ring]
      refine (abs_add_le _ _).trans ?_
      have := hDT n
      have := hTr n
      have := abs_nonneg (logT F t0 q (n + 1))
      linarith
  have hTg : ∀ n, 15 ^ n * |logT F t0 q n| ≤ |t0| := by
    intro n
    induction n with
    | zero => simp [logT]
    | succ n ih =>
      have := mul_le_mul_of_nonneg_left (hTr n) (by positivity : (0 : ℝ) ≤ 15 ^ n)
      rw [pow_succ]
      linarith
  have hdN : |logD F t0 q (N + 1)| ≤ u / 8 * (24 / 25 * |t0|) := by
    have a := hTg (N + 1)
    have b := hDT N
    have c := mul_le_mul_of_nonneg_right hNu (abs_nonneg (logT F t0 q (N + 1)))
    have d := mul_le_mul_of_nonneg_left a hu0
    rw [mul_assoc] at c
    have e := c.trans d
    have : 0 ≤ u * |t0| := by positivity
    linarith
  obtain ⟨k, hk, hstop, hgo, herr, hdk⟩ := acc_stop h ha (d := logD F t0 q) (r0 := t0) (B := 26 / 25 * |t0|) (L := 24 / 25 * |t0|) (N := N)
    (by rw [ht0]; exact ha.idem _)
    (fun n _ => by
      have e1 := hps n
      have e2 := abs_nonneg (logT F t0 q n)
      have e3 := abs_add_le (psum (logD F t0 q) t0 n - t0) t0
      rw [sub_add_cancel] at e3
      linarith)
    (fun n _ => by
      have e1 := hps n
      have e2 := abs_nonneg (logT F t0 q n)
      have e3 := abs_sub (psum (logD F t0 q) t0 n) (psum (logD F t0 q) t0 n - t0)
      rw [sub_sub_cancel] at e3
      linarith) hN (by nlinarith [abs_nonneg t0]) hdN
  have hpass : ∀ n : ℕ, logPass F q (logC F n) (logT F t0 q n) (acc F (logD F t0 q) t0 n) =
      .ok ⟨logC F (n + 1), logT F t0 q (n + 1), acc F (logD F t0 q) t0 n, acc F (logD F t0 q) t0 (n + 1)⟩ := by
    intro n
    have hc := logC_ge h hu n
    rw [logC] at hc
    simp only [logPass, div]
    rw [pdiv_eq (by linarith), ok_bind, ok_bind]
    rfl
  refine ⟨acc F (logD F t0 q) t0 (k + 1), ?_, ?_⟩
  · rw [logSeries, div, pdiv_eq (rnd_ne (h := h) hu1 hg1), ok_bind, ok_bind]
    simp only []
    rw [← hfg, ← ht0, ← hq]
    have e0 := hpass 0
    rw [show logC F 0 = 1 from rfl, show logT F t0 q 0 = t0 from rfl, show acc F (logD F t0 q) t0 0 = t0 from rfl] at e0
    rw [e0, ok_bind]
    have := whileLoop_states (cond := fun s : LogState => s.t ≠ s.told) (body := fun s => logPass F q s.twoi1 s.term s.t)
      (fun i => (⟨logC F (i + 1), logT F t0 q (i + 1), acc F (logD F t0 q) t0 i, acc F (logD F t0 q) t0 (i + 1)⟩ : LogState)) k
      (fun i hi => ⟨fun hn => hgo i hi hn, hpass (i + 1)⟩) (fun hn => hn hstop)
    rw [show (⟨logC F (0 + 1), logT F t0 q (0 + 1), t0, acc F (logD F t0 q) t0 (0 + 1)⟩ : LogState) =
      ⟨logC F (0 + 1), logT F t0 q (0 + 1), acc F (logD F t0 q) t0 0, acc F (logD F t0 q) t0 (0 + 1)⟩ from rfl, this, ok_bind]
  · have hacc : acc F (logD F t0 q) t0 (k + 1) = acc F (logD F t0 q) t0 k := hstop
    rw [hacc]
    obtain ⟨E, hE⟩ : ∃ E : ℕ → ℝ, E = fun n : ℕ => 2 * (1 / (2 * (n : ℝ) + 1)) * w ^ (2 * n + 1) := ⟨_, rfl⟩
    have hC : HasSum E (Real.log (1 + w) - Real.log (1 - w)) := by
      rw [hE]; exact Real.hasSum_log_sub_log_of_abs_lt_one (by linarith)
    generalize Real.log (1 + w) - Real.log (1 - w) = C at *
    have hE0 : E 0 = 2 * w := by rw [hE]; norm_num
    have hEr : ∀ n, 16 * |E (n + 1)| ≤ |E n| := by
      intro n
      have hn : (0 : ℝ) ≤ n := Nat.cast_nonneg n
      have e : E (n + 1) = E n * ((2 * n + 1) / (2 * n + 3) * w ^ 2) := by
        rw [hE]; simp only []; push_cast; field_simp; ring
      rw [e, abs_mul, abs_of_nonneg (by positivity : 0 ≤ (2 * (n : ℝ) + 1) / (2 * n + 3) * w ^ 2)]
      have h1 : (2 * (n : ℝ) + 1) / (2 * n + 3) ≤ 1 := by rw [div_le_one (by positivity)]; linarith
      have h2 : (2 * (n : ℝ) + 1) / (2 * n + 3) * w ^ 2 ≤ 1 * (1 / 16) := mul_le_mul h1 hw2 (sq_nonneg w) (by norm_num)
      have := mul_le_mul_of_nonneg_left h2 (abs_nonneg (E n))
      linarith
    have hDE : ∀ n : ℕ, (n : ℝ) ≤ N + 1 → |logD F t0 q n - E n| ≤ 10 / 9 * ((4 + 7 * n) * u) * |E n| := by
      intro n hn
      obtain ⟨a, hf, e⟩ := logD_fac h hu1 htf hqf n
      have hnu := mul_le_mul_of_nonneg_right hn hu0
      have := hf.err hu0 (by push_cast; linarith)
      push_cast at this
      rw [e, show 2 * (1 / (2 * (n : ℝ) + 1)) * w ^ (2 * n + 1) = E n by rw [hE], show E n * a - E n = (a - 1) * E n by ring, abs_mul]
      exact mul_le_mul_of_nonneg_right this (abs_nonneg _)
    have hlin : ∀ n : ℕ, (4 + 7 * ((n + 1 : ℕ) : ℝ)) ≤ 11 / 2 * 2 ^ (n + 1) := by
      intro n
      induction n with
      | zero => norm_num
      | succ n ih =>
        have : (1 : ℝ) ≤ 2 ^ (n + 1) := one_le_pow₀ (by norm_num)
        rw [pow_succ]
        push_cast at ih ⊢
        nlinarith
    have ht0E : |t0 - E 0| ≤ 10 / 3 * u * |E 0| := by
      obtain ⟨a, hf, e⟩ := htf
      have := hf.err hu0 (by norm_num; linarith)
      norm_num at this
      rw [e, hE0, show 2 * w * a - 2 * w = (a - 1) * (2 * w) by ring, abs_mul]
      refine mul_le_mul_of_nonneg_right (this.trans ?_) (abs_nonneg _)
      linarith
    have hsum : ∀ n, n ≤ N → |psum (logD F t0 q) t0 n - psum E (E 0) n| ≤
        10 / 3 * u * |E 0| + 55 / 63 * u * (|E 0| - 2 ^ n * |E n|) := by
      intro n
      induction n with
      | zero => intro _; simpa [psum] using ht0E
      | succ n ih =>
        intro hn
        have i1 := ih (by omega)
        have i2 := hDE (n + 1) (by exact_mod_cast (by omega : n + 1 ≤ N + 1))
        have i3 := mul_le_mul_of_nonneg_left (hEr n) (by positivity : (0 : ℝ) ≤ 2 ^ n)
        have i4 : 10 / 9 * ((4 + 7 * ((n + 1 : ℕ) : ℝ)) * u) * |E (n + 1)| ≤ 10 / 9 * (11 / 2 * 2 ^ (n + 1) * u) * |E (n + 1)| := by
          have := hlin n
          gcongr
        rw [psum, psum, add_sub_add_comm]
        refine (abs_add_le _ _).trans ?_
        have i5 : u * (2 ^ n * (16 * |E (n + 1)|)) ≤ u * (2 ^ n * |E n|) := mul_le_mul_of_nonneg_left i3 hu0
        rw [pow_succ] at i4 ⊢
        generalize (2 : ℝ) ^ n = P at *
        linarith
    have hbound := geom_tail hEr hC k
    have hEk : |E (k + 1)| ≤ 10 / 9 * |logD F t0 q (k + 1)| := by
      have hkn : ((k + 1 : ℕ) : ℝ) ≤ N + 1 := by exact_mod_cast (by omega : k + 1 ≤ N + 1)
      have i2 := hDE (k + 1) hkn
      have hnu := mul_le_mul_of_nonneg_right hkn hu0
      have i3 : 10 / 9 * ((4 + 7 * ((k + 1 : ℕ) : ℝ)) * u) ≤ 1 / 10 := by linarith
      have i4 := mul_le_mul_of_nonneg_right i3 (abs_nonneg (E (k + 1)))
      have i5 := abs_sub (logD F t0 q (k + 1)) (logD F t0 q (k + 1) - E (k + 1))
      rw [sub_sub_cancel] at i5
      linarith
    have ht0' : |t0| ≤ 1001 / 1000 * |E 0| := by
      have := abs_add_le (t0 - E 0) (E 0)
      rw [sub_add_cancel] at this
      have h2 := mul_le_mul_of_nonneg_right hu (abs_nonneg (E 0))
      have h3 := abs_nonneg (E 0)
      linarith
    have hs := hsum k hk
    have z1 := abs_sub_le (acc F (logD F t0 q) t0 k) (psum (logD F t0 q) t0 k) C
    have z2 := abs_sub_le (psum (logD F t0 q) t0 k) (psum E (E 0) k) C
    have z3 : 0 ≤ u * (2 ^ k * |E k|) := by positivity
    have z4 : (k : ℝ) * u ≤ N * u := mul_le_mul_of_nonneg_right (by exact_mod_cast hk) hu0
    have z5 : 101 / 100 * (k * u) * (26 / 25 * |t0|) ≤ 11 / 10 * (N * u * |E 0|) := by
      have := mul_le_mul z4 ht0' (abs_nonneg _) hNu0
      have : 0 ≤ N * u * |E 0| := by positivity
      linarith
    have z6 := mul_le_mul_of_nonneg_left ht0' hu0
    have z7 : 0 ≤ u * |E 0| := by positivity
    rw [show 2 * |w| = |E 0| by rw [hE0, abs_mul]; norm_num]
    generalize (2 : ℝ) ^ k = P at *
    linarith

end Rounded
end Lamberthub
