import Verif.Model.Der
import Verif.Proofs.IzzoDeriv
import Verif.Proofs.LagrangeTime
import Verif.Proofs.ThorneGeo

/-! # Lemmas about the Der solver -/

set_option autoImplicit false

namespace Lamberthub
open Spec LC

namespace Der

/-- Sign of the angle parameter. -/
noncomputable def sg (σ : ℝ) : ℝ := if σ < 0 then -1 else 1

theorem sg_sq (σ : ℝ) : sg σ * sg σ = 1 := by unfold sg; split <;> norm_num

theorem sg_cases (σ : ℝ) : sg σ = -1 ∨ sg σ = 1 := by unfold sg; split <;> simp

theorem sg_mul (σ : ℝ) : sg σ * |σ| = σ := by
  unfold sg; split
  · rename_i h; rw [abs_of_neg h]; ring
  · rename_i h; rw [abs_of_nonneg (not_lt.1 h)]; ring

theorem computeY_eq {σ x : ℝ} (hl : σ ^ 2 < 1) (h0 : σ ≠ 0) : computeY σ x = sg σ * lancY σ x := by
  have h := lanc_lancY hl x
  have hp : 0 < 1 - σ ^ 2 * (1 - x ^ 2) := by rw [← h.y_sq]; have := h.y_pos; positivity
  unfold computeY copysign sg
  simp only []
  rw [if_neg h0, max_eq_right (by norm_num; linarith)]
  have : 0 < lancY σ x := h.y_pos
  have e : Real.sqrt (1 - σ ^ 2 * (1 - x ^ 2)) = lancY σ x := rfl
  rw [e, abs_of_pos this]
  split <;> ring

theorem clamp1_eq {x : ℝ} (h1 : -1 ≤ x) (h2 : x ≤ 1) : clamp1 x = x := by
  unfold clamp1
  norm_num
  rw [max_eq_right h1, min_eq_right h2]

theorem acotX {x : ℝ} (h1 : -1 ≤ x) (h2 : x ≤ 1) : acotEllipticX x = .ok (Real.arccos x) := by
  unfold acotEllipticX
  rw [clamp1_eq h1 h2, pacos_eq h1 h2]

theorem acotY {σ y : ℝ} (h1 : 0 < y) (h2 : y ≤ 1) :
    acotEllipticY (sg σ * y) = .ok (sg σ * Real.arccos y) := by
  unfold acotEllipticY sg
  split
  · rw [if_neg (by linarith), show -(-1 * y) = y by ring, clamp1_eq (by linarith) h2, pacos_eq (by linarith) h2, ok_bind]
    congr 1; ring
  · rw [if_pos (by linarith), one_mul, one_mul, clamp1_eq (by linarith) h2, pacos_eq (by linarith) h2]

theorem acoth {σ y : ℝ} (h1 : 1 ≤ y) : acothSun (sg σ * y) = .ok (sg σ * Real.arcosh y) := by
  unfold acothSun sg
  split
  · rw [if_neg (by linarith), show -(-1 * y) = y by ring, pacosh_ok.2 ⟨h1, rfl⟩, ok_bind]
    congr 1; ring
  · rw [if_pos (by linarith), one_mul, one_mul, pacosh_ok.2 ⟨h1, rfl⟩]

theorem rpow_threehalf {w : ℝ} (hw : 0 < w) : (w ^ 2) ^ ((3 : ℝ) / 2) = w ^ 3 := by
  rw [← Real.rpow_natCast, ← Real.rpow_mul hw.le, ← Real.rpow_natCast]
  norm_num

/-- The code's elliptic time is Lancaster's. -/
theorem tofElliptic_eq {σ x : ℝ} (hl : σ ^ 2 < 1) (h0 : σ ≠ 0) (h1 : -1 < x) (h2 : x < 1) (M : ℕ) :
    tofElliptic x (computeY σ x) M = .ok (lancT σ x (lancY σ x) M) := by
  have h := lanc_lancY hl x
  rw [computeY_eq hl h0]
  obtain ⟨Y, hY⟩ : ∃ Y, Y = lancY σ x := ⟨_, rfl⟩
  rw [← hY] at h ⊢
  have hYp := h.y_pos
  have hx : 0 < 1 - x ^ 2 := by nlinarith
  obtain ⟨w, hw, hw2⟩ : ∃ w, 0 < w ∧ w ^ 2 = 1 - x ^ 2 :=
    ⟨Real.sqrt (1 - x ^ 2), by positivity, Real.sq_sqrt hx.le⟩
  have e : Real.sqrt (1 - x ^ 2) = w := by rw [← hw2, Real.sqrt_sq hw.le]
  have hY2 : 1 - Y ^ 2 = (|σ| * w) ^ 2 := by rw [h.y_sq, mul_pow, sq_abs, hw2]; ring
  have hY1 : Y ≤ 1 := by nlinarith [sq_nonneg (|σ| * w)]
  have hs1 : Real.sin (Real.arccos x) = w := by rw [Real.sin_arccos, e]
  have hs2 : Real.sin (Real.arccos Y) = |σ| * w := by
    rw [Real.sin_arccos, hY2, Real.sqrt_sq (by positivity)]
  have hc1 := Real.cos_arccos h1.le h2.le
  have hc2 := Real.cos_arccos (by linarith : -1 ≤ Y) hY1
  have hlt : |σ| < 1 := (sq_lt_one_iff_abs_lt_one _).1 hl
  have hsl : |σ| * w < w := by nlinarith
  have hb0 := Real.arccos_nonneg Y
  have hb1 : Real.arccos Y < Real.pi / 2 := Real.arccos_lt_pi_div_two.2 hYp
  have ha0 := Real.arccos_nonneg x
  have ha1 := Real.arccos_le_pi x
  have hle : Real.arccos Y ≤ Real.arccos x := by
    by_contra hn
    push Not at hn
    have := Real.sin_le_sin_of_le_of_le_pi_div_two (x := Real.arccos x) (y := Real.arccos Y) (by linarith)
      hb1.le hn.le
    rw [hs1, hs2] at this; linarith
  have hadd : Real.arccos Y + Real.arccos x ≤ Real.pi := by
    by_contra hn
    push Not at hn
    have := Real.sin_le_sin_of_le_of_le_pi_div_two (x := Real.pi - Real.arccos x) (y := Real.arccos Y) (by linarith)
      hb1.le (by linarith)
    rw [Real.sin_pi_sub, hs1, hs2] at this; linarith
  have hac : Real.arccos (x * Y + σ * (1 - x ^ 2)) = Real.arccos x - sg σ * Real.arccos Y := by
    have hcos : Real.cos (Real.arccos x - sg σ * Real.arccos Y) = x * Y + σ * (1 - x ^ 2) := by
      have hg := sg_mul σ
      rcases sg_cases σ with hs | hs <;> rw [hs] at hg ⊢
      · rw [show Real.arccos x - -1 * Real.arccos Y = Real.arccos x + Real.arccos Y by ring, Real.cos_add,
          hc1, hc2, hs1, hs2, ← hw2]
        linear_combination w ^ 2 * hg
      · rw [one_mul, Real.cos_sub, hc1, hc2, hs1, hs2, ← hw2]
        linear_combination w ^ 2 * hg
    rw [← hcos, Real.arccos_cos]
    · unfold sg; split <;> linarith
    · unfold sg; split <;> linarith
  unfold tofElliptic
  simp only []
  have hsy : 1 - (sg σ * Y) ^ 2 = (|σ| * w) ^ 2 := by
    rw [← hY2]; linear_combination (-Y ^ 2) * sg_sq σ
  rw [acotX h1.le h2.le, ok_bind, acotY hYp hY1, ok_bind, psqrt_eq hx.le, ok_bind, hsy,
    max_eq_right (by norm_num; positivity), psqrt_eq (by positivity), ok_bind, Real.sqrt_sq (by positivity), e,
    ← hw2, prpow_ok.2 ⟨.inl (by positivity), rfl⟩, ok_bind, rpow_threehalf hw, pdiv_eq (by positivity)]
  congr 1
  rw [lancT, if_pos h2, e, hac, ← hw2]
  push_cast
  field_simp
  linear_combination w * Y * sg_mul σ

/-- The code's hyperbolic time is Lancaster's. -/
theorem tofHyperbolic_eq {σ x : ℝ} (hl : σ ^ 2 < 1) (h0 : σ ≠ 0) (h2 : 1 < x) :
    tofHyperbolic x (computeY σ x) = .ok (lancT σ x (lancY σ x) 0) := by
  have h := lanc_lancY hl x
  rw [computeY_eq hl h0]
  obtain ⟨Y, hY⟩ : ∃ Y, Y = lancY σ x := ⟨_, rfl⟩
  rw [← hY] at h ⊢
  have hYp := h.y_pos
  have hx : 0 < x ^ 2 - 1 := by nlinarith
  obtain ⟨w, hw, hw2⟩ : ∃ w, 0 < w ∧ w ^ 2 = x ^ 2 - 1 :=
    ⟨Real.sqrt (x ^ 2 - 1), by positivity, Real.sq_sqrt hx.le⟩
  have e : Real.sqrt (x ^ 2 - 1) = w := by rw [← hw2, Real.sqrt_sq hw.le]
  have hY2 : Y ^ 2 - 1 = (|σ| * w) ^ 2 := by rw [h.y_sq, mul_pow, sq_abs, hw2]; ring
  have hY1 : 1 ≤ Y := by nlinarith [sq_nonneg (|σ| * w)]
  have hs1 : Real.sinh (Real.arcosh x) = w := by
    rw [Real.sinh_arcosh h2.le, e]
  have hs2 : Real.sinh (Real.arcosh Y) = |σ| * w := by
    rw [Real.sinh_arcosh hY1, hY2, Real.sqrt_sq (by positivity)]
  have hc1 := Real.cosh_arcosh h2.le
  have hc2 := Real.cosh_arcosh hY1
  have hac : Real.arsinh ((Y - x * σ) * w) = Real.arcosh x - sg σ * Real.arcosh Y := by
    have hsinh : Real.sinh (Real.arcosh x - sg σ * Real.arcosh Y) = (Y - x * σ) * w := by
      have hg := sg_mul σ
      rcases sg_cases σ with hs | hs <;> rw [hs] at hg ⊢
      · rw [show Real.arcosh x - -1 * Real.arcosh Y = Real.arcosh x + Real.arcosh Y by ring, Real.sinh_add,
          hc1, hc2, hs1, hs2]
        linear_combination (-x * w) * hg
      · rw [one_mul, Real.sinh_sub, hc1, hc2, hs1, hs2]
        linear_combination (-x * w) * hg
    rw [← hsinh, Real.arsinh_sinh]
  unfold tofHyperbolic
  simp only []
  have hsy : (sg σ * Y) ^ 2 - 1 = (|σ| * w) ^ 2 := by
    rw [← hY2]; linear_combination (Y ^ 2) * sg_sq σ
  have hax : acothSun x = .ok (Real.arcosh x) := by
    unfold acothSun; rw [if_pos (by linarith), pacosh_ok.2 ⟨h2.le, rfl⟩]
  rw [hax, ok_bind, acoth hY1, ok_bind, psqrt_eq hx.le, ok_bind, hsy,
    max_eq_right (by norm_num; positivity), psqrt_eq (by positivity), ok_bind, Real.sqrt_sq (by positivity), e,
    ← hw2, prpow_ok.2 ⟨.inl (by positivity), rfl⟩, ok_bind, rpow_threehalf hw, pdiv_eq (by positivity)]
  congr 1
  rw [lancT, if_neg (by linarith), if_neg h2.ne', e, hac, show 1 - x ^ 2 = - w ^ 2 by linarith]
  field_simp
  linear_combination (-w * Y) * sg_mul σ

theorem eps_pos : 0 < eps := by unfold eps; norm_num
theorem sqrtEps_pos : 0 < sqrtEps := by unfold sqrtEps; norm_num
theorem eps_lt : eps < 1 := by unfold eps; norm_num
theorem sqrtEps_lt : sqrtEps < 1 := by unfold sqrtEps; norm_num

section
variable {σ : ℝ} (hl : σ ^ 2 < 1) (h0 : σ ≠ 0)
include hl h0

/-- What the Laguerre iteration accepts (elliptic). -/
theorem ellipticLoop_ok {tau : ℝ} {M : ℕ} {x0 : ℝ} {maxiter : ℕ} {atol rtol : ℝ} {x y : ℝ} {n : ℕ} :
    ∀ {k m : ℕ} {z : ℝ}, -1 < z → z < 1 →
      ellipticLoop σ tau M x0 maxiter atol rtol k m z = .ok (x, y, n, false) →
      -1 < x ∧ x < 1 ∧ y = computeY σ x ∧ m < n ∧ n ≤ m + k ∧
        |lancT σ x (lancY σ x) M - tau| ≤ atol + rtol * |tau|
  | 0, m, z, _, _, h => by rw [ellipticLoop] at h; simp at h
  | k + 1, m, z, hz1, hz2, h => by
    rw [ellipticLoop] at h
    simp only [] at h
    rw [tofElliptic_eq hl h0 hz1 hz2, ok_bind] at h
    split at h
    · rename_i hc
      simp only [Except.ok.injEq, Prod.mk.injEq, and_true] at h
      obtain ⟨rfl, rfl, rfl⟩ := h
      exact ⟨hz1, hz2, rfl, by omega, by omega, hc⟩
    · simp only [bind_ok] at h
      obtain ⟨dt, -, d2t, -, h⟩ := h
      split at h
      · simp at h
      · rename_i hx
        push Not at hx
        obtain ⟨ha, hb⟩ := abs_lt.1 hx
        obtain ⟨i1, i2, i3, i4, i5, i6⟩ := ellipticLoop_ok ha hb h
        exact ⟨i1, i2, i3, by omega, by omega, i6⟩

/-- What the Laguerre iteration accepts (hyperbolic). -/
theorem hyperbolicLoop_ok {tau : ℝ} {maxiter : ℕ} {atol rtol : ℝ} {x y : ℝ} {n : ℕ} :
    ∀ {k m : ℕ} {z : ℝ}, 1 < z → hyperbolicLoop σ tau maxiter atol rtol k m z = .ok (x, y, n, false) →
      1 < x ∧ y = computeY σ x ∧ m < n ∧ n ≤ m + k ∧
        |lancT σ x (lancY σ x) 0 - tau| ≤ atol + rtol * |tau|
  | 0, m, z, _, h => by rw [hyperbolicLoop] at h; simp at h
  | k + 1, m, z, hz, h => by
    rw [hyperbolicLoop] at h
    simp only [] at h
    rw [tofHyperbolic_eq hl h0 hz, ok_bind] at h
    split at h
    · rename_i hc
      simp only [Except.ok.injEq, Prod.mk.injEq, and_true] at h
      obtain ⟨rfl, rfl, rfl⟩ := h
      exact ⟨hz, rfl, by omega, by omega, hc⟩
    · simp only [bind_ok] at h
      obtain ⟨⟨dt, d2t⟩, -, h⟩ := h
      simp only [] at h
      split at h
      · simp at h
      · obtain ⟨i1, i2, i3, i4, i5⟩ := hyperbolicLoop_ok (lt_max_of_lt_left (by have := eps_pos; norm_num; exact this)) h
        exact ⟨i1, i2, by omega, by omega, i5⟩

theorem lancT_cont_ell (M : ℕ) :
    ContinuousOn (fun x => lancT σ x (lancY σ x) M) (Set.Ioo (-1) 1) := fun _ hx =>
  (lancT_hasDerivAt_ell hl hx.1 hx.2 M).continuousAt.continuousWithinAt

theorem lancT_cont_hyp (M : ℕ) :
    ContinuousOn (fun x => lancT σ x (lancY σ x) M) (Set.Ioi 1) := fun _ hx =>
  (lancT_hasDerivAt_hyp hl hx M).continuousAt.continuousWithinAt

theorem ellipticEquation_eq {tau x : ℝ} {M : ℕ} (h1 : -1 < x) (h2 : x < 1) :
    ellipticEquation σ tau M x = .ok (lancT σ x (lancY σ x) M - tau) := by
  unfold ellipticEquation
  rw [tofElliptic_eq hl h0 h1 h2, ok_bind]

theorem hyperbolicEquation_eq {tau x : ℝ} (h1 : 1 < x) :
    hyperbolicEquation σ tau x = .ok (lancT σ x (lancY σ x) 0 - tau) := by
  unfold hyperbolicEquation
  rw [tofHyperbolic_eq hl h0 h1, ok_bind]

omit hl h0 in
theorem reraise_ok {α : Type} {r : Py α} {a : α} (h : reraise r = .ok a) : r = .ok a := by
  unfold reraise at h
  split at h
  · cases h
  · exact h

theorem expandUpper_ok {tau u : ℝ} (h : expandUpper σ tau = .ok u) :
    2 ≤ u ∧ lancT σ u (lancY σ u) 0 ≤ tau := by
  unfold expandUpper at h
  simp only [bind_ok] at h
  obtain ⟨f0, hf0, ⟨u', f'⟩, hw, hu⟩ := h
  obtain rfl := Except.ok.inj hu
  have := whileLoop_inv (fun s : ℝ × ℝ => 2 ≤ s.1 ∧ hyperbolicEquation σ tau s.1 = .ok s.2) hw
    ⟨by norm_num, hf0⟩ (by
      rintro ⟨a, fa⟩ ⟨b, fb⟩ ⟨h1, -⟩ - h
      simp only [bind_ok, Except.ok.injEq, Prod.mk.injEq] at h
      obtain ⟨f, hf, rfl, rfl⟩ := h
      exact ⟨by simp only at h1 ⊢; linarith, hf⟩)
  obtain ⟨⟨h1, h2⟩, h3⟩ := this
  simp only at h1 h2 h3
  rw [hyperbolicEquation_eq hl h0 (by linarith)] at h2
  have := Except.ok.inj h2
  exact ⟨h1, by linarith⟩

/-- What the path parameter search returns. -/
theorem findPathParameter_ok {brentq : Brent} (hb : BrentSpec brentq) {tau tauP : ℝ} {M : ℕ} {low : Bool}
    {maxiter : ℕ} {atol rtol x y : ℝ} {n : ℕ}
    (h : findPathParameter brentq σ tau tauP M low maxiter atol rtol = .ok (x, y, n)) :
    (M = 0 ∧ |tau - tauP| ≤ atol + rtol * |tauP| ∧ x = 1 ∧ y = σ ∧ n = 1) ∨
    (¬ (M = 0 ∧ |tau - tauP| ≤ atol + rtol * |tauP|) ∧ -1 < x ∧ (M = 0 ∨ x < 1) ∧ y = computeY σ x ∧ n ≤ maxiter ∧
      ((1 ≤ n ∧ |lancT σ x (lancY σ x) M - tau| ≤ atol + rtol * |tau|) ∨
        ∃ x0, -1 < x0 ∧ (M = 0 ∨ x0 < 1) ∧ lancT σ x0 (lancY σ x0) M = tau ∧ |x - x0| ≤ atol + rtol * |x0|)) := by
  have he := eps_pos
  have he1 := eps_lt
  unfold findPathParameter at h
  split at h
  · rename_i hc
    simp only [Except.ok.injEq, Prod.mk.injEq] at h
    obtain ⟨rfl, rfl, rfl⟩ := h
    exact .inl ⟨by exact_mod_cast hc.1, hc.2, by norm_num, rfl, rfl⟩
  right
  rename_i hc
  have hc' : ¬ (M = 0 ∧ |tau - tauP| ≤ atol + rtol * |tauP|) := by
    intro h; exact hc ⟨by exact_mod_cast h.1, h.2⟩
  refine ⟨hc', ?_⟩
  rw [bind_ok] at h
  obtain ⟨x0, hx0, h⟩ := h
  have hx0v : x0 = 0.5 ∨ x0 = -0.5 := by
    unfold startX at hx0
    split at hx0
    · split at hx0
      · simp only [bind_ok, Except.ok.injEq] at hx0
        obtain ⟨_, -, rfl⟩ := hx0
        split <;> simp
      · left; exact (Except.ok.inj hx0).symm
    · simp only [bind_ok, Except.ok.injEq] at hx0
      obtain ⟨_, -, rfl⟩ := hx0
      split <;> simp
  split at h
  · unfold solveElliptic at h
    rw [bind_ok] at h
    obtain ⟨⟨x', y', n', b⟩, hj, h⟩ := h
    simp only [] at h
    cases b with
    | false =>
      simp only [Bool.false_eq_true, if_false, Except.ok.injEq, Prod.mk.injEq] at h
      obtain ⟨rfl, rfl, rfl⟩ := h
      obtain ⟨i1, i2, i3, i4, i5, i6⟩ := ellipticLoop_ok hl h0 (by rcases hx0v with h | h <;> rw [h] <;> norm_num)
        (by rcases hx0v with h | h <;> rw [h] <;> norm_num) hj
      exact ⟨i1, .inr i2, i3, by omega, .inl ⟨by omega, i6⟩⟩
    | true =>
      simp only [if_true] at h
      unfold solveEllipticBracketed at h
      simp only [] at h
      rw [bind_ok] at h
      obtain ⟨⟨x', n'⟩, hbr, h⟩ := h
      simp only [Except.ok.injEq, Prod.mk.injEq] at h
      obtain ⟨rfl, rfl, rfl⟩ := h
      have hbr := reraise_ok hbr
      obtain ⟨lo, hi, hlo, hhi, hle, hbr⟩ : ∃ lo hi : ℝ, -1 < lo ∧ hi < 1 ∧ lo ≤ hi ∧
          brentq (ellipticEquation σ tau M) lo hi atol rtol maxiter = .ok (x', n') := by
        refine ⟨_, _, ?_, ?_, ?_, hbr⟩
        · split
          · linarith
          · norm_num
        · split
          · norm_num
          · linarith
        · split
          · norm_num; linarith
          · norm_num; linarith
      have hm := (hb.mem hle hbr).1
      have hsub : Set.Icc lo hi ⊆ Set.Ioo (-1) 1 := fun t ht =>
        ⟨lt_of_lt_of_le hlo ht.1, lt_of_le_of_lt ht.2 hhi⟩
      obtain ⟨z, hz, hz0, hzd⟩ := hb.root (g := fun t => lancT σ t (lancY σ t) M - tau) hle
        (((lancT_cont_ell hl h0 M).mono hsub).sub continuousOn_const)
        (fun t ht => ellipticEquation_eq hl h0 (hsub ht).1 (hsub ht).2) hbr
      exact ⟨(hsub hm).1, .inr (hsub hm).2, rfl, le_rfl, .inr ⟨z, (hsub hz).1, .inr (hsub hz).2, by linarith, hzd⟩⟩
  · rename_i hnot
    have hM : M = 0 := by
      by_contra hM
      exact hnot (.inl (by exact_mod_cast Nat.pos_of_ne_zero hM))
    subst hM
    unfold solveHyperbolic at h
    rw [bind_ok] at h
    obtain ⟨⟨x', y', n', b⟩, hj, h⟩ := h
    simp only [] at h
    cases b with
    | false =>
      simp only [Bool.false_eq_true, if_false, Except.ok.injEq, Prod.mk.injEq] at h
      obtain ⟨rfl, rfl, rfl⟩ := h
      obtain ⟨i1, i3, i4, i5, i6⟩ := hyperbolicLoop_ok hl h0 (lt_max_of_lt_left (by norm_num)) hj
      exact ⟨by linarith, .inl rfl, i3, by omega, .inl ⟨by omega, i6⟩⟩
    | true =>
      simp only [if_true] at h
      unfold solveHyperbolicBracketed at h
      simp only [] at h
      rw [bind_ok] at h
      obtain ⟨u, hu, h⟩ := h
      rw [bind_ok] at h
      obtain ⟨⟨x', n'⟩, hbr, h⟩ := h
      simp only [Except.ok.injEq, Prod.mk.injEq] at h
      obtain ⟨rfl, rfl, rfl⟩ := h
      have hbr := reraise_ok hbr
      obtain ⟨hu2, -⟩ := expandUpper_ok hl h0 hu
      have hs1 := sqrtEps_pos
      have hs2 := sqrtEps_lt
      have hle : (1.0 : ℝ) + sqrtEps ≤ u := by norm_num; linarith
      have hm := (hb.mem hle hbr).1
      have hsub : Set.Icc ((1.0 : ℝ) + sqrtEps) u ⊆ Set.Ioi 1 := fun t ht =>
        lt_of_lt_of_le (by norm_num; exact hs1) ht.1
      obtain ⟨z, hz, hz0, hzd⟩ := hb.root (g := fun t => lancT σ t (lancY σ t) 0 - tau) hle
        (((lancT_cont_hyp hl h0 0).mono hsub).sub continuousOn_const)
        (fun t ht => hyperbolicEquation_eq hl h0 (hsub ht)) hbr
      have g1 : 1 < x' := hsub hm
      have g2 : 1 < z := hsub hz
      exact ⟨by linarith, .inl rfl, rfl, le_rfl, .inr ⟨z, by linarith, .inl rfl, by linarith, hzd⟩⟩

end

/-- The reconstruction, for any `x` and `y`. -/
theorem reconstruct_eq {mu s σ : ℝ} {r1 r2 : V3} (hmu : 0 < mu) (h0 : σ ≠ 0)
    (hG : Geo r1 r2 (Real.sqrt 2 * s * σ))
    (hS : Semi (V3.norm r1) (V3.norm r2) (V3.norm (r2 - r1)) s σ) (x y : ℝ) :
    reconstructVelocities mu r1 r2 (V3.norm r1) (V3.norm r2) (V3.norm (r2 - r1))
      (V3.norm r1 + V3.norm r2 + V3.norm (r2 - r1)) (V3.norm r1 + V3.norm r2 - V3.norm (r2 - r1)) x y =
    .ok ((Real.sqrt (mu / (2 * s)) * (y / |σ| + x)) • ((V3.norm (r2 - r1))⁻¹ • (r2 - r1)) +
          (Real.sqrt (mu / (2 * s)) * (y / |σ| - x)) • ((V3.norm r1)⁻¹ • r1),
        (Real.sqrt (mu / (2 * s)) * (y / |σ| + x)) • ((V3.norm (r2 - r1))⁻¹ • (r2 - r1)) -
          (Real.sqrt (mu / (2 * s)) * (y / |σ| - x)) • ((V3.norm r2)⁻¹ • r2)) := by
  have hs := hS.spos
  have hm : V3.norm r1 + V3.norm r2 + V3.norm (r2 - r1) = 2 * s := by rw [hS.hs]; ring
  have hn : V3.norm r1 + V3.norm r2 - V3.norm (r2 - r1) = 2 * s * |σ| ^ 2 := by
    rw [hS.sum, sq_abs]; linear_combination -hS.chord
  have hσ : 0 < |σ| := abs_pos.2 h0
  have hsm : 0 < Real.sqrt (2 * s) := by positivity
  unfold reconstructVelocities
  rw [hm, hn, psqrt_eq hmu.le, ok_bind, psqrt_eq (by positivity), ok_bind, Real.sqrt_mul (by positivity),
    Real.sqrt_sq hσ.le, pdiv_eq (by positivity), ok_bind, psqrt_eq (by positivity), ok_bind,
    pdiv_eq hsm.ne', ok_bind]
  simp only []
  rw [vdiv_eq hS.cpos.ne', ok_bind, vdiv_eq hG.R1.ne', ok_bind, vdiv_eq hG.R2.ne', ok_bind,
    Real.sqrt_div hmu.le, show Real.sqrt mu * (y / (Real.sqrt (2 * s) * |σ|) + x / Real.sqrt (2 * s)) =
      Real.sqrt mu / Real.sqrt (2 * s) * (y / |σ| + x) by field_simp,
    show Real.sqrt mu * (y / (Real.sqrt (2 * s) * |σ|) - x / Real.sqrt (2 * s)) =
      Real.sqrt mu / Real.sqrt (2 * s) * (y / |σ| - x) by field_simp]

/-- With the right `y` the reconstruction is the Lagrange form. -/
theorem reconstruct_lanc {mu s σ x Y : ℝ} {r1 r2 : V3} (hmu : 0 < mu) (h0 : σ ≠ 0)
    (hG : Geo r1 r2 (Real.sqrt 2 * s * σ))
    (hS : Semi (V3.norm r1) (V3.norm r2) (V3.norm (r2 - r1)) s σ) (hL : Lanc σ x Y) :
    reconstructVelocities mu r1 r2 (V3.norm r1) (V3.norm r2) (V3.norm (r2 - r1))
      (V3.norm r1 + V3.norm r2 + V3.norm (r2 - r1)) (V3.norm r1 + V3.norm r2 - V3.norm (r2 - r1)) x (sg σ * Y) =
    .ok (fgV1 mu r1 r2 (Real.sqrt 2 * s * σ) (s * (Y - σ * x) ^ 2),
      fgV2 mu r1 r2 (Real.sqrt 2 * s * σ) (s * (Y - σ * x) ^ 2)) := by
  have hs := hS.spos
  have hη := hL.eta_pos
  rw [reconstruct_eq hmu h0 hG hS]
  have e1 : sg σ * Y / |σ| = Y / σ := by
    have hσ : 0 < |σ| := abs_pos.2 h0
    have h1 := sg_mul σ
    have h2 := sg_sq σ
    rw [div_eq_div_iff hσ.ne' h0]
    linear_combination (-Y * sg σ) * h1 + (Y * |σ|) * h2
  obtain ⟨q, hq, hq2⟩ : ∃ q, 0 < q ∧ q ^ 2 = mu / (2 * s) :=
    ⟨Real.sqrt (mu / (2 * s)), by positivity, Real.sq_sqrt (by positivity)⟩
  have hqe : Real.sqrt (mu / (2 * s)) = q := by rw [← hq2, Real.sqrt_sq hq.le]
  have hg : (Real.sqrt 2 * s * σ * Real.sqrt (s * (Y - σ * x) ^ 2 / mu)) = s * σ * (Y - σ * x) / q := by
    have : Real.sqrt 2 * Real.sqrt (s * (Y - σ * x) ^ 2 / mu) = (Y - σ * x) / q := by
      rw [← Real.sqrt_mul (by norm_num), ← Real.sqrt_sq (by positivity : 0 ≤ (Y - σ * x) / q)]
      congr 1
      rw [div_pow, hq2]; field_simp
    calc _ = s * σ * (Real.sqrt 2 * Real.sqrt (s * (Y - σ * x) ^ 2 / mu)) := by ring
      _ = _ := by rw [this]; ring
  have hvc : q * (Y / σ + x) * (V3.norm (r2 - r1))⁻¹ = (s * σ * (Y - σ * x) / q)⁻¹ := by
    have h3 : s * (1 - σ ^ 2) ≠ 0 := by rw [← hS.chord]; exact hS.cpos.ne'
    rw [hS.chord, ← div_eq_mul_inv, inv_div, div_eq_div_iff h3 (by positivity)]
    field_simp
    linear_combination hL.prod
  have hvr : q * (Y / σ - x) = s * (Y - σ * x) ^ 2 * (s * σ * (Y - σ * x) / q)⁻¹ := by
    rw [inv_div]
    field_simp
  unfold fgV1 fgV2
  rw [hqe, e1, hg]
  rw [hvr]
  have hR1 := hG.R1.ne'
  have hR2 := hG.R2.ne'
  have key1 : ∀ a b : ℝ, q * (Y / σ + x) * ((V3.norm (r2 - r1))⁻¹ * (b - a)) +
      s * (Y - σ * x) ^ 2 * (s * σ * (Y - σ * x) / q)⁻¹ * ((V3.norm r1)⁻¹ * a) =
      (s * σ * (Y - σ * x) / q)⁻¹ * (b - (1 - s * (Y - σ * x) ^ 2 / V3.norm r1) * a) := by
    intro a b
    rw [← mul_assoc, hvc]; ring
  have key2 : ∀ a b : ℝ, q * (Y / σ + x) * ((V3.norm (r2 - r1))⁻¹ * (b - a)) -
      s * (Y - σ * x) ^ 2 * (s * σ * (Y - σ * x) / q)⁻¹ * ((V3.norm r2)⁻¹ * b) =
      (s * σ * (Y - σ * x) / q)⁻¹ * ((1 - s * (Y - σ * x) ^ 2 / V3.norm r2) * b - a) := by
    intro a b
    rw [← mul_assoc, hvc]; ring
  congr 1
  refine Prod.ext (V3.ext ?_ ?_ ?_) (V3.ext ?_ ?_ ?_)
  · exact key1 _ _
  · exact key1 _ _
  · exact key1 _ _
  · exact key2 _ _
  · exact key2 _ _
  · exact key2 _ _

end Der
end Lamberthub
