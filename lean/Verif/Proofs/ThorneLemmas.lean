import Verif.Model.Thorne
import Verif.Proofs.LagrangeTime
import Mathlib.Topology.Algebra.Order.Field

set_option autoImplicit false

namespace Lamberthub
open Spec LC

theorem pasin_eq {a : ℝ} (h1 : -1 ≤ a) (h2 : a ≤ 1) : pasin a = Except.ok (Real.arcsin a) :=
  pasin_ok.2 ⟨⟨h1, h2⟩, rfl⟩

namespace Thorne

theorem eps_pos : 0 < eps := by unfold eps; positivity

/-- Semi-major axes on a branch. -/
def Dom (s : ℝ) : Branch → Set ℝ
  | .P => ∅
  | .H => Set.Iio 0
  | _ => Set.Ioi (s / 2)

/-- Lancaster variable on a branch. -/
noncomputable def xOf (s a : ℝ) : Branch → ℝ
  | .P => 1
  | .B => -Real.sqrt (1 - s / (2 * a))
  | _ => Real.sqrt (1 - s / (2 * a))

/-- The explicit real function of the semi-major axis. -/
noncomputable def lagF (mu s c mp : ℝ) : Branch → ℝ → ℝ
  | .P, _ => 0
  | .H, a => Real.sqrt ((-a) ^ 3 / mu) * (Real.sinh (2 * Real.arsinh (Real.sqrt (-s / (2 * a)))) -
      2 * Real.arsinh (Real.sqrt (-s / (2 * a))) +
      mp * (Real.sinh (2 * Real.arsinh (Real.sqrt ((c - s) / (2 * a)))) -
        2 * Real.arsinh (Real.sqrt ((c - s) / (2 * a)))))
  | .A, a => Real.sqrt (a ^ 3 / mu) * (2 * Real.arcsin (Real.sqrt (s / (2 * a))) -
      Real.sin (2 * Real.arcsin (Real.sqrt (s / (2 * a)))) +
      mp * (2 * Real.arcsin (Real.sqrt ((s - c) / (2 * a))) -
        Real.sin (2 * Real.arcsin (Real.sqrt ((s - c) / (2 * a))))))
  | .B, a => Real.sqrt (a ^ 3 / mu) * (2 * Real.pi - (2 * Real.arcsin (Real.sqrt (s / (2 * a))) -
      Real.sin (2 * Real.arcsin (Real.sqrt (s / (2 * a))))) +
      mp * (2 * Real.arcsin (Real.sqrt ((s - c) / (2 * a))) -
        Real.sin (2 * Real.arcsin (Real.sqrt ((s - c) / (2 * a))))))

variable {mu s c a ll mp : ℝ}

theorem dom_ne (hs : 0 < s) {br : Branch} (ha : a ∈ Dom s br) : a ≠ 0 := by
  cases br with
  | P => exact absurd ha (Set.notMem_empty _)
  | H => exact ne_of_lt ha
  | A => have : s / 2 < a := ha; linarith
  | B => have : s / 2 < a := ha; linarith

theorem lagF_continuousOn (hs : 0 < s) (br : Branch) : ContinuousOn (lagF mu s c mp br) (Dom s br) := by
  have hne : ∀ x ∈ Dom s br, 2 * x ≠ 0 := fun x hx => mul_ne_zero two_ne_zero (dom_ne hs hx)
  cases br with
  | P => exact continuousOn_empty _
  | H =>
    have h1 : ContinuousOn (fun a : ℝ => -s / (2 * a)) (Dom s .H) :=
      continuousOn_const.div (by fun_prop) hne
    have h2 : ContinuousOn (fun a : ℝ => (c - s) / (2 * a)) (Dom s .H) :=
      continuousOn_const.div (by fun_prop) hne
    have h3 : ContinuousOn (fun a => 2 * Real.arsinh (Real.sqrt (-s / (2 * a)))) (Dom s .H) :=
      continuousOn_const.mul (Real.continuous_arsinh.comp_continuousOn h1.sqrt)
    have h4 : ContinuousOn (fun a => 2 * Real.arsinh (Real.sqrt ((c - s) / (2 * a)))) (Dom s .H) :=
      continuousOn_const.mul (Real.continuous_arsinh.comp_continuousOn h2.sqrt)
    have h5 : ContinuousOn (fun a : ℝ => Real.sqrt ((-a) ^ 3 / mu)) (Dom s .H) := by fun_prop
    exact h5.mul (((Real.continuous_sinh.comp_continuousOn h3).sub h3).add
      (continuousOn_const.mul ((Real.continuous_sinh.comp_continuousOn h4).sub h4)))
  | A =>
    have h1 : ContinuousOn (fun a : ℝ => s / (2 * a)) (Dom s .A) :=
      continuousOn_const.div (by fun_prop) hne
    have h2 : ContinuousOn (fun a : ℝ => (s - c) / (2 * a)) (Dom s .A) :=
      continuousOn_const.div (by fun_prop) hne
    have h3 : ContinuousOn (fun a => 2 * Real.arcsin (Real.sqrt (s / (2 * a)))) (Dom s .A) :=
      continuousOn_const.mul (Real.continuous_arcsin.comp_continuousOn h1.sqrt)
    have h4 : ContinuousOn (fun a => 2 * Real.arcsin (Real.sqrt ((s - c) / (2 * a)))) (Dom s .A) :=
      continuousOn_const.mul (Real.continuous_arcsin.comp_continuousOn h2.sqrt)
    have h5 : ContinuousOn (fun a : ℝ => Real.sqrt (a ^ 3 / mu)) (Dom s .A) := by fun_prop
    exact h5.mul ((h3.sub (Real.continuous_sin.comp_continuousOn h3)).add
      (continuousOn_const.mul (h4.sub (Real.continuous_sin.comp_continuousOn h4))))
  | B =>
    have h1 : ContinuousOn (fun a : ℝ => s / (2 * a)) (Dom s .B) :=
      continuousOn_const.div (by fun_prop) hne
    have h2 : ContinuousOn (fun a : ℝ => (s - c) / (2 * a)) (Dom s .B) :=
      continuousOn_const.div (by fun_prop) hne
    have h3 : ContinuousOn (fun a => 2 * Real.arcsin (Real.sqrt (s / (2 * a)))) (Dom s .B) :=
      continuousOn_const.mul (Real.continuous_arcsin.comp_continuousOn h1.sqrt)
    have h4 : ContinuousOn (fun a => 2 * Real.arcsin (Real.sqrt ((s - c) / (2 * a)))) (Dom s .B) :=
      continuousOn_const.mul (Real.continuous_arcsin.comp_continuousOn h2.sqrt)
    have h5 : ContinuousOn (fun a : ℝ => Real.sqrt (a ^ 3 / mu)) (Dom s .B) := by fun_prop
    exact h5.mul ((continuousOn_const.sub (h3.sub (Real.continuous_sin.comp_continuousOn h3))).add
      (continuousOn_const.mul (h4.sub (Real.continuous_sin.comp_continuousOn h4))))

/-- `lagrange_tof` evaluates to the explicit function. -/
theorem lagrangeTof_eq (hmu : 0 < mu) (hs : 0 < s) (hc0 : 0 ≤ c) (hc : c ≤ s) {br : Branch}
    (ha : a ∈ Dom s br) : lagrangeTof mu s c a mp br = .ok (lagF mu s c mp br a) := by
  have hne : 2 * a ≠ 0 := mul_ne_zero two_ne_zero (dom_ne hs ha)
  have key : s / 2 < a → 0 ≤ s / (2 * a) ∧ 0 ≤ (s - c) / (2 * a) ∧ 0 ≤ a ^ 3 / mu ∧
      Real.sqrt (s / (2 * a)) ≤ 1 ∧ Real.sqrt ((s - c) / (2 * a)) ≤ 1 := by
    intro h
    have h0 : 0 < a := by linarith
    have h1 : 0 ≤ s - c := by linarith
    refine ⟨by positivity, by positivity, by positivity, ?_, ?_⟩ <;>
    · rw [Real.sqrt_le_left zero_le_one, one_pow, div_le_one (by positivity)]; linarith
  cases br with
  | P => exact absurd ha (Set.notMem_empty _)
  | H =>
    have h : a < 0 := ha
    unfold lagrangeTof lagrangeTofH
    rw [pdiv_eq hne, ok_bind, psqrt_eq (div_nonneg_of_nonpos (by linarith) (by linarith)), ok_bind,
      pdiv_eq hne, ok_bind, psqrt_eq (div_nonneg_of_nonpos (by linarith) (by linarith)), ok_bind,
      pdiv_eq hmu.ne', ok_bind,
      psqrt_eq (div_nonneg (pow_nonneg (by linarith) 3) hmu.le), ok_bind]
    rfl
  | A =>
    obtain ⟨h1, h2, h3, h4, h5⟩ := key ha
    have p1 := Real.sqrt_nonneg (s / (2 * a))
    have p2 := Real.sqrt_nonneg ((s - c) / (2 * a))
    simp only [lagrangeTof]
    rw [pdiv_eq hne, ok_bind, psqrt_eq h1, ok_bind, pasin_eq (by linarith) h4, ok_bind,
      pdiv_eq hne, ok_bind, psqrt_eq h2, ok_bind, pasin_eq (by linarith) h5, ok_bind,
      pdiv_eq hmu.ne', ok_bind, psqrt_eq h3, ok_bind]
    rfl
  | B =>
    obtain ⟨h1, h2, h3, h4, h5⟩ := key ha
    have p1 := Real.sqrt_nonneg (s / (2 * a))
    have p2 := Real.sqrt_nonneg ((s - c) / (2 * a))
    simp only [lagrangeTof]
    rw [pdiv_eq hne, ok_bind, psqrt_eq h1, ok_bind, pasin_eq (by linarith) h4, ok_bind,
      pdiv_eq hne, ok_bind, psqrt_eq h2, ok_bind, pasin_eq (by linarith) h5, ok_bind,
      pdiv_eq hmu.ne', ok_bind, psqrt_eq h3, ok_bind]
    rfl

theorem lancy_of {lam x : ℝ} (hl : lam ^ 2 < 1) : Lanc lam x (Real.sqrt (1 - lam ^ 2 * (1 - x ^ 2))) :=
  lanc_of_sqrt hl rfl

/-- The explicit function is the time of the transfer of Lancaster parameter `xOf`, for the
transfer direction `mp = -sign ll`. -/
theorem lagF_eq (hmu : 0 < mu) (hs : 0 < s) (hl : ll ^ 2 < 1) (hc : c = s * (1 - ll ^ 2))
    (hmp : mp = if 0 < ll then -1 else 1) {br : Branch} (ha : a ∈ Dom s br) {y : ℝ}
    (hL : Lanc ll (xOf s a br) y) :
    lagF mu s c mp br a = Real.sqrt (s ^ 3 / (2 * mu)) * lancT ll (xOf s a br) y 0 := by
  have hne : a ≠ 0 := dom_ne hs ha
  have hmpF : ∀ {F : ℝ → ℝ} {w : ℝ}, (∀ t, F (-t) = -F t) → mp * F (|ll| * w) = -F (ll * w) := by
    intro F w hF
    rw [hmp]
    split
    · rename_i h; rw [abs_of_pos h]; ring
    · rename_i h; rw [abs_of_nonpos (not_lt.1 h), neg_mul, hF]; ring
  have key : ∀ {w : ℝ}, 0 < w → w ^ 2 = s / (2 * a) →
      Real.sqrt (s / (2 * a)) = w ∧ Real.sqrt ((s - c) / (2 * a)) = |ll| * w ∧
      Real.sqrt (a ^ 3 / mu) = Real.sqrt (s ^ 3 / (2 * mu)) / (2 * w ^ 3) := by
    intro w hw hw2
    refine ⟨by rw [← hw2, Real.sqrt_sq hw.le], ?_, ?_⟩
    · rw [show (s - c) / (2 * a) = (|ll| * w) ^ 2 by rw [mul_pow, sq_abs, hw2, hc]; ring,
        Real.sqrt_sq (by positivity)]
    · rw [← sqrt_cube_div hmu hs hw]
      congr 3
      rw [hw2]; field_simp
  have hFs : ∀ t, (fun t => 2 * Real.arcsin t - Real.sin (2 * Real.arcsin t)) (-t) =
      -(fun t => 2 * Real.arcsin t - Real.sin (2 * Real.arcsin t)) t := by
    intro t
    simp only [Real.arcsin_neg, mul_neg, Real.sin_neg]; ring
  have hFh : ∀ t, (fun t => Real.sinh (2 * Real.arsinh t) - 2 * Real.arsinh t) (-t) =
      -(fun t => Real.sinh (2 * Real.arsinh t) - 2 * Real.arsinh t) t := by
    intro t
    simp only [Real.arsinh_neg, mul_neg, Real.sinh_neg]; ring
  have kell : s / 2 < a → ∃ w, 0 < w ∧ w ^ 2 = s / (2 * a) ∧ w ^ 2 < 1 ∧
      (Real.sqrt (1 - s / (2 * a))) ^ 2 = 1 - w ^ 2 ∧ 0 < Real.sqrt (1 - s / (2 * a)) ∧
      Real.sqrt (1 - s / (2 * a)) < 1 := by
    intro h
    have h0 : 0 < a := by linarith
    have h1 : s / (2 * a) < 1 := by rw [div_lt_one (by positivity)]; linarith
    have h2 : 0 < s / (2 * a) := by positivity
    refine ⟨Real.sqrt (s / (2 * a)), by positivity, Real.sq_sqrt h2.le, ?_, ?_, Real.sqrt_pos.2 (by linarith), ?_⟩
    · rw [Real.sq_sqrt h2.le]; exact h1
    · rw [Real.sq_sqrt (by linarith), Real.sq_sqrt h2.le]
    · rw [Real.sqrt_lt' one_pos]; linarith
  cases br with
  | P => exact absurd ha (Set.notMem_empty _)
  | H =>
    have h : a < 0 := ha
    have h2 : 0 < -s / (2 * a) := div_pos_of_neg_of_neg (by linarith) (by linarith)
    obtain ⟨w, hw, hw2⟩ : ∃ w, 0 < w ∧ w ^ 2 = -s / (2 * a) :=
      ⟨Real.sqrt (-s / (2 * a)), by positivity, Real.sq_sqrt h2.le⟩
    have hx2 : (xOf s a .H) ^ 2 = 1 + w ^ 2 := by
      unfold xOf
      rw [Real.sq_sqrt (by rw [neg_div] at h2; linarith), hw2]; ring
    have hx : 1 < xOf s a .H := by
      have h3 : 0 ≤ xOf s a .H := Real.sqrt_nonneg _
      nlinarith
    have e1 : Real.sqrt (-s / (2 * a)) = w := by rw [← hw2, Real.sqrt_sq hw.le]
    have e2 : Real.sqrt ((c - s) / (2 * a)) = |ll| * w := by
      rw [show (c - s) / (2 * a) = (|ll| * w) ^ 2 by rw [mul_pow, sq_abs, hw2, hc]; ring,
        Real.sqrt_sq (by positivity)]
    have e3 : Real.sqrt ((-a) ^ 3 / mu) = Real.sqrt (s ^ 3 / (2 * mu)) / (2 * w ^ 3) := by
      rw [← sqrt_cube_div hmu hs hw]
      congr 3
      rw [hw2]; field_simp
    have hT := lancT_hyp_lagrange hL hx hw (by linarith)
    have := hmpF (F := fun t => Real.sinh (2 * Real.arsinh t) - 2 * Real.arsinh t) (w := w) hFh
    simp only [lagF]
    rw [e1, e2, e3, this, ← sub_eq_add_neg, ← hT]
    field_simp
  | A =>
    obtain ⟨w, hw, hw2, hw1, hx2, hx0, hx1⟩ := kell ha
    obtain ⟨e1, e2, e3⟩ := key hw hw2
    have hT := lancT_ellA_lagrange hL hx1 hx0.le hw (by change w ^ 2 = 1 - (Real.sqrt (1 - s / (2 * a))) ^ 2; linarith)
    have := hmpF (F := fun t => 2 * Real.arcsin t - Real.sin (2 * Real.arcsin t)) (w := w) hFs
    simp only [lagF]
    rw [e1, e2, e3, this, ← sub_eq_add_neg, ← hT]
    field_simp
  | B =>
    obtain ⟨w, hw, hw2, hw1, hx2, hx0, hx1⟩ := kell ha
    obtain ⟨e1, e2, e3⟩ := key hw hw2
    have hT := lancT_ellB_lagrange hL (by change -Real.sqrt (1 - s / (2 * a)) ≤ 0; linarith) hw
      (by change w ^ 2 = 1 - (-Real.sqrt (1 - s / (2 * a))) ^ 2; linarith)
    have := hmpF (F := fun t => 2 * Real.arcsin t - Real.sin (2 * Real.arcsin t)) (w := w) hFs
    simp only [lagF]
    rw [e1, e2, e3, this, ← sub_eq_add_neg, ← hT]
    field_simp

/-- Parabolic time. -/
theorem getParabolicTof_eq (hmu : 0 < mu) (hs : 0 < s) (hl0 : ll ≠ 0) (hc : c = s * (1 - ll ^ 2))
    (hmp : mp = if 0 < ll then -1 else 1) {y : ℝ} (hL : Lanc ll 1 y) :
    getParabolicTof mu s c mp = .ok (Real.sqrt (s ^ 3 / (2 * mu)) * lancT ll 1 y 0) := by
  have hy : y = 1 := by
    have h3 := hL.y_sq
    have h4 := hL.y_pos
    have : (y - 1) * (y + 1) = 0 := by linear_combination h3
    rcases mul_eq_zero.1 this with h5 | h5 <;> linarith
  have hk : (s - c) / s = ll ^ 2 := by rw [hc]; field_simp; ring
  have hll : 0 < |ll| := abs_pos.2 hl0
  have hpow : (ll ^ 2) ^ ((3 : ℝ) / 2) = |ll| ^ 3 := by
    rw [← sq_abs, ← Real.rpow_natCast, ← Real.rpow_mul hll.le, ← Real.rpow_natCast]
    norm_num
  unfold getParabolicTof
  rw [pdiv_eq hs.ne', ok_bind, pdiv_eq hmu.ne', ok_bind, psqrt_eq (by positivity), ok_bind, hk, prpow,
    if_pos (Or.inl (by positivity)), ok_bind, hpow]
  congr 1
  have e : mp * |ll| ^ 3 = -ll ^ 3 := by
    rw [hmp]; split
    · rename_i h; rw [abs_of_pos h]; ring
    · rename_i h; rw [abs_of_nonpos (not_lt.1 h)]; ring
  have e2 : Real.sqrt (s ^ 3 / mu) = Real.sqrt 2 * Real.sqrt (s ^ 3 / (2 * mu)) := by
    rw [← Real.sqrt_mul (by norm_num)]; congr 1; field_simp
  have hr2 : Real.sqrt 2 ^ 2 = 2 := Real.sq_sqrt (by norm_num)
  rw [e, e2, lancT, if_neg (lt_irrefl _), if_pos rfl, hy]
  linear_combination (Real.sqrt (s ^ 3 / (2 * mu)) / 3 * (1 - ll ^ 3)) * hr2

end Thorne
end Lamberthub
