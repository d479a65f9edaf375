import Verif.Model.Rounded
import Verif.Props.Angles
import Mathlib.Analysis.Real.Pi.Bounds

/-!
# C65: the transfer angle computed with rounding

The standard model of floating-point arithmetic: every operation has a relative error of at most `u`.
-/

set_option autoImplicit false

namespace Lamberthub
open Spec

/-- The standard model of floating-point arithmetic with unit roundoff `u`. -/
structure Spec.StandardModel (F : Arith) (u : ℝ) : Prop where
  nonneg : 0 ≤ u
  rnd : ∀ x, |F.rnd x - x| ≤ u * |x|
  root : ∀ x, 0 ≤ x → |F.root x - Real.sqrt x| ≤ u * Real.sqrt x
  acos : ∀ x, -1 ≤ x → x ≤ 1 → |F.acos x - Real.arccos x| ≤ u * Real.arccos x
  pi : |F.pi - Real.pi| ≤ u * Real.pi

namespace Rounded

variable {F : Arith} {u : ℝ}

theorem rnd_abs (h : StandardModel F u) (x : ℝ) : |F.rnd x| ≤ (1 + u) * |x| := by
  have h1 := h.rnd x
  have h2 : |F.rnd x| ≤ |F.rnd x - x| + |x| := by
    have := abs_add_le (F.rnd x - x) x
    rwa [sub_add_cancel] at this
  linarith

/-- Error of a rounded operation on an inexact argument. -/
theorem rnd_err (h : StandardModel F u) {x y e b : ℝ} (h1 : |y - x| ≤ e) (h2 : |x| ≤ b) :
    |F.rnd y - x| ≤ u * (b + e) + e := by
  have h3 := h.rnd y
  have h4 : |y| ≤ b + e := by
    have := abs_add_le (y - x) x
    rw [sub_add_cancel] at this
    linarith
  have h5 : |F.rnd y - x| ≤ |F.rnd y - y| + |y - x| := abs_sub_le _ _ _
  nlinarith [h.nonneg]

theorem sum_err {x y x' y' e e' : ℝ} (h1 : |x' - x| ≤ e) (h2 : |y' - y| ≤ e') : |x' + y' - (x + y)| ≤ e + e' := by
  rw [show x' + y' - (x + y) = (x' - x) + (y' - y) by ring]
  exact (abs_add_le _ _).trans (add_le_add h1 h2)

theorem diff_err {x y x' y' e e' : ℝ} (h1 : |x' - x| ≤ e) (h2 : |y' - y| ≤ e') : |x' - y' - (x - y)| ≤ e + e' := by
  rw [show x' - y' - (x - y) = (x' - x) - (y' - y) by ring]
  exact (abs_sub _ _).trans (add_le_add h1 h2)

/-- The sum of the absolute values of the products is bounded by the product of the lengths. -/
theorem abs_products_le (a b : V3) : |a.x * b.x| + |a.y * b.y| + |a.z * b.z| ≤ V3.norm a * V3.norm b := by
  have h1 := abs_dot_le ⟨|a.x|, |a.y|, |a.z|⟩ ⟨|b.x|, |b.y|, |b.z|⟩
  have h2 : ∀ c : V3, V3.norm ⟨|c.x|, |c.y|, |c.z|⟩ = V3.norm c := by
    intro c
    simp [V3.norm, V3.dot]
  rw [h2, h2] at h1
  refine le_trans (le_of_eq ?_) ((le_abs_self _).trans h1)
  simp [V3.dot, abs_mul]

/-- **C65**: the error of the computed scalar product. -/
theorem dot_error (h : StandardModel F u) (a b : V3) :
    |dot F a b - inner a b| ≤ ((1 + u) ^ 3 - 1) * (len a * len b) := by
  rw [len_eq_norm, len_eq_norm, inner_eq_dot]
  have hu := h.nonneg
  have h1 := rnd_err h (le_of_eq (show |a.x * b.x - a.x * b.x| = 0 by simp)) le_rfl
  have h2 := rnd_err h (le_of_eq (show |a.y * b.y - a.y * b.y| = 0 by simp)) le_rfl
  have h3 := rnd_err h (le_of_eq (show |a.z * b.z - a.z * b.z| = 0 by simp)) le_rfl
  have h4 := rnd_err h (sum_err h1 h2) (abs_add_le _ _)
  have h5 := rnd_err h (sum_err h4 h3) ((abs_add_le _ _).trans (add_le_add_left (abs_add_le _ _) _))
  have h6 := abs_products_le a b
  have h7 : 0 ≤ (1 + u) ^ 3 - 1 := by nlinarith [sq_nonneg u, mul_nonneg hu (sq_nonneg u)]
  refine le_trans h5 (le_trans ?_ (mul_le_mul_of_nonneg_left h6 h7))
  have p3 := abs_nonneg (a.z * b.z)
  have : 0 ≤ (2 * u ^ 2 + u ^ 3) * |a.z * b.z| := by positivity
  nlinarith [sq_nonneg u]

/-- The computed square of a length. -/
theorem dot_self_bounds (h : StandardModel F u) (hu1 : u ≤ 1 / 1000) (a : V3) :
    (1 - 301 / 100 * u) * V3.norm a ^ 2 ≤ dot F a a ∧ dot F a a ≤ (1 + 301 / 100 * u) * V3.norm a ^ 2 := by
  have hu := h.nonneg
  have h1 := dot_error h a a
  rw [len_eq_norm, inner_eq_dot, ← norm_mul_self, ← sq, abs_le] at h1
  have h2 := sq_nonneg (V3.norm a)
  have h3 : (1 + u) ^ 3 - 1 ≤ 301 / 100 * u := by
    have h6 : u ^ 2 ≤ u / 1000 := by nlinarith
    nlinarith [mul_nonneg hu (mul_nonneg hu hu)]
  constructor <;> nlinarith

/-- **C65**: the relative error of the computed length. -/
theorem norm_error (h : StandardModel F u) (hu1 : u ≤ 1 / 1000) (a : V3) :
    |norm F a - len a| ≤ 13 / 5 * u * len a := by
  rw [len_eq_norm]
  have hu := h.nonneg
  obtain ⟨h1, h2⟩ := dot_self_bounds h hu1 a
  have hn : 0 ≤ V3.norm a := Real.sqrt_nonneg _
  have h6 : u ^ 2 ≤ u / 1000 := by nlinarith
  have hd : 0 ≤ dot F a a := le_trans (mul_nonneg (by linarith) (sq_nonneg _)) h1
  have h3 := h.root _ hd
  have h4 : Real.sqrt (dot F a a) ≤ (1 + 152 / 100 * u) * V3.norm a := by
    refine Real.sqrt_le_iff.2 ⟨by positivity, h2.trans ?_⟩
    rw [mul_pow]
    exact mul_le_mul_of_nonneg_right (by nlinarith) (sq_nonneg _)
  have h5 : (1 - 152 / 100 * u) * V3.norm a ≤ Real.sqrt (dot F a a) := by
    refine Real.le_sqrt_of_sq_le (le_trans ?_ h1)
    rw [mul_pow]
    exact mul_le_mul_of_nonneg_right (by nlinarith) (sq_nonneg _)
  unfold norm
  rw [abs_le] at h3 ⊢
  have h7 : u * Real.sqrt (dot F a a) ≤ u * ((1 + 152 / 100 * u) * V3.norm a) := mul_le_mul_of_nonneg_left h4 hu
  have h8 : u ^ 2 * V3.norm a ≤ u / 1000 * V3.norm a := mul_le_mul_of_nonneg_right (by nlinarith) hn
  have h9 : 0 ≤ u * V3.norm a := mul_nonneg hu hn
  constructor <;> nlinarith

/-- The computed product of the lengths. -/
theorem product_error (h : StandardModel F u) (hu1 : u ≤ 1 / 1000) (a b : V3) :
    |F.rnd (norm F a * norm F b) - len a * len b| ≤ 13 / 2 * u * (len a * len b) := by
  have hu := h.nonneg
  have ha := norm_error h hu1 a
  have hb := norm_error h hu1 b
  have hA : 0 ≤ len a := Real.sqrt_nonneg _
  have hB : 0 ≤ len b := Real.sqrt_nonneg _
  have h6 : u ^ 2 ≤ u / 1000 := by nlinarith
  have h0 : 0 ≤ len a * len b := mul_nonneg hA hB
  have h1 : |norm F a * norm F b - len a * len b| ≤ 521 / 100 * u * (len a * len b) := by
    rw [show norm F a * norm F b - len a * len b = (norm F a - len a) * (norm F b - len b) +
      ((norm F a - len a) * len b + len a * (norm F b - len b)) by ring]
    refine (abs_add_le _ _).trans ?_
    have e1 : |(norm F a - len a) * (norm F b - len b)| ≤ 13 / 5 * u * len a * (13 / 5 * u * len b) := by
      rw [abs_mul]
      exact mul_le_mul ha hb (abs_nonneg _) (by positivity)
    have e2 : |(norm F a - len a) * len b| ≤ 13 / 5 * u * len a * len b := by
      rw [abs_mul, abs_of_nonneg hB]
      exact mul_le_mul_of_nonneg_right ha hB
    have e3 : |len a * (norm F b - len b)| ≤ len a * (13 / 5 * u * len b) := by
      rw [abs_mul, abs_of_nonneg hA]
      exact mul_le_mul_of_nonneg_left hb hA
    have e4 := abs_add_le ((norm F a - len a) * len b) (len a * (norm F b - len b))
    have e5 : u ^ 2 * (len a * len b) ≤ u / 1000 * (len a * len b) := mul_le_mul_of_nonneg_right h6 h0
    have e6 : 0 ≤ u * (len a * len b) := mul_nonneg hu h0
    nlinarith
  refine (rnd_err h h1 (abs_of_nonneg h0).le).trans ?_
  have e5 : u ^ 2 * (len a * len b) ≤ u / 1000 * (len a * len b) := mul_le_mul_of_nonneg_right h6 h0
  have e6 : 0 ≤ u * (len a * len b) := mul_nonneg hu h0
  nlinarith

/-- **C65**: the error of the computed cosine of the transfer angle. -/
theorem cosine_error (h : StandardModel F u) (hu1 : u ≤ 1 / 1000) {a b : V3} (ha : a ≠ 0) (hb : b ≠ 0) :
    ∃ q, div F (dot F a b) (F.rnd (norm F a * norm F b)) = .ok q ∧ |q - inner a b / (len a * len b)| ≤ 12 * u := by
  have hu := h.nonneg
  have h6 : u ^ 2 ≤ u / 1000 := by nlinarith
  have hA : 0 < len a := by rw [len_eq_norm]; exact norm_pos_iff.2 ha
  have hB : 0 < len b := by rw [len_eq_norm]; exact norm_pos_iff.2 hb
  have hd := dot_error h a b
  have hp := product_error h hu1 a b
  have hc : |inner a b| ≤ len a * len b := by
    rw [len_eq_norm, len_eq_norm, inner_eq_dot]; exact abs_dot_le a b
  have h0 : 0 < len a * len b := mul_pos hA hB
  generalize len a * len b = N at *
  generalize F.rnd (norm F a * norm F b) = P at *
  generalize dot F a b = d at *
  generalize inner a b = c at *
  have h3 : (1 + u) ^ 3 - 1 ≤ 301 / 100 * u := by nlinarith [mul_nonneg hu (mul_nonneg hu hu)]
  have hd' : |d - c| ≤ 301 / 100 * u * N := hd.trans (mul_le_mul_of_nonneg_right h3 h0.le)
  have hP : (1 - 13 / 2 * u) * N ≤ P := by rw [abs_le] at hp; nlinarith
  have hP0 : 0 < P := lt_of_lt_of_le (mul_pos (by linarith) h0) hP
  refine ⟨F.rnd (d / P), by simp [div, pdiv, hP0.ne', ok_bind], ?_⟩
  have h1 : |d / P - c / N| ≤ 10 * u := by
    rw [show d / P - c / N = ((d - c) * N - c * (P - N)) / (P * N) by field_simp; ring, abs_div,
      abs_of_pos (mul_pos hP0 h0), div_le_iff₀ (mul_pos hP0 h0)]
    have e1 : |(d - c) * N - c * (P - N)| ≤ |d - c| * N + |c| * |P - N| := by
      refine (abs_sub _ _).trans ?_
      rw [abs_mul, abs_mul, abs_of_pos h0]
    have e2 : |c| * |P - N| ≤ N * (13 / 2 * u * N) := mul_le_mul hc hp (abs_nonneg _) h0.le
    have e3 : |d - c| * N ≤ 301 / 100 * u * N * N := mul_le_mul_of_nonneg_right hd' h0.le
    have e4 : (1 - 13 / 2 * u) * N * (10 * u * N) ≤ P * (10 * u * N) :=
      mul_le_mul_of_nonneg_right hP (by positivity)
    have e5 : 0 ≤ u * (N * N) := by positivity
    have e6 : u ^ 2 * (N * N) ≤ u / 1000 * (N * N) := mul_le_mul_of_nonneg_right h6 (by positivity)
    nlinarith
  have h2 : |c / N| ≤ 1 := by
    rw [abs_div, abs_of_pos h0]
    exact (div_le_one h0).2 hc
  refine (rnd_err h h1 h2).trans ?_
  nlinarith

/-- The computed components of the vector product. -/
theorem cross_error (h : StandardModel F u) (a b : V3) :
    |(cross F a b).x - (outer a b).x| ≤ (2 * u + u ^ 2) * (len a * len b) ∧
    |(cross F a b).y - (outer a b).y| ≤ (2 * u + u ^ 2) * (len a * len b) ∧
    |(cross F a b).z - (outer a b).z| ≤ (2 * u + u ^ 2) * (len a * len b) := by
  have hu := h.nonneg
  have hk : 0 ≤ 2 * u + u ^ 2 := by positivity
  have gen : ∀ x y : ℝ, |x| + |y| ≤ len a * len b →
      |F.rnd (F.rnd x - F.rnd y) - (x - y)| ≤ (2 * u + u ^ 2) * (len a * len b) := by
    intro x y hxy
    have h1 := rnd_err h (le_of_eq (show |x - x| = 0 by simp)) le_rfl
    have h2 := rnd_err h (le_of_eq (show |y - y| = 0 by simp)) le_rfl
    refine (rnd_err h (diff_err h1 h2) (abs_sub x y)).trans (le_trans (le_of_eq ?_)
      (mul_le_mul_of_nonneg_left hxy hk))
    ring
  have key : ∀ p q r s : ℝ, (p * s) ^ 2 + (q * r) ^ 2 + 2 * |p * s| * |q * r| ≤ (len a * len b) ^ 2 →
      |p * s| + |q * r| ≤ len a * len b := by
    intro p q r s hh
    refine abs_le_of_sq_le_sq' (by nlinarith [sq_abs (p * s), sq_abs (q * r)]) ?_ |>.2
    exact mul_nonneg (Real.sqrt_nonneg _) (Real.sqrt_nonneg _)
  have hN : (len a * len b) ^ 2 = (a.x ^ 2 + a.y ^ 2 + a.z ^ 2) * (b.x ^ 2 + b.y ^ 2 + b.z ^ 2) := by
    rw [mul_pow, len, len, Real.sq_sqrt (by positivity), Real.sq_sqrt (by positivity)]
  have pr : ∀ p q r s : ℝ, 2 * |p * s| * |q * r| ≤ (p * r) ^ 2 + (q * s) ^ 2 := by
    intro p q r s
    have : |p * s| * |q * r| = |p * r| * |q * s| := by simp only [abs_mul]; ring
    nlinarith [sq_nonneg (|p * r| - |q * s|), sq_abs (p * r), sq_abs (q * s)]
  refine ⟨gen _ _ (key _ _ _ _ ?_), gen _ _ (key _ _ _ _ ?_), gen _ _ (key _ _ _ _ ?_)⟩
  · have := pr a.y a.z b.y b.z
    rw [hN]; nlinarith [sq_nonneg (a.x * b.x), sq_nonneg (a.x * b.y), sq_nonneg (a.x * b.z), sq_nonneg (a.y * b.x), sq_nonneg (a.z * b.x)]
  · have := pr a.z a.x b.z b.x
    rw [hN]; nlinarith [sq_nonneg (a.y * b.x), sq_nonneg (a.y * b.y), sq_nonneg (a.y * b.z), sq_nonneg (a.x * b.y), sq_nonneg (a.z * b.y)]
  · have := pr a.x a.y b.x b.y
    rw [hN]; nlinarith [sq_nonneg (a.z * b.x), sq_nonneg (a.z * b.y), sq_nonneg (a.z * b.z), sq_nonneg (a.x * b.z), sq_nonneg (a.y * b.z)]

theorem rnd_zero (h : StandardModel F u) : F.rnd 0 = 0 := by
  have := h.rnd 0
  simpa using this

theorem rnd_pos (h : StandardModel F u) (hu1 : u ≤ 1 / 1000) {x : ℝ} (hx : 0 < x) : 0 < F.rnd x := by
  have := h.rnd x
  rw [abs_of_pos hx, abs_le] at this
  nlinarith

theorem rnd_neg (h : StandardModel F u) (hu1 : u ≤ 1 / 1000) {x : ℝ} (hx : x < 0) : F.rnd x < 0 := by
  have := h.rnd x
  rw [abs_of_neg hx, abs_le] at this
  nlinarith

/-- The computed projection on the axis has the sign of the computed vertical component. -/
theorem alpha_sign (h : StandardModel F u) (hu1 : u ≤ 1 / 1000) {c : V3} {n : ℝ} (hn : 0 < n) :
    ∃ w, vdiv F c n = .ok w ∧ (0 < c.z → 0 < dot F kAxis w) ∧ (c.z < 0 → dot F kAxis w < 0) := by
  refine ⟨⟨F.rnd (c.x / n), F.rnd (c.y / n), F.rnd (c.z / n)⟩, by simp [vdiv, div, pdiv, hn.ne', ok_bind], ?_, ?_⟩
  all_goals
    intro hz
    simp only [dot, kAxis, zero_mul, one_mul, rnd_zero h, add_zero, zero_add]
  · exact rnd_pos h hu1 (rnd_pos h hu1 (rnd_pos h hu1 (div_pos hz hn)))
  · exact rnd_neg h hu1 (rnd_neg h hu1 (rnd_neg h hu1 (div_neg_of_neg_of_pos hz hn)))

theorem cos_sub_bound {x y : ℝ} (hx0 : 0 ≤ x) (hx : x ≤ Real.pi) (hy0 : 0 ≤ y) (hy : y ≤ Real.pi) :
    2 * Real.sin ((x + y) / 2) * (|x - y| / Real.pi) ≤ |Real.cos x - Real.cos y| := by
  have hpi := Real.pi_pos
  have h1 : 0 ≤ Real.sin ((x + y) / 2) := Real.sin_nonneg_of_nonneg_of_le_pi (by linarith) (by linarith)
  have h2 : |x - y| ≤ Real.pi := abs_le.2 ⟨by linarith, by linarith⟩
  have h3 := Real.mul_le_sin (x := |x - y| / 2) (by positivity) (by linarith)
  have h4 : Real.sin (|x - y| / 2) = |Real.sin ((x - y) / 2)| := by
    rcases le_total 0 (x - y) with h | h
    · rw [abs_of_nonneg h, abs_of_nonneg (Real.sin_nonneg_of_nonneg_of_le_pi (by linarith) (by linarith))]
    · rw [abs_of_nonpos h, neg_div, Real.sin_neg,
        abs_of_nonpos (Real.sin_nonpos_of_nonpos_of_neg_pi_le (by linarith) (by linarith))]
  rw [Real.cos_sub_cos, abs_mul, abs_mul, abs_neg, abs_two, abs_of_nonneg h1, ← h4]
  refine mul_le_mul_of_nonneg_left (le_trans (le_of_eq ?_) h3) (by positivity)
  field_simp

/-- The inverse cosine is Lipschitz away from the poles, ... -/
theorem arccos_lipschitz {a b : ℝ} (ha1 : -1 ≤ a) (ha : a ≤ 1) (hb1 : -1 ≤ b) (hb : b ≤ 1) :
    |Real.arccos a - Real.arccos b| * Real.sin (Real.arccos b) ≤ Real.pi * |a - b| := by
  have hpi := Real.pi_pos
  have h := cos_sub_bound (Real.arccos_nonneg a) (Real.arccos_le_pi a) (Real.arccos_nonneg b) (Real.arccos_le_pi b)
  rw [Real.cos_arccos ha1 ha, Real.cos_arccos hb1 hb] at h
  have hs : Real.sin (Real.arccos b) ≤ 2 * Real.sin ((Real.arccos a + Real.arccos b) / 2) := by
    have h1 : Real.sin (Real.arccos a) + Real.sin (Real.arccos b) =
        2 * Real.sin ((Real.arccos a + Real.arccos b) / 2) * Real.cos ((Real.arccos a - Real.arccos b) / 2) := by
      have e1 : Real.arccos a = (Real.arccos a + Real.arccos b) / 2 + (Real.arccos a - Real.arccos b) / 2 := by ring
      have e2 : Real.arccos b = (Real.arccos a + Real.arccos b) / 2 - (Real.arccos a - Real.arccos b) / 2 := by ring
      generalize (Real.arccos a + Real.arccos b) / 2 = p at *
      generalize (Real.arccos a - Real.arccos b) / 2 = q at *
      rw [e1, e2, Real.sin_add, Real.sin_sub]
      ring
    have h2 : 0 ≤ Real.sin ((Real.arccos a + Real.arccos b) / 2) :=
      Real.sin_nonneg_of_nonneg_of_le_pi (by linarith [Real.arccos_nonneg a, Real.arccos_nonneg b])
        (by linarith [Real.arccos_le_pi a, Real.arccos_le_pi b])
    have h3 := Real.cos_le_one ((Real.arccos a - Real.arccos b) / 2)
    have h4 := Real.sin_nonneg_of_nonneg_of_le_pi (Real.arccos_nonneg a) (Real.arccos_le_pi a)
    nlinarith
  have h5 : Real.sin (Real.arccos b) * (|Real.arccos a - Real.arccos b| / Real.pi) ≤ |a - b| :=
    le_trans (mul_le_mul_of_nonneg_right hs (by positivity)) h
  rw [← mul_div_assoc, div_le_iff₀ hpi] at h5
  linarith

/-- ... and of the order of the square root everywhere. -/
theorem arccos_holder {a b : ℝ} (ha1 : -1 ≤ a) (ha : a ≤ 1) (hb1 : -1 ≤ b) (hb : b ≤ 1) :
    |Real.arccos a - Real.arccos b| ≤ Real.pi * Real.sqrt (|a - b| / 2) := by
  have hpi := Real.pi_pos
  have h := cos_sub_bound (Real.arccos_nonneg a) (Real.arccos_le_pi a) (Real.arccos_nonneg b) (Real.arccos_le_pi b)
  rw [Real.cos_arccos ha1 ha, Real.cos_arccos hb1 hb] at h
  have k1 := Real.arccos_nonneg a
  have k2 := Real.arccos_nonneg b
  have k3 := Real.arccos_le_pi a
  have k4 := Real.arccos_le_pi b
  generalize Real.arccos a = x at *
  generalize Real.arccos b = y at *
  have hd1 : |x - y| ≤ x + y := abs_le.2 ⟨by linarith, by linarith⟩
  have hd2 : |x - y| ≤ 2 * Real.pi - (x + y) := abs_le.2 ⟨by linarith, by linarith⟩
  have hd0 := abs_nonneg (x - y)
  have hs : |x - y| / Real.pi ≤ Real.sin ((x + y) / 2) := by
    rcases le_total (x + y) Real.pi with hc | hc
    · have := Real.mul_le_sin (x := (x + y) / 2) (by linarith) (by linarith)
      refine le_trans ?_ this
      rw [show 2 / Real.pi * ((x + y) / 2) = (x + y) / Real.pi by field_simp]
      gcongr
    · have := Real.mul_le_sin (x := Real.pi - (x + y) / 2) (by linarith) (by linarith)
      rw [Real.sin_pi_sub] at this
      refine le_trans ?_ this
      rw [show 2 / Real.pi * (Real.pi - (x + y) / 2) = (2 * Real.pi - (x + y)) / Real.pi by field_simp]
      gcongr
  have h1 : (|x - y| / Real.pi) ^ 2 ≤ |a - b| / 2 := by
    have := mul_le_mul_of_nonneg_right hs (by positivity : 0 ≤ |x - y| / Real.pi)
    nlinarith
  have h2 := Real.le_sqrt_of_sq_le h1
  rw [div_le_iff₀ hpi] at h2
  linarith

/-- The error of the reflex angle. -/
theorem reflex_error (h : StandardModel F u) (hu1 : u ≤ 1 / 1000) {q : ℝ} (hq1 : -1 ≤ q) (hq2 : q ≤ 1) (c : ℝ) :
    |F.rnd (F.rnd (2 * F.pi) - F.acos q) - (2 * Real.pi - Real.arccos c)| ≤
      |Real.arccos q - Real.arccos c| + 8 * Real.pi * u := by
  have hpi := Real.pi_pos
  have hu := h.nonneg
  have h6 : u ^ 2 ≤ u / 1000 := by nlinarith
  have hac := h.acos q hq1 hq2
  have hq0 := Real.arccos_nonneg q
  have hqpi := Real.arccos_le_pi q
  have p1 : |2 * F.pi - 2 * Real.pi| ≤ 2 * Real.pi * u := by
    rw [← mul_sub, abs_mul, abs_two]; linarith [h.pi]
  have p2 := rnd_err h p1 (abs_of_pos (by positivity : 0 < 2 * Real.pi)).le
  have p3 : |F.acos q - Real.arccos q| ≤ Real.pi * u := by nlinarith
  have p4 := rnd_err h (diff_err p2 p3) (show |2 * Real.pi - Real.arccos q| ≤ 2 * Real.pi by
    rw [abs_of_nonneg (by linarith)]; linarith)
  have p5 := abs_sub_le (F.rnd (F.rnd (2 * F.pi) - F.acos q)) (2 * Real.pi - Real.arccos q)
    (2 * Real.pi - Real.arccos c)
  have p6 : |2 * Real.pi - Real.arccos q - (2 * Real.pi - Real.arccos c)| = |Real.arccos q - Real.arccos c| := by
    rw [show 2 * Real.pi - Real.arccos q - (2 * Real.pi - Real.arccos c) = -(Real.arccos q - Real.arccos c) by ring,
      abs_neg]
  have p7 : u ^ 2 * Real.pi ≤ u / 1000 * Real.pi := mul_le_mul_of_nonneg_right h6 hpi.le
  have p8 : u ^ 3 * Real.pi ≤ u / 1000 * Real.pi :=
    mul_le_mul_of_nonneg_right (by nlinarith [mul_nonneg hu hu]) hpi.le
  have p9 : 0 ≤ u * Real.pi := by positivity
  rw [p6] at p5
  refine p5.trans ?_
  rw [add_comm]
  refine add_le_add_right (p4.trans ?_) _
  linarith

/-- **C65**: when the positions are not too close to alignment and not too close to a plane through the axis, the
transfer angle is computed, and its error is bounded. -/
theorem angle_error (h : StandardModel F u) (hu1 : u ≤ 1 / 1000) {r1 r2 : V3} (pro : Bool)
    (hcos : |inner r1 r2| ≤ (1 - 12 * u) * (len r1 * len r2)) (hz : 3 * u * (len r1 * len r2) < |(outer r1 r2).z|) :
    ∃ θ θ', Lamberthub.getTransferAngle r1 r2 pro = .ok θ ∧ getTransferAngle F r1 r2 pro = .ok θ' ∧
      |θ' - θ| * |Real.sin θ| ≤ 20 * Real.pi * u ∧ |θ' - θ| ≤ Real.pi * (Real.sqrt (6 * u) + 8 * u) := by
  have hpi := Real.pi_pos
  have hu := h.nonneg
  have h6 : u ^ 2 ≤ u / 1000 := by nlinarith
  have hlen : 0 ≤ len r1 * len r2 := mul_nonneg (Real.sqrt_nonneg _) (Real.sqrt_nonneg _)
  have hz0 : (outer r1 r2).z ≠ 0 := by
    intro h0
    rw [h0, abs_zero] at hz
    have : 0 ≤ 3 * u * (len r1 * len r2) := by positivity
    linarith
  have hcz : crossZ r1 r2 = (outer r1 r2).z := rfl
  have hna : NotAligned r1 r2 := fun hh => hz0 hh.2.2
  have hr1 : r1 ≠ 0 := by rintro rfl; simp [outer] at hz0
  have hr2 : r2 ≠ 0 := by rintro rfl; simp [outer] at hz0
  -- the sign of the computed vertical component
  have hce := (cross_error h r1 r2).2.2
  have hce' : |(cross F r1 r2).z - (outer r1 r2).z| < |(outer r1 r2).z| := by
    refine lt_of_le_of_lt (hce.trans (mul_le_mul_of_nonneg_right ?_ hlen)) hz
    nlinarith
  have hpos : 0 < (outer r1 r2).z → 0 < (cross F r1 r2).z := by
    intro hp
    rw [abs_of_pos hp, abs_lt] at hce'
    linarith
  have hneg : (outer r1 r2).z < 0 → (cross F r1 r2).z < 0 := by
    intro hp
    rw [abs_of_neg hp, abs_lt] at hce'
    linarith
  have hc0 : cross F r1 r2 ≠ 0 := by
    intro h0
    rw [h0] at hpos hneg
    rcases lt_or_gt_of_ne hz0 with hh | hh
    · exact lt_irrefl _ (hneg hh)
    · exact lt_irrefl _ (hpos hh)
  have hcn : 0 < norm F (cross F r1 r2) := by
    have h1 := norm_error h hu1 (cross F r1 r2)
    have h2 : 0 < len (cross F r1 r2) := by rw [len_eq_norm]; exact norm_pos_iff.2 hc0
    rw [abs_le] at h1
    nlinarith
  obtain ⟨w, hw, hw1, hw2⟩ := alpha_sign h hu1 (c := cross F r1 r2) hcn
  -- the cosine
  obtain ⟨q, hq, hqe⟩ := cosine_error h hu1 hr1 hr2
  have hA : 0 < len r1 := by rw [len_eq_norm]; exact norm_pos_iff.2 hr1
  have hB : 0 < len r2 := by rw [len_eq_norm]; exact norm_pos_iff.2 hr2
  have hN : 0 < len r1 * len r2 := mul_pos hA hB
  have hcos' : |inner r1 r2 / (len r1 * len r2)| ≤ 1 - 12 * u := by
    rw [abs_div, abs_of_pos hN]
    exact (div_le_iff₀ hN).2 hcos
  have hth : theta0 r1 r2 = Real.arccos (inner r1 r2 / (len r1 * len r2)) := by
    rw [len_eq_norm, len_eq_norm]; rfl
  generalize inner r1 r2 / (len r1 * len r2) = c at *
  rw [abs_le] at hcos'
  have hqb : -1 ≤ q ∧ q ≤ 1 := by
    have := abs_le.1 hqe
    constructor <;> linarith
  have hac := h.acos q hqb.1 hqb.2
  have hl := arccos_lipschitz hqb.1 hqb.2 (by linarith : -1 ≤ c) (by linarith)
  have hh := arccos_holder hqb.1 hqb.2 (by linarith : -1 ≤ c) (by linarith)
  have hs0 : 0 ≤ Real.sin (Real.arccos c) :=
    Real.sin_nonneg_of_nonneg_of_le_pi (Real.arccos_nonneg c) (Real.arccos_le_pi c)
  have hs1 := Real.sin_le_one (Real.arccos c)
  have hq0 := Real.arccos_nonneg q
  have hqpi := Real.arccos_le_pi q
  have hc0' := Real.arccos_nonneg c
  have hcpi := Real.arccos_le_pi c
  -- the acute angle
  have e1 : |F.acos q - Real.arccos c| ≤ |Real.arccos q - Real.arccos c| + Real.pi * u := by
    have := abs_sub_le (F.acos q) (Real.arccos q) (Real.arccos c)
    nlinarith
  have e2 : Real.pi * Real.sqrt (|q - c| / 2) ≤ Real.pi * Real.sqrt (6 * u) :=
    mul_le_mul_of_nonneg_left (Real.sqrt_le_sqrt (by linarith)) hpi.le
  have e3 : |Real.arccos q - Real.arccos c| * Real.sin (Real.arccos c) ≤ 12 * Real.pi * u := by nlinarith
  -- the reflex angle
  have e4 := reflex_error h hu1 hqb.1 hqb.2 c
  have run : getTransferAngle F r1 r2 pro =
      .ok (if ShortWay pro r1 r2 then F.acos q else F.rnd (F.rnd (2 * F.pi) - F.acos q)) := by
    simp only [getTransferAngle, if_neg hc0, hw, ok_bind, hq, acos, if_pos hqb]
    cases pro
    · rcases lt_or_gt_of_ne hz0 with hh | hh
      · have := hw2 (hneg hh)
        simp [ShortWay, hcz, hh, this]
      · have := hw1 (hpos hh)
        simp [ShortWay, hcz, not_lt.2 hh.le, not_lt.2 this.le]
    · rcases lt_or_gt_of_ne hz0 with hh | hh
      · have := hw2 (hneg hh)
        simp [ShortWay, hcz, not_lt.2 hh.le, not_lt.2 this.le]
      · have := hw1 (hpos hh)
        simp [ShortWay, hcz, hh, this]
  have hup : 0 ≤ Real.pi * u := by positivity
  refine ⟨_, _, transferAngle_eq hna pro, run, ?_⟩
  rw [hth]
  by_cases hsw : ShortWay pro r1 r2
  · rw [if_pos hsw, if_pos hsw, abs_of_nonneg hs0]
    refine ⟨?_, by linarith⟩
    have k1 := mul_le_mul_of_nonneg_right e1 hs0
    have k2 := mul_le_mul_of_nonneg_left hs1 hup
    linarith
  · rw [if_neg hsw, if_neg hsw, Real.sin_two_pi_sub, abs_neg, abs_of_nonneg hs0]
    refine ⟨?_, by linarith⟩
    have k1 := mul_le_mul_of_nonneg_right e4 hs0
    have k2 := mul_le_mul_of_nonneg_left hs1 hup
    linarith

end Rounded
end Lamberthub
