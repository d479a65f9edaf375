import Verif.Props.RoundedLoops
import Verif.Proofs.Hyp2F1

/-!
# C82: the Stumpff functions in rounded arithmetic for all arguments, and the loops in binary64
-/

set_option autoImplicit false

namespace Lamberthub
open Spec

namespace Rounded

/-- The hyperbolic cosine is above the beginning of its series. -/
theorem cosh_ge {s : ℝ} (hs : 0 < s) : 1 + s ^ 2 / 2 ≤ Real.cosh s := by
  have h := hasSum_cosh2 hs.ne'
  have := le_hasSum h 0 fun k _ => by
    rw [stumpffTerm, neg_neg]; positivity
  rw [stumpffTerm] at this
  norm_num [Nat.factorial] at this
  rw [le_div_iff₀ (by positivity)] at this
  linarith

/-- The hyperbolic sine is above the beginning of its series. -/
theorem sinh_ge {s : ℝ} (hs : 0 < s) : s + s ^ 3 / 6 ≤ Real.sinh s := by
  have h := hasSum_sinh3 hs.ne'
  have := le_hasSum h 0 fun k _ => by
    rw [stumpffTerm, neg_neg]; positivity
  rw [stumpffTerm] at this
  norm_num [Nat.factorial] at this
  rw [le_div_iff₀ (by positivity)] at this
  linarith

/-- Growth of the hyperbolic functions near a point. -/
theorem hyp_near (s : ℝ) {t e : ℝ} (he : e ≤ 1 / 10) (ht : |t - s| ≤ e) :
    |Real.cosh t - Real.cosh s| ≤ 10 / 9 * e * Real.cosh s ∧ |Real.sinh t - Real.sinh s| ≤ 10 / 9 * e * Real.cosh s := by
  obtain ⟨d, rfl⟩ : ∃ d, t = s + d := ⟨t - s, by ring⟩
  rw [add_sub_cancel_left] at ht
  have hd0 := abs_nonneg d
  have hch := Real.cosh_pos s
  have hsh : |Real.sinh s| ≤ Real.cosh s := by
    rw [← sq_le_sq₀ (abs_nonneg _) hch.le, sq_abs, Real.cosh_sq]; linarith
  have h1 : Real.cosh d - 1 + |Real.sinh d| = Real.exp |d| - 1 := by
    rw [← Real.cosh_abs d, ← Real.cosh_add_sinh |d|]
    rcases abs_cases d with ⟨e1, e2⟩ | ⟨e1, e2⟩
    · rw [e1, abs_of_nonneg (Real.sinh_nonneg_iff.2 e2)]; ring
    · rw [e1, Real.sinh_neg, abs_of_neg (Real.sinh_neg_iff.2 e2)]; ring
  have h2 : Real.exp |d| - 1 ≤ 10 / 9 * e := by
    have h3 := Real.one_sub_le_exp_neg |d|
    have h4 : Real.exp |d| * Real.exp (-|d|) = 1 := by rw [← Real.exp_add]; simp
    have h5 := Real.exp_pos |d|
    have h6 : Real.exp |d| * (1 - |d|) ≤ 1 := by
      exact (mul_le_mul_of_nonneg_left h3 h5.le).trans_eq h4
    nlinarith
  have h0 : 0 ≤ Real.cosh d - 1 := sub_nonneg.2 (Real.one_le_cosh d)
  constructor
  · rw [Real.cosh_add, show Real.cosh s * Real.cosh d + Real.sinh s * Real.sinh d - Real.cosh s =
      Real.cosh s * (Real.cosh d - 1) + Real.sinh s * Real.sinh d by ring]
    refine (abs_add_le _ _).trans ?_
    rw [abs_mul, abs_mul, abs_of_pos hch, abs_of_nonneg h0]
    have := mul_le_mul_of_nonneg_right hsh (abs_nonneg (Real.sinh d))
    have := mul_le_mul_of_nonneg_left (h1.trans_le h2) hch.le
    linarith
  · rw [Real.sinh_add, show Real.sinh s * Real.cosh d + Real.cosh s * Real.sinh d - Real.sinh s =
      Real.sinh s * (Real.cosh d - 1) + Real.cosh s * Real.sinh d by ring]
    refine (abs_add_le _ _).trans ?_
    rw [abs_mul, abs_mul, abs_of_pos hch, abs_of_nonneg h0]
    have := mul_le_mul_of_nonneg_right hsh h0
    have := mul_le_mul_of_nonneg_left (h1.trans_le h2) hch.le
    linarith

theorem root_fac {F : Arith} {u : ℝ} (h : StandardModel F u) (hu : u < 1) {x : ℝ} (hx : 0 < x) :
    ∃ a, Fac u 1 a ∧ F.root x = Real.sqrt x * a := by
  have h1 := h.root x hx.le
  have hu0 := h.nonneg
  have hs : 0 < Real.sqrt x := Real.sqrt_pos.2 hx
  obtain ⟨a, ha⟩ : ∃ a, a = F.root x / Real.sqrt x := ⟨_, rfl⟩
  have e : F.root x = Real.sqrt x * a := by rw [ha]; field_simp
  refine ⟨a, ?_, e⟩
  rw [e, show Real.sqrt x * a - Real.sqrt x = Real.sqrt x * (a - 1) by ring, abs_mul, abs_of_pos hs, mul_comm u,
    mul_le_mul_iff_right₀ hs] at h1
  obtain ⟨e1, e2⟩ := abs_le.1 h1
  rw [Fac, pow_one]
  exact ⟨by linarith, by nlinarith⟩

section
variable {F : LibArith} {u w : ℝ}

/-- **C82** for `c2`, large arguments: the absolute error is a few units of roundoff. -/
theorem c2_pos_rounded (h : LibModel F u w) (hu : u ≤ 1 / 1000) (hw : w ≤ 1 / 1000) {psi : ℝ} (hp : 1 < psi) :
    ∃ r, c2 F psi = .ok r ∧ |r - (1 - Real.cos (Real.sqrt psi)) / psi| ≤ 6 * u + w := by
  have hu0 := h.std.nonneg
  have hw0 := h.nonneg
  have hp0 : 0 < psi := by linarith
  refine ⟨F.rnd (F.rnd (1 - F.cos (F.root psi)) / psi), ?_, ?_⟩
  · rw [c2, if_pos hp, sqrt, if_pos hp0.le, ok_bind, div, pdiv_eq hp0.ne', ok_bind]
  · have hs := Real.sq_sqrt hp0.le
    have hs0 := Real.sqrt_nonneg psi
    have h1 := h.std.root psi hp0.le
    generalize Real.sqrt psi = s at *
    have hs1 : s ≤ psi := by nlinarith
    have h2 := Real.abs_cos_sub_cos_le (F.root psi) s
    have h3 := h.cos (F.root psi)
    have h3' : w * |Real.cos (F.root psi)| ≤ w * 1 := mul_le_mul_of_nonneg_left (Real.abs_cos_le_one _) hw0
    have h4 := h.std.rnd (1 - F.cos (F.root psi))
    have h5 := h.std.rnd (F.rnd (1 - F.cos (F.root psi)) / psi)
    have h6 := Real.neg_one_le_cos s
    have h7 := Real.cos_le_one s
    generalize F.cos (F.root psi) = c' at *
    generalize Real.cos (F.root psi) = c1 at *
    generalize Real.cos s = c at *
    have e1 : |c' - c| ≤ u * s + w := by
      have := abs_sub_le c' c1 c
      linarith
    have hus : 0 ≤ u * s := by positivity
    have hup : u * s ≤ u * psi := mul_le_mul_of_nonneg_left hs1 hu0
    have e2 : |1 - c'| ≤ 2 + (u * s + w) := by
      obtain ⟨a, b⟩ := abs_le.1 e1
      rw [abs_le]; constructor <;> linarith
    have e3 : u * |1 - c'| ≤ u * (2 + (u * s + w)) := mul_le_mul_of_nonneg_left e2 hu0
    generalize F.rnd (1 - c') = a' at *
    have e4 : |a' - (1 - c)| ≤ u * s + w + u * (2 + (u * s + w)) := by
      have := abs_sub_le a' (1 - c') (1 - c)
      rw [show 1 - c' - (1 - c) = -(c' - c) by ring, abs_neg] at this
      linarith
    have e5 : |a'| ≤ 2 + (u * s + w + u * (2 + (u * s + w))) := by
      obtain ⟨a, b⟩ := abs_le.1 e4
      rw [abs_le]; constructor <;> linarith
    have e6 := abs_sub_le (F.rnd (a' / psi)) (a' / psi) ((1 - c) / psi)
    rw [← sub_div, abs_div, abs_of_pos hp0] at e6
    rw [abs_div, abs_of_pos hp0] at h5
    refine e6.trans ((add_le_add_left h5 _).trans ?_)
    rw [← mul_div_assoc, ← add_div, div_le_iff₀ hp0]
    have e7 : u * |a'| ≤ u * (2 + (u * s + w + u * (2 + (u * s + w)))) := mul_le_mul_of_nonneg_left e5 hu0
    have k1 : u * (u * s) ≤ 1 / 1000 * (u * psi) := (mul_le_mul hu hup hus (by norm_num))
    have k2 : u * w ≤ 1 / 1000 * u := by nlinarith
    have k3 : u * (u * (u * s)) ≤ 1 / 1000 * (1 / 1000 * (u * psi)) := mul_le_mul hu k1 (by positivity) (by norm_num)
    have k4 : u * (u * w) ≤ 1 / 1000 * (1 / 1000 * u) := mul_le_mul hu k2 (by positivity) (by norm_num)
    have k5 : u * u ≤ 1 / 1000 * u := mul_le_mul_of_nonneg_right hu hu0
    have k6 : u ≤ u * psi := by nlinarith
    have k7 : w ≤ w * psi := by nlinarith
    linarith

/-- **C82** for `c3`, large arguments: the absolute error is a few units of roundoff. -/
theorem c3_pos_rounded (h : LibModel F u w) (hu : u ≤ 1 / 1000) (hw : w ≤ 1 / 1000) {psi : ℝ} (hp : 1 < psi) :
    ∃ r, c3 F psi = .ok r ∧
      |r - (Real.sqrt psi - Real.sin (Real.sqrt psi)) / (psi * Real.sqrt psi)| ≤ 11 * u + 2 * w := by
  have hu0 := h.std.nonneg
  have hu1 : u < 1 := by linarith
  have hw0 := h.nonneg
  have hp0 : 0 < psi := by linarith
  obtain ⟨f1, hf1, q1⟩ := root_fac h.std hu1 hp0
  have hs := Real.sq_sqrt hp0.le
  have hs0 := Real.sqrt_pos.2 hp0
  have h1 := h.std.root psi hp0.le
  have p : 0 < 1 - u := sub_pos.2 hu1
  have hf10 : 0 < f1 := p.trans_le (by simpa using hf1.1)
  obtain ⟨f2, hf2, q2⟩ := rnd_fac h.std hu1 (psi * F.root psi)
  have hf20 : 0 < f2 := p.trans_le (by simpa using hf2.1)
  obtain ⟨f3, hf3, q3⟩ := rnd_fac h.std hu1 (F.rnd (F.root psi - F.sin (F.root psi)) / F.rnd (psi * F.root psi))
  have hD : F.rnd (psi * F.root psi) ≠ 0 := by rw [q2, q1]; positivity
  refine ⟨_, by rw [c3, if_pos hp, sqrt, if_pos hp0.le, ok_bind, div, pdiv_eq hD, ok_bind], ?_⟩
  rw [q3, q2]
  have hf := ((hf1.mul hu1 hf2).inv hu1).mul hu1 hf3
  have hχ := hf.err hu0 (by norm_num; linarith)
  norm_num at hχ
  have h4 := h.std.rnd (F.root psi - F.sin (F.root psi))
  have h2 := Real.abs_sin_sub_sin_le (F.root psi) (Real.sqrt psi)
  have h3 := h.sin (F.root psi)
  have h3' : w * |Real.sin (F.root psi)| ≤ w * 1 := mul_le_mul_of_nonneg_left (Real.abs_sin_le_one _) hw0
  rw [show F.rnd (F.root psi - F.sin (F.root psi)) / (psi * F.root psi * f2) * f3 =
    F.rnd (F.root psi - F.sin (F.root psi)) / (psi * Real.sqrt psi) * ((f1 * f2)⁻¹ * f3) by rw [q1]; field_simp]
  have h6 := Real.neg_one_le_sin (Real.sqrt psi)
  have h7 := Real.sin_le_one (Real.sqrt psi)
  have hs1 : 1 ≤ Real.sqrt psi := by rw [Real.one_le_sqrt]; exact hp.le
  rw [show f2⁻¹ * f1⁻¹ * f3 = (f1 * f2)⁻¹ * f3 by rw [mul_inv]; ring] at hχ
  clear q1 q2 q3 hD
  generalize (f1 * f2)⁻¹ * f3 = χ at *
  generalize F.sin (F.root psi) = c' at *
  generalize Real.sin (F.root psi) = c1 at *
  generalize Real.sin (Real.sqrt psi) = c at *
  generalize F.root psi = s' at *
  generalize Real.sqrt psi = s at *
  have hus : 0 ≤ u * s := by positivity
  have e1 : |(s' - c') - (s - c)| ≤ 2 * (u * s) + w := by
    have a1 := abs_sub_le c' c1 c
    have a2 := abs_sub (s' - s) (c' - c)
    rw [show s' - s - (c' - c) = (s' - c') - (s - c) by ring] at a2
    linarith
  have e2 : |s' - c'| ≤ 2 * s + (2 * (u * s) + w) := by
    obtain ⟨a, b⟩ := abs_le.1 e1
    rw [abs_le]; constructor <;> linarith
  have e3 : u * |s' - c'| ≤ u * (2 * s + (2 * (u * s) + w)) := mul_le_mul_of_nonneg_left e2 hu0
  generalize F.rnd (s' - c') = a' at *
  have k1 : u * (u * s) ≤ 1 / 1000 * (u * s) := mul_le_mul_of_nonneg_right hu hus
  have k2 : u * w ≤ 1 / 1000 * (u * s) := by
    have : u * w ≤ u * (1 / 1000) := mul_le_mul_of_nonneg_left hw hu0
    have : u * 1 ≤ u * s := mul_le_mul_of_nonneg_left hs1 hu0
    linarith
  have k3 : w ≤ w * s := by nlinarith
  have e4 : |a' - (s - c)| ≤ (41 / 10 * u + w) * s := by
    have := abs_sub_le a' (s' - c') (s - c)
    linarith
  have e5 : |s - c| ≤ 2 * s := by rw [abs_le]; constructor <;> linarith
  have hD0 : 0 < psi * s := by positivity
  rw [show a' / (psi * s) * χ - (s - c) / (psi * s) = ((a' - (s - c)) * χ + (s - c) * (χ - 1)) / (psi * s) by field_simp; ring,
    abs_div, abs_of_pos hD0, div_le_iff₀ hD0]
  refine (abs_add_le _ _).trans ?_
  rw [abs_mul, abs_mul]
  have hχ1 : |χ| ≤ 101 / 100 := by
    obtain ⟨a, b⟩ := abs_le.1 hχ
    rw [abs_le]; constructor <;> linarith
  have j1 := mul_le_mul e4 hχ1 (abs_nonneg _) (by positivity)
  have j2 := mul_le_mul e5 hχ (abs_nonneg _) (by positivity)
  have j3 : u * s * 1 ≤ u * s * psi := mul_le_mul_of_nonneg_left hp.le hus
  have j4 : w * s * 1 ≤ w * s * psi := mul_le_mul_of_nonneg_left hp.le (by positivity)
  have j5 : 0 ≤ w * s * psi := by positivity
  nlinarith

/-- **C82** for `c2`, very negative arguments: the relative error is some units of roundoff times the square root of
the argument, on which the condition of the hyperbolic cosine depends. -/
theorem c2_neg_rounded (h : LibModel F u w) (hu : u ≤ 1 / 1000) (hw : w ≤ 1 / 1000) {psi : ℝ} (hp : psi < -1)
    (hs : u * Real.sqrt (-psi) ≤ 1 / 10) :
    ∃ r, c2 F psi = .ok r ∧ |r - (Real.cosh (Real.sqrt (-psi)) - 1) / -psi| ≤
      ((4 * Real.sqrt (-psi) + 3) * u + 4 * w) * ((Real.cosh (Real.sqrt (-psi)) - 1) / -psi) := by
  have hu0 := h.std.nonneg
  have hu1 : u < 1 := by linarith
  have hw0 := h.nonneg
  have hp0 : 0 < -psi := by linarith
  obtain ⟨f1, hf1, q1⟩ := rnd_fac h.std hu1 (F.cosh (F.root (-psi)) - 1)
  obtain ⟨f2, hf2, q2⟩ := rnd_fac h.std hu1 (F.rnd (F.cosh (F.root (-psi)) - 1) / -psi)
  refine ⟨_, by rw [c2, if_neg (by linarith), if_pos hp, sqrt, if_pos hp0.le, ok_bind, div, pdiv_eq hp0.ne', ok_bind], ?_⟩
  rw [q2, q1]
  have hχ := (hf1.mul hu1 hf2).err hu0 (by norm_num; linarith)
  norm_num at hχ
  have hs0 := Real.sqrt_pos.2 hp0
  have hs1 : 1 ≤ Real.sqrt (-psi) := by rw [Real.one_le_sqrt]; linarith
  have h1 := h.std.root (-psi) hp0.le
  have h2 := (hyp_near (Real.sqrt (-psi)) hs h1).1
  have h3 := h.cosh (F.root (-psi))
  have h4 := cosh_ge hs0
  generalize F.cosh (F.root (-psi)) = c' at *
  generalize Real.cosh (F.root (-psi)) = c1 at *
  generalize Real.cosh (Real.sqrt (-psi)) = c at *
  generalize F.root (-psi) = s' at *
  generalize Real.sqrt (-psi) = s at *
  rw [show (c' - 1) * f1 / -psi * f2 = (c' - 1) / -psi * (f1 * f2) by ring]
  generalize f1 * f2 = χ at *
  have hc : c ≤ 3 * (c - 1) := by nlinarith
  have hc0 : 0 < c := by nlinarith
  have hus : 0 ≤ u * s := by positivity
  have e0 : c1 ≤ 10 / 9 * c := by
    have a := (abs_le.1 h2).2
    have b := mul_le_mul_of_nonneg_right hs hc0.le
    linarith
  have e1 : |c' - c| ≤ (10 / 9 * (u * s) + 10 / 9 * w) * c := by
    have a1 := abs_sub_le c' c1 c
    have a2 := mul_le_mul_of_nonneg_left e0 hw0
    linarith
  have e2 : |c' - c| ≤ (10 / 3 * (u * s) + 10 / 3 * w) * (c - 1) := by
    have := mul_le_mul_of_nonneg_left hc (by positivity : 0 ≤ 10 / 9 * (u * s) + 10 / 9 * w)
    linarith
  have hc1 : 0 < c - 1 := by linarith
  rw [show (c' - 1) / -psi * χ - (c - 1) / -psi = ((c' - c) * χ + (c - 1) * (χ - 1)) / -psi by ring,
    abs_div, abs_of_pos hp0, ← mul_div_assoc]
  refine div_le_div_of_nonneg_right ?_ hp0.le
  refine (abs_add_le _ _).trans ?_
  rw [abs_mul, abs_mul, abs_of_pos hc1]
  have hχ1 : |χ| ≤ 101 / 100 := by
    obtain ⟨a, b⟩ := abs_le.1 hχ
    rw [abs_le]; constructor <;> linarith
  have j1 := mul_le_mul e2 hχ1 (abs_nonneg _) (by positivity)
  have j2 := mul_le_mul_of_nonneg_left hχ hc1.le
  have j3 : 0 ≤ u * s * (c - 1) := by positivity
  have j4 : 0 ≤ w * (c - 1) := by positivity
  have j5 : 0 ≤ u * (c - 1) := by positivity
  linarith

/-- **C82** for `c3`, very negative arguments. -/
theorem c3_neg_rounded (h : LibModel F u w) (hu : u ≤ 1 / 1000) (hw : w ≤ 1 / 1000) {psi : ℝ} (hp : psi < -1)
    (hs : u * Real.sqrt (-psi) ≤ 1 / 10) :
    ∃ r, c3 F psi = .ok r ∧
      |r - (Real.sinh (Real.sqrt (-psi)) - Real.sqrt (-psi)) / (-psi * Real.sqrt (-psi))| ≤
      (11 * (Real.sqrt (-psi) + 1) * u + 9 * w) *
        ((Real.sinh (Real.sqrt (-psi)) - Real.sqrt (-psi)) / (-psi * Real.sqrt (-psi))) := by
  have hu0 := h.std.nonneg
  have hu1 : u < 1 := by linarith
  have hw0 := h.nonneg
  have hp0 : 0 < -psi := by linarith
  have p : 0 < 1 - u := sub_pos.2 hu1
  have hs0 := Real.sqrt_pos.2 hp0
  obtain ⟨f0, hf0, q0⟩ := root_fac h.std hu1 hp0
  have hf00 : 0 < f0 := p.trans_le (by simpa using hf0.1)
  obtain ⟨f1, hf1, q1⟩ := rnd_fac h.std hu1 (F.sinh (F.root (-psi)) - F.root (-psi))
  obtain ⟨f2, hf2, q2⟩ := rnd_fac h.std hu1 (-psi * F.root (-psi))
  have hf20 : 0 < f2 := p.trans_le (by simpa using hf2.1)
  obtain ⟨f3, hf3, q3⟩ := rnd_fac h.std hu1 (F.rnd (F.sinh (F.root (-psi)) - F.root (-psi)) / F.rnd (-psi * F.root (-psi)))
  have hD : F.rnd (-psi * F.root (-psi)) ≠ 0 := by
    rw [q2, q0]; exact (mul_pos (mul_pos hp0 (mul_pos hs0 hf00)) hf20).ne'
  refine ⟨_, by rw [c3, if_neg (by linarith), if_pos hp, sqrt, if_pos hp0.le, ok_bind, div, pdiv_eq hD, ok_bind], ?_⟩
  rw [q3, q2, q1]
  have hχ := ((hf1.mul hu1 ((hf0.mul hu1 hf2).inv hu1)).mul hu1 hf3).err hu0 (by norm_num; linarith)
  norm_num at hχ
  have hs1 : 1 ≤ Real.sqrt (-psi) := by rw [Real.one_le_sqrt]; linarith
  have h1 := h.std.root (-psi) hp0.le
  have h2 := (hyp_near (Real.sqrt (-psi)) hs h1).2
  have h3 := h.sinh (F.root (-psi))
  have h4 := sinh_ge hs0
  have h5 := Real.cosh_sq (Real.sqrt (-psi))
  have h6 := Real.cosh_pos (Real.sqrt (-psi))
  rw [show (F.sinh (F.root (-psi)) - F.root (-psi)) * f1 / (-psi * F.root (-psi) * f2) * f3 =
    (F.sinh (F.root (-psi)) - F.root (-psi)) / (-psi * Real.sqrt (-psi)) * (f1 * (f0 * f2)⁻¹ * f3) by
      rw [show -psi * F.root (-psi) * f2 = (-psi * Real.sqrt (-psi)) * (f0 * f2) by rw [q0]; ring]
      simp only [div_eq_mul_inv, mul_inv]; ring]
  rw [show f1 * (f2⁻¹ * f0⁻¹) * f3 = f1 * (f0 * f2)⁻¹ * f3 by rw [mul_inv]; ring] at hχ
  clear q0 q1 q2 q3 hD
  generalize f1 * (f0 * f2)⁻¹ * f3 = χ at *
  generalize F.sinh (F.root (-psi)) = c' at *
  generalize Real.sinh (F.root (-psi)) = c1 at *
  generalize Real.sinh (Real.sqrt (-psi)) = c at *
  generalize Real.cosh (Real.sqrt (-psi)) = ch at *
  generalize F.root (-psi) = s' at *
  generalize Real.sqrt (-psi) = s at *
  have hs3 : s ≤ s ^ 3 := by nlinarith [mul_nonneg hs0.le (by nlinarith : 0 ≤ s ^ 2 - 1)]
  have hc7 : 7 / 6 ≤ c := by linarith
  have hch : ch ≤ 4 / 3 * c := by nlinarith
  have hca : c ≤ 7 * (c - s) := by linarith
  have hsa : s ≤ 6 * (c - s) := by linarith
  have hc0 : 0 < c := by linarith
  have hca0 : 0 < c - s := by linarith
  have hus : 0 ≤ u * s := by positivity
  have h2' : |c1 - c| ≤ 40 / 27 * (u * s) * c := by
    have := mul_le_mul_of_nonneg_left hch (by positivity : 0 ≤ 10 / 9 * (u * s))
    linarith
  have e0 : |c1| ≤ 6 / 5 * c := by
    have a := abs_le.1 h2'
    have b := mul_le_mul_of_nonneg_right hs hc0.le
    rw [abs_le]
    constructor <;> linarith [a.1, a.2]
  have e1 : |(c' - s') - (c - s)| ≤ (40 / 27 * (u * s) + 6 / 5 * w) * c + u * s := by
    have a1 := abs_sub_le c' c1 c
    have a2 := mul_le_mul_of_nonneg_left e0 hw0
    have a3 := abs_sub (c' - c) (s' - s)
    rw [show c' - c - (s' - s) = (c' - s') - (c - s) by ring] at a3
    linarith
  have e2 : |(c' - s') - (c - s)| ≤ (280 / 27 * (u * s) + 42 / 5 * w + 6 * u) * (c - s) := by
    have a1 := mul_le_mul_of_nonneg_left hca (by positivity : 0 ≤ 40 / 27 * (u * s) + 6 / 5 * w)
    have a2 := mul_le_mul_of_nonneg_left hsa hu0
    linarith
  have hD0 : 0 < -psi * s := mul_pos hp0 hs0
  rw [show (c' - s') / (-psi * s) * χ - (c - s) / (-psi * s) = (((c' - s') - (c - s)) * χ + (c - s) * (χ - 1)) / (-psi * s) by ring,
    abs_div, abs_of_pos hD0, ← mul_div_assoc]
  refine div_le_div_of_nonneg_right ?_ hD0.le
  refine (abs_add_le _ _).trans ?_
  rw [abs_mul, abs_mul, abs_of_pos hca0]
  have hχ1 : |χ| ≤ 101 / 100 := by
    obtain ⟨a, b⟩ := abs_le.1 hχ
    rw [abs_le]; constructor <;> linarith
  have j1 := mul_le_mul e2 hχ1 (abs_nonneg _) (by positivity)
  have j2 := mul_le_mul_of_nonneg_left hχ hca0.le
  have j3 : 0 ≤ u * s * (c - s) := by positivity
  have j4 : 0 ≤ w * (c - s) := by positivity
  have j5 : 0 ≤ u * (c - s) := by positivity
  linarith

end

/-! ## binary64 -/

/-- `c2` in binary64 for `|psi| ≤ 1`: at most seven units of roundoff from the real model. -/
theorem c2_binary64 {psi : ℝ} (hp : |psi| ≤ 1) :
    ∃ r C, c2 lib64 psi = .ok r ∧ Lamberthub.c2 psi = .ok C ∧ |r - C| ≤ 7 * 2⁻¹ ^ 53 := by
  obtain ⟨r, h1, h2⟩ := c2_loop_rounded lib64_model (by norm_num) (by norm_num) (N := 8) (by norm_num)
    (by norm_num [Nat.factorial]) hp (summable_stumpffTerm 2 psi).hasSum
  exact ⟨r, _, h1, c2_eq psi, h2.trans (by norm_num)⟩

/-- `c3` in binary64 for `|psi| ≤ 1`: at most three units of roundoff from the real model. -/
theorem c3_binary64 {psi : ℝ} (hp : |psi| ≤ 1) :
    ∃ r C, c3 lib64 psi = .ok r ∧ Lamberthub.c3 psi = .ok C ∧ |r - C| ≤ 3 * 2⁻¹ ^ 53 := by
  obtain ⟨r, h1, h2⟩ := c3_loop_rounded lib64_model (by norm_num) (by norm_num) (N := 8) (by norm_num)
    (by norm_num [Nat.factorial]) hp (summable_stumpffTerm 3 psi).hasSum
  exact ⟨r, _, h1, c3_eq psi, h2.trans (by norm_num)⟩

/-- `hyp2f1b` in binary64 where `izzo2015` uses it: at most 161 units of roundoff from the real model. -/
theorem hyp2f1b_binary64 {x : ℝ} (hx : |x| ≤ 41 / 100) :
    ∃ r C, hyp2f1b binary64 x = .ok r ∧ Lamberthub.Izzo.hyp2f1b x = .ok C ∧ |r - C| ≤ 161 * 2⁻¹ ^ 53 := by
  obtain ⟨a, b⟩ := abs_le.1 hx
  have h1 : binary64.rnd 1 = 1 := by
    have := rnd64_int (n := 1) (by norm_num)
    exact_mod_cast this
  have hs := (Izzo.summable_hypTerm (x := x) (by linarith)).hasSum
  have he : ∀ n, Izzo.hypTerm x n = (∏ k ∈ Finset.range n, (3 + k : ℝ) / (5 / 2 + k)) * x ^ n := by
    intro n
    induction n with
    | zero => simp [Izzo.hypTerm]
    | succ n ih =>
      rw [Izzo.hypTerm, ih, Finset.prod_range_succ]
      field_simp
      ring
  obtain ⟨r, h2, h3⟩ := hyp2f1b_rounded binary64_standard binary64_absorbs h1 (by norm_num) (N := 61) (by norm_num)
    (by norm_num) hx (by rw [← funext he]; exact hs)
  refine ⟨r, _, h2, ?_, h3.trans (by norm_num)⟩
  rw [Izzo.hyp2f1b, if_neg (by linarith), if_neg (by linarith)]

/-- The logarithm of `tlamb` in binary64: a relative error of at most 22 units of roundoff. -/
theorem logSeries_binary64 {f g : ℝ} (hf0 : 0 ≤ f) (hf : f ≤ 2 / 5) (hg : 0 ≤ g) (hfg : g ^ 2 = f ^ 2 + 1) :
    ∃ r, logSeries binary64 f g = .ok r ∧ |r - Real.log (f + g)| ≤ 22 * 2⁻¹ ^ 53 * Real.log (f + g) := by
  have hg1 : 1 ≤ g := by nlinarith
  have hw0 : 0 ≤ f / (g + 1) := by positivity
  have hw : f / (g + 1) ≤ 1 / 4 := by rw [div_le_iff₀ (by positivity)]; linarith
  obtain ⟨r, h1, h2⟩ := logSeries_rounded binary64_standard binary64_absorbs (by norm_num) (N := 14) (by norm_num)
    (by norm_num) hg (by rwa [abs_of_nonneg hw0] : |f / (g + 1)| ≤ 1 / 4)
  rw [abs_of_nonneg hw0] at h2
  have e : Real.log (1 + f / (g + 1)) - Real.log (1 - f / (g + 1)) = Real.log (f + g) := by
    rw [← Real.log_div (by positivity) (by linarith)]
    congr 1
    rw [div_eq_iff (by linarith)]
    field_simp
    linear_combination -hfg
  have hl : 2 * (f / (g + 1)) ≤ Real.log (f + g) := by
    have hs := Real.hasSum_log_sub_log_of_abs_lt_one (x := f / (g + 1)) (by rw [abs_of_nonneg hw0]; linarith)
    have := le_hasSum hs 0 fun k _ => by positivity
    rw [e] at this
    simpa using this
  refine ⟨r, h1, ?_⟩
  rw [e] at h2
  refine h2.trans ?_
  have := mul_le_mul_of_nonneg_left hl (by positivity : (0 : ℝ) ≤ (11 / 10 * ((14 : ℕ) : ℝ) + 6) * 2⁻¹ ^ 53)
  refine this.trans (mul_le_mul_of_nonneg_right (by norm_num) (by linarith))

/-- The loops end and return something near the functions at points where they have many passes. -/
example : (∃ r, c2 lib64 (9 / 10) = .ok r ∧ |r - stumpffSeries 2 (9 / 10)| ≤ 7 * 2⁻¹ ^ 53) ∧
    (∃ r, c3 lib64 (-1) = .ok r ∧ |r - stumpffSeries 3 (-1)| ≤ 3 * 2⁻¹ ^ 53) ∧
    (∃ r, hyp2f1b binary64 (2 / 5) = .ok r ∧ |r - Izzo.hypF (2 / 5)| ≤ 161 * 2⁻¹ ^ 53) ∧
    (∃ r, logSeries binary64 (5 / 13) (Real.sqrt ((5 / 13) ^ 2 + 1)) = .ok r) := by
  refine ⟨?_, ?_, ?_, ?_⟩
  · obtain ⟨r, C, h1, h2, h3⟩ := c2_binary64 (psi := 9 / 10) (by norm_num [abs_of_pos])
    rw [c2_eq, Except.ok.injEq] at h2
    exact ⟨r, h1, by rwa [h2]⟩
  · obtain ⟨r, C, h1, h2, h3⟩ := c3_binary64 (psi := -1) (by norm_num)
    rw [c3_eq, Except.ok.injEq] at h2
    exact ⟨r, h1, by rwa [h2]⟩
  · obtain ⟨r, C, h1, h2, h3⟩ := hyp2f1b_binary64 (x := 2 / 5) (by norm_num [abs_of_pos])
    rw [Izzo.hyp2f1b, if_neg (by norm_num), if_neg (by norm_num), Except.ok.injEq] at h2
    exact ⟨r, h1, by rwa [Izzo.hypF, h2]⟩
  · obtain ⟨r, h1, -⟩ := logSeries_binary64 (f := 5 / 13) (g := Real.sqrt ((5 / 13) ^ 2 + 1)) (by norm_num) (by norm_num)
      (Real.sqrt_nonneg _) (Real.sq_sqrt (by norm_num))
    exact ⟨r, h1⟩

/-- The direct formulas of `c2` and `c3` on both sides, in binary64. -/
example : (∃ r, c2 lib64 4 = .ok r ∧ |r - (1 - Real.cos (Real.sqrt 4)) / 4| ≤ 7 * 2⁻¹ ^ 53) ∧
    (∃ r, c3 lib64 (-4) = .ok r ∧ |r - (Real.sinh 2 - 2) / 8| ≤ 42 * 2⁻¹ ^ 53 * ((Real.sinh 2 - 2) / 8)) := by
  constructor
  · obtain ⟨r, h1, h2⟩ := c2_pos_rounded lib64_model (by norm_num) (by norm_num) (psi := 4) (by norm_num)
    exact ⟨r, h1, by linarith⟩
  · have e : Real.sqrt (-(-4)) = 2 := by
      rw [neg_neg, show (4 : ℝ) = 2 ^ 2 by norm_num, Real.sqrt_sq (by norm_num)]
    obtain ⟨r, h1, h2⟩ := c3_neg_rounded lib64_model (by norm_num) (by norm_num) (psi := -4) (by norm_num) (by rw [e]; norm_num)
    rw [e] at h2
    norm_num at h2 ⊢
    exact ⟨r, h1, h2⟩

end Rounded
end Lamberthub
