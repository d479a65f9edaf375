import Verif.Props.Rounding

/-!
# C65: binary64 follows the standard model; failures of the computed transfer angle
-/

set_option autoImplicit false

namespace Lamberthub
open Spec

namespace Rounded

theorem nearest_err (y : ℝ) : |(nearest y : ℝ) - y| ≤ 1 / 2 := by
  have h1 := Int.floor_le y
  have h2 := Int.lt_floor_add_one y
  unfold nearest
  split
  · rw [abs_le]; constructor <;> linarith
  · split
    · push_cast; rw [abs_le]; constructor <;> linarith
    · split
      · rw [abs_le]; constructor <;> linarith
      · push_cast; rw [abs_le]; constructor <;> linarith

theorem nearest_eq {y : ℝ} {m : ℤ} (h : |y - m| < 1 / 2) : nearest y = m := by
  have h1 := nearest_err y
  have h2 : |((nearest y - m : ℤ) : ℝ)| < 1 := by
    push_cast
    have := abs_sub_le (nearest y : ℝ) y m
    linarith
  have h3 : |nearest y - m| < 1 := by exact_mod_cast h2
  have := Int.abs_lt_one_iff.1 h3
  linarith

theorem ulp_pos (x : ℝ) : 0 < ulp x := by unfold ulp; positivity

theorem ulp_le {x : ℝ} (hx : x ≠ 0) : ulp x ≤ (2 : ℝ) ^ (-52 : ℤ) * |x| := by
  have h := Int.zpow_log_le_self (b := 2) one_lt_two (abs_pos.2 hx)
  unfold ulp
  rw [sub_eq_add_neg, zpow_add₀ two_ne_zero, mul_comm]
  exact mul_le_mul_of_nonneg_left (by exact_mod_cast h) (by positivity)

/-- **C65**: rounding to binary64 has a relative error of at most `2^-53`. -/
theorem rnd64_err (x : ℝ) : |rnd64 x - x| ≤ 2⁻¹ ^ 53 * |x| := by
  rcases eq_or_ne x 0 with rfl | hx
  · have : nearest 0 = 0 := nearest_eq (by norm_num)
    simp [rnd64, this]
  · have hp := ulp_pos x
    have h1 : rnd64 x - x = (nearest (x / ulp x) - x / ulp x) * ulp x := by
      unfold rnd64
      rw [sub_mul, div_mul_cancel₀ _ hp.ne']
    rw [h1, abs_mul, abs_of_pos hp]
    have h2 := nearest_err (x / ulp x)
    have h3 := ulp_le hx
    have h4 : (2 : ℝ)⁻¹ ^ 53 = 1 / 2 * 2 ^ (-52 : ℤ) := by norm_num
    rw [h4, mul_assoc]
    exact mul_le_mul h2 h3 hp.le (by norm_num)

theorem binary64_standard : StandardModel binary64 (2⁻¹ ^ 53) where
  nonneg := by positivity
  rnd x := rnd64_err x
  root x _ := by
    have := rnd64_err (Real.sqrt x)
    rwa [abs_of_nonneg (Real.sqrt_nonneg x)] at this
  acos x _ _ := by
    have := rnd64_err (Real.arccos x)
    rwa [abs_of_nonneg (Real.arccos_nonneg x)] at this
  pi := by
    have := rnd64_err Real.pi
    rwa [abs_of_pos Real.pi_pos] at this

/-- The value of the rounding from an enclosure. -/
theorem rnd64_eq {x : ℝ} {m e : ℤ} (h1 : (2 : ℝ) ^ (e + 52) ≤ x) (h2 : x < (2 : ℝ) ^ (e + 53))
    (h3 : |x - m * 2 ^ e| < 2 ^ e / 2) : rnd64 x = m * 2 ^ e := by
  have hx : 0 < x := lt_of_lt_of_le (by positivity) h1
  have hl : Int.log 2 |x| = e + 52 := by
    rw [abs_of_pos hx]
    apply le_antisymm
    · have := (Int.lt_zpow_iff_log_lt (b := 2) one_lt_two hx (x := e + 53)).1 (by exact_mod_cast h2)
      linarith
    · exact (Int.zpow_le_iff_le_log (b := 2) one_lt_two hx).1 (by exact_mod_cast h1)
  have hu : ulp x = 2 ^ e := by rw [ulp, hl]; congr 1; ring
  have hp : (0 : ℝ) < 2 ^ e := by positivity
  have hn : nearest (x / 2 ^ e) = m := by
    apply nearest_eq
    rw [show x / 2 ^ e - m = (x - m * 2 ^ e) / 2 ^ e by field_simp, abs_div, abs_of_pos hp, div_lt_iff₀ hp]
    linarith
  rw [rnd64, hu, hn]

/-- The integers below `2^53` are exact. -/
theorem rnd64_int {n : ℤ} (h : |n| < 2 ^ 53) : rnd64 n = n := by
  rcases eq_or_ne n 0 with rfl | hn
  · have : nearest 0 = 0 := nearest_eq (by norm_num)
    simp [rnd64, this]
  · have hx : 0 < |(n : ℝ)| := abs_pos.2 (by exact_mod_cast hn)
    have hl0 : Int.log 2 |(n : ℝ)| < 53 := by
      refine (Int.lt_zpow_iff_log_lt (b := 2) one_lt_two hx).1 ?_
      have : |(n : ℝ)| < 2 ^ 53 := by exact_mod_cast h
      exact_mod_cast this
    obtain ⟨k, hk⟩ : ∃ k : ℕ, Int.log 2 |(n : ℝ)| - 52 = -(k : ℤ) :=
      ⟨(52 - Int.log 2 |(n : ℝ)|).toNat, by omega⟩
    have hu : ulp n = (2 ^ k)⁻¹ := by rw [ulp, hk, zpow_neg, zpow_natCast]
    have hp : (2 : ℝ) ^ k ≠ 0 := by positivity
    have hn : nearest ((n : ℝ) / (2 ^ k)⁻¹) = n * 2 ^ k := by
      apply nearest_eq
      push_cast
      rw [div_inv_eq_mul, sub_self]
      norm_num
    rw [rnd64, hu, hn]
    push_cast
    field_simp

/-- **C65**: no exception but near alignment. -/
theorem angle_defined {F : Arith} {u : ℝ} (h : StandardModel F u) (hu1 : u ≤ 1 / 1000) {r1 r2 : V3} (h1 : r1 ≠ 0)
    (h2 : r2 ≠ 0) (pro : Bool) (hcos : |inner r1 r2| ≤ (1 - 12 * u) * (len r1 * len r2)) :
    ∃ θ, getTransferAngle F r1 r2 pro = .ok θ := by
  have hu := h.nonneg
  by_cases hc0 : cross F r1 r2 = 0
  · simp only [getTransferAngle, if_pos hc0]
    split <;> exact ⟨_, rfl⟩
  have hcn : 0 < norm F (cross F r1 r2) := by
    have h1 := norm_error h hu1 (cross F r1 r2)
    have h2 : 0 < len (cross F r1 r2) := by rw [len_eq_norm]; exact norm_pos_iff.2 hc0
    rw [abs_le] at h1
    nlinarith
  obtain ⟨w, hw, -, -⟩ := alpha_sign h hu1 (c := cross F r1 r2) hcn
  obtain ⟨q, hq, hqe⟩ := cosine_error h hu1 h1 h2
  have hA : 0 < len r1 := by rw [len_eq_norm]; exact norm_pos_iff.2 h1
  have hB : 0 < len r2 := by rw [len_eq_norm]; exact norm_pos_iff.2 h2
  have hN : 0 < len r1 * len r2 := mul_pos hA hB
  have hcos' : |inner r1 r2 / (len r1 * len r2)| ≤ 1 - 12 * u := by
    rw [abs_div, abs_of_pos hN]
    exact (div_le_iff₀ hN).2 hcos
  rw [abs_le] at hcos' hqe
  have hqb : -1 ≤ q ∧ q ≤ 1 := by constructor <;> linarith
  simp only [getTransferAngle, if_neg hc0, hw, ok_bind, hq, acos, if_pos hqb]
  split <;> split <;> exact ⟨_, rfl⟩

/-- Scalar products of small integers are exact. -/
theorem dot64_int {a b c d e f : ℤ} (h1 : |a * d| < 2 ^ 53) (h2 : |b * e| < 2 ^ 53) (h3 : |c * f| < 2 ^ 53)
    (h4 : |a * d + b * e| < 2 ^ 53) (h5 : |a * d + b * e + c * f| < 2 ^ 53) :
    dot binary64 ⟨a, b, c⟩ ⟨d, e, f⟩ = (a * d + b * e + c * f : ℤ) := by
  have g1 := rnd64_int h1
  have g2 := rnd64_int h2
  have g3 := rnd64_int h3
  have g4 := rnd64_int h4
  have g5 := rnd64_int h5
  push_cast at g1 g2 g3 g4 g5 ⊢
  simp only [dot, binary64, g1, g2, g3, g4, g5]

/-- Vector products of small integers in the reference plane are exact. -/
theorem cross64_int {a b d e : ℤ} (h1 : |a * e| < 2 ^ 53) (h2 : |b * d| < 2 ^ 53) (h3 : |a * e - b * d| < 2 ^ 53) :
    cross binary64 ⟨a, b, 0⟩ ⟨d, e, 0⟩ = ⟨0, 0, (a * e - b * d : ℤ)⟩ := by
  have g1 := rnd64_int h1
  have g2 := rnd64_int h2
  have g3 := rnd64_int h3
  have g0 : rnd64 0 = 0 := rnd_zero binary64_standard
  push_cast at g1 g2 g3 ⊢
  simp only [cross, binary64, g1, g2, g3, g0, mul_zero, zero_mul, sub_self]

/-- **C65, finding**: for two positions that are not aligned the computed cosine exceeds one, and the transfer angle is
not a number. -/
theorem angle_undefined (pro : Bool) :
    NotAligned ⟨8591, 1, 0⟩ ⟨8592, 1, 0⟩ ∧
      getTransferAngle binary64 ⟨8591, 1, 0⟩ ⟨8592, 1, 0⟩ pro = .error .undefined := by
  refine ⟨by norm_num [NotAligned], ?_⟩
  have hdot : dot binary64 ⟨8591, 1, 0⟩ ⟨8592, 1, 0⟩ = 73813873 := by
    have := dot64_int (a := 8591) (b := 1) (c := 0) (d := 8592) (e := 1) (f := 0) (by norm_num) (by norm_num) (by norm_num)
      (by norm_num) (by norm_num)
    norm_num at this
    exact this
  have hd1 : dot binary64 ⟨8591, 1, 0⟩ ⟨8591, 1, 0⟩ = 73805282 := by
    have := dot64_int (a := 8591) (b := 1) (c := 0) (d := 8591) (e := 1) (f := 0) (by norm_num) (by norm_num) (by norm_num)
      (by norm_num) (by norm_num)
    norm_num at this
    exact this
  have hd2 : dot binary64 ⟨8592, 1, 0⟩ ⟨8592, 1, 0⟩ = 73822465 := by
    have := dot64_int (a := 8592) (b := 1) (c := 0) (d := 8592) (e := 1) (f := 0) (by norm_num) (by norm_num) (by norm_num)
      (by norm_num) (by norm_num)
    norm_num at this
    exact this
  have hroot : ∀ (N : ℝ) (m : ℤ), (0 : ℝ) ≤ 2 * m - 1 → (2 : ℝ) ^ (13 * 2) ≤ N → N < 2 ^ (14 * 2) →
      ((2 * m - 1 : ℝ) / 2 ^ 40) ^ 2 < N → N < ((2 * m + 1 : ℝ) / 2 ^ 40) ^ 2 →
      binary64.root N = m * 2 ^ (-39 : ℤ) := by
    intro N m hm h1 h2 h3 h4
    have k1 : (2 : ℝ) ^ 13 ≤ Real.sqrt N := Real.le_sqrt_of_sq_le (by rw [← pow_mul]; exact h1)
    have k2 : Real.sqrt N < 2 ^ 14 := (Real.sqrt_lt' (by positivity)).2 (by rw [← pow_mul]; exact h2)
    have k3 : (2 * m - 1 : ℝ) / 2 ^ 40 < Real.sqrt N := Real.lt_sqrt_of_sq_lt h3
    have k4 : Real.sqrt N < (2 * m + 1 : ℝ) / 2 ^ 40 := (Real.sqrt_lt' (by apply div_pos <;> [linarith; positivity])).2 h4
    refine rnd64_eq (by norm_num at k1 ⊢; exact k1) (by norm_num at k2 ⊢; exact k2) ?_
    norm_num at k3 k4 ⊢
    rw [abs_lt]
    constructor <;> linarith
  have hn1 : norm binary64 ⟨8591, 1, 0⟩ = 4722952229107839 * 2 ^ (-39 : ℤ) := by
    rw [norm, hd1]
    exact_mod_cast hroot 73805282 4722952229107839 (by norm_num) (by norm_num) (by norm_num) (by norm_num) (by norm_num)
  have hn2 : norm binary64 ⟨8592, 1, 0⟩ = 4723501984918003 * 2 ^ (-39 : ℤ) := by
    rw [norm, hd2]
    exact_mod_cast hroot 73822465 4723501984918003 (by norm_num) (by norm_num) (by norm_num) (by norm_num) (by norm_num)
  have hprod : binary64.rnd (norm binary64 ⟨8591, 1, 0⟩ * norm binary64 ⟨8592, 1, 0⟩) =
      4953565164470271 * 2 ^ (-26 : ℤ) := by
    rw [hn1, hn2]
    exact_mod_cast rnd64_eq (m := 4953565164470271) (e := -26) (by norm_num) (by norm_num)
      (by rw [abs_lt]; constructor <;> norm_num)
  have hq : div binary64 (dot binary64 ⟨8591, 1, 0⟩ ⟨8592, 1, 0⟩)
      (binary64.rnd (norm binary64 ⟨8591, 1, 0⟩ * norm binary64 ⟨8592, 1, 0⟩)) =
      .ok (4503599627370497 * 2 ^ (-52 : ℤ)) := by
    rw [hprod, hdot, div, pdiv, if_neg (by norm_num), ok_bind]
    congr 1
    exact_mod_cast rnd64_eq (m := 4503599627370497) (e := -52) (by norm_num) (by norm_num)
      (by rw [abs_lt]; constructor <;> norm_num)
  have hcr : cross binary64 ⟨8591, 1, 0⟩ ⟨8592, 1, 0⟩ = ⟨0, 0, -1⟩ := by
    have := cross64_int (a := 8591) (b := 1) (d := 8592) (e := 1) (by norm_num) (by norm_num) (by norm_num)
    norm_num at this
    exact this
  have hc0 : (⟨0, 0, -1⟩ : V3) ≠ 0 := by
    intro h
    have := congrArg V3.z h
    norm_num at this
  have hcn : 0 < norm binary64 ⟨0, 0, -1⟩ := by
    have h1 := norm_error binary64_standard (by norm_num) (⟨0, 0, -1⟩ : V3)
    have h2 : 0 < len (⟨0, 0, -1⟩ : V3) := by rw [len_eq_norm]; exact norm_pos_iff.2 hc0
    rw [abs_le] at h1
    nlinarith
  obtain ⟨w, hw, -, -⟩ := alpha_sign binary64_standard (by norm_num) (c := ⟨0, 0, -1⟩) hcn
  have hc0' : cross binary64 ⟨8591, 1, 0⟩ ⟨8592, 1, 0⟩ ≠ 0 := hcr ▸ hc0
  simp only [getTransferAngle, if_neg hc0', hcr, hw, ok_bind, hq, acos]
  rw [if_neg (by norm_num)]
  rfl

/-- **C65, finding**: two positions that are not aligned are judged aligned. -/
theorem angle_judged_aligned (pro : Bool) :
    NotAligned ⟨2 ^ 28 + 1, 2 ^ 28, 0⟩ ⟨2 ^ 28, 2 ^ 28 - 1, 0⟩ ∧
      getTransferAngle binary64 ⟨2 ^ 28 + 1, 2 ^ 28, 0⟩ ⟨2 ^ 28, 2 ^ 28 - 1, 0⟩ pro = .ok 0 := by
  refine ⟨by norm_num [NotAligned], ?_⟩
  have hcr : cross binary64 ⟨2 ^ 28 + 1, 2 ^ 28, 0⟩ ⟨2 ^ 28, 2 ^ 28 - 1, 0⟩ = 0 := by
    have h1 : binary64.rnd ((2 ^ 28 + 1) * (2 ^ 28 - 1)) = 2 ^ 56 := by
      have := rnd64_eq (x := (2 ^ 28 + 1) * (2 ^ 28 - 1)) (m := 2 ^ 53) (e := 3) (by norm_num) (by norm_num)
        (by norm_num)
      rw [show binary64.rnd = rnd64 from rfl, this]
      norm_num
    have h2 : binary64.rnd (2 ^ 28 * 2 ^ 28) = 2 ^ 56 := by
      have := rnd64_eq (x := 2 ^ 28 * 2 ^ 28) (m := 2 ^ 52) (e := 4) (by norm_num) (by norm_num) (by norm_num)
      rw [show binary64.rnd = rnd64 from rfl, this]
      norm_num
    simp only [cross, h1, h2, mul_zero, zero_mul, rnd_zero binary64_standard, sub_self]
    rfl
  rw [getTransferAngle, hcr]
  have : sameSigns ⟨2 ^ 28 + 1, 2 ^ 28, 0⟩ ⟨2 ^ 28, 2 ^ 28 - 1, 0⟩ := by
    refine ⟨?_, ?_, rfl⟩
    · rw [sign_pos (by norm_num), sign_pos (by norm_num)]
    · rw [sign_pos (by norm_num), sign_pos (by norm_num)]
  simp [this]

/-- **C65.** For positions that are exactly aligned the rounded angle is zero or the rounded `π`: no rounding error can
make them look unaligned, whatever the arithmetic. -/
theorem angle_aligned {F : Arith} {u : ℝ} (hF : StandardModel F u) {r1 : V3} {k : ℝ} (h1 : r1 ≠ 0) (hk : k ≠ 0)
    (pro : Bool) : getTransferAngle F r1 (k • r1) pro = .ok (if 0 < k then 0 else F.pi) := by
  have hc : cross F r1 (k • r1) = 0 := by
    have e1 : r1.y * (k * r1.z) = r1.z * (k * r1.y) := by ring
    have e2 : r1.z * (k * r1.x) = r1.x * (k * r1.z) := by ring
    have e3 : r1.x * (k * r1.y) = r1.y * (k * r1.x) := by ring
    simp only [cross, V3.smul_x, V3.smul_y, V3.smul_z, e1, e2, e3, sub_self, rnd_zero hF]
    rfl
  unfold getTransferAngle
  simp only [hc, if_true, sameSigns_smul h1 hk]
  split <;> rfl

/-- Both cases of `angle_aligned` in binary64. -/
example (pro : Bool) : getTransferAngle binary64 ⟨1, 3, 7⟩ ((1 / 3 : ℝ) • ⟨1, 3, 7⟩) pro = .ok 0 ∧
    getTransferAngle binary64 ⟨1, 3, 7⟩ ((-1 / 3 : ℝ) • ⟨1, 3, 7⟩) pro = .ok (rnd64 Real.pi) := by
  have h : (⟨1, 3, 7⟩ : V3) ≠ 0 := fun h => by
    have := congrArg V3.x h
    norm_num at this
  constructor
  · rw [angle_aligned binary64_standard h (by norm_num), if_pos (by norm_num)]
  · rw [angle_aligned binary64_standard h (by norm_num), if_neg (by norm_num)]
    rfl

/-- The angle is reflected when the third component of the rounded cross product vanishes, in either sense. -/
theorem reflex_of_zero {r1 r2 : V3} (pro : Bool) (hc0 : cross binary64 r1 r2 ≠ 0) (hcz : (cross binary64 r1 r2).z = 0)
    (hna : NotAligned r1 r2) (hsw : ShortWay pro r1 r2) (hin : 0 ≤ inner r1 r2)
    (hlen : inner r1 r2 ≤ 9 / 10 * (len r1 * len r2)) (hr1 : r1 ≠ 0) (hr2 : r2 ≠ 0) :
    ∃ θ θ', Lamberthub.getTransferAngle r1 r2 pro = .ok θ ∧ θ < Real.pi ∧
      getTransferAngle binary64 r1 r2 pro = .ok θ' ∧ Real.pi < θ' := by
  have hpi := Real.pi_pos
  have hS := binary64_standard
  have hu1 : (2⁻¹ : ℝ) ^ 53 ≤ 1 / 1000 := by norm_num
  have hex := transferAngle_eq hna pro
  have hlt := theta0_lt_pi hna
  rw [if_pos hsw] at hex
  have hcn : 0 < norm binary64 (cross binary64 r1 r2) := by
    have h1 := norm_error hS hu1 (cross binary64 r1 r2)
    have h2 : 0 < len (cross binary64 r1 r2) := by rw [len_eq_norm]; exact norm_pos_iff.2 hc0
    rw [abs_le] at h1
    nlinarith
  obtain ⟨q, hq, hqe⟩ := cosine_error hS hu1 hr1 hr2
  have hA : 0 < len r1 := by rw [len_eq_norm]; exact norm_pos_iff.2 hr1
  have hB : 0 < len r2 := by rw [len_eq_norm]; exact norm_pos_iff.2 hr2
  have hN : 0 < len r1 * len r2 := mul_pos hA hB
  have hc1 : inner r1 r2 / (len r1 * len r2) ≤ 9 / 10 := by rw [div_le_iff₀ hN]; exact hlen
  have hc2 : 0 ≤ inner r1 r2 / (len r1 * len r2) := div_nonneg hin hN.le
  generalize inner r1 r2 / (len r1 * len r2) = c at *
  have hqe' := abs_le.1 hqe
  have hqb : -1 ≤ q ∧ q ≤ 1 := by
    norm_num at hqe'
    constructor <;> linarith
  have run : getTransferAngle binary64 r1 r2 pro =
      .ok (binary64.rnd (binary64.rnd (2 * binary64.pi) - binary64.acos q)) := by
    have hal : ∀ w, vdiv binary64 (cross binary64 r1 r2) (norm binary64 (cross binary64 r1 r2)) = .ok w →
        dot binary64 kAxis w = 0 := by
      intro w hw
      simp only [vdiv, div, pdiv, if_neg hcn.ne', ok_bind, hcz, zero_div, rnd_zero hS] at hw
      cases hw
      simp [dot, kAxis, rnd_zero hS]
    obtain ⟨w, hw, -, -⟩ := alpha_sign hS hu1 (c := cross binary64 r1 r2) hcn
    cases pro <;> simp [getTransferAngle, if_neg hc0, hw, ok_bind, hq, acos, if_pos hqb, hal w hw]
  refine ⟨_, _, hex, hlt, run, ?_⟩
  have e1 := reflex_error hS hu1 hqb.1 hqb.2 c
  have e2 := arccos_holder hqb.1 hqb.2 (by linarith : -1 ≤ c) (by linarith)
  have e3 : Real.sqrt (|q - c| / 2) ≤ 1 / 100 := by
    refine Real.sqrt_le_iff.2 ⟨by norm_num, ?_⟩
    norm_num at hqe ⊢
    linarith
  have e4 : Real.arccos c ≤ Real.pi / 2 := Real.arccos_le_pi_div_two.2 hc2
  have e5 := (abs_le.1 e1).1
  have e6 : 8 * Real.pi * 2⁻¹ ^ 53 ≤ Real.pi / 100 := by norm_num; linarith
  have e7 := mul_le_mul_of_nonneg_left e3 hpi.le
  linarith

/-- The two products whose difference is lost. -/
theorem lost_difference : binary64.rnd ((2 ^ 28 + 1) * (2 ^ 28 - 1)) = 2 ^ 56 ∧ binary64.rnd (2 ^ 28 * 2 ^ 28) = 2 ^ 56 := by
  constructor
  · have := rnd64_eq (x := (2 ^ 28 + 1) * (2 ^ 28 - 1)) (m := 2 ^ 53) (e := 3) (by norm_num) (by norm_num)
      (by norm_num)
    rw [show binary64.rnd = rnd64 from rfl, this]
    norm_num
  · have := rnd64_eq (x := 2 ^ 28 * 2 ^ 28) (m := 2 ^ 52) (e := 4) (by norm_num) (by norm_num) (by norm_num)
    rw [show binary64.rnd = rnd64 from rfl, this]
    norm_num

theorem lost_length : 0 ≤ inner ⟨2 ^ 28 + 1, 2 ^ 28, 0⟩ ⟨2 ^ 28, 2 ^ 28 - 1, 2 ^ 28⟩ ∧
    inner ⟨2 ^ 28 + 1, 2 ^ 28, 0⟩ ⟨2 ^ 28, 2 ^ 28 - 1, 2 ^ 28⟩ ≤
      9 / 10 * (len ⟨2 ^ 28 + 1, 2 ^ 28, 0⟩ * len ⟨2 ^ 28, 2 ^ 28 - 1, 2 ^ 28⟩) := by
  have hin : inner ⟨2 ^ 28 + 1, 2 ^ 28, 0⟩ ⟨2 ^ 28, 2 ^ 28 - 1, 2 ^ 28⟩ = 2 ^ 57 := by norm_num [inner]
  rw [hin]
  refine ⟨by norm_num, ?_⟩
  have h0 : 0 ≤ len ⟨2 ^ 28 + 1, 2 ^ 28, 0⟩ * len ⟨2 ^ 28, 2 ^ 28 - 1, 2 ^ 28⟩ :=
    mul_nonneg (Real.sqrt_nonneg _) (Real.sqrt_nonneg _)
  refine abs_le_of_sq_le_sq' ?_ (by positivity) |>.2
  rw [mul_pow, mul_pow, len, len, Real.sq_sqrt (by positivity), Real.sq_sqrt (by positivity)]
  norm_num

/-- **C65, finding**: for two positions at a large angle the computed transfer angle of a retrograde motion belongs to
the opposite sense. -/
theorem angle_wrong_sense :
    ∃ θ θ', Lamberthub.getTransferAngle ⟨2 ^ 28 + 1, 2 ^ 28, 0⟩ ⟨2 ^ 28, 2 ^ 28 - 1, 2 ^ 28⟩ false = .ok θ ∧
      θ < Real.pi ∧
      getTransferAngle binary64 ⟨2 ^ 28 + 1, 2 ^ 28, 0⟩ ⟨2 ^ 28, 2 ^ 28 - 1, 2 ^ 28⟩ false = .ok θ' ∧
      Real.pi < θ' := by
  have hS := binary64_standard
  have hu1 : (2⁻¹ : ℝ) ^ 53 ≤ 1 / 1000 := by norm_num
  have hcx : 0 < (cross binary64 ⟨2 ^ 28 + 1, 2 ^ 28, 0⟩ ⟨2 ^ 28, 2 ^ 28 - 1, 2 ^ 28⟩).x := by
    simp only [cross, zero_mul, rnd_zero hS, sub_zero]
    exact rnd_pos hS hu1 (rnd_pos hS hu1 (by norm_num))
  refine reflex_of_zero false (fun h => ?_) ?_ (by norm_num [NotAligned]) (by norm_num [ShortWay, crossZ])
    lost_length.1 lost_length.2 (fun h => ?_) (fun h => ?_)
  · rw [h] at hcx
    exact lt_irrefl _ hcx
  · simp only [cross, lost_difference.1, lost_difference.2, sub_self, rnd_zero hS]
  · have := congrArg V3.y h
    norm_num at this
  · have := congrArg V3.x h
    norm_num at this

/-- **C65, finding**: the same with the positions exchanged, for a prograde motion. -/
theorem angle_wrong_sense_prograde :
    ∃ θ θ', Lamberthub.getTransferAngle ⟨2 ^ 28, 2 ^ 28 - 1, 2 ^ 28⟩ ⟨2 ^ 28 + 1, 2 ^ 28, 0⟩ true = .ok θ ∧
      θ < Real.pi ∧
      getTransferAngle binary64 ⟨2 ^ 28, 2 ^ 28 - 1, 2 ^ 28⟩ ⟨2 ^ 28 + 1, 2 ^ 28, 0⟩ true = .ok θ' ∧
      Real.pi < θ' := by
  have hS := binary64_standard
  have hu1 : (2⁻¹ : ℝ) ^ 53 ≤ 1 / 1000 := by norm_num
  have hcx : 0 < (cross binary64 ⟨2 ^ 28, 2 ^ 28 - 1, 2 ^ 28⟩ ⟨2 ^ 28 + 1, 2 ^ 28, 0⟩).y := by
    simp only [cross, mul_zero, rnd_zero hS, sub_zero]
    exact rnd_pos hS hu1 (rnd_pos hS hu1 (by norm_num))
  have hl := lost_length
  have hcomm : ∀ a b : V3, inner a b = inner b a := fun a b => by
    simp only [inner]
    ring
  rw [hcomm, mul_comm (len _)] at hl
  refine reflex_of_zero true (fun h => ?_) ?_ (by norm_num [NotAligned]) (by norm_num [ShortWay, crossZ])
    hl.1 hl.2 (fun h => ?_) (fun h => ?_)
  · rw [h] at hcx
    exact lt_irrefl _ hcx
  · simp only [cross, mul_comm (2 ^ 28 - 1 : ℝ) (2 ^ 28 + 1), lost_difference.1, lost_difference.2, sub_self,
      rnd_zero hS]
  · have := congrArg V3.x h
    norm_num at this
  · have := congrArg V3.y h
    norm_num at this

/-- The hypotheses of `angle_error` and `angle_defined` for a quarter turn in binary64. -/
example (pro : Bool) : ∃ θ θ', Lamberthub.getTransferAngle ⟨3, 4, 0⟩ ⟨-4, 3, 1⟩ pro = .ok θ ∧
    getTransferAngle binary64 ⟨3, 4, 0⟩ ⟨-4, 3, 1⟩ pro = .ok θ' ∧
    |θ' - θ| * |Real.sin θ| ≤ 20 * Real.pi * 2⁻¹ ^ 53 := by
  have h1 : len ⟨3, 4, 0⟩ * len ⟨-4, 3, 1⟩ ≤ 40 := by
    have h0 : len ⟨3, 4, 0⟩ = 5 := by
      rw [len, show (3 : ℝ) ^ 2 + 4 ^ 2 + 0 ^ 2 = 5 ^ 2 by norm_num, Real.sqrt_sq (by norm_num)]
    have h2 : len ⟨-4, 3, 1⟩ ≤ 8 := Real.sqrt_le_iff.2 ⟨by norm_num, by norm_num⟩
    rw [h0]
    linarith
  have h0 : 0 ≤ len ⟨3, 4, 0⟩ * len ⟨-4, 3, 1⟩ := mul_nonneg (Real.sqrt_nonneg _) (Real.sqrt_nonneg _)
  obtain ⟨θ, θ', a, b, c, -⟩ := angle_error binary64_standard (by norm_num) (r1 := ⟨3, 4, 0⟩) (r2 := ⟨-4, 3, 1⟩) pro
    (by
      rw [show inner ⟨3, 4, 0⟩ ⟨-4, 3, 1⟩ = 0 by norm_num [inner], abs_zero]
      exact mul_nonneg (by norm_num) h0)
    (by
      rw [show (outer ⟨3, 4, 0⟩ ⟨-4, 3, 1⟩).z = 25 by norm_num [outer]]
      norm_num
      linarith)
  exact ⟨θ, θ', a, b, c⟩

end Rounded
end Lamberthub
