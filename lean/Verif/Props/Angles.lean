import Verif.Spec.Geometry
import Verif.Proofs.AngleLemmas

/-! # C03-C07: transfer angle, orbit normal, inclination and node -/

set_option autoImplicit false

namespace Lamberthub
open Spec LC

theorem len_eq_norm (v : V3) : len v = V3.norm v := by
  unfold len V3.norm V3.dot; congr 1; ring

theorem inner_eq_dot (a b : V3) : inner a b = V3.dot a b := rfl
theorem outer_eq_cross (a b : V3) : outer a b = V3.cross a b := rfl

/-- Two non-null aligned vectors are multiples of one another. -/
theorem exists_smul_of_aligned {r1 r2 : V3} (h1 : r1 ≠ 0) (h2 : r2 ≠ 0) (h : ¬ NotAligned r1 r2) :
    ∃ k : ℝ, k ≠ 0 ∧ r2 = k • r1 := by
  unfold NotAligned at h
  rw [not_not] at h
  obtain ⟨a, b, c⟩ := h
  have hn : V3.dot r1 r1 ≠ 0 := by
    rw [← Real.sq_sqrt (dot_self_nonneg r1)]
    exact pow_ne_zero 2 (norm_pos_iff.2 h1).ne'
  refine ⟨V3.dot r1 r2 / V3.dot r1 r1, ?_, ?_⟩
  · intro h0
    apply h2
    rw [div_eq_zero_iff, or_iff_left hn] at h0
    unfold V3.dot at h0 hn
    have hx : (r1.x * r1.x + r1.y * r1.y + r1.z * r1.z) * r2.x = 0 := by
      linear_combination r1.x * h0 + r1.z * b - r1.y * c
    have hy : (r1.x * r1.x + r1.y * r1.y + r1.z * r1.z) * r2.y = 0 := by
      linear_combination r1.y * h0 + r1.x * c - r1.z * a
    have hz : (r1.x * r1.x + r1.y * r1.y + r1.z * r1.z) * r2.z = 0 := by
      linear_combination r1.z * h0 + r1.y * a - r1.x * b
    ext
    · exact (mul_eq_zero.1 hx).resolve_left hn
    · exact (mul_eq_zero.1 hy).resolve_left hn
    · exact (mul_eq_zero.1 hz).resolve_left hn
  · ext
    · simp only [V3.smul_x]
      rw [div_mul_eq_mul_div, eq_div_iff hn]
      unfold V3.dot
      linear_combination r1.z * b - r1.y * c
    · simp only [V3.smul_y]
      rw [div_mul_eq_mul_div, eq_div_iff hn]
      unfold V3.dot
      linear_combination r1.x * c - r1.z * a
    · simp only [V3.smul_z]
      rw [div_mul_eq_mul_div, eq_div_iff hn]
      unfold V3.dot
      linear_combination r1.y * a - r1.x * b

theorem not_notAligned_smul (r1 : V3) (k : ℝ) : ¬ NotAligned r1 (k • r1) := by
  unfold NotAligned
  rw [not_not]
  refine ⟨?_, ?_, ?_⟩ <;> simp <;> ring

theorem sameSigns_smul {r1 : V3} {k : ℝ} (h1 : r1 ≠ 0) (hk : k ≠ 0) :
    sameSigns r1 (k • r1) ↔ 0 < k := by
  unfold sameSigns
  simp only [V3.smul_x, V3.smul_y, V3.smul_z, sign_mul]
  constructor
  · rintro ⟨a, b, c⟩
    by_contra hn
    have hk' : k < 0 := lt_of_le_of_ne (not_lt.1 hn) hk
    rw [sign_neg hk'] at a b c
    apply h1
    have key : ∀ x : ℝ, SignType.sign x = -1 * SignType.sign x → x = 0 := by
      intro x hx
      rcases lt_trichotomy x 0 with h | h | h
      · rw [sign_neg h] at hx; exact absurd hx (by decide)
      · exact h
      · rw [sign_pos h] at hx; exact absurd hx (by decide)
    ext
    · exact key _ a
    · exact key _ b
    · exact key _ c
  · intro hk
    rw [sign_pos hk]; simp

theorem transferAngle_aligned {r1 : V3} {k : ℝ} (h1 : r1 ≠ 0) (hk : k ≠ 0) (pro : Bool) :
    getTransferAngle r1 (k • r1) pro = .ok (if 0 < k then 0 else Real.pi) := by
  unfold getTransferAngle
  have hc := cross_eq_zero_iff.2 (not_notAligned_smul r1 k)
  simp only [hc, if_true, sameSigns_smul h1 hk]
  split <;> rfl

theorem norm_smul (k : ℝ) (r : V3) : V3.norm (k • r) = |k| * V3.norm r := by
  unfold V3.norm
  rw [← Real.sqrt_sq_eq_abs, ← Real.sqrt_mul (sq_nonneg k)]
  congr 1
  simp [V3.dot]; ring

theorem norm_mul_self (r : V3) : V3.norm r * V3.norm r = V3.dot r r :=
  Real.mul_self_sqrt (dot_self_nonneg r)

theorem dot_smul_right (k : ℝ) (a b : V3) : V3.dot a (k • b) = k * V3.dot a b := by
  simp [V3.dot]; ring

/-- **C03.** For two non-null positions the transfer angle exists, lies in `[0, 2π)` and
is the angle between the positions (its cosine is right). -/
theorem transferAngle_polar {r1 r2 : V3} (h1 : r1 ≠ 0) (h2 : r2 ≠ 0) (pro : Bool) :
    ∃ θ, getTransferAngle r1 r2 pro = .ok θ ∧ 0 ≤ θ ∧ θ < 2 * Real.pi ∧
      len r1 * len r2 * Real.cos θ = inner r1 r2 := by
  have hpi := Real.pi_pos
  rw [len_eq_norm, len_eq_norm, inner_eq_dot]
  by_cases hna : NotAligned r1 r2
  · have h := transferAngle_eq hna pro
    have ha := angle_of_eq hna h
    exact ⟨_, h, ha.pos.le, ha.lt, ha.cos_eq⟩
  · obtain ⟨k, hk, rfl⟩ := exists_smul_of_aligned h1 h2 hna
    refine ⟨_, transferAngle_aligned h1 hk pro, ?_, ?_, ?_⟩
    · split <;> linarith
    · split <;> linarith
    · rw [norm_smul, dot_smul_right, ← norm_mul_self]
      split
      · rename_i hp; rw [Real.cos_zero, abs_of_pos hp]; ring
      · rename_i hp
        rw [Real.cos_pi, abs_of_neg (lt_of_le_of_ne (not_lt.1 hp) hk)]; ring

/-- A quarter turn. -/
example : (⟨1, 0, 0⟩ : V3) ≠ 0 ∧ (⟨0, 2, 0⟩ : V3) ≠ 0 := by
  constructor <;> simp [V3.ext_iff]

/-- **C04.** The transfer angle is `0` exactly when the final position is a positive
multiple of the initial one, `π` exactly when it is a negative multiple. -/
theorem transferAngle_degenerate {r1 r2 : V3} (h1 : r1 ≠ 0) (h2 : r2 ≠ 0) (pro : Bool) :
    (getTransferAngle r1 r2 pro = .ok 0 ↔ SameDirection r1 r2) ∧
    (getTransferAngle r1 r2 pro = .ok Real.pi ↔ OppositeDirection r1 r2) := by
  have hpi := Real.pi_pos
  by_cases hna : NotAligned r1 r2
  · have hs : ∀ k : ℝ, r2 ≠ k • r1 := by
      rintro k rfl; exact not_notAligned_smul r1 k hna
    refine ⟨⟨fun h => ?_, ?_⟩, ⟨fun h => ?_, ?_⟩⟩
    · exact absurd rfl (angle_of_eq hna h).pos.ne
    · rintro ⟨k, -, hk⟩; exact absurd hk (hs k)
    · exact absurd rfl (angle_of_eq hna h).ne_pi
    · rintro ⟨k, -, hk⟩; exact absurd hk (hs k)
  · obtain ⟨k, hk, rfl⟩ := exists_smul_of_aligned h1 h2 hna
    rw [transferAngle_aligned h1 hk]
    have huniq : ∀ k' : ℝ, k • r1 = k' • r1 → k = k' := by
      intro k' h
      have hd := congrArg (V3.dot r1) h
      rw [dot_smul_right, dot_smul_right] at hd
      have hn : V3.dot r1 r1 ≠ 0 := by
        rw [← norm_mul_self]
        exact mul_ne_zero (norm_pos_iff.2 h1).ne' (norm_pos_iff.2 h1).ne'
      exact mul_right_cancel₀ hn hd
    rcases lt_or_gt_of_ne hk with hk' | hk'
    · rw [if_neg (not_lt.2 hk'.le)]
      refine ⟨⟨fun h => ?_, ?_⟩, ⟨fun _ => ⟨k, hk', rfl⟩, fun _ => rfl⟩⟩
      · exact absurd (Except.ok.inj h) hpi.ne'
      · rintro ⟨k', hp, he⟩; rw [← huniq k' he] at hp; linarith
    · rw [if_pos hk']
      refine ⟨⟨fun _ => ⟨k, hk', rfl⟩, fun _ => rfl⟩, ⟨fun h => ?_, ?_⟩⟩
      · exact absurd (Except.ok.inj h) hpi.ne
      · rintro ⟨k', hp, he⟩; rw [← huniq k' he] at hp; linarith

/-- The guard `assert_transfer_angle_not_zero` fires exactly for positions in the same
direction, `assert_transfer_angle_not_pi` exactly for opposite positions. -/
theorem angle_guards_fire {r1 r2 : V3} (h1 : r1 ≠ 0) (h2 : r2 ≠ 0) (pro : Bool) :
    ((∃ θ, getTransferAngle r1 r2 pro = .ok θ ∧
        assertTransferAngleNotZero θ = .error (.valueError "Transfer angle was found to be zero!"))
      ↔ SameDirection r1 r2) ∧
    ((∃ θ, getTransferAngle r1 r2 pro = .ok θ ∧
        assertTransferAngleNotPi θ =
          .error (.valueError "Transfer angle was found to be 180 degrees!"))
      ↔ OppositeDirection r1 r2) := by
  obtain ⟨a, b⟩ := transferAngle_degenerate h1 h2 pro
  have e0 : ∀ θ, assertTransferAngleNotZero θ =
      .error (.valueError "Transfer angle was found to be zero!") ↔ θ = 0 := by
    intro θ; unfold assertTransferAngleNotZero raiseIf; split <;> simp_all
  have ep : ∀ θ, assertTransferAngleNotPi θ =
      .error (.valueError "Transfer angle was found to be 180 degrees!") ↔ θ = Real.pi := by
    intro θ; unfold assertTransferAngleNotPi raiseIf; split <;> simp_all
  rw [← a, ← b]
  refine ⟨⟨?_, fun h => ⟨0, h, (e0 0).2 rfl⟩⟩, ⟨?_, fun h => ⟨_, h, (ep _).2 rfl⟩⟩⟩
  · rintro ⟨θ, h, h'⟩; rw [(e0 θ).1 h'] at h; exact h
  · rintro ⟨θ, h, h'⟩; rw [(ep θ).1 h'] at h; exact h

example : SameDirection ⟨1, 2, 3⟩ ⟨2, 4, 6⟩ := by
  refine ⟨2, by norm_num, ?_⟩; ext <;> norm_num

theorem notAligned_swap {r1 r2 : V3} (h : NotAligned r1 r2) : NotAligned r2 r1 := by
  unfold NotAligned at *
  rintro ⟨a, b, c⟩
  exact h ⟨by linear_combination -a, by linear_combination -b, by linear_combination -c⟩

theorem theta0_swap (r1 r2 : V3) : theta0 r2 r1 = theta0 r1 r2 := by
  unfold theta0 V3.dot; congr 1; rw [mul_comm (V3.norm r2)]; congr 1; ring

/-- **C05**, for planes that do not contain the polar axis (for the polar planes see
`transferAngle_polar_plane_same`): the prograde and the retrograde angle add up to `2π`,
and exchanging the positions complements the angle.  Missing: polar planes, where the
claim is false for the code. -/
theorem transferAngle_complementary_partial {r1 r2 : V3} (hnp : NotPolar r1 r2) :
    ∃ θp θr θp' θr', getTransferAngle r1 r2 true = .ok θp ∧ getTransferAngle r1 r2 false = .ok θr ∧
      getTransferAngle r2 r1 true = .ok θp' ∧ getTransferAngle r2 r1 false = .ok θr' ∧
      θp + θr = 2 * Real.pi ∧ θp + θp' = 2 * Real.pi ∧ θr + θr' = 2 * Real.pi := by
  have hna : NotAligned r1 r2 := fun h => hnp h.2.2
  refine ⟨_, _, _, _, transferAngle_eq hna true, transferAngle_eq hna false,
    transferAngle_eq (notAligned_swap hna) true, transferAngle_eq (notAligned_swap hna) false, ?_⟩
  rw [theta0_swap]
  have hz : crossZ r2 r1 = -crossZ r1 r2 := by unfold crossZ; ring
  have hne : crossZ r1 r2 ≠ 0 := hnp
  simp only [ShortWay, if_true, Bool.false_eq_true, if_false, hz]
  rcases lt_or_gt_of_ne hne with h | h
  · rw [if_neg (not_lt.2 h.le), if_pos h, if_pos (by linarith), if_neg (by linarith)]
    refine ⟨?_, ?_, ?_⟩ <;> ring
  · rw [if_pos h, if_neg (not_lt.2 h.le), if_neg (by linarith), if_pos (by linarith)]
    refine ⟨?_, ?_, ?_⟩ <;> ring

example : NotPolar ⟨1, 0, 0⟩ ⟨0, 1, 1⟩ := by simp [NotPolar]

/-- Finding: on every plane through the polar axis the prograde and the retrograde
transfer angle are the same number (larger than `π`), so **C05** fails there. -/
theorem transferAngle_polar_plane_same {r1 r2 : V3} (hna : NotAligned r1 r2)
    (hp : ¬ NotPolar r1 r2) :
    ∃ θ, getTransferAngle r1 r2 true = .ok θ ∧ getTransferAngle r1 r2 false = .ok θ ∧
      Real.pi < θ ∧ θ + θ ≠ 2 * Real.pi := by
  have hz : crossZ r1 r2 = 0 := not_not.1 hp
  have h1 := transferAngle_eq hna true
  have h2 := transferAngle_eq hna false
  simp only [ShortWay, if_true, Bool.false_eq_true, if_false, hz, lt_irrefl] at h1 h2
  have := theta0_lt_pi hna
  exact ⟨_, h1, h2, by linarith, by intro h; linarith⟩

example : NotAligned ⟨1, 0, 0⟩ ⟨0, 0, 1⟩ ∧ ¬ NotPolar ⟨1, 0, 0⟩ ⟨0, 0, 1⟩ := by
  simp [NotAligned, NotPolar]

theorem orbitNormal_eq {r1 r2 : V3} (hna : NotAligned r1 r2) (pro : Bool) :
    getOrbitNormalVector r1 r2 pro =
      .ok ((if ShortWay pro r1 r2 then (1 : ℝ) else -1) •
        ((V3.norm (V3.cross r1 r2))⁻¹ • V3.cross r1 r2)) := by
  unfold getOrbitNormalVector
  have hc : V3.cross r1 r2 ≠ 0 := fun h0 => (cross_eq_zero_iff.1 h0) hna
  have hn : 0 < V3.norm (V3.cross r1 r2) := norm_pos_iff.2 hc
  simp only [vdiv, if_neg hn.ne', ok_bind]
  have hal : V3.dot kAxis ((V3.norm (V3.cross r1 r2))⁻¹ • V3.cross r1 r2) =
      (V3.norm (V3.cross r1 r2))⁻¹ * crossZ r1 r2 := by
    simp [V3.dot, kAxis, V3.cross, crossZ]
  have hinv : 0 < (V3.norm (V3.cross r1 r2))⁻¹ := inv_pos.2 hn
  rw [hal]
  have hgt : (V3.norm (V3.cross r1 r2))⁻¹ * crossZ r1 r2 > 0 ↔ 0 < crossZ r1 r2 :=
    ⟨fun h => pos_of_mul_pos_right h hinv.le, fun h => by positivity⟩
  have hlt : (V3.norm (V3.cross r1 r2))⁻¹ * crossZ r1 r2 < 0 ↔ crossZ r1 r2 < 0 :=
    ⟨fun h => by
      by_contra h'
      have := mul_nonneg hinv.le (not_lt.1 h')
      linarith, fun h => mul_neg_of_pos_of_neg hinv h⟩
  simp only [hgt, hlt]
  have one : ∀ v : V3, (1 : ℝ) • v = v := fun v => by ext <;> simp
  have neg : ∀ v : V3, (-1 : ℝ) • v = -v := fun v => by ext <;> simp
  cases pro
  · by_cases hz : crossZ r1 r2 < 0
    · simp [ShortWay, hz, one]
    · simp [ShortWay, hz, neg]
  · by_cases hz : 0 < crossZ r1 r2
    · simp [ShortWay, hz, one]
    · simp [ShortWay, hz, neg]

theorem norm_cross {r1 r2 : V3} (hna : NotAligned r1 r2) :
    V3.norm (V3.cross r1 r2) = V3.norm r1 * V3.norm r2 * Real.sin (theta0 r1 r2) := by
  have h1 := norm_pos_of_notAligned_left hna
  have h2 := norm_pos_of_notAligned_right hna
  have hs : 0 ≤ Real.sin (theta0 r1 r2) :=
    Real.sin_nonneg_of_nonneg_of_le_pi (theta0_pos hna).le (theta0_lt_pi hna).le
  have hc := cos_theta0 hna
  rw [eq_div_iff (by positivity)] at hc
  have hsq : V3.norm (V3.cross r1 r2) ^ 2 =
      (V3.norm r1 * V3.norm r2 * Real.sin (theta0 r1 r2)) ^ 2 := by
    rw [mul_pow, Real.sin_sq, mul_sub, mul_one, ← mul_pow, mul_comm (V3.norm r1 * V3.norm r2), hc,
      mul_pow, norm_sq, norm_sq, norm_sq]
    unfold V3.cross V3.dot
    ring
  exact (pow_left_inj₀ (norm_nonneg _) (by positivity) two_ne_zero).1 hsq

/-- **C06.** For non-aligned positions the orbit normal is a unit vector perpendicular to
both positions; together with the transfer angle it reproduces the vector product of the
positions; and off the polar planes it points north for prograde motion and south for
retrograde motion. -/
theorem orbitNormal_spec {r1 r2 : V3} (hna : NotAligned r1 r2) (pro : Bool) :
    ∃ n θ, getOrbitNormalVector r1 r2 pro = .ok n ∧ getTransferAngle r1 r2 pro = .ok θ ∧
      len n = 1 ∧ inner n r1 = 0 ∧ inner n r2 = 0 ∧
      outer r1 r2 = (len r1 * len r2 * Real.sin θ) • n ∧
      (NotPolar r1 r2 → if pro then 0 < n.z else n.z < 0) := by
  refine ⟨_, _, orbitNormal_eq hna pro, transferAngle_eq hna pro, ?_, ?_, ?_, ?_, ?_⟩
  all_goals
    have hc : V3.cross r1 r2 ≠ 0 := fun h0 => (cross_eq_zero_iff.1 h0) hna
    have hn : 0 < V3.norm (V3.cross r1 r2) := norm_pos_iff.2 hc
  · rw [len_eq_norm, norm_smul, norm_smul, abs_of_pos (inv_pos.2 hn), inv_mul_cancel₀ hn.ne',
      mul_one]
    split <;> simp
  · simp only [inner, V3.cross, V3.smul_x, V3.smul_y, V3.smul_z]; ring
  · simp only [inner, V3.cross, V3.smul_x, V3.smul_y, V3.smul_z]; ring
  · rw [len_eq_norm, len_eq_norm, outer_eq_cross]
    have hm := norm_cross hna
    split
    · rw [← hm]; ext <;> simp <;> field_simp
    · rw [Real.sin_two_pi_sub, mul_neg, ← hm]; ext <;> simp <;> field_simp
  · intro hnp
    have hz : crossZ r1 r2 ≠ 0 := hnp
    have hinv : 0 < (V3.norm (V3.cross r1 r2))⁻¹ := inv_pos.2 hn
    have e : (V3.cross r1 r2).z = crossZ r1 r2 := rfl
    cases pro
    · simp only [Bool.false_eq_true, if_false, ShortWay, V3.smul_z, e]
      split
      · rename_i h; rw [one_mul]; exact mul_neg_of_pos_of_neg hinv h
      · rename_i h
        have : 0 < crossZ r1 r2 := lt_of_le_of_ne (not_lt.1 h) hz.symm
        have := mul_pos hinv this
        linarith
    · simp only [if_true, ShortWay, V3.smul_z, e]
      split
      · rename_i h; rw [one_mul]; exact mul_pos hinv h
      · rename_i h
        have : crossZ r1 r2 < 0 := lt_of_le_of_ne (not_lt.1 h) hz
        have := mul_neg_of_pos_of_neg hinv this
        linarith

example : NotAligned ⟨1, 0, 0⟩ ⟨0, 1, 1⟩ := by simp [NotAligned]

/-! ## Inclination and node -/

theorem pmod_two_pi (a : ℝ) : ∃ n : ℤ, pmod a (2 * Real.pi) = a - n * (2 * Real.pi) :=
  ⟨⌊a / (2 * Real.pi)⌋, by unfold pmod; ring⟩

theorem cos_pmod (a : ℝ) : Real.cos (pmod a (2 * Real.pi)) = Real.cos a := by
  obtain ⟨n, h⟩ := pmod_two_pi a; rw [h, Real.cos_sub_int_mul_two_pi]

theorem sin_pmod (a : ℝ) : Real.sin (pmod a (2 * Real.pi)) = Real.sin a := by
  obtain ⟨n, h⟩ := pmod_two_pi a; rw [h, Real.sin_sub_int_mul_two_pi]

theorem pmod_range {a b : ℝ} (hb : 0 < b) : 0 ≤ pmod a b ∧ pmod a b < b := by
  unfold pmod
  have h1 := Int.floor_le (a / b)
  have h2 := Int.lt_floor_add_one (a / b)
  rw [le_div_iff₀ hb] at h1
  rw [div_lt_iff₀ hb] at h2
  constructor <;> linarith

theorem cos_arctan2 {x y : ℝ} (h : x ≠ 0 ∨ y ≠ 0) :
    Real.cos (arctan2 y x) = x / Real.sqrt (x ^ 2 + y ^ 2) := by
  unfold arctan2
  rw [Complex.cos_arg]
  · congr 1
    rw [Complex.norm_def, Complex.normSq_apply]
    congr 1; simp; ring
  · intro h0
    have := Complex.ext_iff.1 h0
    simp at this
    rcases h with h | h
    · exact h this.1
    · exact h this.2

theorem sin_arctan2 (x y : ℝ) :
    Real.sin (arctan2 y x) = y / Real.sqrt (x ^ 2 + y ^ 2) := by
  unfold arctan2
  rw [Complex.sin_arg]
  congr 1
  rw [Complex.norm_def, Complex.normSq_apply]
  congr 1; simp; ring

/-- The plane computed by the helper, from the normal computed by the helper. -/
theorem planeNormal_of_unit {n : V3} (hu : V3.norm n = 1) (hxy : ¬ (n.x = 0 ∧ n.y = 0)) :
    planeNormal (Real.arccos (n.z / V3.norm n))
      (pmod (arctan2 (V3.cross kAxis n).y (V3.cross kAxis n).x) (2 * Real.pi)) = n := by
  have hsq : n.x ^ 2 + n.y ^ 2 + n.z ^ 2 = 1 := by rw [← norm_sq, hu]; norm_num
  have hx : (V3.cross kAxis n).x = -n.y := by simp [V3.cross, kAxis]
  have hy : (V3.cross kAxis n).y = n.x := by simp [V3.cross, kAxis]
  have hz1 : -1 ≤ n.z := by nlinarith [sq_nonneg n.x, sq_nonneg n.y]
  have hz2 : n.z ≤ 1 := by nlinarith [sq_nonneg n.x, sq_nonneg n.y]
  have hs : 0 < n.x ^ 2 + n.y ^ 2 := by
    by_contra h
    apply hxy
    constructor <;> nlinarith [sq_nonneg n.x, sq_nonneg n.y]
  unfold planeNormal
  rw [hu, div_one, cos_pmod, sin_pmod, hx, hy, sin_arctan2, cos_arctan2 (by
      by_contra h; push Not at h; exact hxy ⟨h.2, by linarith [h.1]⟩),
    Real.sin_arccos, Real.cos_arccos hz1 hz2]
  have e1 : (-n.y) ^ 2 + n.x ^ 2 = n.x ^ 2 + n.y ^ 2 := by ring
  have e2 : 1 - n.z ^ 2 = n.x ^ 2 + n.y ^ 2 := by linarith
  rw [e1, e2]
  have hsp : Real.sqrt (n.x ^ 2 + n.y ^ 2) ≠ 0 := (Real.sqrt_pos.2 hs).ne'
  ext
  · simp only; field_simp
  · simp only; field_simp
  · rfl

/-- **C07**, except for the retrograde equatorial plane: the inclination and the node
determine the orbit normal of the requested sense of motion; they lie in `[0, π]` and
`[0, 2π)`.  Missing: retrograde motion in the equatorial plane, where the claim is false
for the code (`incRaan_retrograde_equatorial`). -/
theorem incRaan_plane_partial {r1 r2 : V3} (hna : NotAligned r1 r2) (pro : Bool)
    (heq : pro = false → ¬ (r1.z = 0 ∧ r2.z = 0)) :
    ∃ n inc raan, getOrbitNormalVector r1 r2 pro = .ok n ∧
      getOrbitIncAndRaan r1 r2 pro = .ok (inc, raan) ∧
      planeNormal inc raan = n ∧ 0 ≤ inc ∧ inc ≤ Real.pi ∧ 0 ≤ raan ∧ raan < 2 * Real.pi := by
  obtain ⟨n, θ, hn, -, hu, hp1, hp2, ho, hs⟩ := orbitNormal_spec hna pro
  have hpi := Real.pi_pos
  rw [len_eq_norm] at hu
  refine ⟨n, ?_⟩
  unfold getOrbitIncAndRaan
  rw [hn]
  simp only [ok_bind]
  by_cases hxy : n.x = 0 ∧ n.y = 0
  · rw [if_pos hxy]
    refine ⟨0, 0, trivial, rfl, ?_, le_rfl, hpi.le, le_rfl, by linarith⟩
    have hz : n.z ^ 2 = 1 := by
      have := norm_sq n; rw [hu, hxy.1, hxy.2] at this; linarith
    have hz0 : n.z ≠ 0 := by intro h; rw [h] at hz; norm_num at hz
    have hr1 : r1.z = 0 := by
      unfold inner at hp1; rw [hxy.1, hxy.2] at hp1; simpa [hz0] using hp1
    have hr2 : r2.z = 0 := by
      unfold inner at hp2; rw [hxy.1, hxy.2] at hp2; simpa [hz0] using hp2
    have hpro : pro = true := by
      by_contra h; exact heq (by simpa using h) ⟨hr1, hr2⟩
    have hnp : NotPolar r1 r2 := by
      intro h
      apply hna
      refine ⟨by rw [hr1, hr2]; ring, by rw [hr1, hr2]; ring, h⟩
    have := hs hnp
    rw [hpro, if_pos rfl] at this
    have hz1 : n.z = 1 := by nlinarith
    ext <;> simp [planeNormal, hxy.1, hxy.2, hz1]
  · rw [if_neg hxy, pdiv_eq (by rw [hu]; norm_num)]
    simp only [ok_bind]
    have hsq : n.x ^ 2 + n.y ^ 2 + n.z ^ 2 = 1 := by rw [← norm_sq, hu]; norm_num
    have hz1 : -1 ≤ n.z / V3.norm n := by
      rw [hu, div_one]; nlinarith [sq_nonneg n.x, sq_nonneg n.y]
    have hz2 : n.z / V3.norm n ≤ 1 := by
      rw [hu, div_one]; nlinarith [sq_nonneg n.x, sq_nonneg n.y]
    rw [pacos, if_pos ⟨hz1, hz2⟩]
    simp only [ok_bind]
    obtain ⟨a, b⟩ := pmod_range (a := arctan2 (V3.cross kAxis n).y (V3.cross kAxis n).x)
      (b := 2 * Real.pi) (by linarith)
    exact ⟨_, _, trivial, rfl, planeNormal_of_unit hu hxy, Real.arccos_nonneg _,
      Real.arccos_le_pi _, a, b⟩

example : NotAligned ⟨1, 0, 0⟩ ⟨0, 1, 1⟩ ∧
    ¬ ((⟨1, 0, 0⟩ : V3).z = 0 ∧ (⟨0, 1, 1⟩ : V3).z = 0) := by simp [NotAligned]

/-- Finding: for retrograde motion in the equatorial plane the helper returns inclination
`0`, i.e. the north-pointing normal, whereas the orbit normal points south: **C07** fails
there for every pair of positions. -/
theorem incRaan_retrograde_equatorial {r1 r2 : V3} (hna : NotAligned r1 r2) (h1 : r1.z = 0)
    (h2 : r2.z = 0) :
    getOrbitIncAndRaan r1 r2 false = .ok (0, 0) ∧
      getOrbitNormalVector r1 r2 false = .ok ⟨0, 0, -1⟩ ∧ planeNormal 0 0 = ⟨0, 0, 1⟩ := by
  obtain ⟨n, θ, hn, -, hu, hp1, hp2, ho, hs⟩ := orbitNormal_spec hna false
  have hnp : NotPolar r1 r2 := by
    intro h
    apply hna
    refine ⟨by rw [h1, h2]; ring, by rw [h1, h2]; ring, h⟩
  have hz := hs hnp
  simp only [Bool.false_eq_true, if_false] at hz
  rw [orbitNormal_eq hna] at hn
  have hn' := Except.ok.inj hn
  have hx : n.x = 0 := by
    rw [← hn']; simp only [V3.smul_x, V3.cross, h1, h2]; ring
  have hy : n.y = 0 := by
    rw [← hn']; simp only [V3.smul_y, V3.cross, h1, h2]; ring
  rw [len_eq_norm] at hu
  have hsq := norm_sq n
  rw [hu, hx, hy] at hsq
  have hz1 : n.z = -1 := by nlinarith
  have hnv : getOrbitNormalVector r1 r2 false = .ok n := by rw [orbitNormal_eq hna, hn']
  refine ⟨?_, ?_, ?_⟩
  · unfold getOrbitIncAndRaan
    rw [hnv]
    simp only [ok_bind]
    rw [if_pos ⟨hx, hy⟩]
  · rw [hnv]; congr 1; ext <;> simp [hx, hy, hz1]
  · ext <;> simp [planeNormal]

example : NotAligned ⟨1, 0, 0⟩ ⟨0, 1, 0⟩ := by simp [NotAligned]

end Lamberthub
