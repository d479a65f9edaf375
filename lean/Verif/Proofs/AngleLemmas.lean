import Verif.Model.Angles
import Verif.Model.Assertions
import Verif.Proofs.PyLemmas
import Verif.Proofs.Arc

/-! # Lemmas about the transfer angle -/

set_option autoImplicit false

namespace Lamberthub
open Spec LC

/-- z component of `r1 × r2`. -/
def crossZ (r1 r2 : V3) : ℝ := r1.x * r2.y - r1.y * r2.x

/-- The code chooses the arc shorter than `π`. -/
def ShortWay (pro : Bool) (r1 r2 : V3) : Prop :=
  if pro = true then 0 < crossZ r1 r2 else crossZ r1 r2 < 0

noncomputable instance (pro : Bool) (r1 r2 : V3) : Decidable (ShortWay pro r1 r2) :=
  Classical.propDecidable _

theorem cross_eq_zero_iff {r1 r2 : V3} : V3.cross r1 r2 = 0 ↔ ¬ NotAligned r1 r2 := by
  unfold NotAligned V3.cross
  rw [not_not, V3.ext_iff]
  simp

theorem dot_self_nonneg (v : V3) : 0 ≤ V3.dot v v := by
  unfold V3.dot; nlinarith [sq_nonneg v.x, sq_nonneg v.y, sq_nonneg v.z]

theorem norm_eq_zero_iff {v : V3} : V3.norm v = 0 ↔ v = 0 := by
  constructor
  · intro h
    have h2 := norm_sq v
    rw [h] at h2
    ext <;> simp <;> nlinarith [sq_nonneg v.x, sq_nonneg v.y, sq_nonneg v.z]
  · rintro rfl; simp [V3.norm, V3.dot]

theorem norm_pos_iff {v : V3} : 0 < V3.norm v ↔ v ≠ 0 := by
  constructor
  · rintro h rfl; simp [V3.norm, V3.dot] at h
  · intro h
    rcases (norm_nonneg v).lt_or_eq with h1 | h1
    · exact h1
    · exact absurd (norm_eq_zero_iff.1 h1.symm) h

theorem cauchy_schwarz (r1 r2 : V3) :
    V3.dot r1 r2 ^ 2 ≤ (V3.norm r1 * V3.norm r2) ^ 2 := by
  rw [mul_pow, norm_sq, norm_sq]
  unfold V3.dot
  nlinarith [sq_nonneg (r1.y * r2.z - r1.z * r2.y), sq_nonneg (r1.z * r2.x - r1.x * r2.z),
        sq_nonneg (r1.x * r2.y - r1.y * r2.x)]

theorem abs_dot_le (r1 r2 : V3) : |V3.dot r1 r2| ≤ V3.norm r1 * V3.norm r2 :=
  abs_le_of_sq_le_sq (cauchy_schwarz r1 r2) (mul_nonneg (norm_nonneg _) (norm_nonneg _))

theorem abs_dot_lt {r1 r2 : V3} (h : NotAligned r1 r2) :
    |V3.dot r1 r2| < V3.norm r1 * V3.norm r2 :=
  abs_lt_of_sq_lt_sq (dot_sq_lt h) (mul_nonneg (norm_nonneg _) (norm_nonneg _))

/-- the angle between `0` and `π` -/
noncomputable def theta0 (r1 r2 : V3) : ℝ :=
  Real.arccos (V3.dot r1 r2 / (V3.norm r1 * V3.norm r2))

theorem cosq_lt {r1 r2 : V3} (h : NotAligned r1 r2) :
    -1 < V3.dot r1 r2 / (V3.norm r1 * V3.norm r2) ∧
      V3.dot r1 r2 / (V3.norm r1 * V3.norm r2) < 1 := by
  have hp : 0 < V3.norm r1 * V3.norm r2 :=
    mul_pos (norm_pos_of_notAligned_left h) (norm_pos_of_notAligned_right h)
  have := abs_lt.1 (abs_dot_lt h)
  constructor
  · rw [lt_div_iff₀ hp]; linarith
  · rw [div_lt_iff₀ hp]; linarith

theorem theta0_pos {r1 r2 : V3} (h : NotAligned r1 r2) : 0 < theta0 r1 r2 :=
  Real.arccos_pos.2 (cosq_lt h).2

theorem theta0_lt_pi {r1 r2 : V3} (h : NotAligned r1 r2) : theta0 r1 r2 < Real.pi := by
  rcases (Real.arccos_le_pi (V3.dot r1 r2 / (V3.norm r1 * V3.norm r2))).lt_or_eq with h1 | h1
  · exact h1
  · rw [Real.arccos_eq_pi] at h1
    exact absurd h1 (not_le.2 (cosq_lt h).1)

theorem cos_theta0 {r1 r2 : V3} (h : NotAligned r1 r2) :
    Real.cos (theta0 r1 r2) = V3.dot r1 r2 / (V3.norm r1 * V3.norm r2) :=
  Real.cos_arccos (cosq_lt h).1.le (cosq_lt h).2.le

theorem transferAngle_eq {r1 r2 : V3} (h : NotAligned r1 r2) (pro : Bool) :
    getTransferAngle r1 r2 pro =
      .ok (if ShortWay pro r1 r2 then theta0 r1 r2 else 2 * Real.pi - theta0 r1 r2) := by
  unfold getTransferAngle
  have hc : V3.cross r1 r2 ≠ 0 := fun h0 => (cross_eq_zero_iff.1 h0) h
  have hn : 0 < V3.norm (V3.cross r1 r2) := norm_pos_iff.2 hc
  have hp : V3.norm r1 * V3.norm r2 ≠ 0 :=
    (mul_pos (norm_pos_of_notAligned_left h) (norm_pos_of_notAligned_right h)).ne'
  have hq := cosq_lt h
  simp only [if_neg hc, vdiv, if_neg hn.ne', ok_bind, pdiv, if_neg hp, pacos,
    if_pos (And.intro hq.1.le hq.2.le)]
  have hal : V3.dot kAxis ((V3.norm (V3.cross r1 r2))⁻¹ • V3.cross r1 r2) =
      (V3.norm (V3.cross r1 r2))⁻¹ * crossZ r1 r2 := by
    simp [V3.dot, kAxis, V3.cross, crossZ]
  have hinv : 0 < (V3.norm (V3.cross r1 r2))⁻¹ := inv_pos.2 hn
  rw [hal]
  have hgt : (V3.norm (V3.cross r1 r2))⁻¹ * crossZ r1 r2 > 0 ↔ 0 < crossZ r1 r2 := by
    constructor
    · intro h; exact pos_of_mul_pos_right h hinv.le
    · intro h; positivity
  have hlt : (V3.norm (V3.cross r1 r2))⁻¹ * crossZ r1 r2 < 0 ↔ crossZ r1 r2 < 0 := by
    constructor
    · intro h
      by_contra h'
      push Not at h'
      have := mul_nonneg hinv.le h'
      linarith
    · intro h; exact mul_neg_of_pos_of_neg hinv h
  simp only [hgt, hlt]
  cases pro
  · by_cases hz : crossZ r1 r2 < 0
    · simp [ShortWay, theta0, hz]
    · simp [ShortWay, theta0, hz]
  · by_cases hz : 0 < crossZ r1 r2
    · simp [ShortWay, theta0, hz]
    · simp [ShortWay, theta0, hz]

theorem ShortWay.iff_neg {r1 r2 : V3} (h : NotPolar r1 r2) :
    ¬ ShortWay true r1 r2 ↔ ShortWay false r1 r2 := by
  have : crossZ r1 r2 ≠ 0 := h
  simp only [ShortWay, if_true, Bool.false_eq_true, if_false, not_lt]
  exact ⟨fun h => lt_of_le_of_ne h this, fun h => h.le⟩

/-- Consequences of a computed transfer angle for non-aligned positions. -/
structure Angle (pro : Bool) (r1 r2 : V3) (θ : ℝ) : Prop where
  pos : 0 < θ
  lt : θ < 2 * Real.pi
  ne_pi : θ ≠ Real.pi
  cos_eq : V3.norm r1 * V3.norm r2 * Real.cos θ = V3.dot r1 r2
  short : θ < Real.pi ↔ ShortWay pro r1 r2

theorem angle_of_eq {r1 r2 : V3} (h : NotAligned r1 r2) {pro : Bool} {θ : ℝ}
    (hθ : getTransferAngle r1 r2 pro = .ok θ) : Angle pro r1 r2 θ := by
  rw [transferAngle_eq h] at hθ
  have h1 := theta0_pos h
  have h2 := theta0_lt_pi h
  have h3 := cos_theta0 h
  have hp : V3.norm r1 * V3.norm r2 ≠ 0 :=
    (mul_pos (norm_pos_of_notAligned_left h) (norm_pos_of_notAligned_right h)).ne'
  have hθ' := Except.ok.inj hθ
  have hcos : Real.cos θ = V3.dot r1 r2 / (V3.norm r1 * V3.norm r2) := by
    rw [← hθ', ← h3]; split
    · rfl
    · rw [Real.cos_two_pi_sub]
  refine ⟨?_, ?_, ?_, ?_, ?_⟩
  · rw [← hθ']; split <;> linarith
  · rw [← hθ']; split <;> linarith
  · rw [← hθ']; split <;> intro h <;> linarith
  · rw [hcos]; exact mul_div_cancel₀ _ hp
  · rw [← hθ']; split
    · rename_i hs; exact ⟨fun _ => hs, fun _ => h2⟩
    · rename_i hs; constructor
      · intro h; linarith
      · intro h; exact absurd h hs

/-- If the guards against aligned positions passed, the positions are not aligned. -/
theorem notAligned_of_angle {r1 r2 : V3} {pro : Bool} {θ : ℝ}
    (hθ : getTransferAngle r1 r2 pro = .ok θ) (h0 : θ ≠ 0) (hpi : θ ≠ Real.pi) :
    NotAligned r1 r2 := by
  by_contra hna
  have hc := cross_eq_zero_iff.2 hna
  unfold getTransferAngle at hθ
  simp only [hc, if_true] at hθ
  split at hθ
  · exact h0 (Except.ok.inj hθ).symm
  · exact hpi (Except.ok.inj hθ).symm

/-- `A` with the sign of the code is the geometry constant of the bridge theorem. -/
theorem Angle.geo {pro : Bool} {r1 r2 : V3} {θ A : ℝ} (h : Angle pro r1 r2 θ)
    (hna : NotAligned r1 r2)
    (hA : A ^ 2 = V3.norm r1 * V3.norm r2 * (1 + Real.cos θ)) : Geo r1 r2 A := by
  have h2 : A ^ 2 = V3.norm r1 * V3.norm r2 + V3.dot r1 r2 := by
    rw [hA, ← h.cos_eq]; ring
  refine ⟨?_, h2, hna⟩
  rintro rfl
  have := abs_lt.1 (abs_dot_lt hna)
  norm_num at h2
  linarith [this.1]

/-- The sense of motion of Lagrange velocities. -/
theorem sense_of_sign {pro : Bool} {r1 r2 : V3} {μ A V : ℝ} (hμ : 0 < μ) (hV : 0 < V)
    (hA : A ≠ 0) (hnp : NotPolar r1 r2) (hs : 0 < A ↔ ShortWay pro r1 r2) :
    Sense pro r1 (fgV1 μ r1 r2 A V) := by
  have hcz : crossZ r1 r2 ≠ 0 := hnp
  have hg : 0 < Real.sqrt (V / μ) := by positivity
  have key : angMomZ r1 (fgV1 μ r1 r2 A V) = (A * Real.sqrt (V / μ))⁻¹ * crossZ r1 r2 :=
    fgV1_angMomZ μ r1 r2 A V
  have hpos : 0 < A → 0 < (A * Real.sqrt (V / μ))⁻¹ := fun h => by positivity
  have hneg : A < 0 → (A * Real.sqrt (V / μ))⁻¹ < 0 := fun h =>
    inv_neg''.2 (mul_neg_of_neg_of_pos h hg)
  unfold Sense
  rw [key]
  rcases lt_or_gt_of_ne hA with h | h
  · have hns : ¬ ShortWay pro r1 r2 := fun hh => absurd (hs.2 hh) (not_lt.2 h.le)
    cases pro
    · simp only [ShortWay, Bool.false_eq_true, if_false, not_lt] at hns
      simp only [Bool.false_eq_true, if_false]
      exact mul_neg_of_neg_of_pos (hneg h) (lt_of_le_of_ne hns (Ne.symm hcz))
    · simp only [ShortWay, if_true, not_lt] at hns
      simp only [if_true]
      exact mul_pos_of_neg_of_neg (hneg h) (lt_of_le_of_ne hns hcz)
  · have hss := hs.1 h
    cases pro
    · simp only [ShortWay, Bool.false_eq_true, if_false] at hss
      simp only [Bool.false_eq_true, if_false]
      exact mul_neg_of_pos_of_neg (hpos h) hss
    · simp only [ShortWay, if_true] at hss
      simp only [if_true]
      exact mul_pos (hpos h) hss

end Lamberthub
