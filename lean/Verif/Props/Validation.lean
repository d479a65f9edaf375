import Verif.Proofs.AssertLemmas
import Verif.Model.Arrays

/-! # C02: the shared validation of the arguments -/

set_option autoImplicit false

namespace Lamberthub

/-- The validation stops with a `ValueError`. -/
def Refused (x : Py Unit) : Prop := ∃ msg, x = .error (.valueError msg)

/-- The validation either accepts or raises `ValueError`; there is no third outcome. -/
theorem assertParameters_total (mu : ℝ) (r1 r2 : V3) (tof : ℝ) (M : ℤ) :
    assertParametersAreValid mu r1 r2 tof M = .ok () ∨
      Refused (assertParametersAreValid mu r1 r2 tof M) := by
  unfold assertParametersAreValid assertMu assertPositionVectors assertPositionVector assertTof
    assertM raiseIf Refused
  by_cases h1 : mu ≤ 0
  · right; simp [h1]
  by_cases h2 : r1 = 0
  · right; simp [h1, h2]
  by_cases h3 : r1 = r2
  · right; subst h3; simp [h1, h2]
  by_cases h4 : tof ≤ 0
  · right; simp [h1, h2, h3, h4]
  by_cases h5 : M < 0
  · right; simp [h1, h2, h3, h4, h5]
  · left; simp [h1, h2, h3, h4, h5]

/-- **C02**, without the null final position (for which the claim is false for the code,
see `null_final_position_accepted`): the validation raises `ValueError` exactly for a
non-positive gravitational parameter, a null initial position, equal positions, a
non-positive time of flight or a negative number of revolutions, and accepts everything
else. -/
theorem validation_partial (mu : ℝ) (r1 r2 : V3) (tof : ℝ) (M : ℤ) :
    (Refused (assertParametersAreValid mu r1 r2 tof M) ↔
      mu ≤ 0 ∨ r1 = 0 ∨ r1 = r2 ∨ tof ≤ 0 ∨ M < 0) ∧
    (assertParametersAreValid mu r1 r2 tof M = .ok () ↔
      0 < mu ∧ r1 ≠ 0 ∧ r1 ≠ r2 ∧ 0 < tof ∧ 0 ≤ M) := by
  refine ⟨?_, assertParameters_iff⟩
  have h := assertParameters_total mu r1 r2 tof M
  have hi := assertParameters_iff (mu := mu) (r1 := r1) (r2 := r2) (tof := tof) (M := M) (u := ())
  constructor
  · rintro ⟨m, hm⟩
    by_contra hc
    push Not at hc
    rw [hi.2 ⟨hc.1, hc.2.1, hc.2.2.1, hc.2.2.2.1, hc.2.2.2.2⟩] at hm
    cases hm
  · intro hc
    rcases h with h | h
    · obtain ⟨a, b, c, d, e⟩ := hi.1 h
      rcases hc with hc | hc | hc | hc | hc
      · linarith
      · exact absurd hc b
      · exact absurd hc c
      · linarith
      · omega
    · exact h

/-- Both outcomes occur. -/
example : assertParametersAreValid 1 ⟨1, 0, 0⟩ ⟨0, 1, 0⟩ 1 0 = .ok () ∧
    Refused (assertParametersAreValid 1 ⟨1, 0, 0⟩ ⟨1, 0, 0⟩ 1 0) :=
  ⟨assertParameters_iff.2 ⟨one_pos, by simp [V3.ext_iff], by simp [V3.ext_iff], one_pos, le_rfl⟩,
    (validation_partial _ _ _ _ _).1.2 (Or.inr (Or.inr (Or.inl rfl)))⟩

/-- Finding: a null *final* position is accepted, whatever the (otherwise valid) remaining
arguments are; the second half of **C02** is false for the code. -/
theorem null_final_position_accepted {mu : ℝ} (hmu : 0 < mu) {r1 : V3} (h1 : r1 ≠ 0) {tof : ℝ}
    (ht : 0 < tof) {M : ℤ} (hM : 0 ≤ M) :
    assertParametersAreValid mu r1 0 tof M = .ok () :=
  assertParameters_iff.2 ⟨hmu, h1, h1, ht, hM⟩

/-! ## The same code on raw arrays -/

theorem Raw.bind_pure_prop {P : Prop} : (pure P : Py Prop) = .ok P := rfl

/-- On real three-dimensional vectors the two models of the validation agree. -/
theorem raw_agrees (mu : ℝ) (r1 r2 : V3) (tof : ℝ) (M : ℤ) :
    Raw.assertParametersAreValid (.num mu) r1.toArr r2.toArr (.num tof) M =
      assertParametersAreValid mu r1 r2 tof M := by
  have e1 : (∀ x ∈ r1.toArr, x.eq (.num 0)) ↔ r1 = 0 := by
    simp [V3.toArr, Fl.eq, V3.ext_iff]
  have e2 : (∀ p ∈ r1.toArr.zip r2.toArr, p.1.eq p.2) ↔ r1 = r2 := by
    simp [V3.toArr, Fl.eq, V3.ext_iff]
  have e3 : r1.toArr.length = r2.toArr.length := rfl
  have e4 : ¬ (r1.toArr.length ≠ 3) := by simp [V3.toArr]
  unfold Raw.assertParametersAreValid assertParametersAreValid Raw.assertMu assertMu
    Raw.assertPositionVectors assertPositionVectors Raw.assertPositionVector assertPositionVector
    Raw.allEqual Raw.assertTof assertTof Raw.assertM assertM
  simp only [if_pos e3, raiseIf_neg _ e4, ok_bind]
  rw [raiseIf_congr _ e1, raiseIf_congr _ e2]
  rfl

/-- An initial position that does not have exactly three entries is refused, whatever the
final position is (for a positive or `nan` gravitational parameter). -/
theorem raw_shape_refused {mu : Fl} {r1 r2 : Arr} {tof : Fl} {M : ℤ} (h : r1.length ≠ 3) :
    Refused (Raw.assertParametersAreValid mu r1 r2 tof M) := by
  unfold Raw.assertParametersAreValid Raw.assertPositionVectors Raw.assertPositionVector
    Raw.assertMu
  by_cases hm : mu.le 0
  · exact ⟨_, by rw [raiseIf_pos _ hm]; rfl⟩
  · exact ⟨_, by rw [raiseIf_neg _ hm, raiseIf_pos _ h]; rfl⟩

/-- Finding: the shape of the final position is not checked: an array of one entry passes
the validation (it is broadcast in the comparison). -/
theorem raw_final_shape_unchecked {r1 : V3} (h1 : r1 ≠ 0) {x : ℝ} (hx : r1.x ≠ x) {mu tof : ℝ}
    (hmu : 0 < mu) (ht : 0 < tof) {M : ℤ} (hM : 0 ≤ M) :
    Raw.assertParametersAreValid (.num mu) r1.toArr [.num x] (.num tof) M = .ok () := by
  have e1 : ¬ ∀ y ∈ r1.toArr, y.eq (.num 0) := by
    simp only [V3.toArr, Fl.eq, List.mem_cons, List.not_mem_nil, or_false, forall_eq_or_imp,
      forall_eq]
    rintro ⟨a, b, c⟩
    exact h1 (V3.ext a b c)
  have e2 : ¬ ∀ y ∈ r1.toArr, y.eq (.num x) := by
    intro h
    exact hx (h (.num r1.x) (by simp [V3.toArr]))
  have e4 : ¬ (r1.toArr.length ≠ 3) := by simp [V3.toArr]
  have e5 : Raw.allEqual r1.toArr [.num x] = .ok (∀ y ∈ r1.toArr, y.eq (.num x)) := by
    simp [Raw.allEqual, V3.toArr]
  unfold Raw.assertParametersAreValid Raw.assertPositionVectors Raw.assertPositionVector
    Raw.assertMu Raw.assertTof Raw.assertM
  simp only [raiseIf_neg _ e4, raiseIf_neg _ e1, e5, raiseIf_neg _ e2, ok_bind]
  rw [raiseIf_neg _ (by simpa [Fl.le] using hmu), raiseIf_neg _ (by simpa [Fl.le] using ht),
    raiseIf_neg _ (by omega)]
  rfl

/-- Finding: a gravitational parameter or a time of flight that is `nan` passes the
validation. -/
theorem raw_nan_accepted {r1 r2 : V3} (h1 : r1 ≠ 0) (h12 : r1 ≠ r2) {M : ℤ} (hM : 0 ≤ M) :
    Raw.assertParametersAreValid .nan r1.toArr r2.toArr .nan M = .ok () := by
  have h := raw_agrees 1 r1 r2 1 M
  rw [assertParameters_iff.2 ⟨one_pos, h1, h12, one_pos, hM⟩] at h
  unfold Raw.assertParametersAreValid Raw.assertMu Raw.assertTof at h ⊢
  have a : ¬ (Fl.num 1).le 0 := by simp [Fl.le]
  have b : ¬ Fl.nan.le 0 := by simp [Fl.le]
  rw [raiseIf_neg _ a, raiseIf_neg _ a] at h
  rw [raiseIf_neg _ b, raiseIf_neg _ b]
  exact h

example : (⟨1, 0, 0⟩ : V3) ≠ 0 ∧ (⟨1, 0, 0⟩ : V3) ≠ ⟨0, 1, 0⟩ := by
  constructor <;> simp [V3.ext_iff]

end Lamberthub
