import Verif.Model.Assertions
import Verif.Proofs.PyLemmas

/-! # What the parameter checks guarantee -/

set_option autoImplicit false

namespace Lamberthub

/-- everything `assert_parameters_are_valid` guarantees -/
theorem assertParameters_iff {mu : ℝ} {r1 r2 : V3} {tof : ℝ} {M : ℤ} {u : Unit} :
    assertParametersAreValid mu r1 r2 tof M = .ok u ↔
      0 < mu ∧ r1 ≠ 0 ∧ r1 ≠ r2 ∧ 0 < tof ∧ 0 ≤ M := by
  unfold assertParametersAreValid assertMu assertPositionVectors assertPositionVector assertTof
    assertM
  simp only [bind_ok, raiseIf_ok, not_le, not_lt]
  constructor
  · rintro ⟨_, h1, _, ⟨_, h2, _, _, h3⟩, _, h4, h5⟩
    exact ⟨h1, h2, h3, h4, h5⟩
  · rintro ⟨h1, h2, h3, h4, h5⟩
    exact ⟨(), h1, (), ⟨(), h2, (), h2, h3⟩, (), h4, h5⟩

theorem assertParameters_ok {mu : ℝ} {r1 r2 : V3} {tof : ℝ} {M : ℤ} {u : Unit}
    (h : assertParametersAreValid mu r1 r2 tof M = .ok u) :
    0 < mu ∧ r1 ≠ 0 ∧ r1 ≠ r2 ∧ 0 < tof ∧ 0 ≤ M := assertParameters_iff.1 h

theorem assertParameters_eq {mu : ℝ} {r1 r2 : V3} {tof : ℝ} {M : ℤ} (h1 : 0 < mu) (h2 : r1 ≠ 0)
    (h3 : r1 ≠ r2) (h4 : 0 < tof) (h5 : 0 ≤ M) :
    assertParametersAreValid mu r1 r2 tof M = .ok () :=
  assertParameters_iff.2 ⟨h1, h2, h3, h4, h5⟩

end Lamberthub
