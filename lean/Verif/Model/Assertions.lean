import Verif.Model.Py

/-!
# Model of `/repo/src/lamberthub/utils/assertions.py`

Vectors are of shape `(3,)` by typing, so the shape test (l.64-65) is not reachable
here; it is modelled in `Model/Arrays.lean` together with `nan` inputs.
-/

set_option autoImplicit false

namespace Lamberthub

/-- `assertions.py` l.31-48. -/
noncomputable def assertMu (mu : ℝ) : Py Unit :=
  raiseIf (mu ≤ 0) (.valueError "Gravitational parameter must be positive!")

open Classical in
/-- `assertions.py` l.51-70 (`np.all(r == 0)` is equality with the null vector). -/
noncomputable def assertPositionVector (r : V3) : Py Unit :=
  raiseIf (r = 0) (.valueError "Position vector cannot be the null vector [0,0,0]!")

open Classical in
/-- `assertions.py` l.73-96.  The loop variable of l.89 is not used by its body: l.90
checks `r1` on both passes. -/
noncomputable def assertPositionVectors (r1 r2 : V3) : Py Unit := do
  assertPositionVector r1
  assertPositionVector r1
  raiseIf (r1 = r2) (.valueError "Initial and final position vectors cannot be equal!")

/-- `assertions.py` l.99-115. -/
noncomputable def assertTof (tof : ℝ) : Py Unit :=
  raiseIf (tof ≤ 0) (.valueError "Time of flight must be positive!")

/-- `assertions.py` l.118-134. -/
noncomputable def assertM (M : ℤ) : Py Unit :=
  raiseIf (M < 0) (.valueError "Number of revolutions must be equal or greater than zero!")

/-- `assertions.py` l.6-28. -/
noncomputable def assertParametersAreValid (mu : ℝ) (r1 r2 : V3) (tof : ℝ) (M : ℤ) : Py Unit := do
  assertMu mu
  assertPositionVectors r1 r2
  assertTof tof
  assertM M

/-- `assertions.py` l.137-153. -/
noncomputable def assertTransferAngleNotZero (dtheta : ℝ) : Py Unit :=
  raiseIf (dtheta = 0) (.valueError "Transfer angle was found to be zero!")

/-- `assertions.py` l.156-172. -/
noncomputable def assertTransferAngleNotPi (dtheta : ℝ) : Py Unit :=
  raiseIf (dtheta = Real.pi) (.valueError "Transfer angle was found to be 180 degrees!")

end Lamberthub
