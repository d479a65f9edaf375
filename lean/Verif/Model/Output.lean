import Verif.Model.V3
import Verif.Model.Py

/-! # The value returned by a solver -/

set_option autoImplicit false

namespace Lamberthub

/-- What every solver returns: `(v1, v2)`, or `(v1, v2, numiter, tpi)` with
`full_output=True`. -/
inductive Output where
  | plain (v1 v2 : V3)
  | full (v1 v2 : V3) (numiter : ℕ) (tpi : ℝ)

/-- `return (v1, v2, numiter, tpi) if full_output is True else (v1, v2)`. -/
def mkOutput (fullOutput : Bool) (v1 v2 : V3) (numiter : ℕ) (tpi : ℝ) : Output :=
  if fullOutput = true then .full v1 v2 numiter tpi else .plain v1 v2

/-- The returned initial velocity. -/
def Output.v1 : Output → V3
  | .plain v _ => v
  | .full v _ _ _ => v

/-- The returned final velocity. -/
def Output.v2 : Output → V3
  | .plain _ v => v
  | .full _ v _ _ => v

@[simp] theorem mkOutput_v1 (b : Bool) (v1 v2 : V3) (n : ℕ) (t : ℝ) :
    (mkOutput b v1 v2 n t).v1 = v1 := by cases b <;> rfl
@[simp] theorem mkOutput_v2 (b : Bool) (v1 v2 : V3) (n : ℕ) (t : ℝ) :
    (mkOutput b v1 v2 n t).v2 = v2 := by cases b <;> rfl

/-- `tpi = (toc - tic) / numiter if full_output else 0.0`; `clock` is the measured time. -/
noncomputable def timePerIter (fullOutput : Bool) (clock : ℝ) (numiter : ℕ) : Py ℝ :=
  if fullOutput = true then pdiv clock numiter else .ok 0.0

end Lamberthub
