import Verif.Model.V3
import Mathlib.Analysis.SpecialFunctions.Trigonometric.Inverse
import Mathlib.Analysis.SpecialFunctions.Log.Basic
import Mathlib.Analysis.SpecialFunctions.Artanh
import Mathlib.Analysis.SpecialFunctions.Arcosh

/-!
# The outcome monad of the model

A python call either returns a value or stops with one of the errors below.
`undefined` stands for an arithmetic operation outside its domain (division by zero,
square root of a negative number, ...): the real program produces `inf`/`nan` there
(numpy) or raises `ZeroDivisionError` (numba); the model stops.
`diverges` is the outcome of a `while` loop that never exits.
-/

set_option autoImplicit false

namespace Lamberthub

inductive PyErr where
  | valueError (msg : String)
  | runtimeError (msg : String)
  | assertionError
  | unboundLocal (name : String)
  | undefined
  | diverges
  deriving DecidableEq

abbrev Py (α : Type) := Except PyErr α

/-- `if c: raise e` -/
noncomputable def raiseIf (c : Prop) [Decidable c] (e : PyErr) : Py Unit :=
  if c then .error e else .ok ()

/-- `a / b` on floats. -/
noncomputable def pdiv (a b : ℝ) : Py ℝ := if b = 0 then .error .undefined else .ok (a / b)

/-- `np.sqrt(a)` and `a ** 0.5`. -/
noncomputable def psqrt (a : ℝ) : Py ℝ :=
  if a < 0 then .error .undefined else .ok (Real.sqrt a)

/-- `np.arccos(a)`. -/
noncomputable def pacos (a : ℝ) : Py ℝ :=
  if -1 ≤ a ∧ a ≤ 1 then .ok (Real.arccos a) else .error .undefined

/-- `np.arcsin(a)`. -/
noncomputable def pasin (a : ℝ) : Py ℝ :=
  if -1 ≤ a ∧ a ≤ 1 then .ok (Real.arcsin a) else .error .undefined

/-- `np.log(a)`. -/
noncomputable def plog (a : ℝ) : Py ℝ :=
  if 0 < a then .ok (Real.log a) else .error .undefined

/-- `np.tan(a)`; undefined at the poles. -/
noncomputable def ptan (a : ℝ) : Py ℝ :=
  if Real.cos a = 0 then .error .undefined else .ok (Real.tan a)

/-- `np.arctanh(a)`. -/
noncomputable def partanh (a : ℝ) : Py ℝ :=
  if -1 < a ∧ a < 1 then .ok (Real.artanh a) else .error .undefined

/-- `np.arccosh(a)`. -/
noncomputable def pacosh (a : ℝ) : Py ℝ :=
  if 1 ≤ a then .ok (Real.arcosh a) else .error .undefined

/-- `a ** b` for a real exponent; the base has to be positive, or zero with a positive
exponent. -/
noncomputable def prpow (a b : ℝ) : Py ℝ :=
  if 0 < a ∨ (a = 0 ∧ 0 < b) then .ok (a ^ b) else .error .undefined

/-- Division of an array of shape `(3,)` by a float. -/
noncomputable def vdiv (v : V3) (c : ℝ) : Py V3 :=
  if c = 0 then .error .undefined else .ok (c⁻¹ • v)

section While
variable {σ : Type}

/-- At most `n` passes of `while cond(s): s = body(s)`; `none` when `n` passes were not
enough. -/
noncomputable def whileRun (cond : σ → Prop) (body : σ → Py σ) : ℕ → σ → Option (Py σ)
  | n, s => by
    classical
    exact
      if cond s then
        match n with
        | 0 => none
        | n + 1 =>
          match body s with
          | .error e => some (.error e)
          | .ok s' => whileRun cond body n s'
      else some (.ok s)

/-- The `while` loop itself (exact semantics, no bound on the number of passes):
the outcome reached after finitely many passes if there is one, `diverges` otherwise. -/
noncomputable def whileLoop (cond : σ → Prop) (body : σ → Py σ) (s : σ) : Py σ := by
  classical
  exact
    if h : ∃ r, ∃ n, whileRun cond body n s = some r then Classical.choose h
    else .error .diverges

end While
end Lamberthub
