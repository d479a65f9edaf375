import Verif.Model.Assertions

/-!
# The validation code on raw arrays and on `nan`

`Model/Assertions.lean` types every argument as a real number or a vector of three real
numbers.  Here the same functions (`/repo/src/lamberthub/utils/assertions.py`) are
modelled on what a caller can actually pass: one-dimensional arrays of any length with
entries that may be `nan`.  Not modelled: infinities, arrays of more than one dimension,
objects that are not arrays.
-/

set_option autoImplicit false

namespace Lamberthub

/-- A float that may be `nan`. -/
inductive Fl where
  | nan
  | num (x : ℝ)

/-- `a <= b`; every comparison with `nan` is false. -/
def Fl.le : Fl → ℝ → Prop
  | .nan, _ => False
  | .num x, y => x ≤ y

/-- `a == b`; `nan` differs from everything, itself included. -/
def Fl.eq : Fl → Fl → Prop
  | .num x, .num y => x = y
  | _, _ => False

/-- A one-dimensional array. -/
abbrev Arr := List Fl

/-- Three real entries. -/
def V3.toArr (v : V3) : Arr := [.num v.x, .num v.y, .num v.z]

namespace Raw

open Classical in
/-- `assertions.py` l.31-48. -/
noncomputable def assertMu (mu : Fl) : Py Unit :=
  raiseIf (mu.le 0) (.valueError "Gravitational parameter must be positive!")

open Classical in
/-- `assertions.py` l.51-70; `np.all` of the empty array is true but the shape test comes
first. -/
noncomputable def assertPositionVector (r : Arr) : Py Unit := do
  raiseIf (r.length ≠ 3) (.valueError "Vector must be three-dimensional!")
  raiseIf (∀ x ∈ r, x.eq (.num 0))
    (.valueError "Position vector cannot be the null vector [0,0,0]!")

/-- `np.all(np.equal(a, b))` for one-dimensional arrays: equal lengths are compared entry
by entry, length 1 is broadcast, anything else is a `ValueError` of numpy. -/
noncomputable def allEqual (a b : Arr) : Py Prop :=
  if a.length = b.length then .ok (∀ p ∈ a.zip b, p.1.eq p.2)
  else match a, b with
    | [x], _ => .ok (∀ y ∈ b, x.eq y)
    | _, [y] => .ok (∀ x ∈ a, x.eq y)
    | _, _ => .error (.valueError "operands could not be broadcast together")

open Classical in
/-- `assertions.py` l.73-96; l.90 tests `r1` on both passes of the loop. -/
noncomputable def assertPositionVectors (r1 r2 : Arr) : Py Unit := do
  assertPositionVector r1
  assertPositionVector r1
  let e ← allEqual r1 r2
  raiseIf e (.valueError "Initial and final position vectors cannot be equal!")

open Classical in
/-- `assertions.py` l.99-115. -/
noncomputable def assertTof (tof : Fl) : Py Unit :=
  raiseIf (tof.le 0) (.valueError "Time of flight must be positive!")

/-- `assertions.py` l.118-134. -/
noncomputable def assertM (M : ℤ) : Py Unit :=
  raiseIf (M < 0) (.valueError "Number of revolutions must be equal or greater than zero!")

/-- `assertions.py` l.6-28. -/
noncomputable def assertParametersAreValid (mu : Fl) (r1 r2 : Arr) (tof : Fl) (M : ℤ) :
    Py Unit := do
  assertMu mu
  assertPositionVectors r1 r2
  assertTof tof
  assertM M

end Raw
end Lamberthub
