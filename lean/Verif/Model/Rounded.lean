import Verif.Model.Angles
import Mathlib.Data.Int.Log

/-!
# `linalg.py` and `get_transfer_angle` with rounding

The rest of the model computes with real numbers.  Here the functions every solver begins with are modelled again,
with a rounding after every operation, in the order written in the code.

Simplified: no overflow and no underflow (the exponent is unbounded), and the operations are not reordered or fused,
which `fastmath=True` allows numba to do.
-/

set_option autoImplicit false

namespace Lamberthub

/-- The rounded arithmetic: what follows every operation (`rnd`), the library functions, and the constant `np.pi`. -/
structure Arith where
  /-- the value stored for the exact result of `+`, `-`, `*` or `/`. -/
  rnd : ℝ → ℝ
  /-- `a ** 0.5`. -/
  root : ℝ → ℝ
  /-- `np.arccos`, on `[-1, 1]`. -/
  acos : ℝ → ℝ
  /-- `np.pi`. -/
  pi : ℝ

namespace Rounded

/-- `linalg.py` l.29, in the order of evaluation. -/
def dot (F : Arith) (a b : V3) : ℝ :=
  F.rnd (F.rnd (F.rnd (a.x * b.x) + F.rnd (a.y * b.y)) + F.rnd (a.z * b.z))

/-- `linalg.py` l.49 (`np.cross`). -/
def cross (F : Arith) (a b : V3) : V3 :=
  ⟨F.rnd (F.rnd (a.y * b.z) - F.rnd (a.z * b.y)), F.rnd (F.rnd (a.z * b.x) - F.rnd (a.x * b.z)),
    F.rnd (F.rnd (a.x * b.y) - F.rnd (a.y * b.x))⟩

/-- `linalg.py` l.67. -/
def norm (F : Arith) (a : V3) : ℝ := F.root (dot F a a)

/-- The quotient of two numbers; division by zero gives `inf` or `nan` in the code. -/
noncomputable def div (F : Arith) (a b : ℝ) : Py ℝ := do
  let q ← pdiv a b
  .ok (F.rnd q)

/-- The quotient of an array by a number. -/
noncomputable def vdiv (F : Arith) (a : V3) (b : ℝ) : Py V3 := do
  let x ← div F a.x b
  let y ← div F a.y b
  let z ← div F a.z b
  .ok ⟨x, y, z⟩

/-- `np.arccos`; outside `[-1, 1]` the code gets `nan`. -/
noncomputable def acos (F : Arith) (a : ℝ) : Py ℝ :=
  if -1 ≤ a ∧ a ≤ 1 then .ok (F.acos a) else .error .undefined

open Classical in
/-- `angles.py` l.13-58, `get_transfer_angle`. -/
noncomputable def getTransferAngle (F : Arith) (r1 r2 : V3) (isPrograde : Bool) : Py ℝ :=
  let crossR1R2 := cross F r1 r2
  if crossR1R2 = 0 then
    if sameSigns r1 r2 then .ok 0 else .ok F.pi
  else do
    let h ← vdiv F crossR1R2 (norm F crossR1R2)
    let alpha := dot F kAxis h
    let r1Norm := norm F r1
    let r2Norm := norm F r2
    let q ← div F (dot F r1 r2) (F.rnd (r1Norm * r2Norm))
    let theta0 ← acos F q
    if isPrograde = true then
      if alpha > 0 then .ok theta0 else .ok (F.rnd (F.rnd (2 * F.pi) - theta0))
    else
      if alpha < 0 then .ok theta0 else .ok (F.rnd (F.rnd (2 * F.pi) - theta0))

/-- The nearest integer, ties to even. -/
noncomputable def nearest (y : ℝ) : ℤ :=
  if y - ⌊y⌋ < 1 / 2 then ⌊y⌋
  else if 1 / 2 < y - ⌊y⌋ then ⌊y⌋ + 1
  else if Even ⌊y⌋ then ⌊y⌋ else ⌊y⌋ + 1

/-- The spacing of the binary64 numbers around `x ≠ 0`: 53 significant bits. -/
noncomputable def ulp (x : ℝ) : ℝ := (2 : ℝ) ^ (Int.log 2 |x| - 52)

/-- Rounding to binary64, to nearest and ties to even (IEEE 754), with unbounded exponent. -/
noncomputable def rnd64 (x : ℝ) : ℝ := nearest (x / ulp x) * ulp x

/-- binary64 arithmetic with correctly rounded library functions. -/
noncomputable def binary64 : Arith where
  rnd := rnd64
  root x := rnd64 (Real.sqrt x)
  acos x := rnd64 (Real.arccos x)
  pi := rnd64 Real.pi

end Rounded
end Lamberthub
