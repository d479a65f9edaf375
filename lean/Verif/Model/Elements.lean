import Verif.Model.Angles
import Mathlib.LinearAlgebra.Matrix.Notation

/-! # Model of `/repo/src/lamberthub/utils/elements.py` -/

set_option autoImplicit false

namespace Lamberthub

/-- `np.array` of shape `(3, 3)`. -/
abbrev M3 := Matrix (Fin 3) (Fin 3) ℝ

/-- one row of `rows @ m.T`, i.e. the matrix `m` applied to the vector `v`. -/
def M3.app (m : M3) (v : V3) : V3 :=
  ⟨m 0 0 * v.x + m 0 1 * v.y + m 0 2 * v.z,
   m 1 0 * v.x + m 1 1 * v.y + m 1 2 * v.z,
   m 2 0 * v.x + m 2 1 * v.y + m 2 2 * v.z⟩

/-- `elements.py` l.280-300, `rotation_matrix`. -/
noncomputable def rotationMatrix (angle : ℝ) (axis : ℤ) : Py M3 :=
  let c := Real.cos angle
  let s := Real.sin angle
  if axis = 0 then .ok !![1, 0, 0; 0, c, -s; 0, s, c]
  else if axis = 1 then .ok !![c, 0, s; 0, 1, 0; s, 0, c]
  else if axis = 2 then .ok !![c, -s, 0; s, c, 0; 0, 0, 1]
  else .error (.valueError "Invalid axis: must be one of 'x', 'y' or 'z'")

/-- `elements.py` l.27-71, `rv_pqw`; the two rows of the returned array. -/
noncomputable def rvPqw (k p ecc nu : ℝ) : Py (V3 × V3) := do
  let a ← pdiv p (1 + ecc * Real.cos nu)
  let q ← pdiv k p
  let b ← psqrt q
  .ok (⟨Real.cos nu * a, Real.sin nu * a, 0 * a⟩, ⟨-Real.sin nu * b, (ecc + Real.cos nu) * b, 0 * b⟩)

/-- `elements.py` l.75-80, `coe_rotation_matrix`. -/
noncomputable def coeRotationMatrix (inc raan argp : ℝ) : Py M3 := do
  let r ← rotationMatrix raan 2
  let m ← rotationMatrix inc 0
  let r := r * m
  let m ← rotationMatrix argp 2
  .ok (r * m)

/-- `elements.py` l.84-144, `coe2rv`; the two rows of the returned array. -/
noncomputable def coe2rv (k p ecc inc raan argp nu : ℝ) : Py (V3 × V3) := do
  let pqw ← rvPqw k p ecc nu
  let rm ← coeRotationMatrix inc raan argp
  .ok (rm.app pqw.1, rm.app pqw.2)

/-- The six values returned by `rv2coe`. -/
structure Coe where
  p : ℝ
  ecc : ℝ
  inc : ℝ
  raan : ℝ
  argp : ℝ
  nu : ℝ

/-- `elements.py` l.258-267: true anomaly of a non-circular orbit. -/
noncomputable def rv2coeNu (k p ecc rNorm vNorm rv vv : ℝ) : Py ℝ := do
  let a ← pdiv p (1 - ecc ^ 2)
  let ka := k * a
  if a > 0 then do
    let s ← psqrt ka
    let eSe ← pdiv rv s
    let q ← pdiv (rNorm * vv) k
    let eCe := q - 1
    eToNu (arctan2 eSe eCe) ecc
  else do
    let s ← psqrt (-ka)
    let eSh ← pdiv rv s
    let q ← pdiv (rNorm * vNorm ^ 2) k
    let eCh := q - 1
    let w ← pdiv (eCh + eSh) (eCh - eSh)
    let l ← plog w
    hToNu (l / 2) ecc

open Classical in
/-- `elements.py` l.241-272: node, argument of periapsis and true anomaly (before the
final wrapping). -/
noncomputable def rv2coeAngles (k p ecc inc tol rNorm vNorm hNorm : ℝ) (r v h n e : V3) :
    Py (ℝ × ℝ × ℝ) :=
  let circular := ecc < tol
  let equatorial := |inc| < tol
  if equatorial ∧ ¬ circular then do
    let argp := pmod (arctan2 e.y e.x) (2 * Real.pi)
    let q ← pdiv (V3.dot h (V3.cross e r)) hNorm
    let nu := arctan2 q (V3.dot r e)
    Except.ok ((0 : ℝ), argp, nu)
  else if ¬ equatorial ∧ circular then do
    let raan := pmod (arctan2 n.y n.x) (2 * Real.pi)
    let q ← pdiv (V3.dot r (V3.cross h n)) hNorm
    let nu := arctan2 q (V3.dot r n)
    Except.ok (raan, (0 : ℝ), nu)
  else if equatorial ∧ circular then
    Except.ok ((0 : ℝ), (0 : ℝ), pmod (arctan2 r.y r.x) (2 * Real.pi))
  else do
    let nu ← rv2coeNu k p ecc rNorm vNorm (V3.dot r v) (V3.dot v v)
    let raan := pmod (arctan2 n.y n.x) (2 * Real.pi)
    let px := V3.dot r n
    let py ← pdiv (V3.dot r (V3.cross h n)) hNorm
    let argp := pmod (arctan2 py px - nu) (2 * Real.pi)
    Except.ok (raan, argp, nu)

/-- `elements.py` l.148-276, `rv2coe`. -/
noncomputable def rv2coe (k : ℝ) (r v : V3) (tol : ℝ) : Py Coe := do
  let h := V3.cross r v
  let n := V3.cross ⟨0, 0, 1⟩ h
  let rNorm ← psqrt (V3.dot r r)
  let vNorm ← psqrt (V3.dot v v)
  let hNorm ← psqrt (V3.dot h h)
  let kr ← pdiv k rNorm
  let e ← vdiv ((V3.dot v v - kr) • r - V3.dot r v • v) k
  let ecc ← psqrt (V3.dot e e)
  let p ← pdiv (V3.dot h h) k
  let ci ← pdiv h.z hNorm
  let inc ← pacos ci
  let a ← rv2coeAngles k p ecc inc tol rNorm vNorm hNorm r v h n e
  let nu := pmod (a.2.2 + Real.pi) (2 * Real.pi) - Real.pi
  .ok ⟨p, ecc, inc, a.1, a.2.1, nu⟩

end Lamberthub
