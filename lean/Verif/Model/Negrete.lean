import Verif.Model.PyC
import Verif.Model.Output
import Verif.Model.Assertions
import Verif.Model.Angles

/-! # Model of `/repo/src/lamberthub/universal_solvers/negrete.py`

Complex arithmetic follows `Model/PyC.lean`.  The arrays of moments are functions on `ℕ`. -/

set_option autoImplicit false

namespace Lamberthub
namespace Negrete

/-- The loop of `_stumpff_series`, `negrete.py` l.338-341: `remaining` passes starting at
coefficient `k`. -/
noncomputable def seriesLoop (j : ℕ) (negZ : ℂ) : ℕ → ℕ → ℂ → ℂ → ℂ
  | 0, _, _, total => total
  | remaining + 1, k, term, total =>
    seriesLoop j negZ remaining (k + 1) (term * negZ)
      (total + term * negZ * (1 / ((2 * k + j).factorial : ℂ)))

/-- `negrete.py` l.319-342, `_stumpff_series` with the tables of reciprocal factorials
(`j` is `order`). -/
noncomputable def stumpffSeriesC (z : ℂ) (j : ℕ) : ℂ :=
  seriesLoop j (-z) 19 1 1 (1 / (j.factorial : ℂ))

/-- `negrete.py` l.303-308, `_c2`. -/
noncomputable def c2 (z : ℂ) : Py ℂ :=
  if ‖z‖ < 1e-8 then .ok (stumpffSeriesC z 2)
  else cdiv (1 - Complex.cos (csqrt z)) z

/-- `negrete.py` l.311-317, `_c3`. -/
noncomputable def c3 (z : ℂ) : Py ℂ :=
  if ‖z‖ < 1e-8 then .ok (stumpffSeriesC z 3)
  else cdiv (csqrt z - Complex.sin (csqrt z)) (z * csqrt z)

/-- `negrete.py` l.297-300, `_y_at_z`. -/
noncomputable def yAtZ (z : ℂ) (r1Norm r2Norm A : ℝ) : Py ℂ := do
  let s3 ← c3 z
  let s2 ← c2 z
  let q ← cdiv (A * (z * s3 - 1)) (csqrt s2)
  .ok (r1Norm + r2Norm + q)

/-- `negrete.py` l.290-294, `_get_A`. -/
noncomputable def getA (r1Norm r2Norm dtheta : ℝ) : Py ℝ := do
  let tm : ℝ := if dtheta < Real.pi then 1 else -1
  let s ← psqrt (r1Norm * r2Norm * (1 + Real.cos dtheta))
  .ok (tm * s)

/-- `negrete.py` l.282-287, `_real_solution`. -/
noncomputable def realSolution (z : ℂ) (atol rtol : ℝ) : Py ℝ := do
  raiseIf (|z.im| > atol + rtol * |z.re|) (.valueError "Contour integral did not return a real solution!")
  .ok z.re

/-- `negrete.py` l.256-262, `_tof_at_z`. -/
noncomputable def tofAtZ (z mu r1Norm r2Norm A : ℝ) : Py ℝ := do
  let y ← yAtZ z r1Norm r2Norm A
  let s2 ← c2 z
  let q ← cdiv y s2
  let s3 ← c3 z
  let smu ← psqrt mu
  let t ← cdiv (csqrt q ^ 3 * s3 + A * csqrt y) smu
  .ok t.re

/-- The `for` loop of `_hyperbolic_contour`, `negrete.py` l.269-275. -/
noncomputable def hyperbolicLoop (mu r1Norm r2Norm A tof : ℝ) : ℕ → ℝ → Py (ℝ × Bool)
  | 0, zLow => .ok (zLow, false)
  | remaining + 1, zLow => do
    let y ← yAtZ zLow r1Norm r2Norm A
    if y.re > 0 then do
      let t ← tofAtZ zLow mu r1Norm r2Norm A
      if t < tof then .ok (zLow, true)
      else hyperbolicLoop mu r1Norm r2Norm A tof remaining (zLow * 2)
    else hyperbolicLoop mu r1Norm r2Norm A tof remaining (zLow * 2)

/-- `negrete.py` l.265-279, `_hyperbolic_contour`. -/
noncomputable def hyperbolicContour (mu r1Norm r2Norm A tof : ℝ) : Py (ℝ × ℝ × Bool) := do
  let (zLow, success) ← hyperbolicLoop mu r1Norm r2Norm A tof 64 (-1)
  let center := 0.5 * zLow
  .ok (center, |center| * (1 - 1e-6), success)

/-- `negrete.py` l.248-253, `_pole_function`. -/
noncomputable def poleFunction (mu r1Norm r2Norm A tof : ℝ) (z : ℂ) : Py ℂ := do
  let y ← yAtZ z r1Norm r2Norm A
  let s2 ← c2 z
  let q ← cdiv y s2
  let s3 ← c3 z
  let smu ← psqrt mu
  cdiv 1 (csqrt q ^ 3 * s3 + A * csqrt y - smu * tof)

/-- The outer `for` loop of `_contour_integrals`, `negrete.py` l.232-242, for a pole function
`f`.  The inner loop (l.240-242) multiplies `zk` by `z` once per moment, so moment `k`
receives `z ^ k * w`; moments beyond `degree` stay zero and are never read. -/
noncomputable def contourLoop (f : ℂ → Py ℂ) (center radius invN : ℝ) (degree : ℕ) :
    ℕ → ℕ → (ℕ → ℂ) → Py (ℕ → ℂ)
  | 0, _, out => .ok out
  | remaining + 1, i, out => do
    let expT := Complex.exp (2 * Complex.I * Real.pi * ((i * invN : ℝ) : ℂ))
    let z := center + radius * expT
    let dzdx := 2 * Complex.I * Real.pi * radius * expT
    let fz ← f z
    contourLoop f center radius invN degree remaining (i + 1)
      (fun k => if k ≤ degree then out k + z ^ k * (fz * dzdx) else out k)

/-- `negrete.py` l.226-245, `_contour_integrals`, for a pole function `f`. -/
noncomputable def contourIntegrals (f : ℂ → Py ℂ) (center radius : ℝ) (degree numiter : ℕ) : Py (ℕ → ℂ) := do
  let invN ← pdiv 1 numiter
  let out ← contourLoop f center radius invN degree numiter 0 (fun _ => 0)
  .ok (fun k => out k * invN)

/-- `negrete.py` l.192-198, `_refinement_center`. -/
noncomputable def refinementCenter (z zMin zMax : ℝ) : ℝ :=
  if zMin = 0 ∧ z < zMin then (if 0.5 < 0.25 * zMax then 0.5 else 0.25 * zMax) else z

/-- `negrete.py` l.201-223, `_refinement_radius`. -/
noncomputable def refinementRadius (z zMin zMax : ℝ) : ℝ :=
  let radius : ℝ :=
    if zMin = 0 ∧ 0 < z ∧ z < 1 then
      let r := if z < 2 then z else 2
      if 0.5 * (zMax - z) < r then 0.5 * (zMax - z) else r
    else if zMin < z ∧ z < zMax then
      let r := if 0.5 * (z - zMin) < 2 then 0.5 * (z - zMin) else 2
      if 0.5 * (zMax - z) < r then 0.5 * (zMax - z) else r
    else if zMin < z ∧ z < 0 ∧ 0 < zMax then
      if 0.9 * |z| < 2 then 0.9 * |z| else 2
    else 2
  if radius > 1e-8 then radius else 1e-8

/-- One root from the first two moments: `negrete.py` l.124-130 and l.182-188. -/
noncomputable def singleRoot (f : ℂ → Py ℂ) (center radius : ℝ) (numiter : ℕ) (atol rtol : ℝ) : Py ℝ := do
  let I ← contourIntegrals f center radius 1 numiter
  let q ← cdiv (I 1) (I 0)
  realSolution q atol rtol

/-- `negrete.py` l.175-189, `_refine_single_root`: `passes` passes of the loop. -/
noncomputable def refineLoop (f : ℂ → Py ℂ) (zMin zMax : ℝ) (numiter : ℕ) (atol rtol : ℝ) : ℕ → ℝ → Py ℝ
  | 0, z => .ok z
  | passes + 1, z => do
    let center := refinementCenter z zMin zMax
    let z' ← singleRoot f center (refinementRadius center zMin zMax) numiter atol rtol
    refineLoop f zMin zMax numiter atol rtol passes z'

/-- `negrete.py` l.175-189, `_refine_single_root`. -/
noncomputable def refineSingleRoot (f : ℂ → Py ℂ) (z zMin zMax : ℝ) (numiter : ℕ) (atol rtol : ℝ) : Py ℝ :=
  refineLoop f zMin zMax numiter atol rtol 2 z

/-- `negrete.py` l.111-121: contour of the zero-revolution problem. -/
noncomputable def singleContour (mu r1Norm r2Norm A tof tp : ℝ) : Py (ℝ × ℝ × ℝ × ℝ) :=
  if tof < tp then do
    let (center, radius, ok) ← hyperbolicContour mu r1Norm r2Norm A tof
    raiseIf (ok = false) (.valueError "Could not bracket hyperbolic contour!")
    .ok (center, radius, center - radius, 0)
  else .ok (2 * Real.pi ^ 2, 2 * Real.pi ^ 2 - 0.5, 0, 4 * Real.pi ^ 2)

/-- The two roots from the first four moments, `negrete.py` l.146-155. -/
noncomputable def momentRoots (I0 I1 I2 I3 : ℂ) : Py (ℂ × ℂ) := do
  let a := I1 ^ 2 - I0 * I2
  let b := I3 * I0 - I1 * I2
  let c := I2 ^ 2 - I1 * I3
  let sqrtDisc := csqrt (b * b - 4 * a * c)
  let root1 ← cdiv (-b + sqrtDisc) (2 * a)
  let root2 ← cdiv (-b - sqrtDisc) (2 * a)
  .ok (root1, root2)

/-- `negrete.py` l.134-172: the multi-revolution branch of `_find_z`. -/
noncomputable def findZMulti (f : ℂ → Py ℂ) (M : ℕ) (isLowPath : Bool) (numiter : ℕ) (atol rtol : ℝ) : Py ℝ := do
  let zMin := (2 * M * Real.pi) ^ 2
  let zMax := (2 * (M + 1) * Real.pi) ^ 2
  let center := 2 * Real.pi ^ 2 * (2 * M ^ 2 + 2 * M + 1)
  let radius := 2 * Real.pi ^ 2 * (2 * M + 1) - 0.5
  let I ← contourIntegrals f center radius 3 numiter
  let (root1, root2) ← momentRoots (I 0) (I 1) (I 2) (I 3)
  raiseIf (|root1.im| > atol + rtol * |root1.re| ∨ |root2.im| > atol + rtol * |root2.re|)
    (.valueError "No feasible solution, try lower M!")
  let lo ← refineSingleRoot f (min root1.re root2.re) zMin zMax numiter atol rtol
  let hi ← refineSingleRoot f (max root1.re root2.re) zMin zMax numiter atol rtol
  .ok (if isLowPath = true then min lo hi else max lo hi)

/-- `negrete.py` l.107-172, `_find_z`. -/
noncomputable def findZ (mu r1Norm r2Norm A tof : ℝ) (M : ℕ) (isLowPath : Bool) (numiter : ℕ) (atol rtol : ℝ) :
    Py ℝ :=
  if M = 0 then do
    let tp ← tofAtZ 0 mu r1Norm r2Norm A
    let (center, radius, zMin, zMax) ← singleContour mu r1Norm r2Norm A tof tp
    let z ← singleRoot (poleFunction mu r1Norm r2Norm A tof) center radius numiter atol rtol
    refineSingleRoot (poleFunction mu r1Norm r2Norm A tof) z zMin zMax numiter atol rtol
  else findZMulti (poleFunction mu r1Norm r2Norm A tof) M isLowPath numiter atol rtol

/-- `negrete.py` l.93-102: velocities from the root. -/
noncomputable def reconstruct (mu : ℝ) (r1 r2 : V3) (r1Norm r2Norm A z : ℝ) : Py (V3 × V3) := do
  let yc ← yAtZ z r1Norm r2Norm A
  let y := yc.re
  let q1 ← pdiv y r1Norm
  let f := 1 - q1
  let q ← pdiv y mu
  let s ← psqrt q
  let g := A * s
  let q2 ← pdiv y r2Norm
  let gdot := 1 - q2
  let v1 ← vdiv (r2 - f • r1) g
  let v2 ← vdiv (gdot • r2 - r1) g
  .ok (v1, v2)

end Negrete

open Negrete in
/-- `negrete.py` l.16-104, `negrete2024`; `clock` is the measured time. -/
noncomputable def negrete2024 (mu : ℝ) (r1 r2 : V3) (tof : ℝ) (M : ℤ) (isPrograde : Bool)
    (isLowPath : Bool) (maxiter : ℕ) (atol rtol : ℝ) (fullOutput : Bool) (clock : ℝ) : Py Output := do
  assertParametersAreValid mu r1 r2 tof M
  let r1Norm := V3.norm r1
  let r2Norm := V3.norm r2
  let dtheta ← getTransferAngle r1 r2 isPrograde
  assertTransferAngleNotZero dtheta
  let A ← getA r1Norm r2Norm dtheta
  raiseIf (A = 0.0) (.runtimeError "Cannot compute orbit, phase angle is 180 degrees")
  let numiter := max 4 maxiter
  let z ← findZ mu r1Norm r2Norm A tof M.toNat isLowPath numiter atol rtol
  let tpi ← timePerIter fullOutput clock (3 * numiter)
  let (v1, v2) ← reconstruct mu r1 r2 r1Norm r2Norm A z
  .ok (mkOutput fullOutput v1 v2 numiter tpi)

end Lamberthub
