import Verif.Model.Output
import Verif.Model.Assertions
import Verif.Model.Angles
import Verif.Model.Stumpff

/-! # Model of `/repo/src/lamberthub/regularization/delatorre.py` -/

set_option autoImplicit false

namespace Lamberthub
namespace Delatorre

/-- `delatorre.py` l.239-245, `_stumpff0`.  The series branch (l.279-290) stops when
rounding absorbs the next term; it is modelled by its limit, as in `Model/Stumpff.lean`. -/
noncomputable def stumpff0 (z : ℝ) : Py ℝ :=
  if z > 1e-8 then do
    let s ← psqrt z
    .ok (Real.cos s)
  else if z < -1e-8 then do
    let s ← psqrt (-z)
    .ok (Real.cosh s)
  else .ok (stumpffSeries 0 z)

/-- `delatorre.py` l.248-256, `_stumpff1`. -/
noncomputable def stumpff1 (z : ℝ) : Py ℝ :=
  if z > 1e-8 then do
    let s ← psqrt z
    pdiv (Real.sin s) s
  else if z < -1e-8 then do
    let s ← psqrt (-z)
    pdiv (Real.sinh s) s
  else .ok (stumpffSeries 1 z)

/-- `delatorre.py` l.259-265, `_stumpff2`. -/
noncomputable def stumpff2 (z : ℝ) : Py ℝ :=
  if z > 1e-8 then do
    let s ← psqrt z
    pdiv (1 - Real.cos s) z
  else if z < -1e-8 then do
    let s ← psqrt (-z)
    pdiv (Real.cosh s - 1) (-z)
  else .ok (stumpffSeries 2 z)

/-- `delatorre.py` l.268-276, `_stumpff3`. -/
noncomputable def stumpff3 (z : ℝ) : Py ℝ :=
  if z > 1e-8 then do
    let s ← psqrt z
    pdiv (s - Real.sin s) (z * s)
  else if z < -1e-8 then do
    let s ← psqrt (-z)
    pdiv (Real.sinh s - s) (-z * s)
  else .ok (stumpffSeries 3 z)

/-- `delatorre.py` l.218-236, `_tof_equation_y`. -/
noncomputable def tofEquation (P Q mu z : ℝ) (M : ℤ) : Py ℝ := do
  let c0 ← stumpff0 z
  let c1 ← stumpff1 z
  let c2z ← stumpff2 (4 * z)
  let c3z ← stumpff3 (4 * z)
  let V := P - Q * c0
  let q ← pdiv (2 * V) mu
  let s ← psqrt q
  let first ← pdiv ((2 * P * c3z + Q * (c1 * c2z - 2 * c0 * c3z)) * s) (c1 ^ 3)
  if M = 0 then .ok first
  else do
    let q2 ← pdiv (V ^ 3) (2 * mu * z ^ 3)
    let s2 ← psqrt q2
    let second ← pdiv (M * Real.pi * s2) (c1 ^ 3)
    .ok (first + second)

/-- `delatorre.py` l.207-215, `_tof_derivative`; `F` is `_tof_equation_y(P, Q, mu, ., M)`,
`2^-52` is `np.finfo(float).eps`. -/
noncomputable def tofDerivative (F : ℝ → Py ℝ) (z zLow zHigh : ℝ) : Py ℝ := do
  let dz0 := max 1e-7 (Real.sqrt (2 ^ (-52 : ℤ)) * max 1.0 |z|)
  let dz := min (min dz0 (0.25 * (z - zLow))) (0.25 * (zHigh - z))
  if dz ≤ 0 then .ok 0.0
  else do
    let a ← F (z + dz)
    let b ← F (z - dz)
    pdiv (a - b) (2 * dz)

/-- The candidate `z_new` of l.165-168.  A derivative that is zero or not finite
(`.error`) gives `nan`, hence the midpoint. -/
noncomputable def nextZ (F : ℝ → Py ℝ) (f z zLow zHigh : ℝ) : ℝ :=
  match tofDerivative F z zLow zHigh with
  | .error _ => 0.5 * (zLow + zHigh)
  | .ok df =>
    if df = 0 then 0.5 * (zLow + zHigh)
    else if z - f / df ≤ zLow ∨ z - f / df ≥ zHigh then 0.5 * (zLow + zHigh)
    else z - f / df

/-- The `for` loop l.153-172 (`fLow` is the residual at `zLow`). -/
noncomputable def bracketLoop (F : ℝ → Py ℝ) (tof atol rtol : ℝ) :
    ℕ → ℕ → ℝ → ℝ → ℝ → ℝ → Py (ℝ × ℕ)
  | 0, _, _, _, _, _ => .error (.valueError "Exceeded maximum number of iterations!")
  | remaining + 1, numiter, z, zLow, zHigh, fLow => do
    let t ← F z
    let f := t - tof
    if |f| ≤ atol + rtol * tof then .ok (z, numiter)
    else if fLow * f ≤ 0 then
      bracketLoop F tof atol rtol remaining (numiter + 1) (nextZ F f z zLow z) zLow z fLow
    else
      bracketLoop F tof atol rtol remaining (numiter + 1) (nextZ F f z z zHigh) z zHigh f

/-- `delatorre.py` l.140-172, `_solve_bracketed`. -/
noncomputable def solveBracketed (F : ℝ → Py ℝ) (tof zLow zHigh : ℝ) (maxiter : ℕ)
    (atol rtol : ℝ) : Py (ℝ × ℕ) := do
  let tl ← F zLow
  let fLow := tl - tof
  let th ← F zHigh
  let fHigh := th - tof
  if fLow = 0 then .ok (zLow, 1)
  else if fHigh = 0 then .ok (zHigh, 1)
  else if fLow * fHigh > 0 then .error (.valueError "No feasible solution, try lower M!")
  else bracketLoop F tof atol rtol maxiter 1 (0.5 * (zLow + zHigh)) zLow zHigh fLow

/-- State of the golden-section search l.175-204. -/
structure Golden where
  zLow : ℝ
  zHigh : ℝ
  z1 : ℝ
  z2 : ℝ
  t1 : ℝ
  t2 : ℝ

/-- l.179, `gr = (np.sqrt(5) - 1) / 2`. -/
noncomputable def gr : ℝ := (Real.sqrt 5 - 1) / 2

/-- One pass of the search, l.187-198. -/
noncomputable def goldenStep (F : ℝ → Py ℝ) (s : Golden) : Py Golden :=
  if s.t1 > s.t2 then do
    let z2 := s.z1 + gr * (s.zHigh - s.z1)
    let t2 ← F z2
    .ok ⟨s.z1, s.zHigh, s.z2, z2, s.t2, t2⟩
  else do
    let z1 := s.z2 - gr * (s.z2 - s.zLow)
    let t1 ← F z1
    .ok ⟨s.zLow, s.z2, z1, s.z1, t1, s.t1⟩

/-- The loop l.186-201. -/
noncomputable def goldenLoop (F : ℝ → Py ℝ) (atol rtol : ℝ) : ℕ → Golden → Py Golden
  | 0, s => .ok s
  | n + 1, s => do
    let s' ← goldenStep F s
    if |s'.zHigh - s'.zLow| ≤ atol + rtol * |s'.z1| then .ok s'
    else goldenLoop F atol rtol n s'

/-- Search on an arbitrary initial interval; `delatorre.py` l.175-204 uses
`[1e-12, π² - 1e-12]` and 100 passes. -/
noncomputable def goldenSearch (F : ℝ → Py ℝ) (atol rtol zLow zHigh : ℝ) (passes : ℕ) :
    Py (ℝ × ℝ) := do
  let z1 := zHigh - gr * (zHigh - zLow)
  let z2 := zLow + gr * (zHigh - zLow)
  let t1 ← F z1
  let t2 ← F z2
  let s ← goldenLoop F atol rtol passes ⟨zLow, zHigh, z1, z2, t1, t2⟩
  let zMin := 0.5 * (s.zLow + s.zHigh)
  let t ← F zMin
  .ok (zMin, t)

/-- `delatorre.py` l.175-204, `_find_minimum_time`. -/
noncomputable def findMinimumTime (F : ℝ → Py ℝ) (atol rtol : ℝ) : Py (ℝ × ℝ) :=
  goldenSearch F atol rtol 1e-12 (Real.pi ^ 2 - 1e-12) 100

open Classical in
/-- The loop l.131-132; the state carries `_tof_equation_y(P, Q, mu, z_low, 0) > tof`. -/
noncomputable def lowerZ (F : ℝ → Py ℝ) (tof : ℝ) (zLow : ℝ) : Py ℝ := do
  let t0 ← F zLow
  let s ← whileLoop (fun s : ℝ × ℝ => s.2 > tof)
    (fun s => do
      let z := s.1 * 2
      let t ← F z
      .ok (z, t)) (zLow, t0)
  .ok s.1

/-- The first value of `z_low`, l.125-129. -/
noncomputable def startZ (P Q : ℝ) : Py ℝ :=
  if Q > 0 then do
    let q ← pdiv P Q
    let a ← pacosh q
    let zFloor := -(a ^ 2)
    .ok (zFloor + max 1e-12 (|zFloor| * 1e-12))
  else .ok (-1.0)

/-- `delatorre.py` l.121-137, `_initial_bracket`. -/
noncomputable def initialBracket (P Q mu tof : ℝ) : Py (ℝ × ℝ) := do
  let zHigh := Real.pi ^ 2 - 1e-12
  let z0 ← startZ P Q
  let zLow ← lowerZ (fun z => tofEquation P Q mu z 0) tof z0
  let th ← tofEquation P Q mu zHigh 0
  raiseIf (th < tof) (.valueError "No feasible solution, try lower M!")
  .ok (zLow, zHigh)

/-- The bracket chosen by l.105-116. -/
noncomputable def chooseBracket (P Q mu tof : ℝ) (M : ℤ) (isLowPath : Bool) (atol rtol : ℝ) :
    Py (ℝ × ℝ) :=
  if M = 0 then initialBracket P Q mu tof
  else do
    let (zMin, tofMin) ← findMinimumTime (fun z => tofEquation P Q mu z M) atol rtol
    raiseIf (tof < tofMin) (.valueError "No feasible solution, try lower M!")
    if isLowPath = true then .ok (1e-12, zMin) else .ok (zMin, Real.pi ^ 2 - 1e-12)

/-- `delatorre.py` l.103-118, `_find_z`. -/
noncomputable def findZ (P Q mu tof : ℝ) (M : ℤ) (isLowPath : Bool) (maxiter : ℕ)
    (atol rtol : ℝ) : Py (ℝ × ℕ) := do
  let (zLow, zHigh) ← chooseBracket P Q mu tof M isLowPath atol rtol
  solveBracketed (fun z => tofEquation P Q mu z M) tof zLow zHigh maxiter atol rtol

end Delatorre

open Delatorre in
/-- `delatorre.py` l.12-100, `delatorre2018`.  `clock` is `tac - tic`; the division by
`numiter` (l.98) is kept. -/
noncomputable def delatorre2018 (mu : ℝ) (r1 r2 : V3) (tof : ℝ) (M : ℤ) (isPrograde : Bool)
    (isLowPath : Bool) (maxiter : ℕ) (atol rtol : ℝ) (fullOutput : Bool) (clock : ℝ) :
    Py Output := do
  assertParametersAreValid mu r1 r2 tof M
  let r1Norm := V3.norm r1
  let r2Norm := V3.norm r2
  let dtheta ← getTransferAngle r1 r2 isPrograde
  let P := r1Norm + r2Norm
  let sq ← psqrt (r1Norm * r2Norm)
  let Q := 2 * sq * Real.cos (dtheta / 2)
  let (z, numiter) ← findZ P Q mu tof M isLowPath maxiter atol rtol
  let c0 ← stumpff0 z
  let V := P - Q * c0
  let p ← pdiv (r1Norm * r2Norm * (1 - Real.cos dtheta)) V
  let fq ← pdiv (r2Norm * (1 - Real.cos dtheta)) p
  let f := 1 - fq
  let gs ← psqrt (mu * p)
  let g ← pdiv (r1Norm * r2Norm * Real.sin dtheta) gs
  let gdq ← pdiv (r1Norm * (1 - Real.cos dtheta)) p
  let gDot := 1 - gdq
  let v1 ← vdiv (r2 - f • r1) g
  let v2 ← vdiv (gDot • r2 - r1) g
  let tpi ← pdiv clock numiter
  .ok (mkOutput fullOutput v1 v2 numiter tpi)

end Lamberthub
