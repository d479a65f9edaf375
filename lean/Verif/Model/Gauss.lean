import Verif.Model.Assertions
import Verif.Model.Angles
import Verif.Model.Output

/-! # Model of `/repo/src/lamberthub/p_solvers/gauss.py` -/

set_option autoImplicit false

namespace Lamberthub
namespace Gauss

/-- `gauss.py` l.167-193, `_get_s`. -/
noncomputable def getS (r1Norm r2Norm dtheta : ℝ) : Py ℝ := do
  let sq ← psqrt (r1Norm * r2Norm)
  let q ← pdiv (r1Norm + r2Norm) (4 * sq * Real.cos (dtheta / 2))
  .ok (q - 1 / 2)

/-- `gauss.py` l.196-224, `_get_w`. -/
noncomputable def getW (mu tof r1Norm r2Norm dtheta : ℝ) : Py ℝ := do
  let sq ← psqrt (r1Norm * r2Norm)
  pdiv (mu * tof ^ 2) ((2 * sq * Real.cos (dtheta / 2)) ^ 3)

/-- `gauss.py` l.227-251, `_gauss_first_equation`. -/
noncomputable def firstEquation (y s w : ℝ) : Py ℝ := do
  let q ← pdiv w (y ^ 2)
  .ok (q - s)

/-- The loop of `_X_at_x`, `gauss.py` l.302-304: `remaining` passes are left, the next one
has the index `n`. -/
noncomputable def xLoop (x : ℝ) : ℕ → ℕ → ℝ → ℝ → ℝ
  | 0, _, _, X => X
  | remaining + 1, n, coeff, X =>
    xLoop x remaining (n + 1) (coeff * (2 * n) / (2 * n - 1) * x) (X + coeff * (2 * n) / (2 * n - 1) * x)

/-- `gauss.py` l.279-306, `_X_at_x`.  The divisor `2 * n - 1` is at least 5. -/
noncomputable def XAt (x : ℝ) (order : ℕ) : ℝ := 4 / 3 * xLoop x order 3 1.0 1.0

/-- `gauss.py` l.254-276, `_gauss_second_equation`; `order=50` is the default of `_X_at_x`. -/
noncomputable def secondEquation (x s : ℝ) : ℝ := 1 + XAt x 50 * (s + x)

/-- The `for` loop of `gauss1809`, l.113-129: `remaining` passes are left and the next one is
number `numiter`.  Returns `x` and `numiter`. -/
noncomputable def loop (s w atol : ℝ) : ℕ → ℕ → ℝ → Py (ℝ × ℕ)
  | 0, _, _ => .error (.valueError "Exceeded maximum number of iterations.")
  | remaining + 1, numiter, y0 => do
    let x ← firstEquation y0 s w
    let y := secondEquation x s
    if |y - y0| ≤ atol then .ok (x, numiter) else loop s w atol remaining (numiter + 1) y

/-- `gauss.py` l.133-141: the change of anomaly; for `x == 0` the variable stays unbound. -/
noncomputable def deltaAnomaly (x : ℝ) : Py ℝ :=
  if x > 0 then do
    let a ← pacos (1 - 2 * x)
    .ok (2 * a)
  else if x = 0 then .error (.unboundLocal "deltaAnomaly")
  else do
    let a ← pacosh (1 - 2 * x)
    .ok (2 * a)

/-- `gauss.py` l.143-162: orbital parameter, Lagrange coefficients and velocities. -/
noncomputable def velocities (mu : ℝ) (r1 r2 : V3) (dtheta x : ℝ) : Py (V3 × V3) := do
  let r1Norm := V3.norm r1
  let r2Norm := V3.norm r2
  let dA ← deltaAnomaly x
  let sq ← psqrt (r1Norm * r2Norm)
  let p ← pdiv (r1Norm * r2Norm * (1 - Real.cos dtheta))
    (r1Norm + r2Norm - 2 * sq * Real.cos (dtheta / 2) * Real.cos (dA / 2))
  let q1 ← pdiv (r2Norm * (1 - Real.cos dtheta)) p
  let f := 1 - q1
  let s1 ← psqrt (mu * p)
  let g ← pdiv (r1Norm * r2Norm * Real.sin dtheta) s1
  let q2 ← pdiv mu p
  let s2 ← psqrt q2
  let t ← ptan (dtheta / 2)
  let q3 ← pdiv (1 - Real.cos dtheta) p
  let i1 ← pdiv 1 r1Norm
  let fDot := s2 * t * (q3 - i1 - i1)
  let q4 ← pdiv (r1Norm * (1 - Real.cos dtheta)) p
  let gDot := 1 - q4
  let v1 ← vdiv (r2 - f • r1) g
  let v2 := fDot • r1 + gDot • v1
  .ok (v1, v2)

end Gauss

open Gauss in
/-- `gauss.py` l.17-164, `gauss1809`; `clock` is the measured time. -/
noncomputable def gauss1809 (mu : ℝ) (r1 r2 : V3) (tof : ℝ) (M : ℤ) (isPrograde : Bool)
    (_isLowPath : Bool) (maxiter : ℕ) (atol _rtol : ℝ) (fullOutput : Bool) (clock : ℝ) : Py Output := do
  assertParametersAreValid mu r1 r2 tof M
  let dtheta ← getTransferAngle r1 r2 isPrograde
  assertTransferAngleNotZero dtheta
  assertTransferAngleNotPi dtheta
  let s ← getS (V3.norm r1) (V3.norm r2) dtheta
  let w ← getW mu tof (V3.norm r1) (V3.norm r2) dtheta
  let (x, numiter) ← loop s w atol maxiter 1 1.00
  let tpi ← timePerIter fullOutput clock numiter
  let (v1, v2) ← velocities mu r1 r2 dtheta x
  .ok (mkOutput fullOutput v1 v2 numiter tpi)

end Lamberthub
