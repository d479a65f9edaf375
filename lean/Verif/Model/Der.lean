import Verif.Model.Brent
import Verif.Model.Output
import Verif.Model.Assertions
import Verif.Model.Angles

/-! # Model of `/repo/src/lamberthub/universal_solvers/der.py` -/

set_option autoImplicit false

namespace Lamberthub
namespace Der

/-- The literal `2.220446049250313e-16`. -/
noncomputable def eps : ℝ := 2.220446049250313e-16
/-- The literal `1.4901161193847656e-08`. -/
noncomputable def sqrtEps : ℝ := 1.4901161193847656e-08

/-- `np.copysign(a, b)`; the sign of a real zero is taken positive. -/
noncomputable def copysign (a b : ℝ) : ℝ := if b < 0 then -|a| else |a|

/-- `min(1.0, max(-1.0, x))`. -/
noncomputable def clamp1 (x : ℝ) : ℝ := min 1.0 (max (-1.0) x)

/-- `der.py` l.121-124, `_compute_sigma`. -/
noncomputable def computeSigma (r1Norm r2Norm m psi : ℝ) : Py ℝ := do
  let q ← psqrt (r1Norm * r2Norm)
  pdiv (2 * q * Real.cos (psi / 2)) m

/-- `der.py` l.127-130, `_compute_normalized_time`. -/
noncomputable def computeNormalizedTime (mu m tof : ℝ) : Py ℝ := do
  let q ← pdiv mu (m ^ 3)
  let r ← psqrt q
  .ok (4 * tof * r)

/-- `der.py` l.133-136, `_compute_parabolic_time`. -/
noncomputable def computeParabolicTime (sigma : ℝ) : ℝ := 2 * (1 - sigma ^ 3) / 3

/-- `der.py` l.242-249, `_compute_y`. -/
noncomputable def computeY (sigma x : ℝ) : ℝ :=
  let radicand := 1 - sigma ^ 2 * (1 - x ^ 2)
  let yAbs := Real.sqrt (max 0.0 radicand)
  if sigma = 0 then yAbs else copysign yAbs sigma

/-- `der.py` l.252-255, `_acot_elliptic_x`. -/
noncomputable def acotEllipticX (x : ℝ) : Py ℝ := pacos (clamp1 x)

/-- `der.py` l.258-263, `_acot_elliptic_y`. -/
noncomputable def acotEllipticY (y : ℝ) : Py ℝ :=
  if y ≥ 0 then pacos (clamp1 y)
  else do
    let a ← pacos (clamp1 (-y))
    .ok (-a)

/-- `der.py` l.266-271, `_acoth_sun`. -/
noncomputable def acothSun (u : ℝ) : Py ℝ :=
  if u ≥ 0 then pacosh u
  else do
    let a ← pacosh (-u)
    .ok (-a)

/-- `der.py` l.274-286, `_tof_elliptic`. -/
noncomputable def tofElliptic (x y : ℝ) (M : ℤ) : Py ℝ := do
  let oneMinusX2 := 1 - x ^ 2
  let oneMinusY2 := 1 - y ^ 2
  let ax ← acotEllipticX x
  let ay ← acotEllipticY y
  let sx ← psqrt oneMinusX2
  let sy ← psqrt (max 0.0 oneMinusY2)
  let numerator := ax - ay - x * sx + y * sy + M * Real.pi
  let d ← prpow oneMinusX2 (3 / 2)
  pdiv numerator d

/-- `der.py` l.289-300, `_tof_hyperbolic`. -/
noncomputable def tofHyperbolic (x y : ℝ) : Py ℝ := do
  let x2MinusOne := x ^ 2 - 1
  let y2MinusOne := y ^ 2 - 1
  let ax ← acothSun x
  let ay ← acothSun y
  let sx ← psqrt x2MinusOne
  let sy ← psqrt (max 0.0 y2MinusOne)
  let numerator := -ax + ay + x * sx - y * sy
  let d ← prpow x2MinusOne (3 / 2)
  pdiv numerator d

/-- `der.py` l.303-306, `_tof_elliptic_prime`. -/
noncomputable def tofEllipticPrime (sigma x y tof : ℝ) : Py ℝ := do
  let q ← pdiv (sigma ^ 3 * x) y
  pdiv (3 * x * tof - 2 * (1 - q)) (1 - x ^ 2)

/-- `der.py` l.309-315, `_tof_elliptic_second`. -/
noncomputable def tofEllipticSecond (sigma x y dtof : ℝ) : Py ℝ := do
  let xSafe := if x ≠ 0 then x else eps
  let q ← pdiv (sigma ^ 5 * xSafe ^ 3) (y ^ 3)
  pdiv ((1 + 4 * xSafe ^ 2) * dtof + 2 * (1 - q)) (xSafe * (1 - xSafe ^ 2))

/-- The loop of `_laguerre_step`, l.326-339; the current `degree` is 13 minus the
number of passes left. -/
noncomputable def laguerreLoop (x f df d2f : ℝ) : ℕ → ℝ
  | 0 => 2.0
  | remaining + 1 =>
    let degree : ℝ := 12 - remaining
    let discriminant := (degree - 1) ^ 2 * df ^ 2 - degree * (degree - 1) * f * d2f
    if discriminant < 0 then laguerreLoop x f df d2f remaining
    else
      let root := Real.sqrt discriminant
      let denominator := df + copysign root df
      if denominator = 0 then laguerreLoop x f df d2f remaining
      else
        let candidate := x - degree * f / denominator
        if -1e300 < candidate ∧ candidate < 1e300 then candidate
        else laguerreLoop x f df d2f remaining

/-- `der.py` l.318-341, `_laguerre_step`: `degree` runs through `2, .., 12`. -/
noncomputable def laguerreStep (x f df d2f : ℝ) : ℝ := laguerreLoop x f df d2f 11

/-- The loop of `_solve_elliptic_jit`, l.352-369; `n` passes have been made. -/
noncomputable def ellipticLoop (sigma tau : ℝ) (M : ℤ) (x0 : ℝ) (maxiter : ℕ) (atol rtol : ℝ) :
    ℕ → ℕ → ℝ → Py (ℝ × ℝ × ℕ × Bool)
  | 0, _, _ => .ok (x0, 0.0, maxiter, true)
  | remaining + 1, n, x => do
    let y := computeY sigma x
    let tofVal ← tofElliptic x y M
    let f := tofVal - tau
    if |f| ≤ atol + rtol * |tau| then .ok (x, y, n + 1, false)
    else do
      let dt ← tofEllipticPrime sigma x y tofVal
      let d2t ← tofEllipticSecond sigma x y dt
      let xNew := laguerreStep x f dt d2t
      if |xNew| ≥ 1 then .ok (x0, 0.0, n + 1, true)
      else ellipticLoop sigma tau M x0 maxiter atol rtol remaining (n + 1) xNew

/-- `der.py` l.344-369, `_solve_elliptic_jit`. -/
noncomputable def solveEllipticJit (sigma tau : ℝ) (M : ℤ) (x0 : ℝ) (maxiter : ℕ) (atol rtol : ℝ) :
    Py (ℝ × ℝ × ℕ × Bool) :=
  ellipticLoop sigma tau M x0 maxiter atol rtol maxiter 0 x0

/-- `der.py` l.372-391, `_hyperbolic_numerical_derivatives`. -/
noncomputable def hyperbolicNumericalDerivatives (sigma x y : ℝ) : Py (ℝ × ℝ) := do
  let step := sqrtEps * max 1.0 |x|
  let xMinus := max (1.0 + eps) (x - step)
  let xPlus := x + step
  let yMinus := computeY sigma xMinus
  let yPlus := computeY sigma xPlus
  let fMinus ← tofHyperbolic xMinus yMinus
  let f ← tofHyperbolic x y
  let fPlus ← tofHyperbolic xPlus yPlus
  let first ← pdiv (fPlus - fMinus) (xPlus - xMinus)
  let a ← pdiv (fPlus - f) (xPlus - x)
  let b ← pdiv (f - fMinus) (x - xMinus)
  let second ← pdiv (2 * (a - b)) (xPlus - xMinus)
  .ok (first, second)

/-- The loop of `_solve_hyperbolic_jit`, l.402-420. -/
noncomputable def hyperbolicLoop (sigma tau : ℝ) (maxiter : ℕ) (atol rtol : ℝ) :
    ℕ → ℕ → ℝ → Py (ℝ × ℝ × ℕ × Bool)
  | 0, _, x => .ok (x, computeY sigma x, maxiter, true)
  | remaining + 1, n, x => do
    let y := computeY sigma x
    let tofVal ← tofHyperbolic x y
    let f := tofVal - tau
    if |f| ≤ atol + rtol * |tau| then .ok (x, y, n + 1, false)
    else do
      let (dt, d2t) ← hyperbolicNumericalDerivatives sigma x y
      let xNew := laguerreStep x f dt d2t
      if xNew ≤ 1.0 then .ok (x, y, n + 1, true)
      else hyperbolicLoop sigma tau maxiter atol rtol remaining (n + 1) (max (1.0 + eps) xNew)

/-- `der.py` l.394-420, `_solve_hyperbolic_jit`. -/
noncomputable def solveHyperbolicJit (sigma tau x0 : ℝ) (maxiter : ℕ) (atol rtol : ℝ) :
    Py (ℝ × ℝ × ℕ × Bool) :=
  hyperbolicLoop sigma tau maxiter atol rtol maxiter 0 (max 1.1 (x0 + 1.0))

/-- `except ValueError as exc: raise ValueError("Exceeded ...") from exc`. -/
def reraise {α : Type} : Py α → Py α
  | .error (.valueError _) => .error (.valueError "Exceeded maximum number of iterations.")
  | r => r

/-- `elliptic_equation`, l.182-185. -/
noncomputable def ellipticEquation (sigma tau : ℝ) (M : ℤ) (x : ℝ) : Py ℝ := do
  let t ← tofElliptic x (computeY sigma x) M
  .ok (t - tau)

/-- `der.py` l.177-200, `_solve_elliptic_bracketed`. -/
noncomputable def solveEllipticBracketed (brentq : Brent) (sigma tau : ℝ) (M : ℤ) (x0 : ℝ) (maxiter : ℕ)
    (atol rtol : ℝ) : Py (ℝ × ℝ × ℕ) := do
  let lower : ℝ := if x0 < 0 then -1 + eps else 0.0
  let upper : ℝ := if x0 < 0 then 0.0 else 1 - eps
  let (x, _) ← reraise (brentq (ellipticEquation sigma tau M) lower upper atol rtol maxiter)
  .ok (x, computeY sigma x, maxiter)

/-- `der.py` l.167-174, `_solve_elliptic`. -/
noncomputable def solveElliptic (brentq : Brent) (sigma tau : ℝ) (M : ℤ) (x0 : ℝ) (maxiter : ℕ)
    (atol rtol : ℝ) : Py (ℝ × ℝ × ℕ) := do
  let (x, y, numiter, needsFallback) ← solveEllipticJit sigma tau M x0 maxiter atol rtol
  if needsFallback = true then solveEllipticBracketed brentq sigma tau M x0 maxiter atol rtol
  else .ok (x, y, numiter)

/-- `hyperbolic_equation`, l.218-221. -/
noncomputable def hyperbolicEquation (sigma tau x : ℝ) : Py ℝ := do
  let t ← tofHyperbolic x (computeY sigma x)
  .ok (t - tau)

open Classical in
/-- `while hyperbolic_equation(upper) > 0: upper *= 2`, l.223-224; the state keeps the value
of the last test. -/
noncomputable def expandUpper (sigma tau : ℝ) : Py ℝ := do
  let f0 ← hyperbolicEquation sigma tau 2.0
  let r ← whileLoop (fun s : ℝ × ℝ => s.2 > 0)
    (fun s => do
      let u := s.1 * 2
      let f ← hyperbolicEquation sigma tau u
      .ok (u, f)) (2.0, f0)
  .ok r.1

/-- `der.py` l.213-239, `_solve_hyperbolic_bracketed`. -/
noncomputable def solveHyperbolicBracketed (brentq : Brent) (sigma tau : ℝ) (maxiter : ℕ)
    (atol rtol : ℝ) : Py (ℝ × ℝ × ℕ) := do
  let lower : ℝ := 1.0 + sqrtEps
  let upper ← expandUpper sigma tau
  let (x, _) ← reraise (brentq (hyperbolicEquation sigma tau) lower upper atol rtol maxiter)
  .ok (x, computeY sigma x, maxiter)

/-- `der.py` l.203-210, `_solve_hyperbolic`. -/
noncomputable def solveHyperbolic (brentq : Brent) (sigma tau x0 : ℝ) (maxiter : ℕ)
    (atol rtol : ℝ) : Py (ℝ × ℝ × ℕ) := do
  let (x, y, numiter, needsFallback) ← solveHyperbolicJit sigma tau x0 maxiter atol rtol
  if needsFallback = true then solveHyperbolicBracketed brentq sigma tau maxiter atol rtol
  else .ok (x, y, numiter)

/-- `der.py` l.423-429, `_phi`. -/
noncomputable def phi (u : ℝ) : Py ℝ := do
  let sqrtTerm ← psqrt (max 0.0 (1 - u ^ 2))
  let u' := if u = 0 then eps else u
  let a ← acotEllipticY u'
  let b ← pdiv ((2 + u' ^ 2) * sqrtTerm) (3 * u')
  .ok (a - b)

/-- `der.py` l.432-439, `_compute_minimum_energy_time`. -/
noncomputable def computeMinimumEnergyTime (sigma : ℝ) (M : ℤ) : Py ℝ := do
  let a ← pacos (clamp1 sigma)
  let q ← psqrt (max 0.0 (1 - sigma ^ 2))
  .ok (M * Real.pi + a + sigma * q)

/-- `minimum_time_equation`, l.445-448. -/
noncomputable def minimumTimeEquation (sigma : ℝ) (M : ℤ) (x : ℝ) : Py ℝ := do
  let py ← phi (computeY sigma x)
  let px ← phi x
  .ok (py - px - M * Real.pi)

/-- `2 * (1 / x - sigma**3 / y) / 3`, l.463 and l.471. -/
noncomputable def minimumTimeAt (sigma x : ℝ) : Py ℝ := do
  let a ← pdiv 1 x
  let b ← pdiv (sigma ^ 3) (computeY sigma x)
  .ok (2 * (a - b) / 3)

/-- The Newton loop of l.465-476. -/
noncomputable def minimumTimeLoop (sigma : ℝ) (M : ℤ) (atol rtol : ℝ) : ℕ → ℝ → Py ℝ
  | 0, _ => .error (.valueError "Exceeded maximum number of iterations.")
  | remaining + 1, x => do
    let y := computeY sigma x
    let ph ← minimumTimeEquation sigma M x
    let q ← pdiv (sigma ^ 5 * x ^ 3) (y ^ 3)
    let dphi ← pdiv (2 * (1 - x ^ 2) * (1 - q)) (3 * x ^ 2)
    if |ph| ≤ atol + rtol * M * Real.pi then minimumTimeAt sigma x
    else do
      let d ← pdiv ph dphi
      minimumTimeLoop sigma M atol rtol remaining (min (max (x - d) eps) 0.999999)

/-- `der.py` l.442-476, `_compute_minimum_time`. -/
noncomputable def computeMinimumTime (brentq : Brent) (sigma : ℝ) (M : ℤ) (maxiter : ℕ) (atol rtol : ℝ) :
    Py ℝ :=
  match brentq (minimumTimeEquation sigma M) eps (1 - eps) atol rtol maxiter with
  | .error (.valueError _) => minimumTimeLoop sigma M atol rtol maxiter 0.1
  | .error e => .error e
  | .ok (x, _) => minimumTimeAt sigma x

/-- The starting point, l.153-159; `tau_me` is only computed (and used) for elliptic
transfers. -/
noncomputable def startX (sigma tau tauP : ℝ) (M : ℤ) (isLowPath : Bool) : Py ℝ :=
  if M = 0 then
    if tau > tauP then do
      let tauMe ← computeMinimumEnergyTime sigma M
      .ok (if tau > tauMe then -0.5 else 0.5)
    else .ok 0.5
  else do
    let _ ← computeMinimumEnergyTime sigma M
    .ok (if isLowPath = true then 0.5 else -0.5)

/-- `der.py` l.139-164, `_find_path_parameter`. -/
noncomputable def findPathParameter (brentq : Brent) (sigma tau tauP : ℝ) (M : ℤ) (isLowPath : Bool)
    (maxiter : ℕ) (atol rtol : ℝ) : Py (ℝ × ℝ × ℕ) :=
  if M = 0 ∧ |tau - tauP| ≤ atol + rtol * |tauP| then .ok (1.0, sigma, 1)
  else do
    let x0 ← startX sigma tau tauP M isLowPath
    if M > 0 ∨ tau > tauP then solveElliptic brentq sigma tau M x0 maxiter atol rtol
    else solveHyperbolic brentq sigma tau x0 maxiter atol rtol

/-- `der.py` l.479-491, `_reconstruct_velocities`. -/
noncomputable def reconstructVelocities (mu : ℝ) (r1 r2 : V3) (r1Norm r2Norm cNorm m n x y : ℝ) :
    Py (V3 × V3) := do
  let sm ← psqrt mu
  let sn ← psqrt n
  let yn ← pdiv y sn
  let smm ← psqrt m
  let xm ← pdiv x smm
  let vc := sm * (yn + xm)
  let vr := sm * (yn - xm)
  let ic ← vdiv (r2 - r1) cNorm
  let ir1 ← vdiv r1 r1Norm
  let ir2 ← vdiv r2 r2Norm
  .ok (vc • ic + vr • ir1, vc • ic - vr • ir2)

/-- l.95-101: the multi-revolution feasibility tests. -/
noncomputable def checkFeasible (brentq : Brent) (sigma tau tauP : ℝ) (M : ℤ) (maxiter : ℕ)
    (atol rtol : ℝ) : Py Unit :=
  if M > 0 then
    if tau ≤ tauP then .error (.valueError "No feasible solution, try lower M!")
    else do
      let tauMin ← computeMinimumTime brentq sigma M maxiter atol rtol
      raiseIf (tau < tauMin) (.valueError "No feasible solution, try lower M!")
  else .ok ()

end Der

open Der in
/-- `der.py` l.18-118, `der2011`; `brentq` is scipy's root finder, `clock` the measured
time. -/
noncomputable def der2011 (brentq : Brent) (mu : ℝ) (r1 r2 : V3) (tof : ℝ) (M : ℤ) (isPrograde : Bool)
    (isLowPath : Bool) (maxiter : ℕ) (atol rtol : ℝ) (fullOutput : Bool) (clock : ℝ) : Py Output := do
  assertParametersAreValid mu r1 r2 tof M
  let r1Norm := V3.norm r1
  let r2Norm := V3.norm r2
  let cNorm := V3.norm (r2 - r1)
  let psi ← getTransferAngle r1 r2 isPrograde
  assertTransferAngleNotZero psi
  assertTransferAngleNotPi psi
  let m := r1Norm + r2Norm + cNorm
  let n := r1Norm + r2Norm - cNorm
  let sigma ← computeSigma r1Norm r2Norm m psi
  let tau ← computeNormalizedTime mu m tof
  let tauP := computeParabolicTime sigma
  checkFeasible brentq sigma tau tauP M maxiter atol rtol
  let (x, y, numiter) ← findPathParameter brentq sigma tau tauP M isLowPath maxiter atol rtol
  let tpi ← timePerIter fullOutput clock numiter
  let (v1, v2) ← reconstructVelocities mu r1 r2 r1Norm r2Norm cNorm m n x y
  .ok (mkOutput fullOutput v1 v2 numiter tpi)

end Lamberthub
