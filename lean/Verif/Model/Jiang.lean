import Verif.Model.Output
import Verif.Model.Assertions
import Verif.Model.Angles
import Mathlib.Analysis.SpecialFunctions.Arsinh
import Mathlib.Analysis.SpecialFunctions.Trigonometric.Inverse

/-! # Model of `/repo/src/lamberthub/p_solvers/jiang.py` -/

set_option autoImplicit false

namespace Lamberthub
namespace Jiang

/-- `jiang.py` l.289-310, `_beta_sign`. -/
noncomputable def betaSign (theta : ℝ) : ℝ := if theta ≤ Real.pi then 1 else -1

/-- `jiang.py` l.128-156, `_tof_parabolic`. -/
noncomputable def tofParabolic (mu s c theta : ℝ) : Py ℝ := do
  let q ← pdiv 2 mu
  let sq ← psqrt q
  let s15 ← prpow s (3 / 2)
  let sc15 ← prpow (s - c) (3 / 2)
  .ok (sq * (s15 - betaSign theta * sc15) / 3)

/-- `jiang.py` l.225-257, `_elliptic_alpha_beta`. -/
noncomputable def ellipticAlphaBeta (a s c theta : ℝ) (longPeriod : Bool) : Py (ℝ × ℝ) := do
  let qa ← pdiv s (2 * a)
  let sa ← psqrt qa
  let aa ← pasin sa
  let alpha := if longPeriod = true then 2 * Real.pi - 2 * aa else 2 * aa
  let qb ← pdiv (s - c) (2 * a)
  let sb ← psqrt qb
  let bb ← pasin sb
  .ok (alpha, 2 * bb * betaSign theta)

/-- `jiang.py` l.159-190, `_tof_elliptic`. -/
noncomputable def tofElliptic (mu a s c theta : ℝ) (longPeriod : Bool) : Py ℝ := do
  let (alpha, beta) ← ellipticAlphaBeta a s c theta longPeriod
  let q ← pdiv (a ^ 3) mu
  let sq ← psqrt q
  .ok (sq * ((alpha - Real.sin alpha) - (beta - Real.sin beta)))

/-- `jiang.py` l.260-286, `_hyperbolic_alpha_beta`. -/
noncomputable def hyperbolicAlphaBeta (a s c theta : ℝ) : Py (ℝ × ℝ) := do
  let qa ← pdiv s (-2 * a)
  let sa ← psqrt qa
  let qb ← pdiv (s - c) (-2 * a)
  let sb ← psqrt qb
  .ok (2 * Real.arsinh sa, 2 * Real.arsinh sb * betaSign theta)

/-- `jiang.py` l.193-222, `_tof_hyperbolic`. -/
noncomputable def tofHyperbolic (mu a s c theta : ℝ) : Py ℝ := do
  let (alpha, beta) ← hyperbolicAlphaBeta a s c theta
  let q ← pdiv ((-a) ^ 3) mu
  let sq ← psqrt q
  .ok (sq * ((Real.sinh alpha - alpha) - (Real.sinh beta - beta)))

/-- `jiang.py` l.322, 346, 380, 401: the literal `1.4901161193847656e-08` is `2^-26`. -/
noncomputable def eps : ℝ := 1 / 2 ^ 26

/-- `jiang.py` l.346-354 = 401-409, and `_numerical_derivative` l.584-611.  `F` is the
residual of the time equation. -/
noncomputable def derivative (F : ℝ → Py ℝ) (x lower upper : ℝ) : Py ℝ :=
  let step := eps * max 1 |x|
  let xMinus := max lower (x - step)
  let xPlus := min upper (x + step)
  if xPlus = xMinus then .ok 0
  else do
    let fPlus ← F xPlus
    let fMinus ← F xMinus
    .ok ((fPlus - fMinus) / (xPlus - xMinus))

/-- `jiang.py` l.346-359 = 401-414: the next iterate. -/
noncomputable def nextX (F : ℝ → Py ℝ) (x fx lower upper : ℝ) : Py ℝ := do
  let d ← derivative F x lower upper
  if d = 0 then .ok ((lower + upper) / 2)
  else if lower < x - fx / d ∧ x - fx / d < upper then .ok (x - fx / d)
  else .ok ((lower + upper) / 2)

/-- The `for` loop, `jiang.py` l.335-370 = 390-425 = `_solve_semimajor_axis` l.555-581.
`remaining` passes are left, `numiter` is the number of the current one. -/
noncomputable def solveLoop (F : ℝ → Py ℝ) (atol rtol : ℝ) : ℕ → ℕ → ℝ → ℝ → ℝ → ℝ → Py (ℝ × ℕ)
  | 0, _, _, _, _, _ => .error (.valueError "Exceeded maximum number of iterations!")
  | remaining + 1, numiter, x, lower, upper, fLower => do
    let fx ← F x
    if |fx| ≤ atol then .ok (x, numiter)
    else do
      let lower' := if fLower * fx ≤ 0 then lower else x
      let upper' := if fLower * fx ≤ 0 then x else upper
      let fLower' := if fLower * fx ≤ 0 then fLower else fx
      let xNew ← nextX F x fx lower' upper'
      let fNew ← F xNew
      if |fNew| ≤ atol ∨ (|xNew - x| ≤ atol + rtol * |xNew| ∧ |fNew| ≤ |fx|) then .ok (xNew, numiter)
      else solveLoop F atol rtol remaining (numiter + 1) xNew lower' upper' fLower'

/-- `jiang.py` l.332-333 and l.387-388, and `_solve_semimajor_axis` l.520-581. -/
noncomputable def solveSemimajorAxis (F : ℝ → Py ℝ) (lower upper : ℝ) (maxiter : ℕ) (atol rtol : ℝ) :
    Py (ℝ × ℕ) := do
  let fLower ← F lower
  solveLoop F atol rtol maxiter 1 ((lower + upper) / 2) lower upper fLower

/-- The residual `_tof_elliptic(mu, a, s, c, theta, long_period) - tof`. -/
noncomputable def residualElliptic (mu tof s c theta : ℝ) (longPeriod : Bool) (a : ℝ) : Py ℝ := do
  let t ← tofElliptic mu a s c theta longPeriod
  .ok (t - tof)

/-- The residual `_tof_hyperbolic(mu, a, s, c, theta) - tof`. -/
noncomputable def residualHyperbolic (mu tof s c theta : ℝ) (a : ℝ) : Py ℝ := do
  let t ← tofHyperbolic mu a s c theta
  .ok (t - tof)

/-- `jiang.py` l.322-330 and `_get_elliptic_bracket` l.428-473, for a residual `F`. -/
noncomputable def ellipticBracket (F : ℝ → Py ℝ) (aMin : ℝ) : Py (ℝ × ℝ) := do
  let lower := aMin * (1 + eps)
  let upper := max (2 * lower) 1
  let fLower ← F lower
  let fUpper ← F upper
  let (u, _) ← whileLoop (fun st : ℝ × ℝ => fLower * st.2 > 0)
    (fun st => do
      let fu ← F (st.1 * 2)
      .ok (st.1 * 2, fu)) (upper, fUpper)
  .ok (lower, u)

/-- `jiang.py` l.380-385 and `_get_hyperbolic_bracket` l.476-517, for a residual `F`. -/
noncomputable def hyperbolicBracket (F : ℝ → Py ℝ) (s c : ℝ) : Py (ℝ × ℝ) := do
  let lower := -max (max s c) 1
  let upper := -eps * max (max s c) 1
  let fLower ← F lower
  let (l, _) ← whileLoop (fun st : ℝ × ℝ => st.2 < 0)
    (fun st => do
      let fl ← F (st.1 * 2)
      .ok (st.1 * 2, fl)) (lower, fLower)
  .ok (l, upper)

/-- `jiang.py` l.313-370, `_find_and_solve_elliptic`. -/
noncomputable def findAndSolveElliptic (mu tof aMin s c theta : ℝ) (longPeriod : Bool) (maxiter : ℕ)
    (atol rtol : ℝ) : Py (ℝ × ℕ) := do
  let F := residualElliptic mu tof s c theta longPeriod
  let (lower, upper) ← ellipticBracket F aMin
  solveSemimajorAxis F lower upper maxiter atol rtol

/-- `jiang.py` l.373-425, `_find_and_solve_hyperbolic`. -/
noncomputable def findAndSolveHyperbolic (mu tof s c theta : ℝ) (maxiter : ℕ) (atol rtol : ℝ) :
    Py (ℝ × ℕ) := do
  let F := residualHyperbolic mu tof s c theta
  let (lower, upper) ← hyperbolicBracket F s c
  solveSemimajorAxis F lower upper maxiter atol rtol

/-- `jiang.py` l.614-643, `_elliptic_p`. -/
noncomputable def ellipticP (a r1Norm r2Norm c s theta : ℝ) (longPeriod : Bool) : Py ℝ := do
  let (alpha, beta) ← ellipticAlphaBeta a s c theta longPeriod
  let factor ← pdiv (4 * a * (s - r1Norm) * (s - r2Norm)) (c ^ 2)
  .ok (factor * Real.sin ((alpha + beta) / 2) ^ 2)

/-- `jiang.py` l.646-673, `_hyperbolic_p`. -/
noncomputable def hyperbolicP (a r1Norm r2Norm c s theta : ℝ) : Py ℝ := do
  let (alpha, beta) ← hyperbolicAlphaBeta a s c theta
  let factor ← pdiv (-4 * a * (s - r1Norm) * (s - r2Norm)) (c ^ 2)
  .ok (factor * Real.sinh ((alpha + beta) / 2) ^ 2)

/-- `jiang.py` l.676-706, `_parabolic_p`. -/
noncomputable def parabolicP (r1Norm r2Norm c s theta : ℝ) : Py ℝ := do
  let factor ← pdiv (2 * (s - r1Norm) * (s - r2Norm)) (c ^ 2)
  let ss ← psqrt s
  let sc ← psqrt (s - c)
  .ok (factor * (ss + betaSign theta * sc) ^ 2)

/-- `jiang.py` l.709-743, `_reconstruct_velocities`. -/
noncomputable def reconstructVelocities (mu : ℝ) (r1 r2 : V3) (r1Norm r2Norm theta p : ℝ) :
    Py (V3 × V3) := do
  let sq ← psqrt (mu * p)
  let scale ← pdiv sq (r1Norm * r2Norm * Real.sin theta)
  let oneMinusCos := 1 - Real.cos theta
  let k1 ← pdiv r2Norm p
  let k2 ← pdiv r1Norm p
  .ok (scale • ((r2 - r1) + (k1 * oneMinusCos) • r1), scale • ((r2 - r1) - (k2 * oneMinusCos) • r2))

open Classical in
/-- `jiang.py` l.104-111: the elliptic case. -/
noncomputable def solveElliptic (mu tof r1Norm r2Norm c s theta : ℝ) (maxiter : ℕ) (atol rtol : ℝ) :
    Py (ℝ × ℕ) := do
  let aMin := s / 2
  let tofMin ← tofElliptic mu aMin s c theta false
  let longPeriod := decide (tof > tofMin)
  let (a, numiter) ← findAndSolveElliptic mu tof aMin s c theta longPeriod maxiter atol rtol
  let p ← ellipticP a r1Norm r2Norm c s theta longPeriod
  .ok (p, numiter)

/-- `jiang.py` l.112-116: the hyperbolic case. -/
noncomputable def solveHyperbolic (mu tof r1Norm r2Norm c s theta : ℝ) (maxiter : ℕ) (atol rtol : ℝ) :
    Py (ℝ × ℕ) := do
  let (a, numiter) ← findAndSolveHyperbolic mu tof s c theta maxiter atol rtol
  let p ← hyperbolicP a r1Norm r2Norm c s theta
  .ok (p, numiter)

/-- `jiang.py` l.101-103: the parabolic case. -/
noncomputable def solveParabolic (r1Norm r2Norm c s theta : ℝ) : Py (ℝ × ℕ) := do
  let p ← parabolicP r1Norm r2Norm c s theta
  .ok (p, 0)

/-- `jiang.py` l.101-116: the semi-latus rectum and the number of iterations.
`np.isclose(a, b)` is `|a - b| <= atol + rtol * |b|`. -/
noncomputable def semiLatusRectum (mu tof tofParabolic r1Norm r2Norm c s theta : ℝ) (maxiter : ℕ)
    (atol rtol : ℝ) : Py (ℝ × ℕ) :=
  if |tof - tofParabolic| ≤ atol + rtol * |tofParabolic| then solveParabolic r1Norm r2Norm c s theta
  else if tof > tofParabolic then solveElliptic mu tof r1Norm r2Norm c s theta maxiter atol rtol
  else solveHyperbolic mu tof r1Norm r2Norm c s theta maxiter atol rtol

end Jiang

open Jiang in
/-- `jiang.py` l.17-125, `jiang2016`; `clock` is the measured time, and l.118-122 is
`tpi = 0.0 if numiter == 0 else (tac - tic) / numiter`. -/
noncomputable def jiang2016 (mu : ℝ) (r1 r2 : V3) (tof : ℝ) (M : ℤ) (isPrograde : Bool)
    (_isLowPath : Bool) (maxiter : ℕ) (atol rtol : ℝ) (fullOutput : Bool) (clock : ℝ) : Py Output := do
  raiseIf (M > 0) (.valueError "Jiang is not able to work within the multi-revolution scenario!")
  assertParametersAreValid mu r1 r2 tof M
  let theta ← getTransferAngle r1 r2 isPrograde
  assertTransferAngleNotZero theta
  assertTransferAngleNotPi theta
  let r1Norm := V3.norm r1
  let r2Norm := V3.norm r2
  let c := V3.norm (r2 - r1)
  let s := (r1Norm + r2Norm + c) / 2
  let tofPar ← tofParabolic mu s c theta
  let (p, numiter) ← semiLatusRectum mu tof tofPar r1Norm r2Norm c s theta maxiter atol rtol
  let tpi := if fullOutput = true then (if numiter = 0 then 0 else clock / numiter) else 0
  let (v1, v2) ← reconstructVelocities mu r1 r2 r1Norm r2Norm theta p
  .ok (mkOutput fullOutput v1 v2 numiter tpi)

end Lamberthub
