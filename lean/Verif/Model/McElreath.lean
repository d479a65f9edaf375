import Verif.Model.PyC
import Verif.Model.Output
import Verif.Model.Assertions
import Verif.Model.Angles

/-! # Model of `/repo/src/lamberthub/universal_solvers/mcelreath.py`

The code works in complex arithmetic: `x` is real on ellipses and imaginary on hyperbolas.
An upper bound `hi = np.inf` is modelled by `none`.  `_tof_at_x` (l.338-346) is not called by
the solver and is not modelled. -/

set_option autoImplicit false

namespace Lamberthub
namespace McElreath

/-- `mcelreath.py` l.330-334, `_get_parabolic_tof`. -/
noncomputable def getParabolicTof (rNormSum m : ℝ) : Py ℝ := do
  let chi ← psqrt (2 * (rNormSum - 2 * m))
  .ok (m * chi + chi ^ 3 / 6)

/-- `mcelreath.py` l.349-361, `_tof_equation`. -/
noncomputable def tofEquation (x : ℂ) (rNormSum m : ℝ) : Py ℂ := do
  let u0 := Complex.cos x
  let u0Star := Complex.cos (0.5 * x)
  let alpha ← cdiv (1 - u0) (rNormSum - 2 * m * u0Star)
  let alphaInv ← cdiv 1 alpha
  let alphaSqrt := csqrt alpha
  let alphaSqrtInv ← cdiv 1 alphaSqrt
  let u1Star := Complex.sin (0.5 * x) * alphaSqrtInv
  let u3 := (x * alphaSqrtInv - Complex.sin x * alphaSqrtInv) * alphaInv
  .ok (2 * u1Star * m + u3)

/-- `mcelreath.py` l.364-430, `_tof_equation_full`, once `alpha` and `u1_star_inv` are
known: the time and its first three derivatives (l.374-430). -/
noncomputable def tofDerivatives (x alpha alphaInv alphaSqrt alphaSqrtInv u1StarInv m : ℂ) : ℂ × ℂ × ℂ × ℂ :=
  let u0 := Complex.cos x
  let u0Star := Complex.cos (0.5 * x)
  let u1 := Complex.sin x * alphaSqrtInv
  let u1Star := Complex.sin (0.5 * x) * alphaSqrtInv
  let u2 := (1 - u0) * alphaInv
  let u3 := (x * alphaSqrtInv - u1) * alphaInv
  let tofCurrent := 2 * u1Star * m + u3
  let alphaPrime := 0.5 * u1StarInv * alphaSqrt * (2 * u0Star - m * alpha)
  let alpha2Prime := -0.5 * alpha + (0.5 * u0Star * alphaSqrtInv - m * alphaSqrt) * alphaPrime * u1StarInv
  let alpha3Prime :=
    (0.25 * m * u1StarInv ^ 2 * (m * alpha - 0.5 * u0Star) -
      0.5 * alphaSqrtInv * u1StarInv * (0.5 * u0Star * alphaInv + m) * alphaPrime - 0.75) * alphaPrime +
    0.5 * alphaSqrtInv * u1StarInv * (u0Star - 2 * m * alpha) * alpha2Prime
  let tofPrime := alphaInv * ((m * u0Star + u2) * alphaSqrt - 0.5 * (tofCurrent + 2 * u3) * alphaPrime)
  let tof2Prime := alphaInv * ((-3 * tofPrime + 2 * m * u0Star * alphaSqrtInv) * alphaPrime -
    0.75 * tofCurrent * alphaInv * alphaPrime ^ 2 + u1 - 0.5 * m * alpha * u1Star -
    (0.5 * tofCurrent + u3) * alpha2Prime)
  let tof3Prime := alphaInv * (u0 * alphaSqrtInv - 0.25 * m * u0Star * alphaSqrt -
    alphaPrime * (4.5 * tof2Prime + 1.5 * m * u1Star +
      (2.25 * tofPrime * alphaInv - 0.375 * alphaInv ^ 2 * tofCurrent * alphaPrime) * alphaPrime) +
    (2 * m * u0Star * alphaSqrtInv - u2 * alphaSqrtInv - 3.5 * tofPrime +
      (u3 * alphaInv - 1.75 * tofCurrent * alphaInv) * alphaPrime) * alpha2Prime -
    (0.5 * tofCurrent + u3) * alpha3Prime)
  (tofCurrent, tofPrime, tof2Prime, tof3Prime)

/-- `mcelreath.py` l.364-430, `_tof_equation_full`. -/
noncomputable def tofEquationFull (x : ℂ) (rNormSum m : ℝ) : Py (ℂ × ℂ × ℂ × ℂ) := do
  let u0 := Complex.cos x
  let u0Star := Complex.cos (0.5 * x)
  let alpha ← cdiv (1 - u0) (rNormSum - 2 * m * u0Star)
  let alphaInv ← cdiv 1 alpha
  let alphaSqrt := csqrt alpha
  let alphaSqrtInv ← cdiv 1 alphaSqrt
  let u1Star := Complex.sin (0.5 * x) * alphaSqrtInv
  let u1StarInv ← cdiv 1 u1Star
  .ok (tofDerivatives x alpha alphaInv alphaSqrt alphaSqrtInv u1StarInv m)

/-- `mcelreath.py` l.315-319, `_outside_bounds`. -/
def outsideBounds (x : ℂ) (lo : ℝ) (hi : Option ℝ) : Prop :=
  (∃ h ∈ hi, x.re + x.im > h) ∨ x.re + x.im < lo

/-- `mcelreath.py` l.322-327, `_clean_root`. -/
noncomputable def cleanRoot (x : ℂ) : ℂ := if |x.im| < 1e-14 then (x.re : ℂ) else x

/-- `mcelreath.py` l.303-306: half way to a bound.  An infinite bound yields `inf`/`nan`. -/
noncomputable def towardsBoundary (xOld rt : ℂ) (lo : ℝ) (hi : Option ℝ) : Py ℂ :=
  if rt.re + rt.im > 0 then
    match hi with
    | none => .error .undefined
    | some h => .ok (xOld + 0.5 * (h - xOld))
  else .ok (xOld + 0.5 * (lo - xOld))

open Classical in
/-- `mcelreath.py` l.300-306: Newton step, safeguarded. -/
noncomputable def newtonStep (xOld residual t1 : ℂ) (lo : ℝ) (hi : Option ℝ) : Py ℂ := do
  let q ← cdiv residual t1
  if outsideBounds (xOld - q) lo hi then towardsBoundary xOld (-q) lo hi
  else .ok (xOld - q)

open Classical in
/-- `mcelreath.py` l.296-306: Halley step, safeguarded. -/
noncomputable def halleyStep (xOld residual t1 t2 : ℂ) (lo : ℝ) (hi : Option ℝ) : Py ℂ := do
  let q ← cdiv (2 * residual * t1) (2 * t1 ^ 2 - residual * t2)
  if outsideBounds (xOld - q) lo hi then newtonStep xOld residual t1 lo hi
  else .ok (xOld - q)

open Classical in
/-- `mcelreath.py` l.284-306: the next iterate. -/
noncomputable def householderStep (x : ℂ) (tof : ℝ) (t t1 t2 t3 : ℂ) (lo : ℝ) (hi : Option ℝ) : Py ℂ := do
  let residual := t - tof
  let q ← cdiv (6 * residual * t1 ^ 2 - 3 * residual ^ 2 * t2)
    (6 * t1 ^ 3 - 6 * residual * t1 * t2 + residual ^ 2 * t3)
  if outsideBounds (x + -q) lo hi then halleyStep x residual t1 t2 lo hi
  else .ok (x + -q)

/-- The `for` loop of `_solve_desired_x`, `mcelreath.py` l.280-312. -/
noncomputable def desiredLoop (tof rNormSum m : ℝ) (M : ℕ) (lo : ℝ) (hi : Option ℝ) (tolerance : ℝ) :
    ℕ → ℕ → ℂ → Py (ℂ × ℕ)
  | 0, _, _ => .error (.runtimeError "Failed to converge")
  | remaining + 1, numiter, x => do
    let (t, t1, t2, t3) ← tofEquationFull x rNormSum m
    let x' ← householderStep x tof t t1 t2 t3 lo hi
    let q ← cdiv (x' - x) (x' - (2 * Real.pi * M : ℝ) + (2 * Real.pi : ℝ))
    if ‖q‖ < tolerance then .ok (cleanRoot x', numiter)
    else desiredLoop tof rNormSum m M lo hi tolerance remaining (numiter + 1) x'

/-- `mcelreath.py` l.274-312, `_solve_desired_x`. -/
noncomputable def solveDesiredX (x : ℂ) (tof rNormSum m : ℝ) (M : ℕ) (lo : ℝ) (hi : Option ℝ) (maxiter : ℕ)
    (rtol : ℝ) : Py (ℂ × ℕ) :=
  desiredLoop tof rNormSum m M lo hi (if rtol < 1e-10 then rtol else 1e-10) maxiter 1 x

open Classical in
/-- `mcelreath.py` l.229-236: the next iterate of the minimum search. -/
noncomputable def minimumStep (x t1 t2 t3 : ℂ) (lo hi : ℝ) : Py ℂ := do
  let step ← cdiv (-2 * t1 * t2) (2 * t2 ^ 2 - t1 * t3)
  if outsideBounds (x + step) lo (some hi) then do
    let q ← cdiv t1 t2
    .ok (x - q)
  else .ok (x + step)

/-- The `for` loop of `_solve_minimum_x`, `mcelreath.py` l.225-245. -/
noncomputable def minimumLoop (tof rNormSum m : ℝ) (M : ℕ) (lo hi : ℝ) : ℕ → ℕ → ℂ → ℝ → Py (ℝ × ℕ)
  | 0, _, _, _ => .error (.runtimeError "Failed to converge")
  | remaining + 1, numiter, x, tolerance => do
    let (t, t1, t2, t3) ← tofEquationFull x rNormSum m
    let x' ← minimumStep x t1 t2 t3 lo hi
    let q ← cdiv (x' - x) (x' - (2 * Real.pi * M : ℝ) + (2 * Real.pi : ℝ))
    let relativeGap ← pdiv (tof - t.re) tof
    let tolerance' := if relativeGap < 1e-4 then 1e-8 else tolerance
    if ‖q‖ < tolerance' then .ok (x'.re, numiter)
    else minimumLoop tof rNormSum m M lo hi remaining (numiter + 1) x' tolerance'

/-- `mcelreath.py` l.220-245, `_solve_minimum_x`. -/
noncomputable def solveMinimumX (x : ℂ) (tof rNormSum m : ℝ) (M : ℕ) (lo hi : ℝ) (maxiter : ℕ) : Py (ℝ × ℕ) :=
  minimumLoop tof rNormSum m M lo hi maxiter 1 x 1e-2

/-- `mcelreath.py` l.248-271, `_multi_revolution_initial_guesses`. -/
noncomputable def multiRevolutionInitialGuesses (tof tofMin xMin rNormSum m dtheta : ℝ) (M : ℕ) : Py (ℝ × ℝ) := do
  let twoPi := 2 * Real.pi
  let twoPiRevs := twoPi * M
  let xTheta := dtheta + twoPiRevs
  let tofTheta ← tofEquation xTheta rNormSum m
  let scale ← pdiv ((xMin - xTheta) ^ 2)
    (|tofTheta.re - tofMin| * (twoPiRevs - xTheta) ^ 2 * (twoPiRevs + twoPi - xTheta) ^ 2)
  let sq ← psqrt ((tof - tofMin) * scale)
  let gamma := -sq
  let nextRevs : ℝ := M + 1
  let bShort := -twoPi * (M + nextRevs) * gamma + 1
  let cShort := twoPi ^ 2 * M * nextRevs * gamma - xMin
  let dShort ← psqrt (bShort ^ 2 - 4 * gamma * cShort)
  let xShort ← pdiv (-bShort + dShort) (2 * gamma)
  let bLong := twoPi * (M + nextRevs) * gamma + 1
  let cLong := -(twoPi ^ 2) * M * nextRevs * gamma - xMin
  let dLong ← psqrt (bLong ^ 2 + 4 * gamma * cLong)
  let xLong ← pdiv (-bLong + dLong) (-2 * gamma)
  .ok (xShort, xLong)

/-- `mcelreath.py` l.181-192: first guess of the minimum. -/
noncomputable def minimumGuess (dtheta : ℝ) (M : ℕ) : Py ℝ :=
  let twoPi := 2 * Real.pi
  let twoPiRevs := twoPi * M
  let sqrtRevs := Real.sqrt M
  if dtheta < Real.pi then do
    let w ← prpow (dtheta + (1 / 6) ^ (2.5 * sqrtRevs)) 0.4
    .ok (2 * w - (1 / 3) ^ sqrtRevs + twoPiRevs)
  else do
    let w ← prpow (-dtheta + twoPi + 0.05 ^ sqrtRevs) 0.4
    .ok (-2 * w + (twoPi - 0.25 ^ sqrtRevs) + twoPiRevs)

/-- `mcelreath.py` l.207-217: the two solutions of a feasible problem. -/
noncomputable def solvePair (tof tofMin xMin rNormSum m dtheta : ℝ) (M : ℕ) (isLowPath : Bool) (minimumIterations : ℕ)
    (lo hi : ℝ) (maxiter : ℕ) (rtol : ℝ) : Py (ℂ × ℕ) := do
  let (gShort, gLong) ← multiRevolutionInitialGuesses tof tofMin xMin rNormSum m dtheta M
  let x0 : ℂ := ((if isLowPath = true then gShort else gLong : ℝ) : ℂ)
  let (x, desiredIterations) ← solveDesiredX x0 tof rNormSum m M lo (some hi) maxiter rtol
  let total := minimumIterations + desiredIterations
  .ok (x, if total < 1 then 1 else total)

/-- `mcelreath.py` l.171-217, `_find_multi_revolution_x`. -/
noncomputable def findMultiRevolutionX (tof rNormSum m dtheta : ℝ) (M : ℕ) (isLowPath : Bool) (maxiter : ℕ)
    (atol rtol : ℝ) : Py (ℂ × ℕ) := do
  let twoPi := 2 * Real.pi
  let twoPiRevs := twoPi * M
  let lo := twoPiRevs
  let hi := twoPiRevs + twoPi
  let x0 ← minimumGuess dtheta M
  let (xMin, minimumIterations) ← solveMinimumX (x0 : ℂ) tof rNormSum m M lo hi maxiter
  let tMin ← tofEquation (xMin : ℂ) rNormSum m
  let tofMin := tMin.re
  raiseIf (tof < tofMin - atol) (.valueError "No feasible solution, try lower M!")
  if |tof - tofMin| ≤ atol + rtol * |tofMin| then
    .ok ((xMin : ℂ), if minimumIterations < 1 then 1 else minimumIterations)
  else solvePair tof tofMin xMin rNormSum m dtheta M isLowPath minimumIterations lo hi maxiter rtol

/-- `mcelreath.py` l.144-149: elliptic start. -/
noncomputable def ellipticStart (tof tofP rNormSum m dtheta : ℝ) : Py ℂ := do
  let tofTheta ← tofEquation (dtheta : ℂ) rNormSum m
  let q ← pdiv (tof - tofP) (tofTheta.re - tofP)
  let sq ← psqrt q
  let k ← pdiv dtheta (2 * Real.pi - dtheta)
  let beta := sq * k
  let x0 ← pdiv (2 * Real.pi * beta) (1 + beta)
  .ok (x0 : ℂ)

/-- `mcelreath.py` l.151-152: imaginary part of `x_tau`. -/
noncomputable def xTau (rNormSum m : ℝ) : Py ℝ := do
  let q ← pdiv (rNormSum ^ 2) (2 * m ^ 2)
  let tau := q - 1
  let sq ← psqrt (tau ^ 2 - 1)
  plog (tau + sq)

/-- `mcelreath.py` l.153-159: hyperbolic start, short way. -/
noncomputable def hyperbolicShortStart (tof tofP rNormSum m xT : ℝ) : Py ℂ := do
  let xTau : ℂ := Complex.I * xT
  let x1 := xTau * Real.exp (-2.5)
  let tofX1 ← tofEquation x1 rNormSum m
  let tofP16 ← cpow (tofP : ℂ) 1.6
  let tofX116 ← cpow tofX1 1.6
  let l1 ← clog (-tofP16)
  let l2 ← clog (tofX116 - tofP16)
  let exponent ← cdiv 2.5 (l1 - l2)
  let ratio ← pdiv tof tofP
  let w ← prpow ratio 1.6
  let z ← cpow ((1 - w : ℝ) : ℂ) exponent
  .ok (Complex.I * (xTau * z).im)

/-- `mcelreath.py` l.162-165: hyperbolic start, long way. -/
noncomputable def hyperbolicLongStart (tof tofP rNormSum m dtheta : ℝ) : Py ℂ := do
  let tofTheta ← tofEquation (Complex.I * dtheta) rNormSum m
  let ratio ← pdiv tof tofP
  let l1 ← plog ratio
  let ratioTheta ← cdiv tofTheta tofP
  let l2 ← clog ratioTheta
  let q ← cdiv l1 l2
  .ok (Complex.I * dtheta * csqrt q)

/-- `mcelreath.py` l.137-168, `_find_single_revolution_x`. -/
noncomputable def findSingleRevolutionX (tof rNormSum m dtheta : ℝ) (maxiter : ℕ) (atol rtol : ℝ) : Py (ℂ × ℕ) := do
  let tofP ← getParabolicTof rNormSum m
  if |tof - tofP| ≤ atol + rtol * |tofP| then .ok (0, 1)
  else if tof > tofP then do
    let x0 ← ellipticStart tof tofP rNormSum m dtheta
    solveDesiredX x0 tof rNormSum m 0 0 (some (2 * Real.pi)) maxiter rtol
  else if dtheta < Real.pi then do
    let xT ← xTau rNormSum m
    let x0 ← hyperbolicShortStart tof tofP rNormSum m xT
    solveDesiredX x0 tof rNormSum m 0 0 (some xT) maxiter rtol
  else do
    let x0 ← hyperbolicLongStart tof tofP rNormSum m dtheta
    solveDesiredX x0 tof rNormSum m 0 0 none maxiter rtol

/-- `mcelreath.py` l.123-134, `_find_x`. -/
noncomputable def findX (tof r1Norm r2Norm m dtheta : ℝ) (M : ℕ) (isLowPath : Bool) (maxiter : ℕ) (atol rtol : ℝ) :
    Py (ℂ × ℕ) :=
  if M = 0 then findSingleRevolutionX tof (r1Norm + r2Norm) m dtheta maxiter atol rtol
  else findMultiRevolutionX tof (r1Norm + r2Norm) m dtheta M isLowPath maxiter atol rtol

/-- `mcelreath.py` l.433-442, `_alpha_and_universal_values`. -/
noncomputable def alphaAndUniversalValues (x : ℂ) (r1Norm r2Norm m : ℝ) : Py (ℂ × ℂ × ℂ × ℂ) := do
  let u0 := Complex.cos x
  let u0Star := Complex.cos (x / 2)
  let alpha ← cdiv (1 - u0) (r1Norm + r2Norm - 2 * m * u0Star)
  let alphaSqrt := csqrt alpha
  let u1Star ← cdiv (Complex.sin (x / 2)) alphaSqrt
  let u3 ← cdiv (x - Complex.sin x) (alpha * alphaSqrt)
  .ok (alpha, u1Star, u0Star, u3)

/-- `mcelreath.py` l.99-118: semi-latus rectum and Stark's velocity reconstruction. -/
noncomputable def reconstruct (mu : ℝ) (r1 r2 : V3) (r1Norm r2Norm dtheta m : ℝ) (x : ℂ) : Py (V3 × V3) := do
  let (_, _, u0Star, _) ← alphaAndUniversalValues x r1Norm r2Norm m
  let p ← pdiv (r1Norm * r2Norm * (1 - Real.cos dtheta)) (r1Norm + r2Norm - 2 * m * u0Star.re)
  let cNorm := V3.norm (r2 - r1)
  let sq ← psqrt (mu * p)
  let vc ← pdiv (cNorm * sq) (r1Norm * r2Norm * Real.sin dtheta)
  let q ← pdiv mu p
  let sq' ← psqrt q
  let vr ← pdiv (sq' * (1 - Real.cos dtheta)) (Real.sin dtheta)
  let ir1 ← vdiv r1 r1Norm
  let ir2 ← vdiv r2 r2Norm
  let ic ← vdiv (r2 - r1) cNorm
  .ok (vc • ic + vr • ir1, vc • ic - vr • ir2)

end McElreath

open McElreath in
/-- `mcelreath.py` l.15-120, `mcelreath2025`; `clock` is the measured time. -/
noncomputable def mcelreath2025 (mu : ℝ) (r1 r2 : V3) (tof : ℝ) (M : ℤ) (isPrograde : Bool)
    (isLowPath : Bool) (maxiter : ℕ) (atol rtol : ℝ) (fullOutput : Bool) (clock : ℝ) : Py Output := do
  assertParametersAreValid mu r1 r2 tof M
  let r1Norm := V3.norm r1
  let r2Norm := V3.norm r2
  let dtheta ← getTransferAngle r1 r2 isPrograde
  assertTransferAngleNotZero dtheta
  raiseIf (|Real.sin dtheta - 0.0| ≤ 1e-14 + 1e-5 * |(0.0 : ℝ)|)
    (.runtimeError "Cannot compute orbit, phase angle is 180 degrees")
  let m := (-1) ^ M.toNat * Real.sqrt (r1Norm * r2Norm) * Real.cos (dtheta / 2)
  let tof := Real.sqrt mu * tof
  let (x, numiter) ← findX tof r1Norm r2Norm m dtheta M.toNat isLowPath maxiter atol rtol
  let tpi ← timePerIter fullOutput clock numiter
  let (v1, v2) ← reconstruct mu r1 r2 r1Norm r2Norm dtheta m x
  .ok (mkOutput fullOutput v1 v2 numiter tpi)

end Lamberthub
