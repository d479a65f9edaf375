import Verif.Model.Vallado
import Verif.Model.Brent

/-! # Model of `/repo/src/lamberthub/p_solvers/pan.py`

`brentq` is a parameter (`Model/Brent.lean`).  The sampled residuals that the code turns
into `nan` are `none` here. -/

set_option autoImplicit false

namespace Lamberthub
namespace Pan

/-- The dictionary built by `_get_planar_geometry`, `pan.py` l.157-171. -/
structure Geometry where
  r1Norm : ℝ
  r2Norm : ℝ
  theta : ℝ
  ix : V3
  iy : V3
  x1 : ℝ
  y1 : ℝ
  x2 : ℝ
  y2 : ℝ
  xc : ℝ
  yc : ℝ

/-- `pan.py` l.146-171, `_get_planar_geometry` (the entries `r1`, `r2` are never read). -/
noncomputable def getPlanarGeometry (r1 r2 : V3) (theta : ℝ) (isPrograde : Bool) : Py Geometry := do
  let r1Norm := V3.norm r1
  let r2Norm := V3.norm r2
  let ix ← vdiv r1 r1Norm
  let ih ← getOrbitNormalVector r1 r2 isPrograde
  let iy := V3.cross ih ix
  let x1 := r1Norm
  let y1 := 0.0
  let x2 := r2Norm * Real.cos theta
  let y2 := r2Norm * Real.sin theta
  .ok ⟨r1Norm, r2Norm, theta, ix, iy, x1, y1, x2, y2, x2 - x1, y2 - y1⟩

/-- The tuple returned by `_elements_at_omega`, `pan.py` l.286. -/
structure Elements where
  a : ℝ
  ecc : ℝ
  omega : ℝ
  f1 : ℝ
  f2 : ℝ

/-- `pan.py` l.267-270: the eccentricity is made non-negative by turning the apse line. -/
noncomputable def fixEcc (ecc omega : ℝ) : ℝ × ℝ := if ecc < 0 then (-ecc, omega + Real.pi) else (ecc, omega)

/-- `pan.py` l.254-286, `_elements_at_omega`.  `np.isclose(x, 0.0)` is `|x| ≤ 1e-8`; the
`np.isfinite` guards of l.280 always hold for real numbers. -/
noncomputable def elementsAtOmega (g : Geometry) (omega : ℝ) : Py Elements := do
  let cosOmega := Real.cos omega
  let sinOmega := Real.sin omega
  let chordProjection := g.xc * cosOmega + g.yc * sinOmega
  raiseIf (|chordProjection| ≤ 1e-8) (.valueError "Invalid argument of periapsis.")
  let ecc0 ← pdiv (g.r1Norm - g.r2Norm) chordProjection
  let denominator := (g.r1Norm - g.r2Norm) ^ 2 - chordProjection ^ 2
  let numerator := chordProjection * (g.r2Norm * (g.x1 * cosOmega + g.y1 * sinOmega)
    - g.r1Norm * (g.x2 * cosOmega + g.y2 * sinOmega))
  raiseIf (|denominator| ≤ 1e-8) (.valueError "Invalid semi-major axis.")
  let a ← pdiv numerator denominator
  .ok ⟨a, (fixEcc ecc0 omega).1, (fixEcc ecc0 omega).2, arctan2 g.y1 g.x1 - (fixEcc ecc0 omega).2,
    arctan2 g.y2 g.x2 - (fixEcc ecc0 omega).2⟩

/-- `pan.py` l.337-342, `_true_to_eccentric_anomaly`. -/
noncomputable def trueToEccentric (nu ecc : ℝ) : Py ℝ := do
  let s1 ← psqrt (1 - ecc)
  let s2 ← psqrt (1 + ecc)
  .ok (2 * arctan2 (s1 * Real.sin (nu / 2)) (s2 * Real.cos (nu / 2)))

/-- `pan.py` l.345-352, `_true_to_hyperbolic_anomaly`. -/
noncomputable def trueToHyperbolic (nu ecc : ℝ) : Py ℝ := do
  let q ← pdiv (ecc - 1) (ecc + 1)
  let s ← psqrt q
  let t ← ptan (nu / 2)
  raiseIf (|s * t| ≥ 1) (.valueError "True anomaly exceeds the hyperbolic asymptote.")
  let h ← partanh (s * t)
  .ok (2 * h)

/-- `pan.py` l.307-314, `_elliptic_tof`. -/
noncomputable def ellipticTof (mu a ecc f1 f2 : ℝ) : Py ℝ := do
  let E1 ← trueToEccentric f1 ecc
  let E2 ← trueToEccentric f2 ecc
  let M1 := E1 - ecc * Real.sin E1
  let M2 := E2 - ecc * Real.sin E2
  let deltaM := pmod (M2 - M1) (2 * Real.pi)
  let q ← pdiv (a ^ 3) mu
  let s ← psqrt q
  .ok (s * deltaM)

/-- `pan.py` l.317-326, `_hyperbolic_tof`. -/
noncomputable def hyperbolicTof (mu a ecc f1 f2 : ℝ) : Py ℝ := do
  let F1 ← trueToHyperbolic f1 ecc
  let F2 ← trueToHyperbolic f2 ecc
  let M1 := ecc * Real.sinh F1 - F1
  let M2 := ecc * Real.sinh F2 - F2
  let deltaM := M2 - M1
  raiseIf (deltaM ≤ 0) (.valueError "Invalid hyperbolic transfer direction.")
  let q ← pdiv ((-a) ^ 3) mu
  let s ← psqrt q
  .ok (s * deltaM)

/-- `pan.py` l.329-334, `_parabolic_tof`. -/
noncomputable def parabolicTof (mu p f1 f2 : ℝ) : Py ℝ := do
  raiseIf (p ≤ 0) (.valueError "Invalid parabolic semi-latus rectum.")
  let D1 ← ptan (f1 / 2)
  let D2 ← ptan (f2 / 2)
  let q ← pdiv (p ^ 3) (2 * mu)
  let s ← psqrt q
  .ok (s * (D2 + D2 ^ 3 / 3 - D1 - D1 ^ 3 / 3))

/-- `pan.py` l.289-304, `_tof_from_elements`; `np.isclose(e, 1.0)` is
`|e - 1| ≤ 1e-8 + 1e-5`. -/
noncomputable def tofFromElements (mu : ℝ) (el : Elements) : Py ℝ :=
  if el.ecc < 1 then do
    raiseIf (el.a ≤ 0) (.valueError "Invalid elliptic semi-major axis.")
    ellipticTof mu el.a el.ecc el.f1 el.f2
  else if |el.ecc - 1| ≤ 1e-8 + 1e-5 then
    parabolicTof mu (el.a * (1 - el.ecc ^ 2)) el.f1 el.f2
  else do
    raiseIf (el.a ≥ 0) (.valueError "Invalid hyperbolic semi-major axis.")
    hyperbolicTof mu el.a el.ecc el.f1 el.f2

/-- `pan.py` l.248-251, `_tof_at_omega`. -/
noncomputable def tofAtOmega (mu : ℝ) (g : Geometry) (omega : ℝ) : Py ℝ := do
  let el ← elementsAtOmega g omega
  tofFromElements mu el

/-- The residual, `pan.py` l.182-184 and l.213. -/
noncomputable def residual (mu : ℝ) (g : Geometry) (tof omega : ℝ) : Py ℝ := do
  let t ← tofAtOmega mu g omega
  .ok (t - tof)

/-- `pan.py` l.210-215, `_safe_tof_residual`; `none` is `nan`. -/
noncomputable def safeResidual (mu : ℝ) (g : Geometry) (tof omega : ℝ) : Option ℝ :=
  match residual mu g tof omega with
  | .ok v => some v
  | .error _ => none

/-- `np.sqrt(np.finfo(float).eps)`, `pan.py` l.192. -/
noncomputable def eps : ℝ := 1 / 2 ^ 26

/-- `np.linspace(-np.pi + eps, np.pi - eps, 721)[idx]`, `pan.py` l.193. -/
noncomputable def sample (idx : ℕ) : ℝ := (-Real.pi + eps) + idx * ((2 * Real.pi - 2 * eps) / 720)

/-- One pass of the loop `pan.py` l.197-205. -/
noncomputable def bracketAt (mu : ℝ) (g : Geometry) (tof : ℝ) (idx : ℕ) : Option (ℝ × ℝ) :=
  match safeResidual mu g tof (sample idx), safeResidual mu g tof (sample (idx + 1)) with
  | some l, some r =>
    if l = 0 then some (sample idx - eps, sample idx + eps)
    else if l * r < 0 then some (sample idx, sample (idx + 1))
    else none
  | _, _ => none

/-- `pan.py` l.190-207, `_get_omega_brackets`. -/
noncomputable def getOmegaBrackets (mu : ℝ) (g : Geometry) (tof : ℝ) : List (ℝ × ℝ) :=
  (List.range 720).filterMap (bracketAt mu g tof)

/-- `pan.py` l.243-245, `_linear_bezier_estimate`. -/
noncomputable def linearBezierEstimate (lower upper fLower fUpper : ℝ) : Py ℝ := do
  let q ← pdiv (fLower * (upper - lower)) (fUpper - fLower)
  .ok (lower - q)

/-- `np.clip(x, lower, upper)`. -/
noncomputable def clip (x lower upper : ℝ) : ℝ := min upper (max x lower)

/-- The `for` loop of `_bezier_root` and the final `brentq`, `pan.py` l.223-240:
`remaining` passes are left and the next one is number `numiter`. -/
noncomputable def bezierLoop (brentq : Brent) (f : ℝ → Py ℝ) (maxiter : ℕ) (atol rtol : ℝ) :
    ℕ → ℕ → ℝ → ℝ → ℝ → ℝ → ℝ → Py (ℝ × ℕ)
  | 0, _, _, lower, upper, _, _ => do
    let (root, _) ← brentq f lower upper atol rtol maxiter
    .ok (root, maxiter)
  | remaining + 1, numiter, previous, lower, upper, fLower, fUpper => do
    let est ← linearBezierEstimate lower upper fLower fUpper
    let root := clip est lower upper
    let fRoot ← f root
    if |fRoot| ≤ atol ∨ |root - previous| ≤ atol + rtol * |root| then .ok (root, numiter)
    else if fLower * fRoot ≤ 0 then
      bezierLoop brentq f maxiter atol rtol remaining (numiter + 1) root lower root fLower fRoot
    else bezierLoop brentq f maxiter atol rtol remaining (numiter + 1) root root upper fRoot fUpper

/-- `pan.py` l.218-240, `_bezier_root`. -/
noncomputable def bezierRoot (brentq : Brent) (f : ℝ → Py ℝ) (lower upper : ℝ) (maxiter : ℕ) (atol rtol : ℝ) :
    Py (ℝ × ℕ) := do
  let fLower ← f lower
  let fUpper ← f upper
  bezierLoop brentq f maxiter atol rtol maxiter 1 upper lower upper fLower fUpper

/-- `pan.py` l.174-187, `_find_argument_of_periapsis`. -/
noncomputable def findArgumentOfPeriapsis (brentq : Brent) (mu : ℝ) (g : Geometry) (tof : ℝ) (maxiter : ℕ)
    (atol rtol : ℝ) : Py (ℝ × ℕ) :=
  match getOmegaBrackets mu g tof with
  | [] => .error (.valueError "No feasible solution, try lower M!")
  | b :: _ => bezierRoot brentq (residual mu g tof) b.1 b.2 maxiter atol rtol

/-- The semi-latus rectum used for the velocities, `pan.py` l.358-360. -/
noncomputable def semiLatus (a ecc : ℝ) : ℝ := if a * (1 - ecc ^ 2) ≤ 0 then a * (ecc ^ 2 - 1) else a * (1 - ecc ^ 2)

/-- `pan.py` l.355-379, `_reconstruct_velocities`. -/
noncomputable def reconstruct (mu : ℝ) (g : Geometry) (el : Elements) : Py (V3 × V3) := do
  let p := semiLatus el.a el.ecc
  raiseIf (p ≤ 0) (.valueError "Invalid semi-latus rectum.")
  let q ← pdiv mu p
  let scale ← psqrt q
  let v1x := scale * -Real.sin el.f1
  let v1y := scale * (el.ecc + Real.cos el.f1)
  let v2x := scale * -Real.sin el.f2
  let v2y := scale * (el.ecc + Real.cos el.f2)
  let c := Real.cos el.omega
  let s := Real.sin el.omega
  let v1 := (c * v1x + -s * v1y) • g.ix + (s * v1x + c * v1y) • g.iy
  let v2 := (c * v2x + -s * v2y) • g.ix + (s * v2x + c * v2y) • g.iy
  .ok (v1, v2)

/-- `pan.py` l.137-143: what follows a successful search. -/
noncomputable def finish (mu : ℝ) (g : Geometry) (fullOutput : Bool) (clock omega : ℝ) (numiter : ℕ) :
    Py Output := do
  let tpi ← timePerIter fullOutput clock numiter
  let el ← elementsAtOmega g omega
  let (v1, v2) ← reconstruct mu g el
  .ok (mkOutput fullOutput v1 v2 numiter tpi)

end Pan

open Pan in
/-- `pan.py` l.18-143, `pan2016`; `clock` is the measured time.  `np.isclose(|r1|, |r2|,
rtol=1e-8, atol=atol)` is `||r1| - |r2|| ≤ atol + 1e-8 |r2|`. -/
noncomputable def pan2016 (brentq : Brent) (mu : ℝ) (r1 r2 : V3) (tof : ℝ) (M : ℤ) (isPrograde : Bool)
    (isLowPath : Bool) (maxiter : ℕ) (atol rtol : ℝ) (fullOutput : Bool) (clock : ℝ) : Py Output := do
  raiseIf (M > 0) (.valueError "Pan is not able to work within the multi-revolution scenario!")
  assertParametersAreValid mu r1 r2 tof M
  let theta ← getTransferAngle r1 r2 isPrograde
  assertTransferAngleNotZero theta
  assertTransferAngleNotPi theta
  if |V3.norm r1 - V3.norm r2| ≤ atol + 1e-8 * |V3.norm r2| then
    vallado2013 mu r1 r2 tof M isPrograde isLowPath maxiter atol rtol fullOutput clock
  else do
    let g ← getPlanarGeometry r1 r2 theta isPrograde
    match findArgumentOfPeriapsis brentq mu g tof maxiter atol rtol with
    | .ok (omega, numiter) => finish mu g fullOutput clock omega numiter
    | .error (.valueError _) =>
      vallado2013 mu r1 r2 tof M isPrograde isLowPath maxiter atol rtol fullOutput clock
    | .error e => .error e

end Lamberthub
