import Verif.Model.Assertions
import Verif.Model.Elements
import Verif.Model.Kepler
import Verif.Model.Output

/-! # Model of `/repo/src/lamberthub/ecc_solvers/avanzini.py` and `ecc_solvers/utils.py`

`ecc_T` is the component of the eccentricity vector across the chord, `ecc_F` the one along
the chord. -/

set_option autoImplicit false

namespace Lamberthub
namespace Avanzini

/-- The tuple `geometry`, `utils.py` l.61-68. -/
structure Geometry where
  r1Norm : ℝ
  r2Norm : ℝ
  cNorm : ℝ
  dtheta : ℝ
  wC : ℝ

/-- `utils.py` l.33-68, `get_geometry`. -/
noncomputable def getGeometry (r1 r2 : V3) (isPrograde : Bool) : Py Geometry := do
  let dtheta ← getTransferAngle r1 r2 isPrograde
  assertTransferAngleNotZero dtheta
  let wC ← getTransferAngle r1 (r2 - r1) isPrograde
  .ok ⟨V3.norm r1, V3.norm r2, V3.norm (r2 - r1), dtheta, wC⟩

/-- `utils.py` l.72-98, `get_eccF`. -/
noncomputable def getEccF (r1Norm r2Norm cNorm : ℝ) : Py ℝ := pdiv (r1Norm - r2Norm) cNorm

/-- `utils.py` l.102-127, `get_aF`. -/
noncomputable def getAF (r1Norm r2Norm : ℝ) : ℝ := (r1Norm + r2Norm) / 2

/-- `utils.py` l.131-155, `get_pF`. -/
noncomputable def getPF (aF eccF : ℝ) : ℝ := aF * (1 - eccF ^ 2)

/-- `utils.py` l.159-188, `get_fundamental_ellipse_properties`: `(ecc_F, a_F, p_F)`. -/
noncomputable def fundamental (r1Norm r2Norm cNorm : ℝ) : Py (ℝ × ℝ × ℝ) := do
  let eccF ← getEccF r1Norm r2Norm cNorm
  let aF := getAF r1Norm r2Norm
  let pF := getPF aF eccF
  .ok (eccF, aF, pF)

/-- `utils.py` l.192-211, `ecc_at_eccT`. -/
noncomputable def eccAtEccT (eccT eccF : ℝ) : Py ℝ := psqrt (eccT ^ 2 + eccF ^ 2)

/-- `utils.py` l.215-241, `p_at_eccT`. -/
noncomputable def pAtEccT (eccT r1Norm r2Norm cNorm dtheta pF : ℝ) : Py ℝ := do
  let q ← pdiv (eccT * r1Norm * r2Norm * Real.sin dtheta) cNorm
  .ok (pF - q)

/-- `utils.py` l.245-265, `a_at_eccT`. -/
noncomputable def aAtEccT (eccT eccF p : ℝ) : Py ℝ := pdiv p (1 - eccF ^ 2 - eccT ^ 2)

/-- `utils.py` l.269-304, `eap_from_eccT`: `(ecc, a, p)`. -/
noncomputable def eapFromEccT (eccT : ℝ) (g : Geometry) : Py (ℝ × ℝ × ℝ) := do
  let (eccF, _, pF) ← fundamental g.r1Norm g.r2Norm g.cNorm
  let ecc ← eccAtEccT eccT eccF
  let p ← pAtEccT eccT g.r1Norm g.r2Norm g.cNorm g.dtheta pF
  let a ← aAtEccT eccT eccF p
  .ok (ecc, a, p)

/-- `utils.py` l.308-341, `w_at_eccT`. -/
noncomputable def wAtEccT (eccT eccF wC : ℝ) : ℝ :=
  let y := eccF * Real.sin wC + eccT * Real.cos wC
  let x := eccF * Real.cos wC - eccT * Real.sin wC
  arctan2 y x

/-- `utils.py` l.345-366, `get_true_anomalies`. -/
noncomputable def getTrueAnomalies (w dtheta : ℝ) : ℝ × ℝ :=
  let nu1 := -w
  let nu2 := nu1 + dtheta
  (nu1, nu2)

/-- `utils.py` l.408-422: the time of flight for a variation `deltaM` of the mean anomaly.
Simplified: the value `np.inf` of l.418 is an undefined value here (`l.415-418` are never
reached by the model, since `a_at_eccT` divides by zero for a parabola). -/
noncomputable def tofFromDeltaM (mu ecc a p deltaM : ℝ) : Py ℝ :=
  if 0 ≤ ecc ∧ ecc < 1 then do
    let q ← pdiv (a ^ 3) mu
    let s ← psqrt q
    if s * deltaM < 0 then .ok (s * deltaM + 2 * Real.pi * s) else .ok (s * deltaM)
  else if ecc = 1 then do
    let q ← pdiv (p ^ 3) mu
    let s ← psqrt q
    if 1 / 2 * s * deltaM < 0 then .error .undefined else .ok (1 / 2 * s * deltaM)
  else do
    let q ← pdiv (-(a ^ 3)) mu
    let s ← psqrt q
    .ok (s * deltaM)

/-- `utils.py` l.370-422, `kepler_tof_at_eccT`. -/
noncomputable def keplerTofAtEccT (eccT mu : ℝ) (g : Geometry) : Py ℝ := do
  let (ecc, a, p) ← eapFromEccT eccT g
  let (eccF, _, _) ← fundamental g.r1Norm g.r2Norm g.cNorm
  let w := wAtEccT eccT eccF g.wC
  let nu := getTrueAnomalies w g.dtheta
  let M1 ← keplerFromNu nu.1 ecc
  let M2 ← keplerFromNu nu.2 ecc
  tofFromDeltaM mu ecc a p (M2 - M1)

/-- `utils.py` l.425-459, `_f`. -/
noncomputable def f (eccTAtX : ℝ → Py ℝ) (mu : ℝ) (g : Geometry) (tof x : ℝ) : Py ℝ := do
  let eccT ← eccTAtX x
  let tof12 ← keplerTofAtEccT eccT mu g
  let q ← pdiv (g.r1Norm ^ 3) mu
  let tRef ← psqrt q
  let tauS ← pdiv tof tRef
  let tau ← pdiv tof12 tRef
  let y ← plog tau
  let yS ← plog tauS
  .ok (y - yS)

/-- The seven values returned by `coe_at_eccT`. -/
structure Elements where
  p : ℝ
  ecc : ℝ
  inc : ℝ
  raan : ℝ
  argp : ℝ
  nu1 : ℝ
  nu2 : ℝ

/-- `utils.py` l.462-520, `coe_at_eccT`. -/
noncomputable def coeAtEccT (eccT : ℝ) (r1 r2 : V3) (sense : Bool) : Py Elements := do
  let g ← getGeometry r1 r2 sense
  let (ecc, _, p) ← eapFromEccT eccT g
  let (eccF, _, _) ← fundamental g.r1Norm g.r2Norm g.cNorm
  let w := wAtEccT eccT eccF g.wC
  let nu := getTrueAnomalies w g.dtheta
  let _ ← vdiv r1 g.r1Norm
  let _ ← vdiv r2 g.r2Norm
  let ih ← getOrbitNormalVector r1 r2 sense
  let (inc, raan) ← getOrbitIncAndRaan r1 r2 sense
  let n := V3.cross ⟨0, 0, 1⟩ ih
  let px := V3.dot r1 n
  let py ← pdiv (V3.dot r1 (V3.cross ih n)) (V3.norm ih)
  let argp := pmod (arctan2 py px - nu.1) (2 * Real.pi)
  .ok ⟨p, ecc, inc, raan, argp, nu.1, nu.2⟩

/-- `avanzini.py` l.156: `ecc_H`, where `none` is `np.inf`. -/
noncomputable def eccHLimit (dtheta eccMax eccF : ℝ) : Py (Option ℝ) :=
  if dtheta > Real.pi then do
    let e ← psqrt (eccMax ^ 2 - eccF ^ 2)
    .ok (some e)
  else .ok none

/-- `avanzini.py` l.146-159, `_get_eccT_limits`: `(ecc_H, ecc_P)`, where `none` is `np.inf`. -/
noncomputable def getEccTLimits (g : Geometry) : Py (Option ℝ × ℝ) := do
  let (eccF, _, _) ← fundamental g.r1Norm g.r2Norm g.cNorm
  let eccMax ← pdiv (-1) (Real.cos (g.dtheta / 2))
  let eccH ← eccHLimit g.dtheta eccMax eccF
  let eccP ← psqrt (1 - eccF ^ 2)
  .ok (eccH, eccP)

/-- `avanzini.py` l.192-195, `eccT_at_x` for transfers above half a turn. -/
noncomputable def eccTAbove (eccH eccP x : ℝ) : Py ℝ := do
  let a ← pdiv 1 eccH
  let b ← pdiv 1 eccP
  let X := Real.exp ((a + b) * x)
  pdiv (eccP * eccH * (X - 1)) (eccP + eccH * X)

/-- `avanzini.py` l.199-201, `eccT_at_x` for transfers below half a turn. -/
noncomputable def eccTBelow (eccP x : ℝ) : Py ℝ := do
  let a ← pdiv (-x) eccP
  .ok (eccP * (1 - Real.exp a))

/-- `avanzini.py` l.162-203, `_get_eccT_at_x`.  The first branch is taken exactly when
`dtheta > np.pi` (then `ecc_H` is finite). -/
noncomputable def getEccTAtX (g : Geometry) : Py (ℝ → Py ℝ) := do
  match ← getEccTLimits g with
  | (some eccH, eccP) => .ok (eccTAbove eccH eccP)
  | (none, eccP) => .ok (eccTBelow eccP)

/-- The `for` loop of `_secant`, `avanzini.py` l.211-219: `remaining` passes are left and the
next one is number `i`. -/
noncomputable def secantLoop (f : ℝ → Py ℝ) (atol rtol : ℝ) : ℕ → ℕ → ℝ → ℝ → ℝ → ℝ → Py (ℝ × ℕ)
  | 0, _, _, _, _, _ => .error (.runtimeError "Failed to converge")
  | remaining + 1, i, x0, f0, x1, f1 =>
    if f1 = f0 then .ok ((x1 + x0) * 0.5, i)
    else do
      let q ← pdiv (f1 * (x1 - x0)) (f1 - f0)
      let xNew := x1 - q
      if |xNew - x1| ≤ atol + rtol * |xNew| then .ok (xNew, i)
      else do
        let fNew ← f xNew
        secantLoop f atol rtol remaining (i + 1) x1 f1 xNew fNew

/-- `avanzini.py` l.206-219, `_secant`. -/
noncomputable def secant (f : ℝ → Py ℝ) (x0 : ℝ) (maxiter : ℕ) (atol rtol : ℝ) : Py (ℝ × ℕ) := do
  let f0 ← f x0
  let x1 := if x0 ≥ 0 then x0 + 1e-4 else x0 - 1e-4
  let f1 ← f x1
  secantLoop f atol rtol maxiter 1 x0 f0 x1 f1

/-- `avanzini.py` l.140: the velocities at both positions. -/
noncomputable def velocities (mu : ℝ) (el : Elements) : Py (V3 × V3) := do
  let s1 ← coe2rv mu el.p el.ecc el.inc el.raan el.argp el.nu1
  let s2 ← coe2rv mu el.p el.ecc el.inc el.raan el.argp el.nu2
  .ok (s1.2, s2.2)

end Avanzini

open Avanzini in
/-- `avanzini.py` l.48-142, `avanzini2008`; `clock` is the measured time. -/
noncomputable def avanzini2008 (mu : ℝ) (r1 r2 : V3) (tof : ℝ) (M : ℤ) (isPrograde : Bool)
    (_isLowPath : Bool) (maxiter : ℕ) (atol rtol : ℝ) (fullOutput : Bool) (clock : ℝ) : Py Output := do
  raiseIf (M > 0) (.valueError "Avanzini is not able to work within the multi-revolution scenario!")
  assertParametersAreValid mu r1 r2 tof M
  let g ← getGeometry r1 r2 isPrograde
  let eccTAtX ← getEccTAtX g
  let (xSol, numiter) ← secant (f eccTAtX mu g tof) 0.0 maxiter atol rtol
  let tpi ← timePerIter fullOutput clock numiter
  let eccT ← eccTAtX xSol
  let el ← coeAtEccT eccT r1 r2 isPrograde
  let (v1, v2) ← velocities mu el
  .ok (mkOutput fullOutput v1 v2 numiter tpi)

end Lamberthub
