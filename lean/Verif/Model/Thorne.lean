import Verif.Model.Brent
import Verif.Model.Output
import Verif.Model.Assertions
import Verif.Model.Angles
import Mathlib.Analysis.SpecialFunctions.Arsinh
import Mathlib.Analysis.SpecialFunctions.Trigonometric.Inverse

/-! # Model of `/repo/src/lamberthub/series_solvers/thorne.py` -/

set_option autoImplicit false

namespace Lamberthub
namespace Thorne

/-- The branch identifiers `"P"`, `"H"`, `"A"`, `"B"`. -/
inductive Branch where
  | P | H | A | B

/-- `np.finfo(float).eps`. -/
noncomputable def eps : ℝ := 1 / 2 ^ 52

/-- `thorne.py` l.120-147, `get_parabolic_tof`. -/
noncomputable def getParabolicTof (mu s c mp : ℝ) : Py ℝ := do
  let k ← pdiv (s - c) s
  let sm ← pdiv (s ^ 3) mu
  let sq ← psqrt sm
  let kp ← prpow k (3 / 2)
  .ok (Real.sqrt 2 / 3 * sq * (1 + mp * kp))

/-- `thorne.py` l.150-175, `get_minimum_energy_tof`. -/
noncomputable def getMinimumEnergyTof (mu s c mp : ℝ) : Py ℝ := do
  let k ← pdiv (s - c) s
  let sk ← psqrt k
  let as ← pasin sk
  let beta := 2 * as
  let sm ← pdiv ((s / 2) ^ 3) mu
  let sq ← psqrt sm
  .ok (sq * (Real.pi + mp * (beta - Real.sin beta)))

/-- `thorne.py` l.261-269: the branch `"H"` of `lagrange_tof`. -/
noncomputable def lagrangeTofH (mu s c a mp : ℝ) : Py ℝ := do
  let qa ← pdiv (-s) (2 * a)
  let sa ← psqrt qa
  let alpha := 2 * Real.arsinh sa
  let qb ← pdiv (c - s) (2 * a)
  let sb ← psqrt qb
  let beta := 2 * Real.arsinh sb
  let am ← pdiv ((-a) ^ 3) mu
  let sq ← psqrt am
  .ok (sq * (Real.sinh alpha - alpha + mp * (Real.sinh beta - beta)))

/-- `thorne.py` l.259-281, `lagrange_tof`. -/
noncomputable def lagrangeTof (mu s c a mp : ℝ) : Branch → Py ℝ
  | .H => lagrangeTofH mu s c a mp
  | .A => do
    let qa ← pdiv s (2 * a)
    let sa ← psqrt qa
    let aa ← pasin sa
    let qb ← pdiv (s - c) (2 * a)
    let sb ← psqrt qb
    let bb ← pasin sb
    let alpha := 2 * aa
    let beta := 2 * bb
    let am ← pdiv (a ^ 3) mu
    let sq ← psqrt am
    .ok (sq * (alpha - Real.sin alpha + mp * (beta - Real.sin beta)))
  | .B => do
    let qa ← pdiv s (2 * a)
    let sa ← psqrt qa
    let aa ← pasin sa
    let qb ← pdiv (s - c) (2 * a)
    let sb ← psqrt qb
    let bb ← pasin sb
    let alpha := 2 * aa
    let beta := 2 * bb
    let am ← pdiv (a ^ 3) mu
    let sq ← psqrt am
    .ok (sq * (2 * Real.pi - (alpha - Real.sin alpha) + mp * (beta - Real.sin beta)))
  | .P => .error (.valueError "Unsupported Thorne branch.")

open Classical in
/-- `thorne.py` l.240-244 and l.247-256, `expand_lower_hyperbolic_bound` and
`expand_upper_elliptic_bound`: double the bound while the test holds.  The state keeps the
value of the last test. -/
noncomputable def expandBound (test : ℝ → Py Bool) (b0 : ℝ) : Py ℝ := do
  let c0 ← test b0
  let r ← whileLoop (fun s : ℝ × Bool => s.2 = true)
    (fun s => do
      let b := s.1 * 2
      let c ← test b
      .ok (b, c)) (b0, c0)
  .ok r.1

open Classical in
/-- `thorne.py` l.240-244. -/
noncomputable def expandLowerHyperbolicBound (mu s c tof mp lower : ℝ) : Py ℝ :=
  expandBound (fun b => do
    let v ← lagrangeTof mu s c b mp .H
    .ok (decide (v < tof))) lower

open Classical in
/-- `thorne.py` l.247-256. -/
noncomputable def expandUpperEllipticBound (mu s c tof mp : ℝ) (branch : Branch) (upper : ℝ) : Py ℝ :=
  match branch with
  | .A => expandBound (fun b => do
      let v ← lagrangeTof mu s c b mp .A
      .ok (decide (v > tof))) upper
  | br => expandBound (fun b => do
      let v ← lagrangeTof mu s c b mp br
      .ok (decide (v < tof))) upper

/-- `thorne.py` l.224-237: the call of `brentq` (its failures raise inside scipy). -/
noncomputable def solveBranch (brentq : Brent) (mu s c tof mp : ℝ) (branch : Branch) (lower upper : ℝ)
    (maxiter : ℕ) (atol rtol : ℝ) : Py (ℝ × Branch × ℕ) := do
  let (a, n) ← brentq (fun a => do
    let v ← lagrangeTof mu s c a mp branch
    .ok (v - tof)) lower upper atol rtol maxiter
  .ok (a, branch, n)

open Classical in
/-- `thorne.py` l.178-237, `get_semimajor_axis`.  On branch `"P"` the code returns
`a = inf`, which is never used; the model returns `0`. -/
noncomputable def getSemimajorAxis (brentq : Brent) (mu s c tof tP tMin mp : ℝ) (maxiter : ℕ)
    (atol rtol : ℝ) : Py (ℝ × Branch × ℕ) := do
  if |tof - tP| ≤ atol + rtol * |tP| then .ok (0, .P, 1)
  else if tof < tP then do
    let lower ← expandLowerHyperbolicBound mu s c tof mp (-s / 2)
    solveBranch brentq mu s c tof mp .H lower (-eps * s) maxiter atol rtol
  else if tof < tMin then do
    let upper ← expandUpperEllipticBound mu s c tof mp .A s
    solveBranch brentq mu s c tof mp .A (s / 2 * (1 + eps)) upper maxiter atol rtol
  else do
    let upper ← expandUpperEllipticBound mu s c tof mp .B s
    solveBranch brentq mu s c tof mp .B (s / 2 * (1 + eps)) upper maxiter atol rtol

/-- `thorne.py` l.284-290, `get_x_from_semimajor_axis`. -/
noncomputable def getX (a s : ℝ) : Branch → Py ℝ
  | .P => .ok 1.0
  | .B => do
    let q ← pdiv s (2 * a)
    let x ← psqrt (1 - q)
    .ok (-x)
  | _ => do
    let q ← pdiv s (2 * a)
    psqrt (1 - q)

/-- `thorne.py` l.299-310, `get_lambda`. -/
noncomputable def getLambda (r1 r2 : V3) (s c : ℝ) (isPrograde : Bool) : Py ℝ := do
  let ir1 ← vdiv r1 (V3.norm r1)
  let ir2 ← vdiv r2 (V3.norm r2)
  let ih0 := V3.cross ir1 ir2
  let ih ← vdiv ih0 (V3.norm ih0)
  let cs ← pdiv c s
  let l0 ← psqrt (1 - cs)
  let ll := if ih.z < 0 then -l0 else l0
  .ok (if isPrograde = false then -ll else ll)

/-- `thorne.py` l.293-296, `get_y_from_x`. -/
noncomputable def getYFromX (x : ℝ) (r1 r2 : V3) (s c : ℝ) (isPrograde : Bool) : Py ℝ := do
  let ll ← getLambda r1 r2 s c isPrograde
  psqrt (1 - ll ^ 2 * (1 - x ^ 2))

/-- `thorne.py` l.313-339, `reconstruct`. -/
noncomputable def reconstruct (x y mu : ℝ) (r1 r2 : V3) (s c : ℝ) (isPrograde : Bool) :
    Py (V3 × V3) := do
  let r1Norm := V3.norm r1
  let r2Norm := V3.norm r2
  let ir1 ← vdiv r1 r1Norm
  let ir2 ← vdiv r2 r2Norm
  let ih0 := V3.cross ir1 ir2
  let ih ← vdiv ih0 (V3.norm ih0)
  let cs ← pdiv c s
  let l0 ← psqrt (1 - cs)
  let ll0 := if ih.z < 0 then -l0 else l0
  let it10 := if ih.z < 0 then V3.cross ir1 ih else V3.cross ih ir1
  let it20 := if ih.z < 0 then V3.cross ir2 ih else V3.cross ih ir2
  let ll := if isPrograde = false then -ll0 else ll0
  let it1 := if isPrograde = false then -it10 else it10
  let it2 := if isPrograde = false then -it20 else it20
  let gamma ← psqrt (mu * s / 2)
  let rho ← pdiv (r1Norm - r2Norm) c
  let sigma ← psqrt (1 - rho ^ 2)
  let vr1 ← pdiv (gamma * ((ll * y - x) - rho * (ll * y + x))) r1Norm
  let vr2 ← pdiv (-gamma * ((ll * y - x) + rho * (ll * y + x))) r2Norm
  let vt1 ← pdiv (gamma * sigma * (y + ll * x)) r1Norm
  let vt2 ← pdiv (gamma * sigma * (y + ll * x)) r2Norm
  .ok (vr1 • ir1 + vt1 • it1, vr2 • ir2 + vt2 • it2)

end Thorne

open Thorne in
open Classical in
/-- `thorne.py` l.14-117, `thorne2004`; `brentq` is the external root finder, `clock` the
measured time. -/
noncomputable def thorne2004 (brentq : Brent) (mu : ℝ) (r1 r2 : V3) (tof : ℝ) (M : ℤ)
    (isPrograde : Bool) (_isLowPath : Bool) (maxiter : ℕ) (atol rtol : ℝ) (fullOutput : Bool)
    (clock : ℝ) : Py Output := do
  raiseIf (M > 0) (.valueError "Thorne is not able to work within the multi-revolution scenario!")
  assertParametersAreValid mu r1 r2 tof M
  let c := V3.norm (r2 - r1)
  let s := (V3.norm r1 + V3.norm r2 + c) / 2
  let dtheta ← getTransferAngle r1 r2 isPrograde
  let mp : ℝ := if dtheta < Real.pi then -1 else 1
  let tP ← getParabolicTof mu s c mp
  let tMin ← getMinimumEnergyTof mu s c mp
  let (a, branch, numiter) ← getSemimajorAxis brentq mu s c tof tP tMin mp maxiter atol rtol
  let tpi ← timePerIter fullOutput clock numiter
  let x ← getX a s branch
  let y ← getYFromX x r1 r2 s c isPrograde
  let (v1, v2) ← reconstruct x y mu r1 r2 s c isPrograde
  .ok (mkOutput fullOutput v1 v2 numiter tpi)

end Lamberthub
