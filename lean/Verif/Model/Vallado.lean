import Verif.Model.Output
import Verif.Model.Assertions
import Verif.Model.Angles
import Verif.Model.Stumpff

/-! # Model of `/repo/src/lamberthub/universal_solvers/vallado.py` -/

set_option autoImplicit false

namespace Lamberthub

namespace Vallado

/-- `vallado.py` l.149-172, `_tof_vallado`. -/
noncomputable def tofVallado (mu psi X A y : ℝ) : Py ℝ := do
  let c ← c3 psi
  let sy ← psqrt y
  let sm ← psqrt mu
  pdiv (X ^ 3 * c + A * sy) sm

/-- `vallado.py` l.176-193, `_X_at_psi`. -/
noncomputable def xAtPsi (psi y : ℝ) : Py ℝ := do
  let c ← c2 psi
  let q ← pdiv y c
  psqrt q

/-- `vallado.py` l.197-217, `_get_A`. -/
noncomputable def getA (r1Norm r2Norm dtheta : ℝ) : Py ℝ := do
  let tm : ℝ := if dtheta < Real.pi then 1 else -1
  let s ← psqrt (r1Norm * r2Norm * (1 + Real.cos dtheta))
  .ok (tm * s)

/-- `vallado.py` l.221-246, `_y_at_psi`. -/
noncomputable def yAtPsi (psi r1Norm r2Norm A : ℝ) : Py ℝ := do
  let c ← c3 psi
  let d ← c2 psi
  let sd ← psqrt d
  let q ← pdiv (A * (psi * c - 1)) sd
  .ok ((r1Norm + r2Norm) + q)

/-- State of the readjustment loop l.111-118: `(psi_low, psi, y)`. -/
structure Adj where
  psiLow : ℝ
  psi : ℝ
  y : ℝ

/-- Body of the loop l.111-118. -/
noncomputable def readjustBody (r1Norm r2Norm A : ℝ) (s : Adj) : Py Adj := do
  let c ← c3 s.psi
  let ic ← pdiv 1.0 c
  let d ← c2 s.psi
  let sd ← psqrt d
  let q ← pdiv (r1Norm * r2Norm * sd) A
  let psi := 0.8 * ic * (1.0 - q)
  let y ← yAtPsi psi r1Norm r2Norm A
  .ok ⟨s.psi, psi, y⟩

/-- `vallado.py` l.109-118. -/
noncomputable def readjust (r1Norm r2Norm A : ℝ) (s : Adj) : Py Adj :=
  if A > 0 then whileLoop (fun s : Adj => s.y < 0) (readjustBody r1Norm r2Norm A) s
  else .ok s

/-- The `for` loop l.105-135.  `remaining` is the number of passes left, `numiter` the
number of the current one.  Returns `(y, psi, numiter)` at the `break`.
l.130-131 (`psi_low + (psi - psi_low) * condition`) is written as a conditional. -/
noncomputable def loop (mu r1Norm r2Norm A tof rtol : ℝ) :
    ℕ → ℕ → ℝ → ℝ → ℝ → Py (ℝ × ℝ × ℕ)
  | 0, _, _, _, _ => .error (.valueError "Exceeded maximum number of iterations!")
  | remaining + 1, numiter, psi, psiLow, psiUp => do
    let y0 ← yAtPsi psi r1Norm r2Norm A
    let s ← readjust r1Norm r2Norm A ⟨psiLow, psi, y0⟩
    let X ← xAtPsi s.psi s.y
    let tofNew ← tofVallado mu s.psi X A s.y
    let e ← pdiv (tofNew - tof) tof
    if |e| < rtol then .ok (s.y, s.psi, numiter)
    else
      let psiLow' := if tofNew ≤ tof then s.psi else s.psiLow
      let psiUp' := if tofNew ≤ tof then psiUp else s.psi
      loop mu r1Norm r2Norm A tof rtol remaining (numiter + 1) ((psiUp' + psiLow') / 2)
        psiLow' psiUp'

end Vallado

open Vallado in
/-- `vallado.py` l.13-145, `vallado2013`.  `is_low_path` and `atol` are not used by the
code.  `clock` is the value of `tpi` (wall-clock time, not modelled). -/
noncomputable def vallado2013 (mu : ℝ) (r1 r2 : V3) (tof : ℝ) (M : ℤ) (isPrograde : Bool)
    (_isLowPath : Bool) (maxiter : ℕ) (_atol rtol : ℝ) (fullOutput : Bool) (clock : ℝ) :
    Py Output := do
  assertParametersAreValid mu r1 r2 tof M
  let r1Norm := V3.norm r1
  let r2Norm := V3.norm r2
  let dtheta ← getTransferAngle r1 r2 isPrograde
  let A ← getA r1Norm r2Norm dtheta
  raiseIf (A = 0.0) (.runtimeError "Cannot compute orbit, phase angle is 180 degrees")
  let (y, _psi, numiter) ←
    loop mu r1Norm r2Norm A tof rtol maxiter 1 0.0 (-4 * Real.pi ^ 2) (4 * Real.pi ^ 2)
  let fq ← pdiv y r1Norm
  let f := 1 - fq
  let gq ← pdiv y mu
  let gs ← psqrt gq
  let g := A * gs
  let gdq ← pdiv y r2Norm
  let gdot := 1 - gdq
  let v1 ← vdiv (r2 - f • r1) g
  let v2 ← vdiv (gdot • r2 - r1) g
  .ok (mkOutput fullOutput v1 v2 numiter clock)

end Lamberthub
