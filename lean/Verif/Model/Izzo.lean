import Verif.Model.Py
import Verif.Model.V3
import Mathlib.Analysis.SpecialFunctions.Pow.Real
import Mathlib.Analysis.SpecialFunctions.Arsinh
import Mathlib.Topology.Algebra.InfiniteSum.Basic
import Mathlib.Algebra.Order.Floor.Ring

/-! # Model of `/repo/src/lamberthub/universal_solvers/izzo.py` -/

set_option autoImplicit false

namespace Lamberthub
namespace Izzo

/-- `term` after `n` passes of the loop of `hyp2f1b` (l.370-373). -/
noncomputable def hypTerm (x : ℝ) : ℕ → ℝ
  | 0 => 1
  | n + 1 => hypTerm x n * (3 + n) * (1 + n) / (5 / 2 + n) * x / (n + 1)

/-- `res` after `n` passes of the loop of `hyp2f1b` (l.369-375). -/
noncomputable def hypPartial (x : ℝ) : ℕ → ℝ
  | 0 => 1
  | n + 1 => hypPartial x n + hypTerm x (n + 1)

/-- `izzo.py` l.357-378, `hyp2f1b`.  `inf` (l.367) is outside the reals.  The loop stops
when rounding absorbs the next term; it is modelled by the limit of `hypPartial`
(the error made by stopping is bounded in `Props/Izzo.lean`).  For `x ≤ -1` the terms do
not tend to zero and the loop never stops. -/
noncomputable def hyp2f1b (x : ℝ) : Py ℝ :=
  if x ≥ 1 then .error .undefined
  else if x ≤ -1 then .error .diverges
  else .ok (∑' n, hypTerm x n)

/-- `izzo.py` l.173-175, `_compute_y`. -/
noncomputable def computeY (x ll : ℝ) : Py ℝ := psqrt (1 - ll ^ 2 * (1 - x ^ 2))

/-- `izzo.py` l.179-196, `_compute_psi`. -/
noncomputable def computePsi (x y ll : ℝ) : Py ℝ :=
  if -1 ≤ x ∧ x < 1 then pacos (x * y + ll * (1 - x ^ 2))
  else if x > 1 then do
    let q ← psqrt (x ^ 2 - 1)
    .ok (Real.arsinh ((y - x * ll) * q))
  else .ok 0

/-- `izzo.py` l.206-217, `_tof_equation_y`. -/
noncomputable def tofEquationY (x y T0 ll : ℝ) (M : ℤ) : Py ℝ :=
  if M = 0 ∧ Real.sqrt 0.6 < x ∧ x < Real.sqrt 1.4 then do
    let eta := y - ll * x
    let s1 := (1 - ll - x * eta) * 0.5
    let h ← hyp2f1b s1
    let Q := 4 / 3 * h
    .ok ((eta ^ 3 * Q + 4 * ll * eta) * 0.5 - T0)
  else do
    let psi ← computePsi x y ll
    let d ← psqrt |1 - x ^ 2|
    let a ← pdiv (psi + M * Real.pi) d
    let T ← pdiv (a - x + ll * y) (1 - x ^ 2)
    .ok (T - T0)

/-- `izzo.py` l.200-202, `_tof_equation`. -/
noncomputable def tofEquation (x T0 ll : ℝ) (M : ℤ) : Py ℝ := do
  let y ← computeY x ll
  tofEquationY x y T0 ll M

/-- `izzo.py` l.221-223, `_tof_equation_p`. -/
noncomputable def tofP (x y T ll : ℝ) : Py ℝ := do
  let a ← pdiv (2 * ll ^ 3 * x) y
  pdiv (3 * T * x - 2 + a) (1 - x ^ 2)

/-- `izzo.py` l.227-229, `_tof_equation_p2`. -/
noncomputable def tofP2 (x y T dT ll : ℝ) : Py ℝ := do
  let a ← pdiv (2 * (1 - ll ^ 2) * ll ^ 3) (y ^ 3)
  pdiv (3 * T + 5 * x * dT + a) (1 - x ^ 2)

/-- `izzo.py` l.233-235, `_tof_equation_p3`. -/
noncomputable def tofP3 (x y dT ddT ll : ℝ) : Py ℝ := do
  let a ← pdiv (6 * (1 - ll ^ 2) * ll ^ 5 * x) (y ^ 5)
  pdiv (7 * x * ddT + 8 * dT - a) (1 - x ^ 2)

/-- The `for` loop of `_halley`, `izzo.py` l.307-322. -/
noncomputable def halley (T0 ll atol rtol : ℝ) : ℕ → ℝ → Py ℝ
  | 0, _ => .error (.runtimeError "Failed to converge")
  | remaining + 1, p0 => do
    let y ← computeY p0 ll
    let fder ← tofP p0 y T0 ll
    let fder2 ← tofP2 p0 y T0 fder ll
    raiseIf (fder2 = 0) (.runtimeError "Derivative was zero")
    let fder3 ← tofP3 p0 y fder fder2 ll
    let step ← pdiv (2 * fder * fder2) (2 * fder2 ^ 2 - fder * fder3)
    let p := p0 - step
    if |p - p0| < rtol * |p0| + atol then .ok p
    else halley T0 ll atol rtol remaining p

/-- `izzo.py` l.239-255, `_compute_T_min`; only the component used by the caller (`T_min`)
is returned, so that the `inf` of l.246 is not needed. -/
noncomputable def computeTMin (ll : ℝ) (M : ℤ) (maxiter : ℕ) (atol rtol : ℝ) : Py ℝ :=
  if ll = 1 then tofEquation 0 0 ll M
  else if M = 0 then .ok 0
  else do
    let Ti ← tofEquation 0.1 0 ll M
    let x ← halley Ti ll atol rtol maxiter 0.1
    tofEquation x 0 ll M

/-- The three cases of l.261-276. -/
noncomputable def initialGuess0 (T ll : ℝ) (M : ℤ) : Py ℝ := do
  let a ← pacos ll
  let q ← psqrt (1 - ll ^ 2)
  let T0 := a + ll * q + M * Real.pi
  let T1 := 2 * (1 - ll ^ 3) / 3
  if T ≥ T0 then do
    let r ← pdiv T0 T
    let w ← prpow r (2 / 3)
    .ok (w - 1)
  else if T < T1 then do
    let b ← pdiv (5 / 2 * T1) T
    let c ← pdiv (b * (T1 - T)) (1 - ll ^ 5)
    .ok (c + 1)
  else do
    let r ← pdiv T T0
    let l1 ← plog r
    let r' ← pdiv T1 T0
    let l2 ← plog r'
    let e ← pdiv (Real.log 2 * l1) l2
    .ok (Real.exp e - 1)

/-- `(w - 1)/(w + 1)` with `w = (a/b) ** (2/3)`, l.280-285. -/
noncomputable def guessRatio (a b : ℝ) : Py ℝ := do
  let r ← pdiv a b
  let w ← prpow r (2 / 3)
  pdiv (w - 1) (w + 1)

/-- `izzo.py` l.259-294, `_initial_guess`. -/
noncomputable def initialGuess (T ll : ℝ) (M : ℤ) (isLowPath : Bool) : Py ℝ :=
  if M = 0 then initialGuess0 T ll M
  else do
    let xl ← guessRatio (M * Real.pi + Real.pi) (8 * T)
    let xr ← guessRatio (8 * T) (M * Real.pi)
    .ok (if isLowPath = true then max xl xr else min xl xr)

/-- One pass of `_householder` (l.336-347): the new iterate. -/
noncomputable def householderStep (p0 T0 ll : ℝ) (M : ℤ) : Py ℝ := do
  let y ← computeY p0 ll
  let fval ← tofEquationY p0 y T0 ll M
  let T := fval + T0
  let fder ← tofP p0 y T ll
  let fder2 ← tofP2 p0 y T fder ll
  let fder3 ← tofP3 p0 y fder fder2 ll
  let q ← pdiv (fder ^ 2 - fval * fder2 / 2)
    (fder * (fder ^ 2 - fval * fder2) + fder3 * fval ^ 2 / 6)
  .ok (p0 - fval * q)

/-- `izzo.py` l.326-353, `_householder`. -/
noncomputable def householder (T0 ll : ℝ) (M : ℤ) (atol rtol : ℝ) : ℕ → ℝ → Py ℝ
  | 0, _ => .error (.runtimeError "Failed to converge")
  | remaining + 1, p0 => do
    let p ← householderStep p0 T0 ll M
    if |p - p0| < rtol * |p0| + atol then .ok p
    else householder T0 ll M atol rtol remaining p

/-- `M_max` after l.148-155. -/
noncomputable def refineMMax (ll T T00 : ℝ) (maxiter : ℕ) (atol rtol : ℝ) : Py ℤ :=
  if T < T00 + ⌊T / Real.pi⌋ * Real.pi ∧ ⌊T / Real.pi⌋ > 0 then do
    let Tmin ← computeTMin ll ⌊T / Real.pi⌋ maxiter atol rtol
    .ok (if T < Tmin then ⌊T / Real.pi⌋ - 1 else ⌊T / Real.pi⌋)
  else .ok ⌊T / Real.pi⌋

/-- `izzo.py` l.143-169, `_find_xy`. -/
noncomputable def findXY (ll T : ℝ) (M : ℤ) (maxiter : ℕ) (atol rtol : ℝ) (isLowPath : Bool) :
    Py (ℝ × ℝ) := do
  raiseIf (¬ |ll| < 1) .assertionError
  let a ← pacos ll
  let q ← psqrt (1 - ll ^ 2)
  let T00 := a + ll * q
  let mMax ← refineMMax ll T T00 maxiter atol rtol
  raiseIf (M > mMax) (.valueError "No feasible solution, try lower M!")
  let x0 ← initialGuess T ll M isLowPath
  let x ← householder T ll M atol rtol maxiter x0
  let y ← computeY x ll
  .ok (x, y)

/-- `izzo.py` l.133-139, `_reconstruct`. -/
noncomputable def reconstruct (x y r1 r2 ll gamma rho sigma : ℝ) : Py (ℝ × ℝ × ℝ × ℝ) := do
  let vr1 ← pdiv (gamma * ((ll * y - x) - rho * (ll * y + x))) r1
  let vr2 ← pdiv (-gamma * ((ll * y - x) + rho * (ll * y + x))) r2
  let vt1 ← pdiv (gamma * sigma * (y + ll * x)) r1
  let vt2 ← pdiv (gamma * sigma * (y + ll * x)) r2
  .ok (vr1, vr2, vt1, vt2)

/-- Geometry computed by l.86-109: `(s, ll, i_t1, i_t2)`. -/
noncomputable def geometry (r1 r2 : V3) (isPrograde : Bool) : Py (ℝ × ℝ × V3 × V3) := do
  let cNorm := V3.norm (r2 - r1)
  let s := (V3.norm r1 + V3.norm r2 + cNorm) * 0.5
  let ir1 ← vdiv r1 (V3.norm r1)
  let ir2 ← vdiv r2 (V3.norm r2)
  let ih0 := V3.cross ir1 ir2
  let ih ← vdiv ih0 (V3.norm ih0)
  let cs ← pdiv cNorm s
  let l0 ← psqrt (1 - min 1 cs)
  let ll := if ih.z < 0 then -l0 else l0
  let it1 := if ih.z < 0 then V3.cross ir1 ih else V3.cross ih ir1
  let it2 := if ih.z < 0 then V3.cross ir2 ih else V3.cross ih ir2
  .ok (s, (if isPrograde = false then -ll else ll),
    (if isPrograde = false then -it1 else it1), (if isPrograde = false then -it2 else it2))

end Izzo

open Izzo in
/-- `izzo.py` l.11-129, `izzo2015` (no argument is validated, l.83 is commented out, and
there is no `full_output`). -/
noncomputable def izzo2015 (mu : ℝ) (r1 r2 : V3) (tof : ℝ) (M : ℤ) (isPrograde : Bool)
    (isLowPath : Bool) (maxiter : ℕ) (atol rtol : ℝ) : Py (V3 × V3) := do
  let cNorm := V3.norm (r2 - r1)
  let r1Norm := V3.norm r1
  let r2Norm := V3.norm r2
  let (s, ll, it1, it2) ← geometry r1 r2 isPrograde
  let ts ← pdiv (2 * mu) (s ^ 3)
  let tq ← psqrt ts
  let T := tq * tof
  let (x, y) ← findXY ll T M maxiter atol rtol isLowPath
  let gamma ← psqrt (mu * s / 2)
  let rho ← pdiv (r1Norm - r2Norm) cNorm
  let sigma ← psqrt (1 - rho ^ 2)
  let (vr1, vr2, vt1, vt2) ← reconstruct x y r1Norm r2Norm ll gamma rho sigma
  let u1 ← vdiv r1 r1Norm
  let u2 ← vdiv r2 r2Norm
  .ok (vr1 • u1 + vt1 • it1, vr2 • u2 + vt2 • it2)

end Lamberthub
