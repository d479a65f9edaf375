import Verif.Model.Py
import Mathlib.Analysis.SpecialFunctions.Trigonometric.Arctan
import Mathlib.Analysis.SpecialFunctions.Complex.Arg
import Mathlib.Analysis.SpecialFunctions.Artanh
import Mathlib.Data.Sign.Basic

/-! # Model of `/repo/src/lamberthub/utils/angles.py` -/

set_option autoImplicit false

namespace Lamberthub

/-- `angles.py` l.8. -/
def kAxis : V3 := ⟨0, 0, 1⟩

/-- `np.all(np.sign(r1) == np.sign(r2))`, `angles.py` l.38. -/
def sameSigns (r1 r2 : V3) : Prop :=
  SignType.sign r1.x = SignType.sign r2.x ∧ SignType.sign r1.y = SignType.sign r2.y ∧
    SignType.sign r1.z = SignType.sign r2.z

open Classical in
/-- `angles.py` l.13-58, `get_transfer_angle`. -/
noncomputable def getTransferAngle (r1 r2 : V3) (isPrograde : Bool) : Py ℝ :=
  let crossR1R2 := V3.cross r1 r2
  if crossR1R2 = 0 then
    if sameSigns r1 r2 then .ok 0 else .ok Real.pi
  else do
    let h ← vdiv crossR1R2 (V3.norm crossR1R2)
    let alpha := V3.dot kAxis h
    let r1Norm := V3.norm r1
    let r2Norm := V3.norm r2
    let q ← pdiv (V3.dot r1 r2) (r1Norm * r2Norm)
    let theta0 ← pacos q
    if isPrograde = true then
      if alpha > 0 then .ok theta0 else .ok (2 * Real.pi - theta0)
    else
      if alpha < 0 then .ok theta0 else .ok (2 * Real.pi - theta0)

/-- `angles.py` l.62-97, `get_orbit_normal_vector`. -/
noncomputable def getOrbitNormalVector (r1 r2 : V3) (isPrograde : Bool) : Py V3 := do
  let crossR1R2 := V3.cross r1 r2
  let ih ← vdiv crossR1R2 (V3.norm crossR1R2)
  let alpha := V3.dot kAxis ih
  if isPrograde = true then
    if alpha > 0 then .ok ih else .ok (-ih)
  else
    if alpha < 0 then .ok ih else .ok (-ih)

/-- `np.arctan2(y, x)`: the argument of `x + i y`, in `(-π, π]` (`0` at the origin). -/
noncomputable def arctan2 (y x : ℝ) : ℝ := Complex.arg ⟨x, y⟩

/-- `a % b` for `b > 0` (python/numpy floored remainder). -/
noncomputable def pmod (a b : ℝ) : ℝ := a - b * ⌊a / b⌋

/-- `angles.py` l.101-142, `get_orbit_inc_and_raan_from_position_vectors`. -/
noncomputable def getOrbitIncAndRaan (r1 r2 : V3) (isPrograde : Bool) : Py (ℝ × ℝ) := do
  let ih ← getOrbitNormalVector r1 r2 isPrograde
  if ih.x = 0 ∧ ih.y = 0 then
    .ok (0, 0)
  else do
    let q ← pdiv ih.z (V3.norm ih)
    let inc ← pacos q
    let n := V3.cross kAxis ih
    let raan := pmod (arctan2 n.y n.x) (2 * Real.pi)
    .ok (inc, raan)

/-- `angles.py` l.146-164, `nu_to_E`. -/
noncomputable def nuToE (nu ecc : ℝ) : Py ℝ := do
  let q ← pdiv (1 - ecc) (1 + ecc)
  let s ← psqrt q
  let t ← ptan (nu / 2)
  .ok (2 * Real.arctan (s * t))

/-- `angles.py` l.168-186, `E_to_nu`. -/
noncomputable def eToNu (E ecc : ℝ) : Py ℝ := do
  let q ← pdiv (1 + ecc) (1 - ecc)
  let s ← psqrt q
  let t ← ptan (E / 2)
  .ok (2 * Real.arctan (s * t))

/-- `angles.py` l.190-211, `nu_to_B`. -/
noncomputable def nuToB (nu : ℝ) : Py ℝ := ptan (nu / 2)

/-- `angles.py` l.215-236, `B_to_nu`. -/
noncomputable def bToNu (B : ℝ) : Py ℝ := .ok (2 * Real.arctan B)

/-- `angles.py` l.240-258, `nu_to_H`. -/
noncomputable def nuToH (nu ecc : ℝ) : Py ℝ := do
  let q ← pdiv (ecc - 1) (ecc + 1)
  let s ← psqrt q
  let t ← ptan (nu / 2)
  let a ← partanh (s * t)
  .ok (2 * a)

/-- `angles.py` l.262-280, `H_to_nu`. -/
noncomputable def hToNu (H ecc : ℝ) : Py ℝ := do
  let q ← pdiv (ecc + 1) (ecc - 1)
  let s ← psqrt q
  .ok (2 * Real.arctan (s * Real.tanh (H / 2)))

end Lamberthub
