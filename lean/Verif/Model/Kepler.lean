import Verif.Model.Angles

/-! # Model of `/repo/src/lamberthub/utils/kepler.py` -/

set_option autoImplicit false

namespace Lamberthub

/-- `kepler.py` l.22-39, `kepler_elliptic`. -/
noncomputable def keplerElliptic (E ecc : ℝ) : ℝ := E - ecc * Real.sin E

/-- `kepler.py` l.43-58, `kepler_parabolic`. -/
noncomputable def keplerParabolic (B : ℝ) : ℝ := B + (1 / 3) * B ^ 3

/-- `kepler.py` l.62-79, `kepler_hyperbolic`. -/
noncomputable def keplerHyperbolic (H ecc : ℝ) : ℝ := ecc * Real.sinh H - H

/-- `kepler.py` l.83-111, `kepler_from_nu`. -/
noncomputable def keplerFromNu (nu ecc : ℝ) : Py ℝ :=
  if ecc < 0 then .error (.valueError "Eccentricity cannot be negative!")
  else if 0 ≤ ecc ∧ ecc < 1 then do
    let E ← nuToE nu ecc
    .ok (keplerElliptic E ecc)
  else if ecc = 1 then do
    let B ← nuToB nu
    .ok (keplerParabolic B)
  else do
    let H ← nuToH nu ecc
    .ok (keplerHyperbolic H ecc)

end Lamberthub
