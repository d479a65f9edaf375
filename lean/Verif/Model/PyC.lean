import Verif.Model.Py
import Mathlib.Analysis.SpecialFunctions.Trigonometric.Complex
import Mathlib.Analysis.SpecialFunctions.Pow.Complex

/-!
# Complex floating point operations

`np.complex128` is modelled by `ℂ`, with the principal branches.  On the branch cut the
model takes the value for a positive zero imaginary part (numpy distinguishes the sign of a
zero).
-/

set_option autoImplicit false

namespace Lamberthub

/-- `a / b` on complex numbers. -/
noncomputable def cdiv (a b : ℂ) : Py ℂ := if b = 0 then .error .undefined else .ok (a / b)

/-- `np.sqrt` of a complex number: principal branch. -/
noncomputable def csqrt (z : ℂ) : ℂ := z ^ (1 / 2 : ℂ)

/-- `np.log` of a complex number: principal branch, undefined at zero. -/
noncomputable def clog (z : ℂ) : Py ℂ := if z = 0 then .error .undefined else .ok (Complex.log z)

/-- `a ** b` on complex numbers, non-zero base. -/
noncomputable def cpow (a b : ℂ) : Py ℂ := if a = 0 then .error .undefined else .ok (a ^ b)

end Lamberthub
