import Verif.Model.Assertions
import Verif.Model.Angles
import Verif.Model.Output

/-! # Model of `/repo/src/lamberthub/p_solvers/battin.py` -/

set_option autoImplicit false

namespace Lamberthub
namespace Battin

/-- `battin.py` l.163-188, `_battin_first_equation`. -/
noncomputable def firstEquation (y ll m : ℝ) : Py ℝ := do
  let q ← pdiv m (y ^ 2)
  let r ← psqrt (((1 - ll) / 2) ^ 2 + q)
  .ok (r - (1 + ll) / 2)

/-- `battin.py` l.220-245, `_get_lambda`. -/
noncomputable def getLambda (c s dtheta : ℝ) : Py ℝ := do
  let r ← psqrt (s * (s - c))
  let l ← pdiv r s
  .ok (if dtheta < Real.pi then |l| else -|l|)

/-- `battin.py` l.248-268, `_get_ll`. -/
noncomputable def getLl (lam : ℝ) : Py ℝ := do
  let q ← pdiv (1 - lam) (1 + lam)
  .ok (q ^ 2)

/-- `battin.py` l.271-297, `_get_m`. -/
noncomputable def getM (mu tof s lam : ℝ) : Py ℝ :=
  pdiv (8 * mu * tof ^ 2) (s ^ 3 * (1 + lam) ^ 6)

/-- `battin.py` l.382-404, `_B_at_h`. -/
noncomputable def BAt (h1 h2 : ℝ) : Py ℝ := pdiv (27 * h2) (4 * (1 + h1) ^ 3)

/-- `battin.py` l.359-379, `_u_at_B`. -/
noncomputable def uAtB (B : ℝ) : Py ℝ := do
  let r ← psqrt (1 + B)
  pdiv (-B) (2 * r + 1)

/-- `battin.py` l.338-356, `_u_at_h`. -/
noncomputable def uAtH (h1 h2 : ℝ) : Py ℝ := do
  let B ← BAt h1 h2
  uAtB B

/-- The loop of `_xi_at_x`, l.444-449, with the state `(delta, u, sigma, m1)`.  The guard
`m1 <= levels` is modelled by the number of passes `levels + 1 - m1` that remain. -/
noncomputable def xiLoop (eta : ℝ) : ℕ → ℝ → ℝ → ℝ → ℕ → Py ℝ
  | 0, _, _, sigma, _ => .ok sigma
  | remaining + 1, delta, u, sigma, m1 =>
    if |u| > 1e-18 then do
      let m1 := m1 + 1
      let gamma ← pdiv (((m1 : ℝ) + 3) ^ 2) (4 * ((m1 : ℝ) + 3) ^ 2 - 1)
      let delta ← pdiv 1 (1 + gamma * eta * delta)
      let u := u * (delta - 1)
      xiLoop eta remaining delta u (sigma + u) m1
    else .ok sigma

/-- `battin.py` l.407-452, `_xi_at_x`. -/
noncomputable def xiAt (x : ℝ) (levels : ℕ) : Py ℝ := do
  let r ← psqrt (1 + x)
  let eta ← pdiv x ((r + 1) ^ 2)
  let sigma ← xiLoop eta levels 0 1 1 1
  let q ← pdiv 1 (5 + eta + 9 * eta / 7 * sigma)
  pdiv (8 * (r + 1)) (3 + q)

/-- One execution of l.492-494 (and l.511-513): the new `(delta, u0, sigma)`. -/
noncomputable def kStep (u gamma : ℝ) (st : ℝ × ℝ × ℝ) : Py (ℝ × ℝ × ℝ) := do
  let delta ← pdiv 1 (1 - gamma * u * st.1)
  let u0 := st.2.1 * (delta - 1)
  .ok (delta, u0, st.2.2 + u0)

/-- `gamma` of l.498-503. -/
noncomputable def gamma1 (n : ℕ) : ℝ := 2 * (3 * n + 1) * (6 * n - 1) / (9 * (4 * n - 1) * (4 * n + 1))

/-- `gamma` of l.505-510. -/
noncomputable def gamma2 (n : ℕ) : ℝ := 2 * (3 * n + 2) * (6 * n + 1) / (9 * (4 * n + 1) * (4 * n + 3))

/-- The loop of `_K_at_u`, l.489-515, with the state `(delta, u0, sigma)` and `n1`.  The guard
`n1 <= levels` is modelled by the number of passes `levels + 1 - n1` that remain.  The divisors
inside `gamma1` and `gamma2` are not zero for a natural `n1`. -/
noncomputable def kLoop (u : ℝ) : ℕ → ℝ × ℝ × ℝ → ℕ → Py ℝ
  | 0, st, _ => .ok st.2.2
  | remaining + 1, st, n1 =>
    if |st.2.1| > 1e-18 then
      if n1 = 0 then do
        let st ← kStep u (4 / 27) st
        kLoop u remaining st (n1 + 1)
      else do
        let st ← kStep u (gamma1 n1) st
        let st ← kStep u (gamma2 n1) st
        kLoop u remaining st (n1 + 1)
    else .ok st.2.2

/-- `battin.py` l.455-518, `_K_at_u`. -/
noncomputable def KAt (u : ℝ) (levels : ℕ) : Py ℝ := do
  let sigma ← kLoop u (levels + 1) (1, 1, 1) 0
  .ok ((sigma / 3) ^ 2)

/-- `battin.py` l.300-335, `_get_h_coefficients`; `levels=125` is the default of `_xi_at_x`. -/
noncomputable def hCoefficients (x ll m : ℝ) : Py (ℝ × ℝ) := do
  let xi ← xiAt x 125
  let d := (1 + 2 * x + ll) * (4 * x + xi * (3 + x))
  let h1 ← pdiv ((ll + x) ^ 2 * (1 + 3 * x + xi)) d
  let h2 ← pdiv (m * (x - ll + xi)) d
  .ok (h1, h2)

/-- `battin.py` l.191-217, `_battin_second_equation`; `levels=1000` is the default of `_K_at_u`. -/
noncomputable def secondEquation (u h1 h2 : ℝ) : Py ℝ := do
  let B ← BAt h1 h2
  let K ← KAt u 1000
  let r ← psqrt (B + 1)
  let q ← pdiv r (1 - 2 * u * K)
  .ok ((1 + h1) / 3 * (2 + q))

/-- The `for` loop of `battin1984`, l.123-150: `remaining` passes are left and the next one is
number `numiter`.  Returns `x`, `y` and `numiter`. -/
noncomputable def loop (ll m atol : ℝ) : ℕ → ℕ → ℝ → Py (ℝ × ℝ × ℕ)
  | 0, _, _ => .error (.valueError "Exceeded maximum number of iterations!")
  | remaining + 1, numiter, x0 => do
    let (h1, h2) ← hCoefficients x0 ll m
    let u ← uAtH h1 h2
    let y ← secondEquation u h1 h2
    let x ← firstEquation y ll m
    if |x - x0| ≤ atol then .ok (x, y, numiter) else loop ll m atol remaining (numiter + 1) x

/-- `battin.py` l.152-158: the velocities. -/
noncomputable def velocities (r1 r2 : V3) (tof s lam m x y : ℝ) : Py (V3 × V3) := do
  let r11 ← pdiv ((1 + lam) ^ 2) (4 * tof * lam)
  let s11 := y * (1 + x)
  let t11 ← pdiv (m * s * (1 + lam) ^ 2) s11
  let w1 ← vdiv (t11 • r1) (V3.norm r1)
  let w2 ← vdiv (t11 • r2) (V3.norm r2)
  .ok ((-r11) • (s11 • (r1 - r2) - w1), (-r11) • (s11 • (r1 - r2) + w2))

end Battin

open Battin in
/-- `battin.py` l.12-160, `battin1984`; `clock` is the measured time. -/
noncomputable def battin1984 (mu : ℝ) (r1 r2 : V3) (tof : ℝ) (M : ℤ) (isPrograde : Bool)
    (_isLowPath : Bool) (maxiter : ℕ) (atol _rtol : ℝ) (fullOutput : Bool) (clock : ℝ) : Py Output := do
  assertParametersAreValid mu r1 r2 tof M
  let s := (V3.norm r1 + V3.norm r2 + V3.norm (r2 - r1)) / 2
  let dtheta ← getTransferAngle r1 r2 isPrograde
  let lam ← getLambda (V3.norm (r2 - r1)) s dtheta
  let ll ← getLl lam
  let m ← getM mu tof s lam
  let q ← pdiv (8 * mu) (s ^ 3)
  let r ← psqrt q
  let x0 := if r * tof > 4 / 3 * (1 - lam ^ 3) then ll else 0
  let (x, y, numiter) ← loop ll m atol maxiter 1 x0
  let tpi ← timePerIter fullOutput clock numiter
  let (v1, v2) ← velocities r1 r2 tof s lam m x y
  .ok (mkOutput fullOutput v1 v2 numiter tpi)

end Lamberthub
