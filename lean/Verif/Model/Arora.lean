import Verif.Model.Brent
import Verif.Model.Output
import Verif.Model.Assertions
import Verif.Model.Angles

/-! # Model of `/repo/src/lamberthub/universal_solvers/arora.py` -/

set_option autoImplicit false

namespace Lamberthub

/-- `scipy.optimize.minimize_scalar(f, bounds=(lo, hi), method="bounded", options={"xatol": ..})`,
external code and a parameter of the model: the fields `x`, `fun` and `success` of the
result. -/
abbrev Minimizer := (ℝ → Py ℝ) → ℝ → ℝ → ℝ → Py (ℝ × ℝ × Bool)

/-- The part of the documented contract of the bounded method that is used: the returned
point respects the bounds. -/
def MinimizerSpec (m : Minimizer) : Prop :=
  ∀ {f : ℝ → Py ℝ} {lo hi xatol x fx : ℝ} {ok : Bool}, lo ≤ hi → m f lo hi xatol = .ok (x, fx, ok) →
    x ∈ Set.Icc lo hi

namespace Arora

/-- The default `epsilon=2e-2` of l.474, l.632, l.682. -/
noncomputable def epsilon : ℝ := 2e-2

/-- `np.sign`. -/
noncomputable def sign (k : ℝ) : ℝ := if 0 < k then 1 else if k < 0 then -1 else 0

/-- The series of l.517-538 (`v = k - sqrt(2)`). -/
noncomputable def seriesW (k : ℝ) : ℝ :=
  let sq2 := Real.sqrt 2
  let v := k - sq2
  Real.sqrt 2 / 3 - 1 / 5 * v + 2 / 35 * sq2 * v ^ 2 - 2 / 63 * v ^ 3 + 2 / 231 * sq2 * v ^ 4 - 2 / 429 * v ^ 5 +
    8 / 6435 * sq2 * v ^ 6 - 8 / 12155 * v ^ 7 + 8 / 46189 * sq2 * v ^ 8

/-- `arora.py` l.474-542, `_get_W`. -/
noncomputable def getW (k : ℝ) (M : ℤ) : Py ℝ :=
  let m := 2 - k ^ 2
  let sgnK := sign k
  let sq2 := Real.sqrt 2
  if (-sq2 ≤ k ∧ k < sq2 - epsilon) ∨ (M > 0 ∧ -sq2 ≤ k ∧ k < sq2) then do
    let a ← pacos (1 - m)
    let r ← psqrt (m ^ 3)
    let q ← pdiv ((1 - sgnK) * Real.pi + sgnK * a + 2 * Real.pi * M) r
    let p ← pdiv k m
    .ok (q - p)
  else if k > sq2 + epsilon then do
    let a ← pacosh (1 - m)
    let r ← psqrt (-(m ^ 3))
    let q ← pdiv (-a) r
    let p ← pdiv k m
    .ok (q - p)
  else if M = 0 ∧ sq2 - epsilon ≤ k ∧ k ≤ sq2 + epsilon then .ok (seriesW k)
  else .error (.valueError "Did not found a suitable equaiton to find W!")

/-- `arora.py` l.545-586, `_get_Wsprime`. -/
noncomputable def getWsprime (k : ℝ) : ℝ :=
  let sq2 := Real.sqrt 2
  let v := k - sq2
  (-1 / 5) + sq2 * v * (4 / 35) - v ^ 2 * (6 / 63) + sq2 * v ^ 3 * (8 / 231) - v ^ 4 * (10 / 429) +
    sq2 * v ^ 5 * (48 / 6435) - v ^ 6 * (56 / 12155) + sq2 * v ^ 7 * (64 / 46189)

/-- `arora.py` l.589-628, `_get_Ws2prime`. -/
noncomputable def getWs2prime (k : ℝ) : ℝ :=
  let sq2 := Real.sqrt 2
  let v := k - sq2
  sq2 * (4 / 35) - v * (12 / 63) + sq2 * v ^ 2 * (24 / 231) - v ^ 3 * (40 / 429) + sq2 * v ^ 4 * (240 / 6435) -
    v ^ 5 * (336 / 12155) + sq2 * v ^ 6 * (448 / 46189)

/-- `arora.py` l.631-678, `_get_Wprime`. -/
noncomputable def getWprime (k W : ℝ) (M : ℤ) : Py ℝ :=
  let m := 2 - k ^ 2
  let sq2 := Real.sqrt 2
  if k < sq2 - epsilon ∨ (M > 0 ∧ k < sq2) then pdiv (-2 + 3 * W * k) m
  else if M = 0 ∧ sq2 - epsilon < k ∧ k < sq2 + epsilon then .ok (getWsprime k)
  else pdiv (-2 + 3 * W * k) m

/-- `arora.py` l.681-730, `_get_W2prime`. -/
noncomputable def getW2prime (k W Wp : ℝ) (M : ℤ) : Py ℝ :=
  let m := 2 - k ^ 2
  let sq2 := Real.sqrt 2
  if k < sq2 - epsilon ∨ (M > 0 ∧ k < sq2) then pdiv (5 * Wp * k + 3 * W) m
  else if M = 0 ∧ sq2 - epsilon < k ∧ k < sq2 + epsilon then .ok (getWs2prime k)
  else pdiv (5 * Wp * k + 3 * W) m

/-- `arora.py` l.733-759, `_get_TOF`. -/
noncomputable def getTOF (k tau S W : ℝ) : Py ℝ := do
  let q ← psqrt (1 - k * tau)
  .ok (S * q * (tau + (1 - k * tau) * W))

/-- `arora.py` l.437-470, `_get_x`; the exponent `1 / alpha` is `n` (`alpha` is `1/2` or `1`
at all call sites). -/
noncomputable def getX (F0 F1 Fi Fstar Z : ℝ) (n : ℕ) : Py ℝ := do
  let q ← pdiv (Z * (F0 - Fstar) * (F1 - Fi)) ((Fi - Fstar) * (F1 - F0) * Z + (F0 - Fi) * (F1 - Fstar))
  .ok (q ^ n)

/-- `arora.py` l.406-434, `_get_gammas`. -/
def getGammas (Fi Fn Fstar : ℝ) : ℝ × ℝ × ℝ :=
  (Fi * (Fstar - Fn), Fstar * (Fn - Fi), Fn * (Fstar - Fi))

/-- `tof_at`, l.374-376. -/
noncomputable def tofAt (tau S : ℝ) (M : ℤ) (k : ℝ) : Py ℝ := do
  let W ← getW k M
  getTOF k tau S W

/-- `arora.py` l.329-403, `_get_multirev_k_guess`. -/
noncomputable def getMultirevKGuess (minimize : Minimizer) (brentq : Brent) (tof tau S : ℝ) (M : ℤ)
    (isLowPath : Bool) (atol rtol : ℝ) : Py ℝ := do
  let sq2 := Real.sqrt 2
  let eps : ℝ := 1e-8
  let kLeft := -sq2 + eps
  let kRight := sq2 - eps
  let (kMin, tofMin, success) ← minimize (tofAt tau S M) kLeft kRight (max atol 1e-13)
  raiseIf (success = false) (.runtimeError "Failed to find multi-revolution minimum")
  raiseIf (tof < tofMin - atol) (.valueError "No feasible solution, try lower M!")
  if |tof - tofMin| ≤ atol then .ok kMin
  else do
    let lower := if isLowPath = true then kMin else kLeft
    let upper := if isLowPath = true then kRight else kMin
    let (k, _) ← brentq (fun k => do
      let t ← tofAt tau S M k
      .ok (t - tof)) lower upper atol rtol 100
    .ok k

/-- Hyperbolic guess for `d == 1`, l.140-154. -/
noncomputable def guessH (tof tofP tau S : ℝ) (M : ℤ) : Py ℝ := do
  let kn := Real.sqrt 2
  let km ← pdiv 1 tau
  let ki := (kn + km) / 2
  let Z ← pdiv 1.0 (Real.sqrt 2)
  let W ← getW ki M
  let Fi ← getTOF ki tau S W
  let xstar ← getX tofP 0.0 Fi tof Z 2
  .ok (kn + (km - kn) * xstar)

/-- Region H1, l.156-170. -/
noncomputable def guessH1 (tof tofP tof20 tau S : ℝ) (M : ℤ) : Py ℝ := do
  let kn := Real.sqrt 2
  let km : ℝ := 20
  let ki := (2 * kn + km) / 3
  let W ← getW ki M
  let Fi ← getTOF ki tau S W
  let xstar ← getX tofP tof20 Fi tof (1 / 3) 1
  .ok (kn + (km - kn) * xstar)

/-- Region H2, l.172-179. -/
noncomputable def guessH2 (tof tof20 tof100 : ℝ) : Py ℝ := do
  let q ← pdiv (tof100 * (tof20 - tof) * 10 - tof20 * Real.sqrt 20 * (tof100 - tof)) (tof * (tof20 - tof100))
  .ok (q ^ 2)

/-- l.133-136: `tof20` or `tof100`. -/
noncomputable def tofLimit (S tau n a : ℝ) : Py ℝ := do
  let q ← psqrt (1 - n * tau)
  .ok (S * q * (tau + a * (1 - n * tau)))

/-- The hyperbolic initial guess, l.123-179. -/
noncomputable def guessHyperbolic (tof tofP tau S d : ℝ) (M : ℤ) : Py ℝ :=
  if d = -1 then do
    let tof20 ← tofLimit S tau 20 0.04940968903
    let tof100 ← tofLimit S tau 100 0.00999209404
    if tof > tof20 then guessH1 tof tofP tof20 tau S M
    else guessH2 tof tof20 tof100
  else guessH tof tofP tau S M

/-- The rational guess of regions E3 and E4, l.229-238 and l.240-255. -/
noncomputable def guessRational (c1 c2 c3 c4 alpha tofN tofI tof : ℝ) : Py ℝ := do
  let Fn ← pdiv 1 tofN
  let Fi ← pdiv 1 tofI
  let Fstar ← pdiv 1 tof
  let (g1, g2, g3) := getGammas Fi Fn Fstar
  let q ← pdiv ((g1 * c1 - c3 * g3) * c2 + c3 * c1 * g2) (g3 * c1 - c3 * g1 - g2 * c2)
  let p ← prpow q (1 / alpha)
  .ok (-c4 * p)

/-- The zero-revolution elliptic guess, l.186-255. -/
noncomputable def guessElliptic (tof tofP tau S : ℝ) : Py ℝ := do
  let kSq ← pdiv 1 (Real.sqrt 2)
  let tofm141 ← getTOF (-1.41) tau S 4839.684497246
  let tofm138 ← getTOF (-1.38) tau S 212.087279879
  let tofm1 ← getTOF (-1.00) tau S 5.712388981
  let tofm1half ← getTOF (-1 / 2) tau S 1.954946607
  let tof0 ← getTOF 0 tau S 1.110720735
  let tof1oversq2 ← getTOF kSq tau S 0.6686397730
  if tof ≤ tof0 then do
    let x ← getX tof0 tofP tof1oversq2 tof (1 / 2) 1
    .ok (0 + (Real.sqrt 2 - 0) * x)
  else if tof0 ≤ tof ∧ tof ≤ tofm1 then do
    let x ← getX tof0 tofm1 tofm1half tof (1 / 2) 1
    .ok (0 + (-1 - 0) * x)
  else if tofm1 ≤ tof ∧ tof ≤ tofm138 then
    guessRational (540649 / 3125) 256 1 1 16 tofm1 tofm138 tof
  else guessRational (49267 / 27059) (67286 / 17897) (2813 / 287443) (4439 / 3156) 243 tofm138 tofm141 tof

/-- The initial guess, l.123-263. -/
noncomputable def initialGuess (minimize : Minimizer) (brentq : Brent) (tof tofP tau S d : ℝ) (M : ℤ)
    (isLowPath : Bool) (atol rtol : ℝ) : Py ℝ :=
  if tof ≤ tofP then guessHyperbolic tof tofP tau S d M
  else if M = 0 then guessElliptic tof tofP tau S
  else getMultirevKGuess minimize brentq tof tau S M isLowPath atol rtol

/-- First derivative of the time of flight, l.286. -/
noncomputable def tofPrime (tofc c S tau W Wp : ℝ) : Py ℝ := do
  let a ← pdiv (-tofc) (2 * c)
  let q ← psqrt (c * tau)
  .ok (a + S * tau * q * (Wp * c - W))

/-- Second derivative of the time of flight, l.287-289. -/
noncomputable def tofSecond (tofc c S tau W Wp Wpp : ℝ) : Py ℝ := do
  let a ← pdiv (-tofc) (4 * c ^ 2)
  let q ← psqrt (c * tau)
  let w ← pdiv W c
  .ok (a + S * tau * q * (w + c * Wpp - 3 * Wp))

/-- The bounds of l.298-308, applied one after the other. -/
noncomputable def boundK (k tof tofP tau d : ℝ) : Py ℝ := do
  let sq2 := Real.sqrt 2
  let k1 := if k < -sq2 then -sq2 + 1e-12 else k
  let k2 := if k1 < sq2 ∧ tof < tofP then sq2 + 1e-12 else k1
  let k3 := if k2 > sq2 ∧ tof > tofP then sq2 - 1e-12 else k2
  if tof < tofP ∧ d > 0 ∧ 1 - tau * k3 < 0 then do
    let q ← pdiv 1 tau
    .ok (q - 1e-12)
  else .ok k3

/-- The iteration of l.268-311; `n` passes have been made. -/
noncomputable def iterate (tof tofP tau S d : ℝ) (M : ℤ) (atol : ℝ) : ℕ → ℕ → ℝ → Py (ℝ × ℕ)
  | 0, _, _ => .error (.runtimeError "Failed to converge")
  | remaining + 1, n, k => do
    let W ← getW k M
    let Wp ← getWprime k W M
    let Wpp ← getW2prime k W Wp M
    let c ← pdiv (1 - k * tau) tau
    let tofc ← getTOF k tau S W
    if |tof - tofc| ≤ atol then .ok (k, n + 1)
    else do
      let tp ← tofPrime tofc c S tau W Wp
      let tpp ← tofSecond tofc c S tau W Wp Wpp
      let e ← pdiv ((tofc - tof) * tpp) (2.0 * tp)
      let deltak ← pdiv (-(tofc - tof)) (tp - e)
      let k' ← boundK (k + deltak) tof tofP tau d
      iterate tof tofP tau S d M atol remaining (n + 1) k'

/-- l.316-324: the `f`, `g` functions and the velocities. -/
noncomputable def reconstruct (k tau S muHat Lref Tref : ℝ) (r1Hat r2Hat : V3) (r1n r2n : ℝ) : Py (V3 × V3) := do
  let a ← pdiv ((1 - k * tau) * (r1n + r2n)) r1n
  let f := 1 - a
  let q ← psqrt ((1 - k * tau) * muHat)
  let g := S * tau * q
  let b ← pdiv ((1 - k * tau) * (r1n + r2n)) r2n
  let gDot := 1 - b
  let w1 ← vdiv (r2Hat - f • r1Hat) g
  let u ← pdiv Lref Tref
  let w2 ← vdiv (gDot • r2Hat - r1Hat) g
  .ok (u • w1, u • w2)

end Arora

open Arora in
/-- `arora.py` l.17-326, `arora2013`; `minimize` and `brentq` are scipy's routines, `clock`
the measured time. -/
noncomputable def arora2013 (minimize : Minimizer) (brentq : Brent) (mu : ℝ) (r1 r2 : V3) (tof : ℝ) (M : ℤ)
    (isPrograde isLowPath : Bool) (maxiter : ℕ) (atol rtol : ℝ) (fullOutput : Bool) (clock : ℝ) : Py Output := do
  assertParametersAreValid mu r1 r2 tof M
  let r1Norm := V3.norm r1
  let r2Norm := V3.norm r2
  let _ ← vdiv r1 r1Norm
  let _ ← vdiv r2 r2Norm
  let dtheta ← getTransferAngle r1 r2 isPrograde
  assertTransferAngleNotZero dtheta
  let d : ℝ := if dtheta ≤ Real.pi then 1 else -1
  let Lref := r1Norm
  let q ← pdiv (Lref ^ 3) mu
  let Tref ← psqrt q
  let r1Hat ← vdiv r1 Lref
  let r2Hat ← vdiv r2 Lref
  let r1n := V3.norm r1Hat
  let r2n := V3.norm r2Hat
  let tofHat ← pdiv tof Tref
  let ratio ← pdiv (Tref ^ 2) (Lref ^ 3)
  let muHat := mu * ratio
  let s3 ← pdiv ((r1n + r2n) ^ 3) muHat
  let S ← psqrt s3
  let root ← psqrt (r1n * r2n * (1 + Real.cos dtheta))
  let tau ← pdiv (d * root) (r1n + r2n)
  let rp ← psqrt (1 - Real.sqrt 2 * tau)
  let tofP := S * rp * (tau + Real.sqrt 2) / 3
  let k0 ← initialGuess minimize brentq tofHat tofP tau S d M isLowPath atol rtol
  let (k, numiter) ← iterate tofHat tofP tau S d M atol maxiter 0 k0
  let tpi ← timePerIter fullOutput clock numiter
  let (v1, v2) ← reconstruct k tau S muHat Lref Tref r1Hat r2Hat r1n r2n
  .ok (mkOutput fullOutput v1 v2 numiter tpi)

end Lamberthub
