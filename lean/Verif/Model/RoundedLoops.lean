import Verif.Model.Rounded
import Verif.Model.Py

/-!
# The loops that stop when rounding absorbs a term

`utils/stumpff.py`, `hyp2f1b` of `izzo.py` and the logarithm of `tlamb` of `gooding.py` add terms until the sum does not
change any more.  The rest of the model replaces these loops by their limits; here they are modelled as they are
written, with a rounding after every operation.

Simplified: no overflow and no underflow; the operations are not reordered or fused (`hyp2f1b` and `tlamb` are compiled with
`fastmath=True`, which allows it).
-/

set_option autoImplicit false

namespace Lamberthub

/-- Rounded arithmetic with the other library functions that the loops and their surroundings use. -/
structure LibArith extends Arith where
  /-- `x ** k` for an integer `k`. -/
  pow : ℝ → ℕ → ℝ
  /-- `math.gamma` of a positive integer. -/
  gamma : ℕ → ℝ
  /-- `np.cos`. -/
  cos : ℝ → ℝ
  /-- `np.sin`. -/
  sin : ℝ → ℝ
  /-- `np.cosh`. -/
  cosh : ℝ → ℝ
  /-- `np.sinh`. -/
  sinh : ℝ → ℝ

namespace Rounded

/-- The variables `res`, `delta` and `k` of the loops of `stumpff.py`. -/
structure AccState where
  res : ℝ
  delta : ℝ
  k : ℕ

/-- `stumpff.py` l.33-36 (`j = 2`) and l.63-66 (`j = 3`). -/
noncomputable def stumpffLoop (F : LibArith) (j : ℕ) (psi : ℝ) (s : AccState) : Py AccState :=
  whileLoop (fun s => F.rnd (s.res + s.delta) ≠ s.res)
    (fun s => do
      let res := F.rnd (s.res + s.delta)
      let k := s.k + 1
      let delta ← div F.toArith (F.pow (-psi) k) (F.gamma (2 * k + j + 1))
      .ok ⟨res, delta, k⟩) s

/-- `np.sqrt`. -/
noncomputable def sqrt (F : Arith) (x : ℝ) : Py ℝ := if 0 ≤ x then .ok (F.root x) else .error .undefined

/-- `stumpff.py` l.14-38, `c2`. -/
noncomputable def c2 (F : LibArith) (psi : ℝ) : Py ℝ :=
  if psi > 1 then do
    let s ← sqrt F.toArith psi
    div F.toArith (F.rnd (1 - F.cos s)) psi
  else if psi < -1 then do
    let s ← sqrt F.toArith (-psi)
    div F.toArith (F.rnd (F.cosh s - 1)) (-psi)
  else do
    let res ← div F.toArith 1 2
    let delta ← div F.toArith (-psi) (F.gamma (2 + 2 + 1))
    let s ← stumpffLoop F 2 psi ⟨res, delta, 1⟩
    .ok s.res

/-- `stumpff.py` l.42-68, `c3`. -/
noncomputable def c3 (F : LibArith) (psi : ℝ) : Py ℝ :=
  if psi > 1 then do
    let s ← sqrt F.toArith psi
    div F.toArith (F.rnd (s - F.sin s)) (F.rnd (psi * s))
  else if psi < -1 then do
    let s ← sqrt F.toArith (-psi)
    div F.toArith (F.rnd (F.sinh s - s)) (F.rnd (-psi * s))
  else do
    let res ← div F.toArith 1 6
    let delta ← div F.toArith (-psi) (F.gamma (2 + 3 + 1))
    let s ← stumpffLoop F 3 psi ⟨res, delta, 1⟩
    .ok s.res

/-- The variables `term`, `res`, `res_old` and `ii` of `hyp2f1b` at the test of l.376. -/
structure HypState where
  term : ℝ
  res : ℝ
  resOld : ℝ
  ii : ℕ

/-- `izzo.py` l.373-375: one pass of `hyp2f1b` up to its test.  The integers are converted to floating point. -/
noncomputable def hypPass (F : Arith) (x term res : ℝ) (ii : ℕ) : Py HypState := do
  let a := F.rnd (term * F.rnd (3 + ii))
  let b := F.rnd (a * F.rnd (1 + ii))
  let c ← div F b (F.rnd (5 / 2 + ii))
  let d := F.rnd (c * x)
  let term' ← div F d (F.rnd (ii + 1))
  .ok ⟨term', F.rnd (res + term'), res, ii⟩

/-- `izzo.py` l.357-378, `hyp2f1b`: `while True` with a return when `res_old == res`; `inf` (l.367) is outside the
reals. -/
noncomputable def hyp2f1b (F : Arith) (x : ℝ) : Py ℝ :=
  if x ≥ 1 then .error .undefined
  else do
    let s ← hypPass F x 1 1 0
    let s ← whileLoop (fun s => s.resOld ≠ s.res) (fun s => hypPass F x s.term s.res (s.ii + 1)) s
    .ok s.res

/-- The variables of the loop of `gooding.py` l.236-247. -/
structure LogState where
  twoi1 : ℝ
  term : ℝ
  told : ℝ
  t : ℝ

/-- `gooding.py` l.238-241 and l.244-247: one pass. -/
noncomputable def logPass (F : Arith) (fg1sq twoi1 term t : ℝ) : Py LogState := do
  let twoi1' := F.rnd (twoi1 + 2)
  let term' := F.rnd (term * fg1sq)
  let q ← div F term' twoi1'
  .ok ⟨twoi1', term', t, F.rnd (t + q)⟩

/-- `gooding.py` l.230-247: `log(f + g)` by its series. -/
noncomputable def logSeries (F : Arith) (f g : ℝ) : Py ℝ := do
  let fg1 ← div F f (F.rnd (g + 1))
  let term := F.rnd (2 * fg1)
  let fg1sq := F.rnd (fg1 * fg1)
  let s ← logPass F fg1sq 1 term term
  let s ← whileLoop (fun s => s.t ≠ s.told) (fun s => logPass F fg1sq s.twoi1 s.term s.t) s
  .ok s.t

/-- binary64 arithmetic with correctly rounded library functions. -/
noncomputable def lib64 : LibArith where
  toArith := binary64
  pow x k := rnd64 (x ^ k)
  gamma n := rnd64 ((n - 1).factorial)
  cos x := rnd64 (Real.cos x)
  sin x := rnd64 (Real.sin x)
  cosh x := rnd64 (Real.cosh x)
  sinh x := rnd64 (Real.sinh x)

end Rounded
end Lamberthub
