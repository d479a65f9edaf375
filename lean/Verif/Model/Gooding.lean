import Verif.Model.Output
import Verif.Model.Assertions
import Verif.Model.Angles
import Mathlib.Topology.Instances.Real.Lemmas

/-! # Model of `/repo/src/lamberthub/universal_solvers/gooding.py` -/

set_option autoImplicit false

namespace Lamberthub

open Classical in
/-- Result of an absorption loop (`while new != old`): over the reals the loop is modelled
by the limit of its successive values, `diverges` when there is none. -/
noncomputable def plim (f : ℕ → ℝ) : Py ℝ :=
  if h : ∃ l, Filter.Tendsto f Filter.atTop (nhds l) then .ok (Classical.choose h)
  else .error .diverges

namespace Gooding

/-- `gooding.py` l.141-143, `_d8rt`. -/
noncomputable def d8rt (x : ℝ) : Py ℝ := do
  let a ← psqrt x
  let b ← psqrt a
  psqrt b

/-- `gooding.py` l.230-247: state `(twoi1, term, t)` of the loop after `k` passes. -/
noncomputable def logState (fg1 : ℝ) : ℕ → ℝ × ℝ × ℝ
  | 0 => (1.0, 2.0 * fg1, 2.0 * fg1)
  | k + 1 =>
    let (twoi1, term, t) := logState fg1 k
    let twoi1' := twoi1 + 2.0
    let term' := term * (fg1 * fg1)
    (twoi1', term', t + term' / twoi1')

/-- `gooding.py` l.198-212 for `n ≠ -1`: the values `(a, b)`. -/
noncomputable def directCoeffs (q qsqfm1 x u z : ℝ) : Py (ℝ × ℝ) := do
  let qsq := q * q
  let xsq := x * x
  let qx := q * x
  if qx ≤ 0 then .ok (z - qx, q * z - x)
  else do
    let aa := z + qx
    let bb := q * z + x
    let a ← pdiv qsqfm1 aa
    let b ← pdiv (qsqfm1 * (qsq * u - xsq)) bb
    .ok (a, b)

/-- `gooding.py` l.194-215 for `n = -1`: the values `(b, bb, aa)`. -/
noncomputable def velCoeffs (q qsqfm1 x u z : ℝ) : Py (ℝ × ℝ × ℝ) := do
  let qsq := q * q
  let xsq := x * x
  let qx := q * x
  if qx ≤ 0 then do
    let a := z - qx
    let b := q * z - x
    let aa ← pdiv qsqfm1 a
    let bb ← pdiv (qsqfm1 * (qsq * u - xsq)) b
    if qx = 0 then .ok (b, q * z + x, z + qx) else .ok (b, bb, aa)
  else do
    let aa := z + qx
    let bb := q * z + x
    let _a ← pdiv qsqfm1 aa
    let b ← pdiv (qsqfm1 * (qsq * u - xsq)) bb
    .ok (b, bb, aa)

/-- `gooding.py` l.217-220. -/
noncomputable def gValue (q x u z : ℝ) : Py ℝ :=
  if q * x * u ≥ 0 then .ok (x * z + q * u)
  else pdiv (x * x - q * q * u) (x * z - q * u)

/-- `gooding.py` l.224-247. -/
noncomputable def angleValue (m : ℤ) (x f g : ℝ) : Py ℝ :=
  if x ≤ 1.0 then .ok (m * Real.pi + arctan2 f g)
  else if f > 0.4 then plog (f + g)
  else do
    let fg1 ← pdiv f (g + 1.0)
    plim fun k => (logState fg1 k).2.2

/-- `gooding.py` l.251-259: derivatives of the direct branch. -/
noncomputable def directDerivs (q qsqfm1 x u z a t : ℝ) (n : ℤ) : Py (ℝ × ℝ × ℝ) := do
  if n ≥ 1 ∧ z ≠ 0 then do
    let qz0 ← pdiv q z
    let qz2 := qz0 * qz0
    let qz := qz0 * qz2
    let w ← pdiv (4.0 * (a + q * x * qsqfm1)) z
    let dt ← pdiv (3.0 * x * t - w) u
    let d2t ← if n ≥ 2 then pdiv (3.0 * t + 5.0 * x * dt + 4.0 * qz * qsqfm1) u else .ok 0.0
    let d3t ← if n = 3 then
        pdiv (8.0 * dt + 7.0 * x * d2t - 12.0 * qz * qz2 * x * qsqfm1) u
      else .ok 0.0
    .ok (dt, d2t, d3t)
  else .ok (0.0, 0.0, 0.0)

/-- `gooding.py` l.192-259 for `n ≠ -1`: direct computation. -/
noncomputable def tlambDirect (m : ℤ) (q qsqfm1 x : ℝ) (n : ℤ) : Py (ℝ × ℝ × ℝ × ℝ) := do
  let u := (1.0 - x) * (1.0 + x)
  let y ← psqrt |u|
  let z ← psqrt (qsqfm1 + q * q * (x * x))
  let (a, b) ← directCoeffs q qsqfm1 x u z
  let g ← gValue q x u z
  let f := a * y
  let t0 ← angleValue m x f g
  let t1 ← pdiv t0 y
  let t ← pdiv (2.0 * (t1 + b)) u
  let (dt, d2t, d3t) ← directDerivs q qsqfm1 x u z a t n
  .ok (t, dt, d2t, d3t)

/-- State of the loop of the series branch, `gooding.py` l.263-344. -/
structure Ser where
  i : ℕ
  u0i : ℝ
  u1i : ℝ
  u2i : ℝ
  u3i : ℝ
  term : ℝ
  tq : ℝ
  tqsum : ℝ
  ttmold : ℝ
  t : ℝ
  dt : ℝ
  d2t : ℝ
  d3t : ℝ

/-- `gooding.py` l.263-283. -/
noncomputable def serInit (q qsqfm1 : ℝ) : Py Ser := do
  let tqsum ← if q < 0.5 then .ok (1.0 - q * (q * q))
    else do
      let d ← pdiv 1.0 (1.0 + q)
      .ok ((d + q) * qsqfm1)
  let ttmold : ℝ := 4.0 / 3.0
  .ok ⟨0, 1.0, 1.0, 1.0, 1.0, 4.0, q * qsqfm1, tqsum, ttmold, ttmold * tqsum, 0.0, 0.0, 0.0⟩

/-- One pass, `gooding.py` l.288-314 and, identical, l.318-344 (`u1i`, ... are kept even
when the flags `l1`, ... leave them unbound, they are not used then). -/
noncomputable def serStep (qsq u : ℝ) (n : ℤ) (s : Ser) : Ser :=
  let i := s.i + 1
  let p : ℝ := i
  let u0i := s.u0i * u
  let u1i := if n ≥ 1 ∧ i > 1 then s.u1i * u else s.u1i
  let u2i := if n ≥ 2 ∧ i > 2 then s.u2i * u else s.u2i
  let u3i := if n = 3 ∧ i > 3 then s.u3i * u else s.u3i
  let term := s.term * (p - 0.5) / p
  let tq := s.tq * qsq
  let tqsum := s.tqsum + tq
  let tterm := term / (2.0 * p + 3.0)
  let tqterm := tterm * tqsum
  let t := s.t - u0i * ((1.5 * p + 0.25) * tqterm / (p * p - 0.25) - s.ttmold * tq)
  let tqterm' := tqterm * p
  let dt := if n ≥ 1 then s.dt + tqterm' * u1i else s.dt
  let d2t := if n ≥ 2 then s.d2t + tqterm' * u2i * (p - 1.0) else s.d2t
  let d3t := if n = 3 then s.d3t + tqterm' * u3i * (p - 1.0) * (p - 2.0) else s.d3t
  ⟨i, u0i, u1i, u2i, u3i, term, tq, tqsum, tterm, t, dt, d2t, d3t⟩

/-- The state after `k` passes. -/
noncomputable def serState (qsq u : ℝ) (n : ℤ) (s : Ser) : ℕ → Ser
  | 0 => s
  | k + 1 => serStep qsq u n (serState qsq u n s k)

/-- `gooding.py` l.262-353: computation by series; the loop `while i < n or t != told` is
modelled by the limits of its accumulators. -/
noncomputable def tlambSeries (q qsqfm1 x : ℝ) (n : ℤ) : Py (ℝ × ℝ × ℝ × ℝ) := do
  let qsq := q * q
  let xsq := x * x
  let u := (1.0 - x) * (1.0 + x)
  let s ← serInit q qsqfm1
  let t ← plim fun k => (serState qsq u n s k).t
  let dt ← plim fun k => (serState qsq u n s k).dt
  let d2t ← plim fun k => (serState qsq u n s k).d2t
  let d3t ← plim fun k => (serState qsq u n s k).d3t
  let d3t' := if n = 3 then 8.0 * x * (1.5 * d2t - xsq * d3t) else d3t
  let d2t' := if n ≥ 2 then 2.0 * (2.0 * xsq * d2t - dt) else d2t
  let dt' := if n ≥ 1 then -2.0 * x * dt else dt
  let t' ← pdiv t xsq
  .ok (t', dt', d2t', d3t')

/-- `gooding.py` l.147-355, `tlamb`. -/
noncomputable def tlamb (m : ℤ) (q qsqfm1 x : ℝ) (n : ℤ) : Py (ℝ × ℝ × ℝ × ℝ) :=
  let u := (1.0 - x) * (1.0 + x)
  if n = -1 then do
    let _y ← psqrt |u|
    let z ← psqrt (qsqfm1 + q * q * (x * x))
    let (b, bb, aa) ← velCoeffs q qsqfm1 x u z
    .ok (0, b, bb, aa)
  else if m > 0 ∨ x < 0 ∨ |u| > 0.4 then tlambDirect m q qsqfm1 x n
  else tlambSeries q qsqfm1 x n

/-- `gooding.py` l.559-561: the Halley step, `(x, xold)`; with `dt = 0` nothing changes. -/
noncomputable def halleyStep (t dt d2t x xold : ℝ) : Py (ℝ × ℝ) :=
  if dt ≠ 0 then do
    let s ← pdiv (t * dt) (dt * dt + t * d2t / 2.0)
    .ok (x + s, x)
  else .ok (x, xold)

/-- `gooding.py` l.551-569, `_xlamb_iter`.  `remaining` passes are left, `numiter` is the
number of the current one; `maxiter` is returned when the passes are used up. -/
noncomputable def xlambIter (m : ℤ) (q qsqfm1 tin atol rtol : ℝ) (maxiter : ℕ) :
    ℕ → ℕ → ℝ → ℝ → Py (ℝ × ℕ)
  | 0, _, x, _ => .ok (x, maxiter)
  | remaining + 1, numiter, x, xold => do
    let (t0, dt, d2t, _) ← tlamb m q qsqfm1 x 2
    let t := tin - t0
    let (x', xold') ← halleyStep t dt d2t x xold
    let ratio ← pdiv x' xold'
    if |x' - xold'| ≤ atol ∧ |ratio - 1| ≤ rtol then .ok (x', numiter)
    else xlambIter m q qsqfm1 tin atol rtol maxiter remaining (numiter + 1) x' xold'

/-- `gooding.py` l.415-419 (and, identical, l.525-529). -/
noncomputable def bilinear (tdiff t0 thr2 : ℝ) : Py ℝ := do
  let q0 ← pdiv (-tdiff) (tdiff + 4.0)
  let sw ← psqrt (2.0 * (1.0 - thr2))
  let w := q0 + 1.7 * sw
  if w < 0 then do
    let e ← d8rt (-w)
    let e' ← psqrt e
    let r ← pdiv tdiff (tdiff + 1.5 * t0)
    let r' ← psqrt r
    .ok (q0 - e' * (q0 + r'))
  else .ok q0

/-- `gooding.py` l.403-422: starter for `m = 0`. -/
noncomputable def singleStart (q qsqfm1 tin thr2 : ℝ) : Py ℝ := do
  let (t0, _, _, _) ← tlamb 0 q qsqfm1 0.0 0
  let tdiff := tin - t0
  if tdiff ≤ 0 then pdiv (t0 * tdiff) (-4.0 * tin)
  else do
    let x ← bilinear tdiff t0 thr2
    let w ← pdiv 4.0 (4.0 + tdiff)
    let w' ← psqrt w
    .ok (x * (1.0 + x * (0.5 * w - 0.03 * x * w')))

/-- `gooding.py` l.437-450: the loop that locates the minimum time.  Returns
`(xm, tmin, d2t, numiter)`; without any pass `numiter` is not bound (l.453). -/
noncomputable def tminLoop (m : ℤ) (q qsqfm1 atol rtol : ℝ) : ℕ → ℕ → ℝ → Py (ℝ × ℝ × ℝ × ℕ)
  | 0, _, _ => .error (.unboundLocal "numiter")
  | remaining + 1, numiter, xm => do
    let (tmin, dt, d2t, d3t) ← tlamb m q qsqfm1 xm 3
    if d2t = 0 then .ok (xm, tmin, d2t, numiter)
    else do
      let s ← pdiv (dt * d2t) (d2t * d2t - dt * d3t / 2.0)
      let xm' := xm - s
      if |xm - xm'| < rtol * |xm| + atol then .ok (xm', tmin, d2t, numiter)
      else match remaining with
        | 0 => .ok (xm', tmin, d2t, numiter)
        | r + 1 => tminLoop m q qsqfm1 atol rtol (r + 1) (numiter + 1) xm'

/-- `gooding.py` l.426-431: the point where the search for the minimum time starts. -/
noncomputable def xmStart (m : ℤ) (thr2 : ℝ) : Py ℝ := do
  let xm ← pdiv 1.0 (1.5 * (m + 0.5) * Real.pi)
  if thr2 < 0.5 then do
    let e ← d8rt (2.0 * thr2)
    .ok (e * xm)
  else if thr2 > 0.5 then do
    let e ← d8rt (2.0 - 2.0 * thr2)
    .ok ((2.0 - e) * xm)
  else .ok xm

/-- `gooding.py` l.475-488: first multi-revolution starter. -/
noncomputable def firstStart (m : ℤ) (thr2 xm tdiffm d2t : ℝ) : Py ℝ := do
  let r ← pdiv tdiffm ((1.0 - xm) ^ 2)
  let r' ← pdiv tdiffm (d2t / 2.0 + r)
  let x ← psqrt r'
  let w0 := xm + x
  let w1 ← pdiv (w0 * 4.0) (4.0 + tdiffm)
  let w := w1 + (1.0 - w0) ^ 2
  let sw ← psqrt w
  let k ← pdiv (1.0 + m + 1.0 * (thr2 - 0.5)) (1.0 + 0.15 * m)
  .ok (x * (1.0 - k * x * (0.5 * w + 0.03 * x * sw)) + xm)

/-- `gooding.py` l.518-545: second multi-revolution starter, returns the new `(n, x)`. -/
noncomputable def secondStart (m : ℤ) (q qsqfm1 tin thr2 tmin tdiffm d2t2 xm xpl : ℝ) (n : ℤ) :
    Py (ℤ × ℝ) := do
  let (t0, _, _, _) ← tlamb m q qsqfm1 0.0 0
  let tdiff0 := t0 - tmin
  let tdiff := tin - t0
  if tdiff ≤ 0 then do
    let a ← pdiv d2t2 tdiff0
    let b ← pdiv 1.0 (xm ^ 2)
    let r ← pdiv tdiffm (d2t2 - tdiffm * (a - b))
    let r' ← psqrt r
    .ok (n, xm - r')
  else do
    let x ← bilinear tdiff t0 thr2
    let w ← pdiv 4.0 (4.0 + tdiff)
    let w' ← psqrt w
    let k ← pdiv (1.0 + m + 0.24 * (thr2 - 0.5)) (1.0 + 0.15 * m)
    let x' := x * (1.0 + k * x * (0.5 * w - 0.03 * x * w'))
    if x' ≤ -1.0 then
      if n - 1 = 1 then .ok (n - 1, xpl) else .ok (n - 1, x')
    else .ok (n, x')

/-- What `xlamb` returns: four values on l.467, five on l.508. -/
inductive XRes where
  | four (n : ℤ) (x : ℝ) (numiter : ℕ)
  | five (n : ℤ) (x xpl : ℝ) (numiter : ℕ) (tpi : ℝ)

/-- `gooding.py` l.505-508: the returning pass of the loop `while True`.  `clock` is the
time measured by `perf_counter`. -/
noncomputable def finish (m : ℤ) (q qsqfm1 tin : ℝ) (maxiter : ℕ) (atol rtol : ℝ)
    (fullOutput : Bool) (clock : ℝ) (n : ℤ) (x xpl : ℝ) : Py XRes := do
  let (x', numiter) ← xlambIter m q qsqfm1 tin atol rtol maxiter maxiter 1 x x
  let tpi ← if fullOutput = true then pdiv clock numiter else .ok 0.0
  .ok (.five n x' xpl numiter tpi)

/-- `gooding.py` l.424-547 for `m ≠ 0`.  The loop `while True` is unrolled: after its first
pass `n ≠ 3`, so that its second pass returns on l.508; with `goto3` the first pass
starts at l.518. -/
noncomputable def xlambMulti (m : ℤ) (q qsqfm1 tin : ℝ) (maxiter : ℕ) (atol rtol : ℝ)
    (fullOutput : Bool) (clock : ℝ) (thr2 : ℝ) : Py XRes := do
  let xm0 ← xmStart m thr2
  let (xm, tmin, d2t, numiter) ← tminLoop m q qsqfm1 atol rtol maxiter 1 xm0
  raiseIf (numiter + 1 = maxiter) (.valueError "Exceeded max iterations!")
  let tdiffm := tin - tmin
  raiseIf (tdiffm < 0) (.valueError "No feasible solution, try lower M!")
  if tdiffm = 0 then .ok (.four 1 xm numiter)
  else do
    let d2t' := if d2t = 0 then 6.0 * m * Real.pi else d2t
    let x ← firstStart m thr2 xm tdiffm d2t'
    let d2t2 := d2t' / 2.0
    if x ≥ 1.0 then do
      let (n, x') ← secondStart m q qsqfm1 tin thr2 tmin tdiffm d2t2 xm 0 1
      finish m q qsqfm1 tin maxiter atol rtol fullOutput clock n x' 0
    else do
      let (xpl, _) ← xlambIter m q qsqfm1 tin atol rtol maxiter maxiter 1 x x
      let (n, x') ← secondStart m q qsqfm1 tin thr2 tmin tdiffm d2t2 xm xpl 2
      finish m q qsqfm1 tin maxiter atol rtol fullOutput clock n x' xpl

/-- `gooding.py` l.358-547, `xlamb`. -/
noncomputable def xlamb (m : ℤ) (q qsqfm1 tin : ℝ) (maxiter : ℕ) (atol rtol : ℝ)
    (fullOutput : Bool) (clock : ℝ) : Py XRes := do
  let thr2 := arctan2 qsqfm1 (2.0 * q) / Real.pi
  if m = 0 then do
    let x ← singleStart q qsqfm1 tin thr2
    finish m q qsqfm1 tin maxiter atol rtol fullOutput clock 1 x 0
  else xlambMulti m q qsqfm1 tin maxiter atol rtol fullOutput clock thr2

/-- `gooding.py` l.628-634: half the transfer angle and the number of revolutions. -/
noncomputable def splitAngle (dtheta : ℝ) : Py (ℝ × ℤ) := do
  let s ← whileLoop (fun s : ℝ × ℤ => s.1 > 2 * Real.pi)
    (fun s => .ok (s.1 - 2 * Real.pi, s.2 + 1)) (dtheta, 0)
  .ok (s.1 / 2.0, s.2)

/-- `gooding.py` l.662-668. -/
noncomputable def selectRoot (isLowPath : Bool) (n : ℤ) (x xpl : ℝ) : ℝ :=
  if n > 1 then (if isLowPath = true then max x xpl else min x xpl) else x

/-- `gooding.py` l.671-676: `(vr1, vt1, vr2, vt2)`. -/
noncomputable def velocities (m : ℤ) (q qsqfm1 x mus rho sig r1Norm r2Norm : ℝ) :
    Py (ℝ × ℝ × ℝ × ℝ) := do
  let (_, qzminx, qzplx, zplqx) ← tlamb m q qsqfm1 x (-1)
  let ss ← psqrt sig
  let vt2 := mus * zplqx * ss
  let vr1 ← pdiv (mus * (qzminx - qzplx * rho)) r1Norm
  let vt1 ← pdiv vt2 r1Norm
  let vr2 ← pdiv (-mus * (qzminx + qzplx * rho)) r2Norm
  let vt2' ← pdiv vt2 r2Norm
  .ok (vr1, vt1, vr2, vt2')

/-- `gooding.py` l.636-652: `(mus, s, qsqfm1, q, rho, sig)`. -/
noncomputable def auxParams (mu r1Norm r2Norm thr2 : ℝ) : Py (ℝ × ℝ × ℝ × ℝ × ℝ × ℝ) := do
  let dr := r1Norm - r2Norm
  let r1r2 := r1Norm * r2Norm
  let r1r2th := 4.0 * r1r2 * Real.sin thr2 ^ 2
  let csq := dr * dr + r1r2th
  let c ← psqrt csq
  let s := (r1Norm + r2Norm + c) / 2.0
  let mus ← psqrt (mu * s / 2.0)
  let qsqfm1 ← pdiv c s
  let sr ← psqrt r1r2
  let q ← pdiv (sr * Real.cos thr2) s
  if c ≠ 0 then do
    let rho ← pdiv dr c
    let sig ← pdiv r1r2th csq
    .ok (mus, s, qsqfm1, q, rho, sig)
  else .ok (mus, s, qsqfm1, q, 0.0, 1.0)

/-- `gooding.py` l.572-678, `vlamb`: `(vr1, vt1, vr2, vt2, numiter, tpi)`.  Unpacking four
values into five names (l.657) raises `ValueError`. -/
noncomputable def vlamb (mu r1Norm r2Norm dtheta tof : ℝ) (isLowPath : Bool) (maxiter : ℕ)
    (atol rtol : ℝ) (fullOutput : Bool) (clock : ℝ) :
    Py ((ℝ × ℝ × ℝ × ℝ) × ℕ × ℝ) := do
  let (thr2, m) ← splitAngle dtheta
  let (mus, s, qsqfm1, q, rho, sig) ← auxParams mu r1Norm r2Norm thr2
  let t ← pdiv (4.0 * mus * tof) (s ^ 2)
  let res ← xlamb m q qsqfm1 t maxiter atol rtol fullOutput clock
  match res with
  | .four _ _ _ => .error (.valueError "not enough values to unpack (expected 5, got 4)")
  | .five n x xpl numiter tpi => do
    let v ← velocities m q qsqfm1 (selectRoot isLowPath n x xpl) mus rho sig r1Norm r2Norm
    .ok (v, numiter, tpi)

end Gooding

open Gooding in
/-- `gooding.py` l.16-137, `gooding1990`. -/
noncomputable def gooding1990 (mu : ℝ) (r1 r2 : V3) (tof : ℝ) (M : ℤ) (isPrograde : Bool)
    (isLowPath : Bool) (maxiter : ℕ) (atol rtol : ℝ) (fullOutput : Bool) (clock : ℝ) :
    Py Output := do
  assertParametersAreValid mu r1 r2 tof M
  let r1Norm := V3.norm r1
  let r2Norm := V3.norm r2
  let ir1 ← vdiv r1 r1Norm
  let ir2 ← vdiv r2 r2Norm
  let theta ← getTransferAngle r1 r2 isPrograde
  assertTransferAngleNotZero theta
  let dtheta := 2.0 * Real.pi * M + theta
  let ih ← getOrbitNormalVector r1 r2 isPrograde
  let it1 := V3.cross ih ir1
  let it2 := V3.cross ih ir2
  let ((vr1, vt1, vr2, vt2), numiter, tpi) ←
    vlamb mu r1Norm r2Norm dtheta tof isLowPath maxiter atol rtol fullOutput clock
  let v1 := vr1 • ir1 + vt1 • it1
  let v2 := vr2 • ir2 + vt2 • it2
  .ok (mkOutput fullOutput v1 v2 numiter tpi)

end Lamberthub
