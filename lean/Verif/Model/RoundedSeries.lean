import Verif.Model.RoundedLoops

/-!
# The series of `tlamb` near `x = 1` with rounding

`tlamb` of `gooding.py` sums the series of the time of flight until the sum does not change any more.  `Model/Gooding`
replaces the loop by its limit; here it is modelled as it is written, with a rounding after every operation.

Simplified: the derivatives `dt`, `d2t`, `d3t` and their powers `u1i`, `u2i`, `u3i` are left out; the loop does not read
them.  No overflow and no underflow; the operations are not reordered or fused (`tlamb` is compiled with `fastmath=True`,
which allows it).
-/

set_option autoImplicit false

namespace Lamberthub
namespace Rounded

/-- The variables of the loop of `gooding.py` l.317-344. -/
structure SerState where
  i : ℕ
  u0i : ℝ
  term : ℝ
  tq : ℝ
  tqsum : ℝ
  ttmold : ℝ
  told : ℝ
  t : ℝ

/-- `gooding.py` l.288-306 and l.318-337: one pass.  The integers `p` and `p * p` are converted to floating point. -/
noncomputable def serPass (F : Arith) (qsq u : ℝ) (s : SerState) : Py SerState := do
  let i := s.i + 1
  let p := F.rnd i
  let u0i := F.rnd (s.u0i * u)
  let term ← div F (F.rnd (s.term * F.rnd (p - 1 / 2))) p
  let tq := F.rnd (s.tq * qsq)
  let tqsum := F.rnd (s.tqsum + tq)
  let tterm ← div F term (F.rnd (F.rnd (2 * p) + 3))
  let tqterm := F.rnd (tterm * tqsum)
  let a ← div F (F.rnd (F.rnd (F.rnd (3 / 2 * p) + 1 / 4) * tqterm)) (F.rnd (F.rnd (i * i) - 1 / 4))
  .ok ⟨i, u0i, term, tq, tqsum, tterm, s.t, F.rnd (s.t - F.rnd (u0i * F.rnd (a - F.rnd (s.ttmold * tq))))⟩

/-- `gooding.py` l.276-280: `tqsum` before the loop. -/
noncomputable def serSum (F : Arith) (q qsqfm1 qsq : ℝ) : Py ℝ :=
  if q < 1 / 2 then .ok (F.rnd (1 - F.rnd (q * qsq)))
  else do
    let r ← div F 1 (F.rnd (1 + q))
    .ok (F.rnd (F.rnd (r + q) * qsqfm1))

/-- `gooding.py` l.183-185 and l.262-353: the time of flight by its series. -/
noncomputable def seriesTime (F : Arith) (q qsqfm1 x : ℝ) (n : ℤ) : Py ℝ := do
  let qsq := F.rnd (q * q)
  let xsq := F.rnd (x * x)
  let u := F.rnd (F.rnd (1 - x) * F.rnd (1 + x))
  let tq := F.rnd (q * qsqfm1)
  let tqsum ← serSum F q qsqfm1 qsq
  let ttmold ← div F 4 3
  let t := F.rnd (ttmold * tqsum)
  let s ← serPass F qsq u ⟨0, 1, 4, tq, tqsum, ttmold, t, t⟩
  let s ← whileLoop (fun s => s.i < n ∨ s.t ≠ s.told) (fun s => serPass F qsq u s) s
  div F s.t xsq

end Rounded
end Lamberthub
