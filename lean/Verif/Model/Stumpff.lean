import Verif.Model.Py
import Mathlib.Topology.Algebra.InfiniteSum.Basic

/-!
# Model of `/repo/src/lamberthub/utils/stumpff.py`

The loop `while res + delta != res` (l.33-36, l.63-66) accumulates
`(-psi)^k / gamma(2k+3)` (resp. `gamma(2k+4)`) until rounding absorbs the next term.
Over the reals no non-zero term is absorbed; `stumpffSeries` is the limit of the
accumulated sums and `stumpffPartial` the value after `n` passes (the error made by
stopping is bounded in `Props/Stumpff.lean`).
-/

set_option autoImplicit false

namespace Lamberthub

/-- `delta` of pass `k` (`k = 0` is the initial `res`): `(-psi)^k / gamma(2k+j+1)`,
`stumpff.py` l.30-36 (`j = 2`) and l.60-66 (`j = 3`). -/
noncomputable def stumpffTerm (j : ℕ) (psi : ℝ) (k : ℕ) : ℝ :=
  (-psi) ^ k / ((2 * k + j).factorial : ℝ)

/-- `res` after `n` passes of the accumulation loop. -/
noncomputable def stumpffPartial (j : ℕ) (psi : ℝ) : ℕ → ℝ
  | 0 => stumpffTerm j psi 0
  | n + 1 => stumpffPartial j psi n + stumpffTerm j psi (n + 1)

/-- Limit of `res`. -/
noncomputable def stumpffSeries (j : ℕ) (psi : ℝ) : ℝ := ∑' k, stumpffTerm j psi k

/-- `stumpff.py` l.14-38, `c2`. -/
noncomputable def c2 (psi : ℝ) : Py ℝ :=
  if psi > 1 then do
    let s ← psqrt psi
    pdiv (1 - Real.cos s) psi
  else if psi < -1 then do
    let s ← psqrt (-psi)
    pdiv (Real.cosh s - 1) (-psi)
  else .ok (stumpffSeries 2 psi)

/-- `stumpff.py` l.42-68, `c3`. -/
noncomputable def c3 (psi : ℝ) : Py ℝ :=
  if psi > 1 then do
    let s ← psqrt psi
    pdiv (s - Real.sin s) (psi * s)
  else if psi < -1 then do
    let s ← psqrt (-psi)
    pdiv (Real.sinh s - s) (-psi * s)
  else .ok (stumpffSeries 3 psi)

end Lamberthub
