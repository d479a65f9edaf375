import Verif.Model.Py
import Mathlib.Data.Nat.Factorial.Basic

/-! # The series coefficients of `/repo/src/lamberthub/series_solvers/thorne.py` l.342-474

Arrays are functions of the (0-based) index; the code only reads `A_array[0..maxiter-1]`. -/

set_option autoImplicit false

namespace Lamberthub
namespace Thorne

/-- `scipy.special.poch(x, n)` for a natural number `n`: `x (x + 1) ... (x + n - 1)`. -/
noncomputable def poch (x : ℝ) : ℕ → ℝ
  | 0 => 1
  | n + 1 => poch x n * (x + n)

/-- The value assigned to `A_array[n-1]`, l.373-376. -/
noncomputable def aEntry (s c mp : ℝ) (n : ℕ) : Py ℝ := do
  let k ← pdiv (s - c) s
  let kn ← prpow k (n + 3 / 2)
  let numerator := (1 + mp * kn) * poch (1 / 2) n * poch (3 / 2) n
  let k0 ← prpow k (3 / 2)
  let denominator := (1 + mp * k0) * poch (5 / 2) n * (Nat.factorial n : ℝ)
  pdiv numerator denominator

/-- l.342-378, `get_A_array`: the entries `1, .., maxiter` in order. -/
noncomputable def getAArray (s c : ℝ) (mp : ℝ) : ℕ → Py (ℕ → ℝ)
  | 0 => .ok (fun _ => 0)
  | n + 1 => do
    let A ← getAArray s c mp n
    let v ← aEntry s c mp (n + 1)
    .ok (fun i => if i = n then v else A i)

/-- `Q_matrix[i, j] = v`. -/
def setEntry (Q : ℕ → ℕ → ℝ) (i j : ℕ) (v : ℝ) : ℕ → ℕ → ℝ :=
  fun a b => if a = i ∧ b = j then v else Q a b

/-- The value assigned to `Q_matrix[i-1, j-1]`, l.413-437 (`i`, `j` start at 1). -/
noncomputable def qEntry (A : ℕ → ℝ) (Q : ℕ → ℕ → ℝ) (i j : ℕ) : Py ℝ :=
  if i = 1 ∧ j = 1 then pdiv 1 (A 0)
  else if i ≠ 1 ∧ j = 1 then do
    let a ← pdiv (-1) (A 0)
    .ok (∑ k ∈ Finset.Ico 1 i, a * Q (i - 1) k * A k)
  else .ok (∑ k ∈ Finset.Ico 1 i, Q (i - k - 1) (j - 1 - 1) * Q (k - 1) 0)

/-- The loop `for j in reversed(range(1, i + 1))`, l.409: columns `j, j-1, .., 1`. -/
noncomputable def qRow (A : ℕ → ℝ) (i : ℕ) : ℕ → (ℕ → ℕ → ℝ) → Py (ℕ → ℕ → ℝ)
  | 0, Q => .ok Q
  | j + 1, Q => do
    let v ← qEntry A Q i (j + 1)
    qRow A i j (setEntry Q (i - 1) j v)

/-- l.381-439, `get_Q_matrix`: the rows `1, .., maxiter` in order. -/
noncomputable def getQMatrix (A : ℕ → ℝ) : ℕ → Py (ℕ → ℕ → ℝ)
  | 0 => .ok (fun _ _ => 0)
  | n + 1 => do
    let Q ← getQMatrix A n
    qRow A (n + 1) (n + 1) Q

/-- l.442-474, `get_B_array` (for `maxiter ≥ 1`; with `maxiter = 0` the assignment of
`B_array[0]` raises an `IndexError`, modelled as `undefined`). -/
noncomputable def getBArray (A : ℕ → ℝ) (Q : ℕ → ℕ → ℝ) (maxiter : ℕ) : Py (ℕ → ℝ) :=
  if maxiter = 0 then .error .undefined
  else .ok fun b => if b = 0 then A 0
    else if b < maxiter then ∑ m ∈ Finset.Ico 1 (b + 1), Q (b + 1 - 1 - 1) (m - 1) * A m
    else 0

end Thorne
end Lamberthub
