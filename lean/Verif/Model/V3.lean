import Mathlib.Analysis.SpecialFunctions.Pow.Real
import Mathlib.Tactic.Ring
import Mathlib.Tactic.Linarith
import Mathlib.Tactic.FieldSimp
import Mathlib.Tactic.Positivity
import Mathlib.Tactic.NormNum
import Mathlib.Tactic.LinearCombination

/-!
# Three-dimensional vectors

`V3` models a `numpy` array of shape `(3,)` with real entries.  `dot`, `cross` and
`norm` model `/repo/src/lamberthub/linalg.py`; the algebraic operations model
`numpy`'s elementwise `+`, `-`, unary `-` and scalar `*`.
-/

namespace Lamberthub

/-- A `numpy` array of shape `(3,)`. -/
@[ext] structure V3 where
  x : ℝ
  y : ℝ
  z : ℝ

namespace V3

/-- `np.zeros(3)`. -/
instance : Zero V3 := ⟨⟨0, 0, 0⟩⟩
/-- elementwise `+`. -/
instance : Add V3 := ⟨fun a b => ⟨a.x + b.x, a.y + b.y, a.z + b.z⟩⟩
/-- elementwise `-`. -/
instance : Sub V3 := ⟨fun a b => ⟨a.x - b.x, a.y - b.y, a.z - b.z⟩⟩
/-- elementwise unary `-`. -/
instance : Neg V3 := ⟨fun a => ⟨-a.x, -a.y, -a.z⟩⟩
/-- scalar `*` array. -/
instance : SMul ℝ V3 := ⟨fun c a => ⟨c * a.x, c * a.y, c * a.z⟩⟩

@[simp] theorem zero_x : (0 : V3).x = 0 := rfl
@[simp] theorem zero_y : (0 : V3).y = 0 := rfl
@[simp] theorem zero_z : (0 : V3).z = 0 := rfl
@[simp] theorem add_x (a b : V3) : (a + b).x = a.x + b.x := rfl
@[simp] theorem add_y (a b : V3) : (a + b).y = a.y + b.y := rfl
@[simp] theorem add_z (a b : V3) : (a + b).z = a.z + b.z := rfl
@[simp] theorem sub_x (a b : V3) : (a - b).x = a.x - b.x := rfl
@[simp] theorem sub_y (a b : V3) : (a - b).y = a.y - b.y := rfl
@[simp] theorem sub_z (a b : V3) : (a - b).z = a.z - b.z := rfl
@[simp] theorem neg_x (a : V3) : (-a).x = -a.x := rfl
@[simp] theorem neg_y (a : V3) : (-a).y = -a.y := rfl
@[simp] theorem neg_z (a : V3) : (-a).z = -a.z := rfl
@[simp] theorem smul_x (c : ℝ) (a : V3) : (c • a).x = c * a.x := rfl
@[simp] theorem smul_y (c : ℝ) (a : V3) : (c • a).y = c * a.y := rfl
@[simp] theorem smul_z (c : ℝ) (a : V3) : (c • a).z = c * a.z := rfl

/-- `linalg.py` l.29: `v1[0]*v2[0] + v1[1]*v2[1] + v1[2]*v2[2]`. -/
def dot (a b : V3) : ℝ := a.x * b.x + a.y * b.y + a.z * b.z

/-- `linalg.py` l.49: `np.cross(v1, v2)`. -/
def cross (a b : V3) : V3 :=
  ⟨a.y * b.z - a.z * b.y, a.z * b.x - a.x * b.z, a.x * b.y - a.y * b.x⟩

/-- `linalg.py` l.67: `dot(vector, vector) ** 0.5` (the radicand is never negative).
Also models `np.linalg.norm` on arrays of shape `(3,)`. -/
noncomputable def norm (a : V3) : ℝ := Real.sqrt (dot a a)

end V3
end Lamberthub
