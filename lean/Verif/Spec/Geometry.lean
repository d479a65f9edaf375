import Verif.Spec.TwoBody
import Mathlib.Analysis.SpecialFunctions.Trigonometric.Basic

/-! # Elementary geometry used in the statements (no model definition is used) -/

set_option autoImplicit false

namespace Lamberthub.Spec
open Lamberthub

/-- Scalar product. -/
def inner (a b : V3) : ℝ := a.x * b.x + a.y * b.y + a.z * b.z

/-- Vector product. -/
def outer (a b : V3) : V3 :=
  ⟨a.y * b.z - a.z * b.y, a.z * b.x - a.x * b.z, a.x * b.y - a.y * b.x⟩

/-- `q` points in the direction opposite to `r`. -/
def OppositeDirection (r q : V3) : Prop := ∃ k : ℝ, k < 0 ∧ q = k • r

/-- Unit normal of the plane with inclination `inc` and right ascension of the ascending
node `raan`. -/
noncomputable def planeNormal (inc raan : ℝ) : V3 :=
  ⟨Real.sin raan * Real.sin inc, -(Real.cos raan * Real.sin inc), Real.cos inc⟩

/-- Rotation by the angle `t` about the z axis. -/
noncomputable def rotZ (t : ℝ) (v : V3) : V3 :=
  ⟨Real.cos t * v.x - Real.sin t * v.y, Real.sin t * v.x + Real.cos t * v.y, v.z⟩

end Lamberthub.Spec

namespace Lamberthub.Spec
open Lamberthub

/-- Two orthogonal unit vectors. -/
def Orthonormal (e1 e2 : V3) : Prop := inner e1 e1 = 1 ∧ inner e2 e2 = 1 ∧ inner e1 e2 = 0

/-- Point with true anomaly `ν` of the conic with semi-latus rectum `p` and eccentricity
`e` whose periapsis is in the direction `e1`, in the plane of `e1, e2`. -/
noncomputable def conicPos (p e ν : ℝ) (e1 e2 : V3) : V3 :=
  (p / (1 + e * Real.cos ν)) • (Real.cos ν • e1 + Real.sin ν • e2)

/-- Velocity at that point of a body moving on the conic from `e1` towards `e2` under
the attraction `μ`. -/
noncomputable def conicVel (μ p e ν : ℝ) (e1 e2 : V3) : V3 :=
  Real.sqrt (μ / p) • (-Real.sin ν • e1 + (e + Real.cos ν) • e2)

/-- Direction of the ascending node. -/
noncomputable def nodeDir (raan : ℝ) : V3 := ⟨Real.cos raan, Real.sin raan, 0⟩

/-- In-plane direction a quarter turn ahead of the ascending node. -/
noncomputable def aheadDir (inc raan : ℝ) : V3 :=
  ⟨-(Real.sin raan * Real.cos inc), Real.cos raan * Real.cos inc, Real.sin inc⟩

/-- Direction at the angle `u` from the ascending node, in the plane of inclination `inc`
and node `raan`. -/
noncomputable def planeDir (inc raan u : ℝ) : V3 :=
  Real.cos u • nodeDir raan + Real.sin u • aheadDir inc raan

end Lamberthub.Spec
