import Verif.Model.V3
import Mathlib.Analysis.Calculus.Deriv.Basic
import Mathlib.Data.Set.Card

/-!
# What a Lambert solver is supposed to compute

This file mentions no solver and no helper of the model: only vectors, derivatives
and Newton's law of gravitation.
-/

namespace Lamberthub.Spec
open Lamberthub

/-- Euclidean length. -/
noncomputable def len (v : V3) : ℝ := Real.sqrt (v.x ^ 2 + v.y ^ 2 + v.z ^ 2)

/-- Componentwise derivative of a curve in space. -/
def HasVelocity (q : ℝ → V3) (w : V3) (t : ℝ) : Prop :=
  HasDerivAt (fun τ => (q τ).x) w.x t ∧ HasDerivAt (fun τ => (q τ).y) w.y t ∧
    HasDerivAt (fun τ => (q τ).z) w.z t

/-- `pos` is the motion of a body attracted by the origin with gravitational
parameter `μ`, and `vel` its velocity: `pos' = vel`, `vel' = -μ pos / |pos|³`, for all
times, never colliding with the centre. -/
structure KeplerMotion (μ : ℝ) (pos vel : ℝ → V3) : Prop where
  no_collision : ∀ t, pos t ≠ 0
  velocity : ∀ t, HasVelocity pos (vel t) t
  newton : ∀ t, HasVelocity vel ((-μ / len (pos t) ^ 3) • pos t) t

/-- `q` points in the direction of `r`. -/
def SameDirection (r q : V3) : Prop := ∃ k : ℝ, 0 < k ∧ q = k • r

/-- `(v1, v2)` solve Lambert's problem from `r1` to `r2` in time `T` with `M`
complete revolutions: some Kepler motion is at `r1` with velocity `v1` at time `0`, at
`r2` with velocity `v2` at time `T > 0`, and passes through the direction of `r1`
exactly `M` times strictly in between. -/
def LambertArc (μ : ℝ) (r1 r2 v1 v2 : V3) (T : ℝ) (M : ℕ) : Prop :=
  0 < T ∧ ∃ pos vel : ℝ → V3, KeplerMotion μ pos vel ∧
    pos 0 = r1 ∧ vel 0 = v1 ∧ pos T = r2 ∧ vel T = v2 ∧
    {t : ℝ | 0 < t ∧ t < T ∧ SameDirection r1 (pos t)}.encard = M

/-- z component of the specific angular momentum `r × v`. -/
def angMomZ (r v : V3) : ℝ := r.x * v.y - r.y * v.x

/-- The motion turns in the requested sense: counter-clockwise seen from the north
pole (`r × v` has positive z component) for prograde, clockwise for retrograde. -/
def Sense (prograde : Bool) (r v : V3) : Prop :=
  if prograde then 0 < angMomZ r v else angMomZ r v < 0

/-- The two positions are not aligned with the attracting centre. -/
def NotAligned (r1 r2 : V3) : Prop :=
  ¬ (r1.y * r2.z - r1.z * r2.y = 0 ∧ r1.z * r2.x - r1.x * r2.z = 0 ∧
     r1.x * r2.y - r1.y * r2.x = 0)

/-- The plane spanned by the two positions does not contain the polar (z) axis. -/
def NotPolar (r1 r2 : V3) : Prop := r1.x * r2.y - r1.y * r2.x ≠ 0

end Lamberthub.Spec
