import Verif.Spec.TwoBody

/-! # Motion along a ray from the attracting centre

Positions in the same direction are joined by a motion along their common ray.  Such a motion meets the centre
sooner or later, so it is a solution of Newton's equation on a bounded interval of time only. -/

namespace Lamberthub.Spec
open Lamberthub

/-- `(v1, v2)` are the velocities at the ends of a motion that goes from `r1` to `r2` in time `T > 0` under the
attraction of the centre, stays on the ray of `r1` and does not meet the centre on the way. -/
def RadialTransfer (μ : ℝ) (r1 r2 v1 v2 : V3) (T : ℝ) : Prop :=
  0 < T ∧ ∃ pos vel : ℝ → V3,
    (∀ t, 0 ≤ t → t ≤ T → SameDirection r1 (pos t) ∧ HasVelocity pos (vel t) t ∧
      HasVelocity vel ((-μ / len (pos t) ^ 3) • pos t) t) ∧
    pos 0 = r1 ∧ vel 0 = v1 ∧ pos T = r2 ∧ vel T = v2

end Lamberthub.Spec
