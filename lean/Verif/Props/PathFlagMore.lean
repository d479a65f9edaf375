import Verif.Props.PathFlag
import Verif.Props.MaxiterMore
import Verif.Props.LowPath

/-! # C95: cases of the theorems of `PathFlag` -/

set_option autoImplicit false

namespace Lamberthub
open Spec LC

/-- A run that returns: `izzo2015` gives the same velocities for both values. -/
example (env : Env) : ∃ tof v1 v2, ∀ low, solve env .izzo2015
    { mu := 1, r1 := ⟨1, 0, 0⟩, r2 := ⟨0, 3 / 5, 4 / 5⟩, tof := tof, isLowPath := low, maxiter := 1 } false 0 =
      .ok (.plain v1 v2) := by
  obtain ⟨tof, v1, v2, -, ho⟩ := izzo_returns_minimum_energy (mu := 1) one_pos (r1 := ⟨1, 0, 0⟩) (r2 := ⟨0, 3 / 5, 4 / 5⟩)
    (by simp [NotAligned]) true true 0 (atol := 1e-5) (by norm_num) 1e-7
  refine ⟨tof, v1, v2, fun low => ?_⟩
  have h := path_flag_single_revolution env .izzo2015 { mu := 1, r1 := ⟨1, 0, 0⟩, r2 := ⟨0, 3 / 5, 4 / 5⟩, tof := tof, maxiter := 1 }
    rfl low false 0
  refine h.trans ?_
  simp only [solve]
  exact bind_ok.2 ⟨(v1, v2), ho, rfl⟩

/-- A run that fails: `gooding1990` with the second position on the ray of the first. -/
example (env : Env) (low : Bool) : solve env .gooding1990
    { mu := 1, r1 := ⟨1, 0, 0⟩, r2 := ⟨2, 0, 0⟩, tof := 1, isLowPath := low } true 0 =
    solve env .gooding1990 { mu := 1, r1 := ⟨1, 0, 0⟩, r2 := ⟨2, 0, 0⟩, tof := 1 } true 0 :=
  path_flag_single_revolution env .gooding1990 { mu := 1, r1 := ⟨1, 0, 0⟩, r2 := ⟨2, 0, 0⟩, tof := 1 } rfl low true 0

/-- The condition on the revolutions is needed: with three of them the searches of `der2011` start apart. -/
example : ∃ xLow xHigh, Der.startX (-1 / 2) 40 1 3 true = .ok xLow ∧ Der.startX (-1 / 2) 40 1 3 false = .ok xHigh ∧
    xHigh ≠ xLow := by
  have hl : (-1 / 2 : ℝ) ^ 2 < 1 := by norm_num
  obtain ⟨m, hm⟩ := exists_fastest hl (by norm_num : 1 ≤ 3)
  obtain ⟨xL, xH, a, b, -, c, d, -⟩ := der_low_path (tau := 40) (tauP := 1) hl (by norm_num : 1 ≤ 3) hm
  exact ⟨xL, xH, a, b, (c.trans d).ne⟩

end Lamberthub
