import Verif.Model.Catalogue
import Verif.Props.Gooding

/-! # The argument `is_low_path`

Without complete revolutions there is one path only: every solver ignores `is_low_path` then.  Seven solvers have no
multi-revolution branch and ignore it always. -/

set_option autoImplicit false

namespace Lamberthub

/-- The transfer angle never exceeds a full turn, whatever the vectors. -/
theorem getTransferAngle_le {r1 r2 : V3} {pro : Bool} {θ : ℝ} (h : getTransferAngle r1 r2 pro = .ok θ) :
    θ ≤ 2 * Real.pi := by
  have hpi := Real.pi_pos
  unfold getTransferAngle at h
  simp only at h
  split_ifs at h
  · cases h; linarith
  · cases h; linarith
  all_goals
    simp only [bind_ok] at h
    obtain ⟨_, _, q, _, a, ha, h⟩ := h
    have h0 : 0 ≤ a ∧ a ≤ Real.pi := by
      unfold pacos at ha
      split_ifs at ha
      cases ha
      exact ⟨Real.arccos_nonneg _, Real.arccos_le_pi _⟩
    split_ifs at h <;> cases h <;> linarith [h0.1, h0.2]

namespace PathFlag

/-- Two programs that agree on every result of their common first part agree. -/
theorem bind_congr {α β : Type} {x : Py α} {f g : α → Py β} (h : ∀ a, x = .ok a → f a = g a) :
    (x >>= f) = (x >>= g) := by
  cases hx : x with
  | error e => rfl
  | ok a => exact h a hx

theorem splitAngle_single {θ : ℝ} (h : θ ≤ 2 * Real.pi) : Gooding.splitAngle θ = .ok (θ / 2.0, 0) := by
  unfold Gooding.splitAngle
  rw [whileLoop_false (by simpa using h), ok_bind]

theorem xlamb_single {q qsqfm1 t : ℝ} {n : ℕ} {atol rtol : ℝ} {full : Bool} {clock : ℝ} {res : Gooding.XRes}
    (h : Gooding.xlamb 0 q qsqfm1 t n atol rtol full clock = .ok res) :
    ∃ x xpl i tpi, res = .five 1 x xpl i tpi := by
  unfold Gooding.xlamb Gooding.finish at h
  simp only [if_true, bind_ok] at h
  obtain ⟨x, -, ⟨y, i⟩, -, h⟩ := h
  split_ifs at h
  · simp only [bind_ok] at h
    obtain ⟨tpi, -, h⟩ := h
    cases h
    exact ⟨_, _, _, _, rfl⟩
  · cases h
    exact ⟨_, _, _, _, rfl⟩

theorem vlamb_single (mu a b : ℝ) {θ : ℝ} (hθ : θ ≤ 2 * Real.pi) (tof : ℝ) (low low' : Bool) (n : ℕ) (atol rtol : ℝ)
    (full : Bool) (clock : ℝ) :
    Gooding.vlamb mu a b θ tof low n atol rtol full clock = Gooding.vlamb mu a b θ tof low' n atol rtol full clock := by
  unfold Gooding.vlamb
  rw [splitAngle_single hθ, ok_bind, ok_bind]
  refine bind_congr fun p _ => bind_congr fun t _ => bind_congr fun res hres => ?_
  obtain ⟨x, xpl, i, tpi, rfl⟩ := xlamb_single hres
  simp [Gooding.selectRoot]

end PathFlag

open PathFlag in
/-- **C95.**  Without complete revolutions the argument `is_low_path` has no effect: whatever the other arguments, valid
or not, every solver gives the same velocities, the same number of iterations or the same exception for both values. -/
theorem path_flag_single_revolution (env : Env) (s : Solver) (a : Args) (hM : a.M = 0) (low : Bool) (full : Bool)
    (clock : ℝ) : solve env s { a with isLowPath := low } full clock = solve env s a full clock := by
  obtain ⟨mu, r1, r2, tof, M, pro, low', n, atol, rtol⟩ := a
  simp only at hM
  subst hM
  cases s
  case gooding1990 =>
    simp only [solve, gooding1990]
    refine bind_congr fun _ _ => bind_congr fun _ _ => bind_congr fun _ _ => bind_congr fun θ hθ => bind_congr fun _ _ =>
      bind_congr fun _ _ => ?_
    rw [vlamb_single mu _ _ (by simpa using getTransferAngle_le hθ) tof low low']
  case avanzini2008 => simp only [solve, avanzini2008]
  case battin1984 => simp only [solve, battin1984]
  case gauss1809 => simp only [solve, gauss1809]
  case jiang2016 => simp only [solve, jiang2016]
  case pan2016 => simp only [solve, pan2016, vallado2013]
  case thorne2004 => simp only [solve, thorne2004]
  case vallado2013 => simp only [solve, vallado2013]
  case izzo2015 => simp only [solve, izzo2015, Izzo.findXY, Izzo.initialGuess, if_true]
  case delatorre2018 => simp only [solve, delatorre2018, Delatorre.findZ, Delatorre.chooseBracket, if_true]
  case der2011 => simp only [solve, der2011, Der.findPathParameter, Der.startX, if_true]
  case arora2013 => simp only [solve, arora2013, Arora.initialGuess, if_true]
  case mcelreath2025 => simp only [solve, mcelreath2025, McElreath.findX, Int.toNat_zero, if_true]
  case negrete2024 => simp only [solve, negrete2024, Negrete.findZ, Int.toNat_zero, if_true]

/-- The solvers without a multi-revolution branch. -/
def noPaths : List Solver :=
  [.avanzini2008, .battin1984, .gauss1809, .jiang2016, .pan2016, .thorne2004, .vallado2013]

/-- These solvers ignore `is_low_path` for every number of revolutions. -/
theorem path_flag_ignored (env : Env) (s : Solver) (hs : s ∈ noPaths) (a : Args) (low : Bool) (full : Bool)
    (clock : ℝ) : solve env s { a with isLowPath := low } full clock = solve env s a full clock := by
  simp only [noPaths, List.mem_cons, List.not_mem_nil, or_false] at hs
  rcases hs with rfl | rfl | rfl | rfl | rfl | rfl | rfl
  · simp only [solve, avanzini2008]
  · simp only [solve, battin1984]
  · simp only [solve, gauss1809]
  · simp only [solve, jiang2016]
  · simp only [solve, pan2016, vallado2013]
  · simp only [solve, thorne2004]
  · simp only [solve, vallado2013]

end Lamberthub
