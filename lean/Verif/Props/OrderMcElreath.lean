import Verif.Props.Order
import Verif.Props.McElreathMore
import Mathlib.Analysis.Real.Pi.Bounds

/-! # C58 for `mcelreath2025` -/

set_option autoImplicit false

namespace Lamberthub
open Filter Topology Spec McElreath

/-- The third derivative is differentiable. -/
theorem McElreath.t3_differentiable {P m x : ℝ} (hP : |2 * m| < P) (hx : Real.cos x ≠ 1) :
    ∃ d, HasDerivAt (fun y => (rFull P m y).2.2.2) d x := by
  have h := pt hP hx
  have du := h.du3
  have dt := h.dt
  have dt1 := h.dt1
  have dt2 := h.dt2
  have da := h.da1
  have da2 := h.da2
  obtain ⟨ds, dc, dS, dC, dw, hs, hw, sc, hS, hC⟩ := h
  have da3 : DifferentiableAt ℝ (fun y => a3 m (Real.sin (y / 2)) (Real.cos (y / 2)) (rW P m y)) x := by
    have e1 := da.differentiableAt
    have e2 := da2.differentiableAt
    have e3 := dw.differentiableAt
    unfold a3
    have hs' : Real.sin (x / 2) ≠ 0 := hs
    have z1 : 4 * Real.sin (x / 2) ^ 2 ≠ 0 := by positivity
    have z2 : 2 * Real.sin (x / 2) ≠ 0 := by positivity
    have z3 : 2 * rW P m x ^ 2 ≠ 0 := by positivity
    fun_prop (disch := assumption)
  have e1 := da.differentiableAt
  have e2 := da2.differentiableAt
  have e3 := dw.differentiableAt
  have e4 := dt.differentiableAt
  have e5 := dt1.differentiableAt
  have e6 := dt2.differentiableAt
  have e7 := du.differentiableAt
  have dt3 : DifferentiableAt ℝ (fun y => t3 m (Real.sin (y / 2)) (Real.cos (y / 2)) (rW P m y) y (Real.sin y) (Real.cos y)) x := by
    unfold t3
    have z2 : rW P m x ^ 2 ≠ 0 := by positivity
    have z3 : rW P m x ^ 3 ≠ 0 := by positivity
    have z4 : rW P m x ^ 4 ≠ 0 := by positivity
    fun_prop (disch := assumption)
  refine ⟨_, dt3.hasDerivAt.congr_of_eventuallyEq ?_⟩
  filter_upwards [eventually_ne hx] with y hy
  rw [rFull_eq hP hy]

/-- Near a real point strictly within the bounds nothing is outside. -/
theorem McElreath.inside_bounds {r lo : ℝ} {hi : Option ℝ} (hlo : lo < r) (hhi : ∀ h ∈ hi, r < h) :
    ∀ᶠ z : ℝ in 𝓝 r, ¬ outsideBounds (z : ℂ) lo hi := by
  have h2 : ∀ᶠ z : ℝ in 𝓝 r, ∀ h ∈ hi, z < h := by
    cases hi with
    | none => exact Eventually.of_forall fun z h hh => by simp at hh
    | some b =>
      filter_upwards [eventually_lt_nhds (hhi b rfl)] with z hz h hh
      simp at hh; rwa [← hh]
  filter_upwards [eventually_gt_nhds hlo, h2] with z a b
  rintro (⟨h, hh, hc⟩ | hc)
  · have := b h hh
    simp at hc; linarith
  · simp at hc; linarith

theorem Spec.OrderOf.tendsto {φ : ℝ → ℝ} {r : ℝ} {p : ℕ} (h : OrderOf φ r (p + 1)) : Tendsto φ (𝓝 r) (𝓝 r) := by
  obtain ⟨C, hC⟩ := h
  rw [tendsto_iff_dist_tendsto_zero]
  have h1 : Tendsto (fun x => C * |x - r| ^ (p + 1)) (𝓝 r) (𝓝 0) := by
    have : Tendsto (fun x => C * |x - r| ^ (p + 1)) (𝓝 r) (𝓝 (C * |r - r| ^ (p + 1))) :=
      Continuous.tendsto (by fun_prop) r
    simpa using this
  refine squeeze_zero' (Eventually.of_forall fun x => dist_nonneg) ?_ h1
  simpa [Real.dist_eq] using hC

/-- **C58, `mcelreath2025`.**  At every real simple root of the time equation strictly within the bounds, the step
of `_solve_desired_x` stays real, is not cut by the bounds, and has order four. -/
theorem mcelreath_householder_order {P m r T : ℝ} {t1 t2 t3 : ℂ} {lo : ℝ} {hi : Option ℝ} (hP : |2 * m| < P)
    (hr : Real.cos r ≠ 1) (hroot : tofEquationFull r P m = .ok ((T : ℂ), t1, t2, t3)) (hsimple : t1 ≠ 0)
    (hlo : lo < r) (hhi : ∀ h ∈ hi, r < h) :
    ∃ C, ∀ᶠ x : ℝ in 𝓝 r, ∃ x' : ℝ, (do
      let (t, t1, t2, t3) ← tofEquationFull x P m
      householderStep x T t t1 t2 t3 lo hi) = .ok (x' : ℂ) ∧ |x' - r| ≤ C * |x - r| ^ 4 := by
  rw [tofEquationFull_real hP hr] at hroot
  have hroot := Except.ok.inj hroot
  simp only [Prod.mk.injEq] at hroot
  obtain ⟨g0, g1, -, -⟩ := hroot
  have g0 : (rFull P m r).1 = T := by exact_mod_cast g0
  have hev := eventually_ne hr
  have d1 : ∀ y, Real.cos y ≠ 1 → HasDerivAt (fun y => (rFull P m y).1) (rFull P m y).2.1 y := by
    intro y hy
    simp only [rFull_eq hP hy]
    exact (pt hP hy).dt.congr_of_eventuallyEq (by
      filter_upwards [eventually_ne hy] with z hz; rw [rFull_eq hP hz])
  have d2 : ∀ y, Real.cos y ≠ 1 → HasDerivAt (fun y => (rFull P m y).2.1) (rFull P m y).2.2.1 y := by
    intro y hy
    simp only [rFull_eq hP hy]
    exact (pt hP hy).dt1.congr_of_eventuallyEq (by
      filter_upwards [eventually_ne hy] with z hz; rw [rFull_eq hP hz])
  have d3 : ∀ y, Real.cos y ≠ 1 → HasDerivAt (fun y => (rFull P m y).2.2.1) (rFull P m y).2.2.2 y := by
    intro y hy
    simp only [rFull_eq hP hy]
    exact (pt hP hy).dt2.congr_of_eventuallyEq (by
      filter_upwards [eventually_ne hy] with z hz; rw [rFull_eq hP hz])
  obtain ⟨d, hd⟩ := t3_differentiable hP hr
  have hne : (rFull P m r).2.1 ≠ 0 := by
    intro h; apply hsimple; rw [← g1, h]; simp
  obtain ⟨hden, hord⟩ := householder_order (f := fun y => (rFull P m y).1 - T) (f1 := fun y => (rFull P m y).2.1)
    (f2 := fun y => (rFull P m y).2.2.1) (f3 := fun y => (rFull P m y).2.2.2) (r := r)
    (by filter_upwards [hev] with y hy using (d1 y hy).sub_const T)
    (by filter_upwards [hev] with y hy using d2 y hy)
    (by filter_upwards [hev] with y hy using d3 y hy) hd (by simp only [g0, sub_self]) hne
  have hin := hord.tendsto.eventually (inside_bounds hlo hhi)
  obtain ⟨C, hC⟩ := hord
  refine ⟨C, ?_⟩
  filter_upwards [hev, hden, hC, hin] with x hx hdn hc hi'
  refine ⟨_, ?_, hc⟩
  rw [tofEquationFull_real hP hx, ok_bind]
  simp only []
  generalize (rFull P m x).1 = F at *
  generalize (rFull P m x).2.1 = F1 at *
  generalize (rFull P m x).2.2.1 = F2 at *
  generalize (rFull P m x).2.2.2 = F3 at *
  have hdc : (6 * (F1 : ℂ) ^ 3 - 6 * ((F : ℂ) - T) * F1 * F2 + ((F : ℂ) - T) ^ 2 * F3) ≠ 0 := by
    intro h
    apply hdn
    have h' : (6 * F1 ^ 3 - 6 * (F - T) * F1 * F2 + (F - T) ^ 2 * F3 : ℝ) = 0 := by exact_mod_cast h
    linear_combination h' / 6
  have hx' : (x : ℂ) + -((6 * ((F : ℂ) - T) * F1 ^ 2 - 3 * ((F : ℂ) - T) ^ 2 * F2) /
      (6 * (F1 : ℂ) ^ 3 - 6 * ((F : ℂ) - T) * F1 * F2 + ((F : ℂ) - T) ^ 2 * F3)) =
      ((x - (F - T) * ((F1 ^ 2 - (F - T) * F2 / 2) / (F1 * (F1 ^ 2 - (F - T) * F2) + F3 * (F - T) ^ 2 / 6)) : ℝ) : ℂ) := by
    have e : (6 * F1 ^ 3 - 6 * (F - T) * F1 * F2 + (F - T) ^ 2 * F3 : ℝ) =
        6 * (F1 * (F1 ^ 2 - (F - T) * F2) + F3 * (F - T) ^ 2 / 6) := by ring
    have e2 : x - (F - T) * ((F1 ^ 2 - (F - T) * F2 / 2) / (F1 * (F1 ^ 2 - (F - T) * F2) + F3 * (F - T) ^ 2 / 6)) =
        x + -((6 * (F - T) * F1 ^ 2 - 3 * (F - T) ^ 2 * F2) / (6 * F1 ^ 3 - 6 * (F - T) * F1 * F2 + (F - T) ^ 2 * F3)) := by
      rw [e]
      generalize F1 * (F1 ^ 2 - (F - T) * F2) + F3 * (F - T) ^ 2 / 6 = D at *
      field_simp
      ring
    rw [e2]
    push_cast
    rfl
  unfold householderStep
  simp only []
  rw [cdiv_eq hdc, ok_bind, hx', if_neg hi']

/-- **C58, the minimum search of `mcelreath2025`.**  At every real nondegenerate critical point of the time strictly
within the bounds, the step of `_solve_minimum_x` stays real, is not cut by the bounds, and has order three. -/
theorem mcelreath_minimum_order {P m r lo hi : ℝ} {t t2 t3 : ℂ} (hP : |2 * m| < P)
    (hr : Real.cos r ≠ 1) (hroot : tofEquationFull r P m = .ok (t, 0, t2, t3)) (hsimple : t2 ≠ 0)
    (hlo : lo < r) (hhi : r < hi) :
    ∃ C, ∀ᶠ x : ℝ in 𝓝 r, ∃ x' : ℝ, (do
      let (_, t1, t2, t3) ← tofEquationFull x P m
      minimumStep x t1 t2 t3 lo hi) = .ok (x' : ℂ) ∧ |x' - r| ≤ C * |x - r| ^ 3 := by
  rw [tofEquationFull_real hP hr] at hroot
  have hroot := Except.ok.inj hroot
  simp only [Prod.mk.injEq] at hroot
  obtain ⟨-, g1, g2, -⟩ := hroot
  have g1 : (rFull P m r).2.1 = 0 := by exact_mod_cast g1
  have hev := eventually_ne hr
  have d2 : ∀ y, Real.cos y ≠ 1 → HasDerivAt (fun y => (rFull P m y).2.1) (rFull P m y).2.2.1 y := by
    intro y hy
    simp only [rFull_eq hP hy]
    exact (pt hP hy).dt1.congr_of_eventuallyEq (by
      filter_upwards [eventually_ne hy] with z hz; rw [rFull_eq hP hz])
  have d3 : ∀ y, Real.cos y ≠ 1 → HasDerivAt (fun y => (rFull P m y).2.2.1) (rFull P m y).2.2.2 y := by
    intro y hy
    simp only [rFull_eq hP hy]
    exact (pt hP hy).dt2.congr_of_eventuallyEq (by
      filter_upwards [eventually_ne hy] with z hz; rw [rFull_eq hP hz])
  obtain ⟨d, hd⟩ := t3_differentiable hP hr
  have hne : (rFull P m r).2.2.1 ≠ 0 := by
    intro h; apply hsimple; rw [← g2, h]; simp
  obtain ⟨hden, hord⟩ := halley_order (f := fun y => (rFull P m y).2.1)
    (f1 := fun y => (rFull P m y).2.2.1) (f2 := fun y => (rFull P m y).2.2.2) (r := r)
    (by filter_upwards [hev] with y hy using d2 y hy)
    (by filter_upwards [hev] with y hy using d3 y hy) hd g1 hne
  have hin := hord.tendsto.eventually (inside_bounds (hi := some hi) hlo (by simpa using hhi))
  obtain ⟨C, hC⟩ := hord
  refine ⟨C, ?_⟩
  filter_upwards [hev, hden, hC, hin] with x hx hdn hc hi'
  refine ⟨_, ?_, hc⟩
  rw [tofEquationFull_real hP hx, ok_bind]
  simp only []
  generalize (rFull P m x).2.1 = F1 at *
  generalize (rFull P m x).2.2.1 = F2 at *
  generalize (rFull P m x).2.2.2 = F3 at *
  have hdc : (2 * (F2 : ℂ) ^ 2 - F1 * F3) ≠ 0 := by
    intro h
    apply hdn
    have h' : (2 * F2 ^ 2 - F1 * F3 : ℝ) = 0 := by exact_mod_cast h
    linear_combination h' / 2
  have hx' : (x : ℂ) + -2 * F1 * F2 / (2 * (F2 : ℂ) ^ 2 - F1 * F3) =
      ((x - F1 * F2 / (F2 ^ 2 - F1 * F3 / 2) : ℝ) : ℂ) := by
    have e : (2 * F2 ^ 2 - F1 * F3 : ℝ) = 2 * (F2 ^ 2 - F1 * F3 / 2) := by ring
    have e2 : x - F1 * F2 / (F2 ^ 2 - F1 * F3 / 2) = x + -2 * F1 * F2 / (2 * F2 ^ 2 - F1 * F3) := by
      rw [e]
      generalize F2 ^ 2 - F1 * F3 / 2 = D at *
      field_simp
      ring
    rw [e2]
    push_cast
    rfl
  unfold minimumStep
  rw [cdiv_eq hdc, ok_bind, hx', if_neg hi']

/-- Non-vacuity of `mcelreath_householder_order`: `x = π`, distances with sum 2, `m = 1/2`. -/
example : ∃ T : ℝ, ∃ C, ∀ᶠ x : ℝ in 𝓝 Real.pi, ∃ x' : ℝ, (do
      let (t, t1, t2, t3) ← tofEquationFull x 2 (1 / 2 : ℝ)
      householderStep x T t t1 t2 t3 0 (some (2 * Real.pi))) = .ok (x' : ℂ) ∧ |x' - Real.pi| ≤ C * |x - Real.pi| ^ 4 := by
  have hP : |2 * (1 / 2 : ℝ)| < 2 := by norm_num
  have hr : Real.cos Real.pi ≠ 1 := by rw [Real.cos_pi]; norm_num
  have hpi := Real.pi_pos
  have h := tofEquationFull_real hP hr
  have hw : rW 2 (1 / 2) Real.pi = 1 := by
    unfold rW rAlpha
    rw [Real.cos_pi, Real.cos_pi_div_two]; norm_num
  refine ⟨_, mcelreath_householder_order hP hr h ?_ hpi (by intro h hh; simp at hh; rw [← hh]; linarith)⟩
  rw [rFull_eq hP hr, hw]
  simp only [t1, tt, u3, a1, Real.sin_pi_div_two, Real.cos_pi_div_two, Real.sin_pi, Real.cos_pi]
  norm_num
  intro h
  have : (Real.pi * 3 + 17 : ℝ) = 0 := by
    have h' : ((Real.pi * 3 + 17 : ℝ) : ℂ) = 0 := by
      push_cast
      linear_combination 8 * h
    exact_mod_cast h'
  linarith

/-- Non-vacuity of `mcelreath_minimum_order`: one revolution, critical point `3π`. -/
example : ∃ m : ℝ, ∃ C, ∀ᶠ x : ℝ in 𝓝 (3 * Real.pi), ∃ x' : ℝ, (do
      let (_, t1, t2, t3) ← tofEquationFull x 2 m
      minimumStep x t1 t2 t3 (2 * Real.pi) (4 * Real.pi)) = .ok (x' : ℂ) ∧ |x' - 3 * Real.pi| ≤ C * |x - 3 * Real.pi| ^ 3 := by
  have hpi := Real.pi_gt_three
  have hpi4 := Real.pi_lt_four
  obtain ⟨q, hq0, hq⟩ : ∃ q : ℝ, 0 ≤ q ∧ q ^ 2 = (9 * Real.pi / 4) ^ 2 - 4 :=
    ⟨Real.sqrt ((9 * Real.pi / 4) ^ 2 - 4), Real.sqrt_nonneg _, Real.sq_sqrt (by nlinarith)⟩
  obtain ⟨m, hm⟩ : ∃ m, m = 9 * Real.pi / 4 - q := ⟨_, rfl⟩
  have heq : m ^ 2 - 9 * Real.pi / 2 * m + 4 = 0 := by rw [hm]; linear_combination hq
  have hm0 : 0 < m := by
    rw [hm, sub_pos]
    exact lt_of_pow_lt_pow_left₀ 2 (by positivity) (by rw [hq]; linarith)
  have hm1 : m < 1 / 2 := by
    rw [hm, sub_lt_comm]
    exact lt_of_pow_lt_pow_left₀ 2 hq0 (by rw [hq]; nlinarith)
  have hP : |2 * m| < 2 := by rw [abs_of_pos (by linarith)]; linarith
  have hc3 : Real.cos (3 * Real.pi) = -1 := by
    rw [show 3 * Real.pi = Real.pi + 2 * Real.pi by ring, Real.cos_add_two_pi, Real.cos_pi]
  have hs3 : Real.sin (3 * Real.pi) = 0 := by
    rw [show 3 * Real.pi = Real.pi + 2 * Real.pi by ring, Real.sin_add_two_pi, Real.sin_pi]
  have hch : Real.cos (3 * Real.pi / 2) = 0 := by
    rw [show 3 * Real.pi / 2 = Real.pi / 2 + Real.pi by ring, Real.cos_add_pi, Real.cos_pi_div_two, neg_zero]
  have hsh : Real.sin (3 * Real.pi / 2) = -1 := by
    rw [show 3 * Real.pi / 2 = Real.pi / 2 + Real.pi by ring, Real.sin_add_pi, Real.sin_pi_div_two]
  have hr : Real.cos (3 * Real.pi) ≠ 1 := by rw [hc3]; norm_num
  have hw : rW 2 m (3 * Real.pi) = 1 := by
    unfold rW rAlpha
    rw [hc3, hch]; norm_num
  have h := tofEquationFull_real hP hr
  have e1 : (rFull 2 m (3 * Real.pi)).2.1 = 0 := by
    rw [rFull_eq hP hr, hw]
    simp only [t1, tt, u3, a1, hsh, hch, hs3, hc3]
    norm_num
    linear_combination heq / 2
  have e2 : (rFull 2 m (3 * Real.pi)).2.2.1 ≠ 0 := by
    rw [rFull_eq hP hr, hw]
    simp only [t2, t1, tt, u3, a2, a1, hsh, hch, hs3, hc3]
    have key : 0 < -(3 / 4 * (3 * Real.pi - 2 * m) * (m / 2) ^ 2) + m / 2 +
        ((3 * Real.pi - 2 * m) / 2 + 3 * Real.pi) * (1 - m ^ 2) / 2 := by
      have k1 : (m / 2) ^ 2 ≤ 1 / 16 := by nlinarith
      have k2 : 3 / 4 ≤ 1 - m ^ 2 := by nlinarith
      have k3 : 0 < 3 * Real.pi - 2 * m := by linarith
      have k4 := mul_le_mul_of_nonneg_left k1 k3.le
      have k5 := mul_le_mul_of_nonneg_left k2 (by linarith : 0 ≤ (3 * Real.pi - 2 * m) / 2 + 3 * Real.pi)
      nlinarith
    intro h
    have : -(3 / 4 * (3 * Real.pi - 2 * m) * (m / 2) ^ 2) + m / 2 +
        ((3 * Real.pi - 2 * m) / 2 + 3 * Real.pi) * (1 - m ^ 2) / 2 = 0 := by
      rw [← h]
      norm_num
      linear_combination (3 / 4 * m) * heq
    linarith
  rw [e1] at h
  exact ⟨m, mcelreath_minimum_order hP hr (by simpa using h) (by exact_mod_cast e2) (by linarith) (by linarith)⟩

end Lamberthub
