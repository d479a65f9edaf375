import Verif.Props.OrderLoops
import Verif.Props.Negrete
import Verif.Proofs.TimeMono

/-! # The zero-revolution search of `mcelreath2025` above the parabolic time -/

set_option autoImplicit false

namespace Lamberthub
open Filter Topology Spec LC

namespace McElreath
variable {P m x : ℝ}

theorem sinh_pos_of (h0 : 0 < x) (h1 : x < 2 * Real.pi) : 0 < Real.sin (x / 2) :=
  Real.sin_pos_of_pos_of_lt_pi (by linarith) (by linarith)

theorem cos_ne_of (h0 : 0 < x) (h1 : x < 2 * Real.pi) : Real.cos x ≠ 1 := by
  intro h
  have h2 := one_sub_cos x
  have h3 := sinh_pos_of h0 h1
  rw [h] at h2
  have : 0 < Real.sin (x / 2) ^ 2 := by positivity
  linarith

theorem rT_deriv (hP : |2 * m| < P) (hy : Real.cos x ≠ 1) :
    HasDerivAt (fun y => (rFull P m y).1) (rFull P m x).2.1 x := by
  simp only [rFull_eq hP hy]
  exact (pt hP hy).dt.congr_of_eventuallyEq (by
    filter_upwards [eventually_ne hy] with z hz; rw [rFull_eq hP hz])

theorem rT1_deriv (hP : |2 * m| < P) (hy : Real.cos x ≠ 1) :
    HasDerivAt (fun y => (rFull P m y).2.1) (rFull P m x).2.2.1 x := by
  simp only [rFull_eq hP hy]
  exact (pt hP hy).dt1.congr_of_eventuallyEq (by
    filter_upwards [eventually_ne hy] with z hz; rw [rFull_eq hP hz])

theorem rT2_deriv (hP : |2 * m| < P) (hy : Real.cos x ≠ 1) :
    HasDerivAt (fun y => (rFull P m y).2.2.1) (rFull P m x).2.2.2 x := by
  simp only [rFull_eq hP hy]
  exact (pt hP hy).dt2.congr_of_eventuallyEq (by
    filter_upwards [eventually_ne hy] with z hz; rw [rFull_eq hP hz])

theorem rW_eq (h0 : 0 < x) (h1 : x < 2 * Real.pi) :
    rW P m x = Real.sqrt 2 * Real.sin (x / 2) / Real.sqrt (P - 2 * m * Real.cos (x / 2)) := by
  have hs := sinh_pos_of h0 h1
  unfold rW rAlpha
  rw [one_sub_cos, Real.sqrt_div (by positivity), Real.sqrt_mul (by norm_num), Real.sqrt_sq hs.le]

/-- The time of the code in the variable of the core. -/
theorem time_tE (hP : |2 * m| < P) (h0 : 0 < x) (h1 : x < 2 * Real.pi) :
    Real.sqrt 2 * (rFull P m x).1 = tE P (2 * m) (x / 2) := by
  have hs := sinh_pos_of h0 h1
  have hV := V_pos (x := x) hP
  have hr2 : Real.sqrt 2 ^ 2 = 2 := Real.sq_sqrt (by norm_num)
  have hr2p : 0 < Real.sqrt 2 := by positivity
  have hx2 : 2 * (x / 2) = x := by ring
  rw [rFull_eq hP (cos_ne_of h0 h1), tE, hx2, rW_eq h0 h1]
  unfold tt u3
  simp only []
  generalize P - 2 * m * Real.cos (x / 2) = V at *
  generalize Real.sin (x / 2) = s at *
  have hq := Real.sq_sqrt hV.le
  have hqp := Real.sqrt_pos.2 hV
  generalize Real.sqrt V = q at *
  rw [← hq]
  generalize x - Real.sin x = d at *
  generalize Real.sqrt 2 = w at *
  have e1 : 2 * m * s / (w * s / q) = 2 * m * q / w := by field_simp
  have e2 : d / (w * s / q) ^ 3 = d * q ^ 3 / (w ^ 3 * s ^ 3) := by field_simp
  have e3 : w ^ 3 = 2 * w := by rw [pow_succ, hr2]
  rw [e1, e2, e3]
  field_simp
  ring

theorem time1_pos (hP : |2 * m| < P) (h0 : 0 < x) (h1 : x < 2 * Real.pi) : 0 < (rFull P m x).2.1 := by
  have hs := sinh_pos_of h0 h1
  have hV := V_pos (x := x) hP
  have hr2p : 0 < Real.sqrt 2 := by positivity
  have d1 := (rT_deriv hP (cos_ne_of h0 h1)).const_mul (Real.sqrt 2)
  have d2 := (tE_deriv (P := P) (B := 2 * m) hs.ne' hV).comp x ((hasDerivAt_id x).div_const 2)
  have hev : (fun y => Real.sqrt 2 * (rFull P m y).1) =ᶠ[𝓝 x] (tE P (2 * m) ∘ fun y => id y / 2) := by
    filter_upwards [eventually_gt_nhds h0, eventually_lt_nhds h1] with y a b
    simp [time_tE hP a b]
  have e := d1.unique (d2.congr_of_eventuallyEq hev)
  have hq := quad_ell (φ := x / 2) (V := P - 2 * m * Real.cos (x / 2)) (B := 2 * m) (by linarith) (by linarith) hV
    (by linarith)
  have hqp := Real.sqrt_pos.2 hV
  have : 0 < Real.sqrt 2 * (rFull P m x).2.1 := by
    rw [e]
    positivity
  exact (mul_pos_iff_of_pos_left hr2p).1 this

theorem time_mono (hP : |2 * m| < P) : StrictMonoOn (fun x => (rFull P m x).1) (Set.Ioo 0 (2 * Real.pi)) := by
  apply strictMonoOn_of_deriv_pos (convex_Ioo _ _)
  · exact fun x hx => (rT_deriv hP (cos_ne_of hx.1 hx.2)).continuousAt.continuousWithinAt
  · intro x hx
    rw [interior_Ioo] at hx
    rw [(rT_deriv hP (cos_ne_of hx.1 hx.2)).deriv]
    exact time1_pos hP hx.1 hx.2

/-- A step within the bounds. -/
theorem householderStep_real {T F F1 F2 F3 lo hi x' : ℝ} (hd : 6 * F1 ^ 3 - 6 * (F - T) * F1 * F2 + (F - T) ^ 2 * F3 ≠ 0)
    (hx' : x' = x - (6 * (F - T) * F1 ^ 2 - 3 * (F - T) ^ 2 * F2) / (6 * F1 ^ 3 - 6 * (F - T) * F1 * F2 + (F - T) ^ 2 * F3))
    (h1 : lo ≤ x') (h2 : x' ≤ hi) : householderStep x T F F1 F2 F3 lo (some hi) = .ok (x' : ℂ) := by
  have hdc : (6 * (F1 : ℂ) ^ 3 - 6 * ((F : ℂ) - T) * F1 * F2 + ((F : ℂ) - T) ^ 2 * F3) ≠ 0 := by exact_mod_cast hd
  have e : (x : ℂ) + -((6 * ((F : ℂ) - T) * F1 ^ 2 - 3 * ((F : ℂ) - T) ^ 2 * F2) /
      (6 * (F1 : ℂ) ^ 3 - 6 * ((F : ℂ) - T) * F1 * F2 + ((F : ℂ) - T) ^ 2 * F3)) = (x' : ℂ) := by
    rw [hx']; push_cast; ring
  unfold householderStep
  simp only []
  rw [cdiv_eq hdc, ok_bind, e, if_neg]
  rintro (⟨h, hh, hc⟩ | hc)
  · simp only [Option.mem_def, Option.some.injEq] at hh
    rw [← hh, Complex.ofReal_re, Complex.ofReal_im] at hc
    linarith
  · rw [Complex.ofReal_re, Complex.ofReal_im] at hc
    linarith

/-- The value returned when the test is met. -/
theorem desiredLoop_stop {T tol x' : ℝ} {k n : ℕ} (hP : |2 * m| < P) (hx : Real.cos x ≠ 1)
    (hs : householderStep x T (rFull P m x).1 (rFull P m x).2.1 (rFull P m x).2.2.1 (rFull P m x).2.2.2 0
      (some (2 * Real.pi)) = .ok (x' : ℂ)) (h0 : 0 < x' + 2 * Real.pi) (ht : |x' - x| < tol * (x' + 2 * Real.pi)) :
    desiredLoop T P m 0 0 (some (2 * Real.pi)) tol (k + 1) n x = .ok ((x' : ℂ), n) := by
  have e : ((x' : ℂ) - (2 * Real.pi * (0 : ℕ) : ℝ) + (2 * Real.pi : ℝ)) = ((x' + 2 * Real.pi : ℝ) : ℂ) := by
    push_cast; ring
  rw [desiredLoop, tofEquationFull_real hP hx, ok_bind]
  simp only []
  rw [hs, ok_bind, e, cdiv_eq (by exact_mod_cast h0.ne'), ok_bind, if_pos]
  · congr 2
    unfold cleanRoot
    rw [Complex.ofReal_im, Complex.ofReal_re]
    simp
  · rw [← Complex.ofReal_sub, ← Complex.ofReal_div, Complex.norm_real, Real.norm_eq_abs, abs_div, abs_of_pos h0,
      div_lt_iff₀ h0]
    exact ht

theorem desiredLoop_go {T tol x' : ℝ} {k n : ℕ} (hP : |2 * m| < P) (hx : Real.cos x ≠ 1)
    (hs : householderStep x T (rFull P m x).1 (rFull P m x).2.1 (rFull P m x).2.2.1 (rFull P m x).2.2.2 0
      (some (2 * Real.pi)) = .ok (x' : ℂ)) (h0 : 0 < x' + 2 * Real.pi) (ht : ¬ |x' - x| < tol * (x' + 2 * Real.pi)) :
    desiredLoop T P m 0 0 (some (2 * Real.pi)) tol (k + 1) n x =
      desiredLoop T P m 0 0 (some (2 * Real.pi)) tol k (n + 1) x' := by
  have e : ((x' : ℂ) - (2 * Real.pi * (0 : ℕ) : ℝ) + (2 * Real.pi : ℝ)) = ((x' + 2 * Real.pi : ℝ) : ℂ) := by
    push_cast; ring
  rw [desiredLoop, tofEquationFull_real hP hx, ok_bind]
  simp only []
  rw [hs, ok_bind, e, cdiv_eq (by exact_mod_cast h0.ne'), ok_bind, if_neg]
  rw [← Complex.ofReal_sub, ← Complex.ofReal_div, Complex.norm_real, Real.norm_eq_abs, abs_div, abs_of_pos h0,
    div_lt_iff₀ h0]
  exact ht

/-- Householder's step for `F = F r` halves the distance to `r`, for all `x`, `r` near a point where `F' ≠ 0`. -/
theorem step_near {F F1 F2 F3 : ℝ → ℝ} {x0 : ℝ} (d : ∀ᶠ y in 𝓝 x0, HasDerivAt F (F1 y) y) (c1 : ContinuousAt F1 x0)
    (c2 : ContinuousAt F2 x0) (c3 : ContinuousAt F3 x0) (hne : F1 x0 ≠ 0) :
    ∃ δ > 0, ∀ x r, |x - x0| < δ → |r - x0| < δ →
      6 * F1 x ^ 3 - 6 * (F x - F r) * F1 x * F2 x + (F x - F r) ^ 2 * F3 x ≠ 0 ∧
      |x - (6 * (F x - F r) * F1 x ^ 2 - 3 * (F x - F r) ^ 2 * F2 x) /
        (6 * F1 x ^ 3 - 6 * (F x - F r) * F1 x * F2 x + (F x - F r) ^ 2 * F3 x) - r| ≤ |x - r| / 2 ∧
      |F x - F r| ≤ 2 * |F1 x0| * |x - r| := by
  have c0 : ContinuousAt F x0 := d.self_of_nhds.continuousAt
  have k1 : ContinuousAt (fun p : ℝ × ℝ × ℝ => p.1) (x0, x0, x0) := continuousAt_fst
  have k2 : ContinuousAt (fun p : ℝ × ℝ × ℝ => p.2.1) (x0, x0, x0) := by fun_prop
  have k3 : ContinuousAt (fun p : ℝ × ℝ × ℝ => p.2.2) (x0, x0, x0) := by fun_prop
  have f0 : ContinuousAt (fun p : ℝ × ℝ × ℝ => F p.1 - F p.2.1) (x0, x0, x0) :=
    (ContinuousAt.comp (g := F) (x := (x0, x0, x0)) c0 k1).sub (ContinuousAt.comp (g := F) (x := (x0, x0, x0)) c0 k2)
  have f1 : ContinuousAt (fun p : ℝ × ℝ × ℝ => F1 p.1) (x0, x0, x0) := ContinuousAt.comp (g := F1) (x := (x0, x0, x0)) c1 k1
  have f2 : ContinuousAt (fun p : ℝ × ℝ × ℝ => F2 p.1) (x0, x0, x0) := ContinuousAt.comp (g := F2) (x := (x0, x0, x0)) c2 k1
  have f3 : ContinuousAt (fun p : ℝ × ℝ × ℝ => F3 p.1) (x0, x0, x0) := ContinuousAt.comp (g := F3) (x := (x0, x0, x0)) c3 k1
  have g1 : ContinuousAt (fun p : ℝ × ℝ × ℝ => F1 p.2.2) (x0, x0, x0) := ContinuousAt.comp (g := F1) (x := (x0, x0, x0)) c1 k3
  have hden : ContinuousAt (fun p : ℝ × ℝ × ℝ => 6 * F1 p.1 ^ 3 - 6 * (F p.1 - F p.2.1) * F1 p.1 * F2 p.1 +
      (F p.1 - F p.2.1) ^ 2 * F3 p.1) (x0, x0, x0) := by fun_prop
  have hd0 : 6 * F1 x0 ^ 3 - 6 * (F x0 - F x0) * F1 x0 * F2 x0 + (F x0 - F x0) ^ 2 * F3 x0 ≠ 0 := by
    rw [sub_self]; simp [hne]
  have hphi : ContinuousAt (fun p : ℝ × ℝ × ℝ => 1 - F1 p.2.2 * ((6 * F1 p.1 ^ 2 - 3 * (F p.1 - F p.2.1) * F2 p.1) /
      (6 * F1 p.1 ^ 3 - 6 * (F p.1 - F p.2.1) * F1 p.1 * F2 p.1 + (F p.1 - F p.2.1) ^ 2 * F3 p.1))) (x0, x0, x0) :=
    continuousAt_const.sub (g1.mul (ContinuousAt.div (by fun_prop) hden hd0))
  have ev1 := hden.eventually_ne hd0
  have ev2 := hphi.abs.eventually_lt_const (u := (1 / 2 : ℝ)) (by
    simp only [sub_self]
    rw [show 1 - F1 x0 * ((6 * F1 x0 ^ 2 - 3 * 0 * F2 x0) / (6 * F1 x0 ^ 3 - 6 * 0 * F1 x0 * F2 x0 + 0 ^ 2 * F3 x0)) = 0 by
      field_simp; ring]
    norm_num)
  have ev3 := g1.abs.eventually_lt_const (u := 2 * |F1 x0|) (by have := abs_pos.2 hne; linarith)
  obtain ⟨δ1, hδ1, hb1⟩ := Metric.eventually_nhds_iff.1 (ev1.and (ev2.and ev3))
  obtain ⟨δ2, hδ2, hb2⟩ := Metric.eventually_nhds_iff.1 d
  refine ⟨min δ1 δ2, lt_min hδ1 hδ2, fun x r hx hr => ?_⟩
  have key : ∀ ξ, |ξ - x0| < min δ1 δ2 → F x - F r = F1 ξ * (x - r) →
      6 * F1 x ^ 3 - 6 * (F x - F r) * F1 x * F2 x + (F x - F r) ^ 2 * F3 x ≠ 0 ∧
      |x - (6 * (F x - F r) * F1 x ^ 2 - 3 * (F x - F r) ^ 2 * F2 x) /
        (6 * F1 x ^ 3 - 6 * (F x - F r) * F1 x * F2 x + (F x - F r) ^ 2 * F3 x) - r| ≤ |x - r| / 2 ∧
      |F x - F r| ≤ 2 * |F1 x0| * |x - r| := by
    intro ξ hξ he
    obtain ⟨p1, p2, p3⟩ := hb1 (y := (x, r, ξ)) (by
      simp only [Prod.dist_eq, Real.dist_eq]
      exact max_lt (hx.trans_le (min_le_left _ _)) (max_lt (hr.trans_le (min_le_left _ _)) (hξ.trans_le (min_le_left _ _))))
    simp only [] at p1 p2 p3
    refine ⟨p1, ?_, ?_⟩
    · have : x - (6 * (F x - F r) * F1 x ^ 2 - 3 * (F x - F r) ^ 2 * F2 x) /
          (6 * F1 x ^ 3 - 6 * (F x - F r) * F1 x * F2 x + (F x - F r) ^ 2 * F3 x) - r =
          (1 - F1 ξ * ((6 * F1 x ^ 2 - 3 * (F x - F r) * F2 x) /
            (6 * F1 x ^ 3 - 6 * (F x - F r) * F1 x * F2 x + (F x - F r) ^ 2 * F3 x))) * (x - r) := by
        generalize 6 * F1 x ^ 3 - 6 * (F x - F r) * F1 x * F2 x + (F x - F r) ^ 2 * F3 x = D at *
        field_simp
        linear_combination (-6 * F1 x ^ 2 + 3 * (F x - F r) * F2 x) * he
      rw [this, abs_mul]
      have := mul_le_mul_of_nonneg_right p2.le (abs_nonneg (x - r))
      linarith
    · rw [he, abs_mul]
      exact mul_le_mul_of_nonneg_right p3.le (abs_nonneg _)
  have hD : ∀ y, |y - x0| < min δ1 δ2 → HasDerivAt F (F1 y) y := fun y hy =>
    hb2 (by rw [Real.dist_eq]; exact hy.trans_le (min_le_right _ _))
  have hbt : ∀ a b ξ, |a - x0| < min δ1 δ2 → |b - x0| < min δ1 δ2 → a ≤ ξ → ξ ≤ b → |ξ - x0| < min δ1 δ2 := by
    intro a b ξ ha hb h1 h2
    rw [abs_lt] at *
    constructor <;> linarith
  rcases lt_trichotomy x r with h | h | h
  · obtain ⟨ξ, hξ, he⟩ := exists_hasDerivAt_eq_slope F F1 h
      (fun y hy => (hD y (hbt x r y hx hr hy.1 hy.2)).continuousAt.continuousWithinAt)
      (fun y hy => hD y (hbt x r y hx hr hy.1.le hy.2.le))
    refine key ξ (hbt x r ξ hx hr hξ.1.le hξ.2.le) ?_
    rw [he]
    have : r - x ≠ 0 := by linarith
    field_simp
    ring
  · exact key x hx (by rw [h]; ring)
  · obtain ⟨ξ, hξ, he⟩ := exists_hasDerivAt_eq_slope F F1 h
      (fun y hy => (hD y (hbt r x y hr hx hy.1 hy.2)).continuousAt.continuousWithinAt)
      (fun y hy => hD y (hbt r x y hr hx hy.1.le hy.2.le))
    refine key ξ (hbt r x ξ hr hx hξ.1.le hξ.2.le) ?_
    rw [he]
    have : x - r ≠ 0 := by linarith
    field_simp

/-- The loop, for all roots and starts near a point of `(0, 2π)`. -/
theorem desired_near (hP : |2 * m| < P) {x0 : ℝ} (h0 : 0 < x0) (h1 : x0 < 2 * Real.pi) :
    ∃ δ > 0, δ < x0 ∧ x0 + δ < 2 * Real.pi ∧ ∃ C, ∀ tol : ℝ, 0 < tol → ∃ N : ℕ, ∀ r x k n, |r - x0| < δ → |x - x0| < δ → N ≤ k →
      ∃ (x' : ℝ) (n' : ℕ), desiredLoop (rFull P m r).1 P m 0 0 (some (2 * Real.pi)) tol k n x = .ok ((x' : ℂ), n') ∧
        n ≤ n' ∧ 0 < x' ∧ x' < 2 * Real.pi ∧ |(rFull P m x').1 - (rFull P m r).1| ≤ C * tol := by
  have hpi := Real.pi_pos
  have hc := cos_ne_of h0 h1
  obtain ⟨d, hd⟩ := t3_differentiable hP hc
  obtain ⟨δ0, hδ0, hst⟩ := step_near (F := fun y => (rFull P m y).1) (F1 := fun y => (rFull P m y).2.1)
    (F2 := fun y => (rFull P m y).2.2.1) (F3 := fun y => (rFull P m y).2.2.2) (x0 := x0)
    (by filter_upwards [eventually_ne hc] with y hy using rT_deriv hP hy)
    (rT1_deriv hP hc).continuousAt (rT2_deriv hP hc).continuousAt hd.continuousAt (time1_pos hP h0 h1).ne'
  obtain ⟨η, hη⟩ : ∃ η, η = min δ0 (min x0 (2 * Real.pi - x0)) := ⟨_, rfl⟩
  have hη0 : 0 < η := by rw [hη]; exact lt_min hδ0 (lt_min h0 (by linarith))
  have hη1 : η ≤ δ0 := by rw [hη]; exact min_le_left _ _
  have hη2 : η ≤ x0 := by rw [hη]; exact (min_le_right _ _).trans (min_le_left _ _)
  have hη3 : η ≤ 2 * Real.pi - x0 := by rw [hη]; exact (min_le_right _ _).trans (min_le_right _ _)
  refine ⟨η / 3, by positivity, by linarith, by linarith, 2 * |(rFull P m x0).2.1| * (4 * Real.pi), fun tol htol => ?_⟩
  obtain ⟨j, hj⟩ := pow_unbounded_of_one_lt (η / (tol * Real.pi)) (one_lt_two : (1 : ℝ) < 2)
  rw [div_lt_iff₀ (by positivity)] at hj
  have main : ∀ j : ℕ, ∀ r x k n, |r - x0| < η / 3 → |x - r| < 2 * η / 3 → |x - r| < 2 ^ j * (tol * Real.pi) → j + 1 ≤ k →
      ∃ (x' : ℝ) (n' : ℕ), desiredLoop (rFull P m r).1 P m 0 0 (some (2 * Real.pi)) tol k n x = .ok ((x' : ℂ), n') ∧
        n ≤ n' ∧ 0 < x' ∧ x' < 2 * Real.pi ∧
        |(rFull P m x').1 - (rFull P m r).1| ≤ 2 * |(rFull P m x0).2.1| * (4 * Real.pi) * tol := by
    intro j
    induction j with
    | zero =>
      intro r x k n hr hx hxj hk
      obtain ⟨k, rfl⟩ : ∃ i, k = i + 1 := ⟨k - 1, by omega⟩
      have hxx : |x - x0| < η := by
        have := abs_sub_le x r x0
        linarith
      obtain ⟨s1, s2, -⟩ := hst x r (hxx.trans_le hη1) (by linarith)
      obtain ⟨x', hx'⟩ : ∃ x', x' = x - (6 * ((rFull P m x).1 - (rFull P m r).1) * (rFull P m x).2.1 ^ 2 -
          3 * ((rFull P m x).1 - (rFull P m r).1) ^ 2 * (rFull P m x).2.2.1) / (6 * (rFull P m x).2.1 ^ 3 -
          6 * ((rFull P m x).1 - (rFull P m r).1) * (rFull P m x).2.1 * (rFull P m x).2.2.1 +
          ((rFull P m x).1 - (rFull P m r).1) ^ 2 * (rFull P m x).2.2.2) := ⟨_, rfl⟩
      rw [← hx'] at s2
      have hx'0 : |x' - x0| < η := by
        have := abs_sub_le x' r x0
        linarith
      obtain ⟨a1, a2⟩ := abs_lt.1 hx'0
      obtain ⟨b1, b2⟩ := abs_lt.1 hxx
      have hstep := householderStep_real (x := x) (lo := 0) (hi := 2 * Real.pi) s1 hx' (by linarith) (by linarith)
      have hmv : |x' - x| ≤ 3 / 2 * |x - r| := by
        have := abs_sub_le x' r x
        rw [abs_sub_comm r x] at this
        linarith
      refine ⟨x', n, desiredLoop_stop hP (cos_ne_of (by linarith) (by linarith)) hstep (by linarith) ?_, le_rfl,
        by linarith, by linarith, ?_⟩
      · have : tol * (2 * Real.pi) < tol * (x' + 2 * Real.pi) := mul_lt_mul_of_pos_left (by linarith) htol
        rw [pow_zero, one_mul] at hxj
        nlinarith
      · obtain ⟨-, -, s3⟩ := hst x' r (hx'0.trans_le hη1) (by linarith)
        refine s3.trans ?_
        rw [mul_assoc (2 * |(rFull P m x0).2.1|)]
        refine mul_le_mul_of_nonneg_left ?_ (by positivity)
        rw [pow_zero, one_mul] at hxj
        nlinarith
    | succ j ih =>
      intro r x k n hr hx hxj hk
      obtain ⟨k, rfl⟩ : ∃ i, k = i + 1 := ⟨k - 1, by omega⟩
      have hxx : |x - x0| < η := by
        have := abs_sub_le x r x0
        linarith
      obtain ⟨s1, s2, -⟩ := hst x r (hxx.trans_le hη1) (by linarith)
      obtain ⟨x', hx'⟩ : ∃ x', x' = x - (6 * ((rFull P m x).1 - (rFull P m r).1) * (rFull P m x).2.1 ^ 2 -
          3 * ((rFull P m x).1 - (rFull P m r).1) ^ 2 * (rFull P m x).2.2.1) / (6 * (rFull P m x).2.1 ^ 3 -
          6 * ((rFull P m x).1 - (rFull P m r).1) * (rFull P m x).2.1 * (rFull P m x).2.2.1 +
          ((rFull P m x).1 - (rFull P m r).1) ^ 2 * (rFull P m x).2.2.2) := ⟨_, rfl⟩
      rw [← hx'] at s2
      have hx'0 : |x' - x0| < η := by
        have := abs_sub_le x' r x0
        linarith
      obtain ⟨a1, a2⟩ := abs_lt.1 hx'0
      obtain ⟨b1, b2⟩ := abs_lt.1 hxx
      have hstep := householderStep_real (x := x) (lo := 0) (hi := 2 * Real.pi) s1 hx' (by linarith) (by linarith)
      have hcx := cos_ne_of (x := x) (by linarith) (by linarith)
      by_cases ht : |x' - x| < tol * (x' + 2 * Real.pi)
      · refine ⟨x', n, desiredLoop_stop hP hcx hstep (by linarith) ht, le_rfl, by linarith, by linarith, ?_⟩
        obtain ⟨-, -, s3⟩ := hst x' r (hx'0.trans_le hη1) (by linarith)
        refine s3.trans ?_
        rw [mul_assoc (2 * |(rFull P m x0).2.1|)]
        refine mul_le_mul_of_nonneg_left ?_ (by positivity)
        have h5 := abs_sub_le x x' r
        rw [abs_sub_comm x x'] at h5
        have : tol * (x' + 2 * Real.pi) ≤ tol * (4 * Real.pi) := mul_le_mul_of_nonneg_left (by linarith) htol.le
        linarith
      · rw [desiredLoop_go hP hcx hstep (by linarith) ht]
        obtain ⟨y, n', e, g1, g2⟩ := ih r x' k (n + 1) hr (by linarith [abs_nonneg (x - r)])
          (by rw [pow_succ] at hxj; linarith) (by omega)
        exact ⟨y, n', e, by omega, g2⟩
  refine ⟨j + 1, fun r x k n hr hx hk => main j r x k n hr ?_ ?_ hk⟩
  · have := abs_sub_le x x0 r
    rw [abs_sub_comm x0 r] at this
    linarith
  · have := abs_sub_le x x0 r
    rw [abs_sub_comm x0 r] at this
    linarith

end McElreath
end Lamberthub
