import Verif.Props.PanReach
import Verif.Proofs.RoundTrip

/-! # C26: `pan2016` returns one and the same transfer for a wide range of times of flight -/

set_option autoImplicit false

namespace Lamberthub
open Spec LC Pan

namespace Pan

/-- The semi-major axis at the apse line `-π + ε`, for positions at distances `R` and `2R` a
three-quarter turn apart. -/
noncomputable def axisAt (R ε : ℝ) : ℝ :=
  2 * R * (Real.cos ε + 2 * Real.sin ε) * (Real.cos ε + Real.sin ε) /
    (Real.sin ε * (4 * Real.cos ε + 3 * Real.sin ε))

/-- Simple bounds for small angles. -/
theorem small_angle {ε : ℝ} (h0 : 0 < ε) (h1 : ε ≤ 0.01) :
    ε - ε ^ 3 / 4 < Real.sin ε ∧ Real.sin ε < ε ∧ 1 - ε ^ 2 / 2 ≤ Real.cos ε ∧ Real.cos ε ≤ 1 :=
  ⟨by
    have := Real.sin_gt_sub_cube h0
    have := pow_pos h0 3
    linarith, Real.sin_lt h0, Real.one_sub_sq_div_two_le_cos, Real.cos_le_one _⟩

theorem elementsAt_eq {r1 r2 : V3} {θ : ℝ} {g : Geometry} (hP : Plane r1 r2 θ g) (hR : 1 ≤ V3.norm r1)
    (h2 : V3.norm r2 = 2 * V3.norm r1) (hc : Real.cos θ = 0) (hs : Real.sin θ = -1) {ε : ℝ} (h0 : 1e-8 ≤ ε)
    (h1 : ε ≤ 0.01) :
    elementsAtOmega g (-Real.pi + ε) = .ok ⟨axisAt (V3.norm r1) ε, 1 / (Real.cos ε + 2 * Real.sin ε), ε, -ε,
      -(Real.pi / 2) - ε⟩ := by
  have h0' : 0 < ε := lt_of_lt_of_le (by norm_num) h0
  obtain ⟨s1, s2, c1, c2⟩ := small_angle h0' h1
  have hsin : 0.99 * ε ≤ Real.sin ε := by nlinarith [mul_pos h0' h0']
  have hcos : 0.99 ≤ Real.cos ε := by nlinarith
  have cw : Real.cos (-Real.pi + ε) = -Real.cos ε := by
    rw [show -Real.pi + ε = ε - Real.pi by ring, Real.cos_sub_pi]
  have sw : Real.sin (-Real.pi + ε) = -Real.sin ε := by
    rw [show -Real.pi + ε = ε - Real.pi by ring, Real.sin_sub_pi]
  have sq := Real.sin_sq_add_cos_sq ε
  unfold elementsAtOmega
  simp only [hP.n1, hP.n2, hP.xc, hP.yc, hP.x1, hP.x2, hP.y1, hP.y2, h2, hc, hs, cw, sw]
  have ha1 : arctan2 0 (V3.norm r1) = 0 := by
    unfold arctan2
    have : (⟨V3.norm r1, 0⟩ : ℂ) = ((V3.norm r1 : ℝ) : ℂ) := rfl
    rw [this, Complex.arg_ofReal_of_nonneg (by linarith)]
  have ha2 : arctan2 (2 * V3.norm r1 * -1) (2 * V3.norm r1 * 0) = -(Real.pi / 2) := by
    rw [arctan2_scale (by linarith)]
    unfold arctan2
    rw [show (⟨0, -1⟩ : ℂ) = -Complex.I by apply Complex.ext <;> simp, Complex.arg_neg_I]
  rw [ha1, ha2]
  generalize V3.norm r1 = R at *
  have hd : (2 * R * 0 - R) * -Real.cos ε + 2 * R * -1 * -Real.sin ε = R * (Real.cos ε + 2 * Real.sin ε) := by ring
  rw [hd]
  have hdp : 0.99 ≤ Real.cos ε + 2 * Real.sin ε := by linarith
  have hRd : 0.99 ≤ R * (Real.cos ε + 2 * Real.sin ε) := by nlinarith
  have hden : (R - 2 * R) ^ 2 - (R * (Real.cos ε + 2 * Real.sin ε)) ^ 2 =
      -(R ^ 2 * (Real.sin ε * (4 * Real.cos ε + 3 * Real.sin ε))) := by linear_combination (-R ^ 2) * sq
  have hdpos : 3.9 * ε ≤ Real.sin ε * (4 * Real.cos ε + 3 * Real.sin ε) := by nlinarith
  have hR2 : 3.9 * ε ≤ R ^ 2 * (Real.sin ε * (4 * Real.cos ε + 3 * Real.sin ε)) :=
    hdpos.trans (le_mul_of_one_le_left (by linarith) (one_le_pow₀ hR))
  rw [hden, raiseIf_neg _ (by rw [abs_of_pos (by linarith)]; linarith), ok_bind, pdiv_eq (by linarith), ok_bind,
    raiseIf_neg _ (by rw [abs_neg, abs_of_pos (by linarith)]; linarith), ok_bind, pdiv_eq (by linarith), ok_bind]
  have hecc : (R - 2 * R) / (R * (Real.cos ε + 2 * Real.sin ε)) = -(1 / (Real.cos ε + 2 * Real.sin ε)) := by
    have : R ≠ 0 := by linarith
    have : Real.cos ε + 2 * Real.sin ε ≠ 0 := by linarith
    field_simp
    ring
  have hneg : -(1 / (Real.cos ε + 2 * Real.sin ε)) < 0 := by
    rw [neg_lt_zero]; exact one_div_pos.2 (by linarith)
  rw [hecc, fixEcc, if_pos hneg]
  congr 1
  have hax : R * (Real.cos ε + 2 * Real.sin ε) * (2 * R * (R * -Real.cos ε + 0 * -Real.sin ε) -
      R * (2 * R * 0 * -Real.cos ε + 2 * R * -1 * -Real.sin ε)) /
      -(R ^ 2 * (Real.sin ε * (4 * Real.cos ε + 3 * Real.sin ε))) = axisAt R ε := by
    unfold axisAt
    have h1 : R ≠ 0 := by linarith
    have h2 : Real.sin ε * (4 * Real.cos ε + 3 * Real.sin ε) ≠ 0 := by linarith
    rw [div_eq_div_iff (by simp [h1, h2]) h2]
    ring
  rw [hax]
  simp only [Elements.mk.injEq, true_and, neg_neg]
  refine ⟨by ring, by ring, by ring⟩

/-- The eccentric anomaly of a true anomaly in `(-π, 0)`. -/
theorem trueToEccentric_neg {e f1 f2 : ℝ} (he0 : 0 < e) (he1 : e < 1) (h2 : -Real.pi < f2) (h21 : f2 < f1)
    (h1 : f1 < 0) :
    ∃ E1 E2, trueToEccentric f1 e = .ok E1 ∧ trueToEccentric f2 e = .ok E2 ∧ -Real.pi < E2 ∧ E2 < E1 ∧ E1 < 0 := by
  have p1 : 0 < Real.sqrt (1 - e) := Real.sqrt_pos.2 (by linarith)
  have p2 : 0 < Real.sqrt (1 + e) := Real.sqrt_pos.2 (by linarith)
  have hc : ∀ f, -Real.pi < f → f < 0 → 0 < Real.sqrt (1 + e) * Real.cos (f / 2) := fun f h h' =>
    mul_pos p2 (Real.cos_pos_of_mem_Ioo ⟨by linarith, by linarith [Real.pi_pos]⟩)
  have hs : ∀ f, -Real.pi < f → f < 0 → Real.sqrt (1 - e) * Real.sin (f / 2) < 0 := fun f h h' =>
    mul_neg_of_pos_of_neg p1 (Real.sin_neg_of_neg_of_neg_pi_lt (by linarith) (by linarith [Real.pi_pos]))
  have hr : ∀ f, -Real.pi < f → f < 0 →
      -(Real.pi / 2) < arctan2 (Real.sqrt (1 - e) * Real.sin (f / 2)) (Real.sqrt (1 + e) * Real.cos (f / 2)) ∧
      arctan2 (Real.sqrt (1 - e) * Real.sin (f / 2)) (Real.sqrt (1 + e) * Real.cos (f / 2)) < 0 := fun f h h' => by
    unfold arctan2
    refine ⟨?_, Complex.arg_neg_iff.2 (hs f h h')⟩
    have := (Complex.abs_arg_lt_pi_div_two_iff (z := ⟨Real.sqrt (1 + e) * Real.cos (f / 2),
      Real.sqrt (1 - e) * Real.sin (f / 2)⟩)).2 (.inl (hc f h h'))
    exact (abs_lt.1 this).1
  have ht : ∀ f, Real.tan (arctan2 (Real.sqrt (1 - e) * Real.sin (f / 2)) (Real.sqrt (1 + e) * Real.cos (f / 2))) =
      Real.sqrt (1 - e) / Real.sqrt (1 + e) * Real.tan (f / 2) := fun f => by
    unfold arctan2
    rw [Complex.tan_arg, Real.tan_eq_sin_div_cos, mul_div_mul_comm]
  have e1 : ∀ f, trueToEccentric f e = .ok (2 * arctan2 (Real.sqrt (1 - e) * Real.sin (f / 2))
      (Real.sqrt (1 + e) * Real.cos (f / 2))) := fun f => by
    unfold trueToEccentric
    rw [psqrt_eq (by linarith), ok_bind, psqrt_eq (by linarith), ok_bind]
  obtain ⟨a1, a2⟩ := hr f1 (by linarith) h1
  obtain ⟨b1, b2⟩ := hr f2 h2 (by linarith)
  refine ⟨_, _, e1 f1, e1 f2, by linarith, ?_, by linarith⟩
  have hlt := Real.tan_lt_tan_of_lt_of_lt_pi_div_two (x := f2 / 2) (y := f1 / 2) (by linarith)
    (by linarith [Real.pi_pos]) (by linarith)
  have hk : 0 < Real.sqrt (1 - e) / Real.sqrt (1 + e) := div_pos p1 p2
  have := mul_lt_mul_of_pos_left hlt hk
  rw [← ht, ← ht] at this
  have hm := (Real.strictMonoOn_tan.lt_iff_lt ⟨b1, by linarith [Real.pi_pos]⟩ ⟨a1, by linarith [Real.pi_pos]⟩).1 this
  linarith

/-- The time of flight at the apse line `-π + ε`: more than half a period, less than one. -/
theorem tofAt_eq {mu : ℝ} (hmu : 0 < mu) {r1 r2 : V3} {θ : ℝ} {g : Geometry} (hP : Plane r1 r2 θ g)
    (hR : 1 ≤ V3.norm r1) (h2 : V3.norm r2 = 2 * V3.norm r1) (hc : Real.cos θ = 0) (hs : Real.sin θ = -1) {ε : ℝ}
    (h0 : 1e-8 ≤ ε) (h1 : ε ≤ 0.01) :
    ∃ D, tofAtOmega mu g (-Real.pi + ε) = .ok (Real.sqrt (axisAt (V3.norm r1) ε ^ 3 / mu) * D) ∧
      Real.pi < D ∧ D < 2 * Real.pi := by
  have h0' : 0 < ε := lt_of_lt_of_le (by norm_num) h0
  obtain ⟨s1, s2, c1, c2⟩ := small_angle h0' h1
  have hsin : 0.99 * ε ≤ Real.sin ε := by nlinarith [mul_pos h0' h0']
  have hcos : 0.99 ≤ Real.cos ε := by nlinarith
  have hd : 1 < Real.cos ε + 2 * Real.sin ε := by nlinarith
  have he1 : 1 / (Real.cos ε + 2 * Real.sin ε) < 1 := by rw [div_lt_one (by linarith)]; exact hd
  have he0 : 0 < 1 / (Real.cos ε + 2 * Real.sin ε) := one_div_pos.2 (by linarith)
  have ha : 0 < axisAt (V3.norm r1) ε := by
    unfold axisAt
    have : 0 < Real.sin ε := by nlinarith
    have : 0 < Real.cos ε := by linarith
    positivity
  have hpi := Real.pi_gt_three
  obtain ⟨E1, E2, q1, q2, b2, b21, b1⟩ := trueToEccentric_neg he0 he1 (f1 := -ε) (f2 := -(Real.pi / 2) - ε)
    (by linarith) (by linarith) (by linarith)
  have hel := elementsAt_eq hP hR h2 hc hs h0 h1
  generalize 1 / (Real.cos ε + 2 * Real.sin ε) = e at *
  have hm : E2 - e * Real.sin E2 < E1 - e * Real.sin E1 := by
    have : Real.sin E1 - Real.sin E2 ≤ E1 - E2 := by
      have := Real.abs_sin_sub_sin_le E1 E2
      rw [abs_of_pos (a := E1 - E2) (by linarith)] at this
      exact (le_abs_self _).trans this
    nlinarith
  have hm1 : E1 - e * Real.sin E1 < 0 := by
    have := Real.lt_sin b1
    nlinarith
  have hm2 : -Real.pi < E2 - e * Real.sin E2 := by
    have := Real.sin_neg_of_neg_of_neg_pi_lt (b21.trans b1) b2
    nlinarith
  refine ⟨E2 - e * Real.sin E2 - (E1 - e * Real.sin E1) + 2 * Real.pi, ?_, by linarith, by linarith⟩
  unfold tofAtOmega
  rw [hel, ok_bind]
  unfold tofFromElements ellipticTof
  simp only []
  rw [if_pos he1, raiseIf_neg _ (not_le.2 ha), ok_bind, q1, ok_bind, q2, ok_bind, pdiv_eq hmu.ne', ok_bind,
    psqrt_eq (by positivity), ok_bind, pmod_eq (k := -1) (d := E2 - e * Real.sin E2 - (E1 - e * Real.sin E1) + 2 * Real.pi)
      (by linarith) (by linarith) (by push_cast; ring)]

theorem ecc_lt_one {ε : ℝ} (h0 : 0 < ε) (h1 : ε ≤ 0.01) : 1 / (Real.cos ε + 2 * Real.sin ε) < 1 := by
  obtain ⟨s1, s2, c1, c2⟩ := small_angle h0 h1
  have : ε ^ 3 ≤ ε * 0.01 := by nlinarith [mul_pos h0 h0]
  have : ε ^ 2 ≤ ε * 0.01 := by nlinarith
  rw [div_lt_one (by linarith)]
  linarith

theorem reconstruct_returns {mu : ℝ} (hmu : 0 < mu) (g : Geometry) {el : Elements}
    (hp : 0 < el.a * (1 - el.ecc ^ 2)) : ∃ v1 v2, reconstruct mu g el = .ok (v1, v2) := by
  have : semiLatus el.a el.ecc = el.a * (1 - el.ecc ^ 2) := if_neg (not_le.2 hp)
  unfold reconstruct
  simp only [this, raiseIf_neg _ (not_le.2 hp), ok_bind, pdiv_eq hp.ne', psqrt_eq (div_nonneg hmu.le hp.le)]
  exact ⟨_, _, rfl⟩

theorem axisAt_first {R : ℝ} (hR : 0 < R) : 3e7 * R ≤ axisAt R eps := by
  have h0 : 0 < eps := by unfold eps; positivity
  have h1 : eps ≤ 0.01 := by unfold eps; norm_num
  obtain ⟨s1, s2, c1, c2⟩ := small_angle h0 h1
  have hsin : 0.99 * eps ≤ Real.sin eps := by nlinarith [mul_pos h0 h0]
  have hd : 1 ≤ Real.cos eps + Real.sin eps := by nlinarith
  have hc : 0 < Real.cos eps := by nlinarith
  have hs : 0 < Real.sin eps := by linarith
  unfold axisAt
  rw [le_div_iff₀ (by positivity)]
  have hden : Real.sin eps * (4 * Real.cos eps + 3 * Real.sin eps) ≤ eps * 4.1 :=
    mul_le_mul s2.le (by linarith) (by positivity) h0.le
  have hnum : 1 ≤ (Real.cos eps + 2 * Real.sin eps) * (Real.cos eps + Real.sin eps) := by nlinarith
  have he : eps * 4.1 * 3e7 ≤ 2 := by unfold eps; norm_num
  calc 3e7 * R * (Real.sin eps * (4 * Real.cos eps + 3 * Real.sin eps)) ≤ 3e7 * R * (eps * 4.1) :=
        mul_le_mul_of_nonneg_left hden (by positivity)
    _ = R * (eps * 4.1 * 3e7) := by ring
    _ ≤ R * (2 * ((Real.cos eps + 2 * Real.sin eps) * (Real.cos eps + Real.sin eps))) :=
        mul_le_mul_of_nonneg_left (by linarith) hR.le
    _ = _ := by ring

theorem axisAt_second {R ε : ℝ} (hR : 0 < R) (h0 : 0.0086 ≤ ε) (h1 : ε ≤ 0.00875) :
    0 < axisAt R ε ∧ axisAt R ε ≤ 64 * R := by
  have h0' : 0 < ε := by linarith
  obtain ⟨s1, s2, c1, c2⟩ := small_angle h0' (by linarith)
  have hsin : 0.0085 ≤ Real.sin ε := by nlinarith [mul_pos h0' h0', pow_pos h0' 3]
  have hcos : 0.999 ≤ Real.cos ε := by nlinarith
  have hc : 0 < Real.cos ε := by linarith
  have hs : 0 < Real.sin ε := by linarith
  unfold axisAt
  refine ⟨by positivity, ?_⟩
  rw [div_le_iff₀ (by positivity)]
  have hden : 0.0085 * 3.99 ≤ Real.sin ε * (4 * Real.cos ε + 3 * Real.sin ε) :=
    mul_le_mul hsin (by linarith) (by norm_num) hs.le
  have hnum : (Real.cos ε + 2 * Real.sin ε) * (Real.cos ε + Real.sin ε) ≤ 1.02 * 1.01 :=
    mul_le_mul (by linarith) (by linarith) (by positivity) (by norm_num)
  nlinarith

theorem time_first {mu R D : ℝ} (hmu : 0 < mu) (hR : 0 < R) (hD : Real.pi < D) :
    4.8e11 * Real.sqrt (R ^ 3 / mu) ≤ Real.sqrt (axisAt R eps ^ 3 / mu) * D := by
  have h := axisAt_first hR
  have h3 : (1.6e11 : ℝ) ^ 2 * (R ^ 3 / mu) ≤ axisAt R eps ^ 3 / mu := by
    rw [← mul_div_assoc]
    refine div_le_div_of_nonneg_right ?_ hmu.le
    calc (1.6e11 : ℝ) ^ 2 * R ^ 3 ≤ (3e7 * R) ^ 3 := by rw [mul_pow]; gcongr; norm_num
      _ ≤ _ := pow_le_pow_left₀ (by positivity) h 3
  have h4 := Real.sqrt_le_sqrt h3
  rw [Real.sqrt_mul (by positivity), Real.sqrt_sq (by norm_num)] at h4
  have h5 : 0 ≤ Real.sqrt (R ^ 3 / mu) := Real.sqrt_nonneg _
  have hpi := Real.pi_gt_three
  calc 4.8e11 * Real.sqrt (R ^ 3 / mu) = (1.6e11 * Real.sqrt (R ^ 3 / mu)) * 3 := by ring
    _ ≤ _ := mul_le_mul h4 (by linarith) (by norm_num) (Real.sqrt_nonneg _)

theorem time_second {mu R D ε : ℝ} (hmu : 0 < mu) (hR : 0 < R) (h0 : 0.0086 ≤ ε) (h1 : ε ≤ 0.00875)
    (hD0 : Real.pi < D) (hD : D < 2 * Real.pi) :
    0 < Real.sqrt (axisAt R ε ^ 3 / mu) * D ∧
      Real.sqrt (axisAt R ε ^ 3 / mu) * D ≤ 3300 * Real.sqrt (R ^ 3 / mu) := by
  obtain ⟨ha, h⟩ := axisAt_second hR h0 h1
  have hpi := Real.pi_pos
  have hpi' := Real.pi_lt_d2
  refine ⟨mul_pos (Real.sqrt_pos.2 (by positivity)) (by linarith), ?_⟩
  have h3 : axisAt R ε ^ 3 / mu ≤ (512 : ℝ) ^ 2 * (R ^ 3 / mu) := by
    rw [← mul_div_assoc]
    refine div_le_div_of_nonneg_right ?_ hmu.le
    calc axisAt R ε ^ 3 ≤ (64 * R) ^ 3 := pow_le_pow_left₀ ha.le h 3
      _ = _ := by ring
  have h4 := Real.sqrt_le_sqrt h3
  rw [Real.sqrt_mul (by positivity), Real.sqrt_sq (by norm_num)] at h4
  calc Real.sqrt (axisAt R ε ^ 3 / mu) * D ≤ (512 * Real.sqrt (R ^ 3 / mu)) * 6.4 :=
        mul_le_mul h4 (by linarith) (by linarith) (by positivity)
    _ ≤ _ := by nlinarith [Real.sqrt_nonneg (R ^ 3 / mu)]

/-- The secant step with a huge value at the lower end lands next to the upper end. -/
theorem bezierRoot_stops {brentq : Brent} {f : ℝ → Py ℝ} {lo hi fl fu fr : ℝ} {N : ℕ} {atol rtol : ℝ} (hN : 1 ≤ N)
    (hlh : lo < hi) (hl : f lo = .ok fl) (hu : f hi = .ok fu) (hfl : 0 < fl) (hfu : fu < 0)
    (hstep : (hi - lo) * (-fu) ≤ atol * (fl - fu)) (hr : 0 ≤ rtol)
    (hroot : f (hi - (hi - lo) * (-fu) / (fl - fu)) = .ok fr) :
    bezierRoot brentq f lo hi N atol rtol = .ok (hi - (hi - lo) * (-fu) / (fl - fu), 1) := by
  obtain ⟨m, rfl⟩ : ∃ m, N = m + 1 := ⟨N - 1, by omega⟩
  have hne : fu - fl ≠ 0 := by linarith
  have hne' : fl - fu ≠ 0 := by linarith
  have hpos : 0 < fl - fu := by linarith
  unfold bezierRoot
  rw [hl, ok_bind, hu, ok_bind, bezierLoop, linearBezierEstimate, pdiv_eq hne, ok_bind, ok_bind]
  have e : lo - fl * (hi - lo) / (fu - fl) = hi - (hi - lo) * (-fu) / (fl - fu) := by
    rw [← neg_sub fl fu, div_neg]
    field_simp
    ring
  have hq0 : 0 ≤ (hi - lo) * (-fu) / (fl - fu) :=
    div_nonneg (mul_nonneg (by linarith) (by linarith)) hpos.le
  have hq1 : (hi - lo) * (-fu) / (fl - fu) ≤ hi - lo := by
    rw [div_le_iff₀ hpos]
    exact mul_le_mul_of_nonneg_left (by linarith) (by linarith)
  have hclip : clip (lo - fl * (hi - lo) / (fu - fl)) lo hi = hi - (hi - lo) * (-fu) / (fl - fu) := by
    rw [e]
    unfold clip
    rw [max_eq_left (by linarith), min_eq_right (by linarith)]
  simp only [hclip, hroot, ok_bind]
  rw [if_pos]
  right
  rw [show hi - (hi - lo) * (-fu) / (fl - fu) - hi = -((hi - lo) * (-fu) / (fl - fu)) by ring, abs_neg,
    abs_of_nonneg hq0]
  have : (hi - lo) * (-fu) / (fl - fu) ≤ atol := by rw [div_le_iff₀ hpos]; exact hstep
  have := mul_nonneg hr (abs_nonneg (hi - (hi - lo) * (-fu) / (fl - fu)))
  linarith

/-- The first bracket is used as soon as there is a change of sign between the first two samples. -/
theorem find_first {brentq : Brent} {mu : ℝ} {g : Geometry} {tof fl fu : ℝ} {N : ℕ} {atol rtol : ℝ}
    (hl : residual mu g tof (sample 0) = .ok fl) (hu : residual mu g tof (sample 1) = .ok fu) (hfl : 0 < fl)
    (hfu : fu < 0) :
    findArgumentOfPeriapsis brentq mu g tof N atol rtol =
      bezierRoot brentq (residual mu g tof) (sample 0) (sample 1) N atol rtol := by
  have hb : bracketAt mu g tof 0 = some (sample 0, sample 1) := by
    unfold bracketAt safeResidual
    rw [hl, hu]
    simp only []
    rw [if_neg hfl.ne', if_pos (mul_neg_of_pos_of_neg hfl hfu)]
  have : ∃ l, getOmegaBrackets mu g tof = (sample 0, sample 1) :: l := by
    unfold getOmegaBrackets
    rw [List.range_succ_eq_map, List.filterMap_cons, hb]
    exact ⟨_, rfl⟩
  obtain ⟨l, hl⟩ := this
  unfold findArgumentOfPeriapsis
  rw [hl]

theorem sample_second : ∃ ε, sample 1 = -Real.pi + ε ∧ 0.00872 ≤ ε ∧ ε ≤ 0.00875 ∧ sample 0 = -Real.pi + eps ∧
    sample 1 - sample 0 ≤ 0.00875 ∧ sample 0 < sample 1 := by
  have h1 := Real.pi_gt_d4
  have h2 := Real.pi_lt_d4
  have h3 : eps ≤ 1e-7 := by unfold eps; norm_num
  have h4 : 0 < eps := by unfold eps; positivity
  have e0 : sample 0 = -Real.pi + eps := by unfold sample; push_cast; ring
  have e1 : sample 1 = -Real.pi + (eps + (2 * Real.pi - 2 * eps) / 720) := by unfold sample; push_cast; ring
  refine ⟨eps + (2 * Real.pi - 2 * eps) / 720, e1, ?_, ?_, e0, ?_, ?_⟩
  · linarith
  · linarith
  · rw [e0, e1]; linarith
  · rw [e0, e1]; linarith

end Pan

theorem Pan.param_eq {mu R ε : ℝ} (h0 : 0 < ε) (h1 : ε ≤ 0.01) :
    mu * (R * (1 + 1 / (Real.cos ε + 2 * Real.sin ε) * Real.cos ε)) * (Real.cos ε + 2 * Real.sin ε) =
      mu * (2 * R * (Real.cos ε + Real.sin ε)) := by
  obtain ⟨s1, s2, c1, c2⟩ := small_angle h0 h1
  have h2 : ε ^ 3 ≤ ε * 0.01 := by nlinarith [mul_pos h0 h0]
  have h3 : ε ^ 2 ≤ ε * 0.01 := by nlinarith
  have hd : 0 < Real.cos ε + 2 * Real.sin ε := by linarith
  field_simp
  ring

/-- The angular momentum of the returned orbit is that of the elements. -/
theorem Pan.reconstruct_angMom {pro : Bool} {r1 r2 : V3} {θ mu : ℝ} {g : Geometry} {el : Elements} {v1 v2 : V3}
    (hmu : 0 < mu) (hA : Angle pro r1 r2 θ) (hna : NotAligned r1 r2) (hP : Plane r1 r2 θ g)
    (h1 : el.f1 = -el.omega)
    (e1 : V3.norm r1 * (1 + el.ecc * Real.cos el.omega) = el.a * (1 - el.ecc ^ 2))
    (hp : 0 < el.a * (1 - el.ecc ^ 2)) (h : reconstruct mu g el = .ok (v1, v2)) :
    Spec.inner (outer r1 v1) (outer r1 v1) = mu * (el.a * (1 - el.ecc ^ 2)) := by
  obtain ⟨o1, o2, o3⟩ := ortho hA hna hP
  unfold reconstruct semiLatus at h
  simp only [if_neg (not_le.2 hp), bind_ok, raiseIf_ok, pdiv_ok, psqrt_ok] at h
  obtain ⟨_, -, _, ⟨-, rfl⟩, _, ⟨-, rfl⟩, h⟩ := h
  simp only [Except.ok.injEq, Prod.mk.injEq] at h
  obtain ⟨hv, -⟩ := h
  rw [h1, Real.sin_neg, Real.cos_neg] at hv
  have hs2 : Real.sqrt (mu / (el.a * (1 - el.ecc ^ 2))) ^ 2 * (el.a * (1 - el.ecc ^ 2)) = mu := by
    rw [Real.sq_sqrt (by positivity), div_mul_cancel₀ _ hp.ne']
  have t := Real.sin_sq_add_cos_sq el.omega
  have p1 := hP.p1
  generalize Real.sqrt (mu / (el.a * (1 - el.ecc ^ 2))) = s at *
  generalize el.a * (1 - el.ecc ^ 2) = p at *
  generalize V3.norm r1 = R1 at *
  generalize Real.cos el.omega = c at *
  generalize Real.sin el.omega = w at *
  generalize el.ecc = e at *
  generalize g.ix = i at *
  generalize g.iy = j at *
  have hv' : v1 = (-(s * (e * w))) • i + (s * (1 + e * c)) • j := by
    rw [← hv]
    ext <;> simp only [V3.add_x, V3.add_y, V3.add_z, V3.smul_x, V3.smul_y, V3.smul_z]
    · linear_combination s * j.x * t
    · linear_combination s * j.y * t
    · linear_combination s * j.z * t
  have hE : Spec.inner (outer r1 v1) (outer r1 v1) =
      (s * (R1 * (1 + e * c))) ^ 2 * (Spec.inner i i * Spec.inner j j - Spec.inner i j ^ 2) := by
    rw [hv', p1]
    simp only [outer, Spec.inner, V3.add_x, V3.add_y, V3.add_z, V3.smul_x, V3.smul_y, V3.smul_z]
    ring
  rw [hE, o1, o2, o3, e1]
  linear_combination p * hs2

/-- What `pan_wrong_time` says, and which orbit is returned: its apse line is at the angle
`-π + ε`, just below the second sample. -/
theorem Pan.wrong_orbit (b : Brent) {mu : ℝ} (hmu : 0 < mu) {r1 r2 : V3} (hR : 1 ≤ len r1)
    (h2 : len r2 = 2 * len r1) (hdot : Spec.inner r1 r2 = 0) {pro : Bool} (hsw : ¬ ShortWay pro r1 r2) {tof : ℝ}
    (ht1 : 6600 * Real.sqrt (len r1 ^ 3 / mu) ≤ tof) (ht2 : tof ≤ 5e8 * Real.sqrt (len r1 ^ 3 / mu)) {atol rtol : ℝ}
    (ha1 : 1e-5 ≤ atol) (ha2 : atol ≤ 1 / 2) (hr : 0 ≤ rtol) {N : ℕ} (hN : 1 ≤ N) (low full : Bool) (clock : ℝ) :
    ∃ out T ε, pan2016 b mu r1 r2 tof 0 pro low N atol rtol full clock = .ok out ∧
      LambertArc mu r1 r2 out.v1 out.v2 T 0 ∧ T ≤ 3300 * Real.sqrt (len r1 ^ 3 / mu) ∧ T ≤ tof / 2 ∧
      (NotPolar r1 r2 → Sense pro r1 out.v1) ∧ 0 ≤ sample 1 + Real.pi - ε ∧
      (sample 1 + Real.pi - ε) * (4.7e11 * Real.sqrt (len r1 ^ 3 / mu)) ≤ 0.00875 * tof ∧
      Spec.inner (outer r1 out.v1) (outer r1 out.v1) * (Real.cos ε + 2 * Real.sin ε) =
        mu * (2 * len r1 * (Real.cos ε + Real.sin ε)) := by
  rw [len_eq_norm] at hR ht1 ht2 h2 ⊢
  rw [len_eq_norm] at h2
  have hR1 : 0 < V3.norm r1 := by linarith
  have hR2 : 0 < V3.norm r2 := by linarith
  have hdot' : V3.dot r1 r2 = 0 := hdot
  have hna : NotAligned r1 r2 := by
    rintro ⟨a1, a2, a3⟩
    have n1 : 0 < V3.dot r1 r1 := Real.sqrt_pos.1 hR1
    have n2 : 0 < V3.dot r2 r2 := Real.sqrt_pos.1 hR2
    have : V3.dot r1 r1 * V3.dot r2 r2 = V3.dot r1 r2 ^ 2 + (r1.y * r2.z - r1.z * r2.y) ^ 2 +
        (r1.z * r2.x - r1.x * r2.z) ^ 2 + (r1.x * r2.y - r1.y * r2.x) ^ 2 := by simp only [V3.dot]; ring
    rw [a1, a2, a3, hdot'] at this
    nlinarith [mul_pos n1 n2]
  have hK : 0 < Real.sqrt (V3.norm r1 ^ 3 / mu) := Real.sqrt_pos.2 (by positivity)
  have htof : 0 < tof := by linarith
  obtain ⟨g, θ, hA, hP, hrun⟩ := Pan.entry hmu hna pro
  have hc : Real.cos θ = 0 := by
    have := hA.cos_eq
    rw [hdot'] at this
    simpa [hR1.ne', hR2.ne'] using this
  have hs : Real.sin θ = -1 := by
    have hlt : Real.pi < θ := lt_of_le_of_ne (not_lt.1 fun h => hsw (hA.short.1 h)) hA.ne_pi.symm
    have hneg : Real.sin θ < 0 := by
      have := Real.sin_pos_of_pos_of_lt_pi (x := θ - Real.pi) (by linarith) (by linarith [hA.lt])
      rw [Real.sin_sub_pi] at this
      linarith
    have := Real.sin_sq_add_cos_sq θ
    rw [hc] at this
    nlinarith
  obtain ⟨ε, hs1, hε1, hε2, hs0, hstep, hlt⟩ := sample_second
  have heps : (1e-8 : ℝ) ≤ eps ∧ eps ≤ 0.01 := by unfold eps; constructor <;> norm_num
  obtain ⟨D0, q0, d01, -⟩ := tofAt_eq hmu hP hR h2 hc hs heps.1 heps.2
  obtain ⟨D1, q1, d11, d12⟩ := tofAt_eq hmu hP hR h2 hc hs (ε := ε) (by linarith) (by linarith)
  have hT0 := time_first hmu hR1 d01
  obtain ⟨hT1p, hT1⟩ := time_second hmu hR1 (by linarith) hε2 d11 d12
  generalize hT0' : Real.sqrt (axisAt (V3.norm r1) eps ^ 3 / mu) * D0 = T0 at *
  generalize hT1' : Real.sqrt (axisAt (V3.norm r1) ε ^ 3 / mu) * D1 = T1 at *
  have hf0 : Pan.residual mu g tof (sample 0) = .ok (T0 - tof) := by unfold Pan.residual; rw [hs0, q0, ok_bind]
  have hf1 : Pan.residual mu g tof (sample 1) = .ok (T1 - tof) := by unfold Pan.residual; rw [hs1, q1, ok_bind]
  have hfl : 0 < T0 - tof := by linarith
  have hfu : T1 - tof < 0 := by linarith
  have hst : (sample 1 - sample 0) * (-(T1 - tof)) ≤ 1e-5 * (T0 - tof - (T1 - tof)) := by
    calc (sample 1 - sample 0) * (-(T1 - tof)) ≤ 0.00875 * tof :=
          mul_le_mul hstep (by linarith) (by linarith) (by norm_num)
      _ ≤ _ := by linarith
  have hpos : 0 < T0 - tof - (T1 - tof) := by linarith
  have hq : (sample 1 - sample 0) * (-(T1 - tof)) / (T0 - tof - (T1 - tof)) ≤ 1e-5 := by
    rw [div_le_iff₀ hpos]; exact hst
  have hq0 : 0 ≤ (sample 1 - sample 0) * (-(T1 - tof)) / (T0 - tof - (T1 - tof)) :=
    div_nonneg (mul_nonneg (by linarith) (by linarith)) hpos.le
  have hfind := find_first (brentq := b) (N := N) (atol := atol) (rtol := rtol) hf0 hf1 hfl hfu
  have hroot : ∃ ε', sample 1 - (sample 1 - sample 0) * (-(T1 - tof)) / (T0 - tof - (T1 - tof)) = -Real.pi + ε' ∧
      0.0086 ≤ ε' ∧ ε' ≤ 0.00875 ∧ 0 ≤ sample 1 + Real.pi - ε' ∧
      (sample 1 + Real.pi - ε') * (4.7e11 * Real.sqrt (V3.norm r1 ^ 3 / mu)) ≤ 0.00875 * tof :=
    ⟨ε - (sample 1 - sample 0) * (-(T1 - tof)) / (T0 - tof - (T1 - tof)), by rw [hs1]; ring, by linarith, by linarith,
      by linarith, by
        rw [show sample 1 + Real.pi - (ε - (sample 1 - sample 0) * (-(T1 - tof)) / (T0 - tof - (T1 - tof))) =
          (sample 1 - sample 0) * (-(T1 - tof)) / (T0 - tof - (T1 - tof)) by rw [hs1]; ring]
        calc _ ≤ (sample 1 - sample 0) * (-(T1 - tof)) / (T0 - tof - (T1 - tof)) * (T0 - tof - (T1 - tof)) :=
              mul_le_mul_of_nonneg_left (by linarith) hq0
          _ = (sample 1 - sample 0) * (-(T1 - tof)) := div_mul_cancel₀ _ hpos.ne'
          _ ≤ _ := mul_le_mul hstep (by linarith) (by linarith) (by norm_num)⟩
  obtain ⟨ε', hε', he1, he2, hq1, hq2⟩ := hroot
  obtain ⟨D, q, d1, d2⟩ := tofAt_eq hmu hP hR h2 hc hs (ε := ε') (by linarith) (by linarith)
  obtain ⟨hTp, hT⟩ := time_second hmu hR1 he1 he2 d1 d2
  have hel := elementsAt_eq hP hR h2 hc hs (ε := ε') (by linarith) (by linarith)
  rw [bezierRoot_stops (fr := Real.sqrt (axisAt (V3.norm r1) ε' ^ 3 / mu) * D - tof) hN hlt hf0 hf1 hfl hfu
    (hst.trans (mul_le_mul_of_nonneg_right ha1 hpos.le)) hr
    (by unfold Pan.residual; rw [hε', q, ok_bind]), hε'] at hfind
  have hne : V3.norm r1 ≠ V3.norm r2 := by rw [h2]; linarith
  obtain ⟨he0, hen, hf1', hf2', e1, e2⟩ := elements_ok hP hR1 hR2 hne hel
  rw [tofAtOmega, hel, ok_bind] at q
  obtain ⟨hp, hpath, -⟩ := tofFromElements_ok hmu hR1 hR2 he0 hen (twoPoints hA hR1 hR2 he0 hf1' hf2' e1 e2) q
  have hecc := ecc_lt_one (ε := ε') (by linarith) (by linarith)
  obtain ⟨v1, v2, hrec⟩ := reconstruct_returns hmu g hp
  obtain ⟨tpi, htpi⟩ : ∃ tpi, timePerIter full clock 1 = .ok tpi := timePerIter_pos full clock (le_refl 1)
  obtain ⟨hv1, hv2⟩ := reconstruct_eq hmu hA hna hP hf1' hf2' e1 e2 hp hrec
  obtain ⟨σ, h2p⟩ := twoPoints hA hR1 hR2 he0 hf1' hf2' e1 e2 hp
  obtain ⟨hG, hsh⟩ := hA.halfGeo hna
  have hh := reconstruct_angMom hmu hA hna hP hf1' e1 hp hrec
  refine ⟨mkOutput full v1 v2 1 tpi, _, ε', ?_, ?_, hT, by linarith, ?_, hq1, hq2, ?_⟩
  · rw [hrun tof htof, if_neg, hfind]
    · simp only [finish]
      rw [htpi, ok_bind, hel, ok_bind, hrec, ok_bind]
    · rw [h2, abs_of_pos (a := 2 * V3.norm r1) (by linarith), abs_sub_comm, abs_of_pos (by linarith), not_le]
      norm_num at ha2 ⊢
      linarith
  · rw [mkOutput_v1, mkOutput_v2, hv1, hv2]
    exact (hpath fun hno => absurd hno.1 (not_le.2 hecc)).arc hmu hG
  · rw [mkOutput_v1, hv1]
    exact fun hnp => sense_of_sign hmu h2p.V_pos hG.hA hnp hsh
  · rw [mkOutput_v1, hh, ← e1]
    exact param_eq (by linarith) (by linarith)

/-- **C26**, negation: `pan2016` returns wrong transfers.  Take positions at distances `R` and
`2R` from the attractor, a three-quarter turn apart; the parabola of infinite time of flight
has its apse line in the direction in which the code starts to sample, so that the first
sampled ellipse takes `10^11` times as long as the second one.  Between the two the first
secant step lands next to the second one and the search stops, because it compares successive
points and not the times.  For all times of flight between `6600` and `5·10^8` units
`√(R³/μ)`, with tolerances from `10^-5` (the default) to `1/2`, the transfer returned takes less than
`3300` units: at most half the requested time, and down to `10^-5` of it. -/
theorem pan_wrong_time (b : Brent) {mu : ℝ} (hmu : 0 < mu) {r1 r2 : V3} (hR : 1 ≤ len r1)
    (h2 : len r2 = 2 * len r1) (hdot : Spec.inner r1 r2 = 0) {pro : Bool} (hsw : ¬ ShortWay pro r1 r2) {tof : ℝ}
    (ht1 : 6600 * Real.sqrt (len r1 ^ 3 / mu) ≤ tof) (ht2 : tof ≤ 5e8 * Real.sqrt (len r1 ^ 3 / mu)) {atol rtol : ℝ}
    (ha1 : 1e-5 ≤ atol) (ha2 : atol ≤ 1 / 2) (hr : 0 ≤ rtol) {N : ℕ} (hN : 1 ≤ N) (low full : Bool) (clock : ℝ) :
    ∃ out T, pan2016 b mu r1 r2 tof 0 pro low N atol rtol full clock = .ok out ∧
      LambertArc mu r1 r2 out.v1 out.v2 T 0 ∧ T ≤ 3300 * Real.sqrt (len r1 ^ 3 / mu) ∧ T ≤ tof / 2 ∧
      (NotPolar r1 r2 → Sense pro r1 out.v1) := by
  obtain ⟨out, T, -, h1, h3, h4, h5, h6, -⟩ := Pan.wrong_orbit b hmu hR h2 hdot hsw ht1 ht2 ha1 ha2 hr hN low full clock
  exact ⟨out, T, h1, h3, h4, h5, h6⟩

/-- The hypotheses are satisfiable: from `(1, 0, 0)` to `(0, -2, 0)`, prograde, in `10000`
units of time, with the default number of iterations and tolerances. -/
example : ∃ out T, pan2016 exactBrent 1 ⟨1, 0, 0⟩ ⟨0, -2, 0⟩ 10000 0 true true 35 1e-5 1e-7 false 0 = .ok out ∧
    LambertArc 1 ⟨1, 0, 0⟩ ⟨0, -2, 0⟩ out.v1 out.v2 T 0 ∧ T ≤ 3300 := by
  have n1 : len ⟨1, 0, 0⟩ = 1 := by rw [len_eq_norm]; norm_num [V3.norm, V3.dot]
  have n2 : len ⟨0, -2, 0⟩ = 2 := by
    rw [len_eq_norm]
    norm_num [V3.norm, V3.dot]
    rw [show (4 : ℝ) = 2 ^ 2 by norm_num, Real.sqrt_sq (by norm_num)]
  obtain ⟨out, T, h1, h2, h3, -⟩ := pan_wrong_time exactBrent (mu := 1) one_pos (r1 := ⟨1, 0, 0⟩) (r2 := ⟨0, -2, 0⟩)
    (by rw [n1]) (by rw [n1, n2]; norm_num) (by norm_num [Spec.inner]) (pro := true)
    (by simp [ShortWay, crossZ]) (tof := 10000) (by rw [n1]; norm_num) (by rw [n1]; norm_num) (atol := 1e-5)
    (rtol := 1e-7) le_rfl (by norm_num) (by norm_num) (N := 35) (by norm_num) true false 0
  refine ⟨out, T, h1, h2, ?_⟩
  rw [n1] at h3
  norm_num at h3
  exact h3

end Lamberthub
