import Verif.Proofs.MeanTime
import Mathlib.Analysis.Real.Pi.Bounds

/-! # C08-C11: anomalies and Kepler's equation -/

set_option autoImplicit false

namespace Lamberthub
open Spec LC

/-- **C08.** For every eccentricity in `[0, 1)` the conversions between true and eccentric
anomaly are defined and mutually inverse on `(-π, π)`, strictly increasing and sign
preserving, and they satisfy the defining geometric relation between the two anomalies:
the point of the ellipse with true anomaly `ν` has centre coordinates
`(cos E, √(1-e²) sin E)`. -/
theorem eccentric_anomaly {e : ℝ} (he0 : 0 ≤ e) (he1 : e < 1) :
    (∀ ν, -Real.pi < ν → ν < Real.pi → ∃ E, nuToE ν e = .ok E ∧ eToNu E e = .ok ν ∧
      -Real.pi < E ∧ E < Real.pi ∧ (0 < E ↔ 0 < ν) ∧ (E < 0 ↔ ν < 0) ∧
      (1 - e * Real.cos E) * Real.cos ν = Real.cos E - e ∧
      (1 - e * Real.cos E) * Real.sin ν = Real.sqrt (1 - e ^ 2) * Real.sin E) ∧
    (∀ E, -Real.pi < E → E < Real.pi → ∃ ν, eToNu E e = .ok ν ∧ nuToE ν e = .ok E ∧
      -Real.pi < ν ∧ ν < Real.pi) ∧
    (∀ ν ν' E E', -Real.pi < ν → ν < ν' → ν' < Real.pi → nuToE ν e = .ok E → nuToE ν' e = .ok E' →
      E < E') ∧
    (∀ E E' ν ν', -Real.pi < E → E < E' → E' < Real.pi → eToNu E e = .ok ν → eToNu E' e = .ok ν' →
      ν < ν') := by
  have hs := eccRatio_pos (e := e) (by linarith) he1
  refine ⟨?_, ?_, ?_, ?_⟩
  · intro ν h1 h2
    obtain ⟨r1, r2⟩ := two_arctan_range (eccRatio e * Real.tan (ν / 2))
    have hc := (cos_half_pos h1 h2).ne'
    refine ⟨_, nuToE_eq he0 he1 h1 h2, ?_, r1, r2, ?_, ?_, ?_, ?_⟩
    · rw [eToNu_eq he0 he1 r1 r2, tan_half_two_arctan, ← mul_assoc, inv_mul_cancel₀ hs.ne', one_mul,
        two_arctan_tan_half h1 h2]
    · have a := tan_half_strictMono.lt_iff_lt (a := 0) (b := ν)
        ⟨by linarith [Real.pi_pos], Real.pi_pos⟩ ⟨h1, h2⟩
      simp only [zero_div, Real.tan_zero] at a
      have b := two_arctan_strictMono.lt_iff_lt (a := 0) (b := eccRatio e * Real.tan (ν / 2))
      simp only [Real.arctan_zero, mul_zero] at b
      rw [b, mul_pos_iff_of_pos_left hs, a]
    · have a := tan_half_strictMono.lt_iff_lt (a := ν) (b := 0)
        ⟨h1, h2⟩ ⟨by linarith [Real.pi_pos], Real.pi_pos⟩
      simp only [zero_div, Real.tan_zero] at a
      have b := two_arctan_strictMono.lt_iff_lt (a := eccRatio e * Real.tan (ν / 2)) (b := 0)
      simp only [Real.arctan_zero, mul_zero] at b
      rw [b, ← a]
      constructor
      · intro h; by_contra h'; exact absurd (mul_nonneg hs.le (not_lt.1 h')) (not_le.2 h)
      · intro h; exact mul_neg_of_pos_of_neg hs h
    · rw [cos_two_arctan, cos_of_tan_half hc]
      have h3 := eccRatio_sq he0 he1
      generalize eccRatio e = s at *
      generalize Real.tan (ν / 2) = t
      have h4 : (0 : ℝ) < 1 + t ^ 2 := by positivity
      have h5 : (0 : ℝ) < 1 + s ^ 2 * t ^ 2 := by positivity
      field_simp
      linear_combination (2 * t ^ 2) * h3
    · rw [cos_two_arctan, sin_two_arctan, sin_of_tan_half hc, ← eccRatio_mul he0 he1]
      have h3 := eccRatio_sq he0 he1
      generalize eccRatio e = s at *
      generalize Real.tan (ν / 2) = t
      have h4 : (0 : ℝ) < 1 + t ^ 2 := by positivity
      have h5 : (0 : ℝ) < 1 + s ^ 2 * t ^ 2 := by positivity
      field_simp
      linear_combination (-t) * h3
  · intro E h1 h2
    obtain ⟨r1, r2⟩ := two_arctan_range ((eccRatio e)⁻¹ * Real.tan (E / 2))
    refine ⟨_, eToNu_eq he0 he1 h1 h2, ?_, r1, r2⟩
    rw [nuToE_eq he0 he1 r1 r2, tan_half_two_arctan, ← mul_assoc, mul_inv_cancel₀ hs.ne', one_mul,
      two_arctan_tan_half h1 h2]
  · intro ν ν' E E' h1 h2 h3 hE hE'
    rw [nuToE_eq he0 he1 h1 (by linarith)] at hE
    rw [nuToE_eq he0 he1 (by linarith) h3] at hE'
    rw [← Except.ok.inj hE, ← Except.ok.inj hE']
    apply two_arctan_strictMono
    exact mul_lt_mul_of_pos_left (tan_half_strictMono ⟨h1, by linarith⟩ ⟨by linarith, h3⟩ h2) hs
  · intro E E' ν ν' h1 h2 h3 hE hE'
    rw [eToNu_eq he0 he1 h1 (by linarith)] at hE
    rw [eToNu_eq he0 he1 (by linarith) h3] at hE'
    rw [← Except.ok.inj hE, ← Except.ok.inj hE']
    apply two_arctan_strictMono
    exact mul_lt_mul_of_pos_left (tan_half_strictMono ⟨h1, by linarith⟩ ⟨by linarith, h3⟩ h2)
      (inv_pos.2 hs)

example : (0 : ℝ) ≤ 1 / 2 ∧ (1 / 2 : ℝ) < 1 ∧ -Real.pi < 1 ∧ 1 < Real.pi := by
  have := Real.pi_gt_three
  refine ⟨by norm_num, by norm_num, by linarith, by linarith⟩

theorem tanh_half_two_artanh {x : ℝ} (hx : x ∈ Set.Ioo (-1 : ℝ) 1) :
    Real.tanh (2 * Real.artanh x / 2) = x := by
  rw [mul_div_cancel_left₀ _ two_ne_zero, Real.tanh_artanh hx]

/-- **C09.** For every `e > 1` the conversions between true and hyperbolic anomaly are
mutually inverse between the angles strictly inside the asymptotes and all real numbers,
and satisfy the defining geometric relation; likewise the parabolic conversions on
`(-π, π)`. -/
theorem hyperbolic_parabolic_anomaly {e : ℝ} (he : 1 < e) :
    (∀ ν, NuDom e ν → ∃ H, nuToH ν e = .ok H ∧ hToNu H e = .ok ν ∧
      (e * Real.cosh H - 1) * Real.cos ν = e - Real.cosh H ∧
      (e * Real.cosh H - 1) * Real.sin ν = Real.sqrt (e ^ 2 - 1) * Real.sinh H) ∧
    (∀ H : ℝ, ∃ ν, hToNu H e = .ok ν ∧ nuToH ν e = .ok H ∧ NuDom e ν) ∧
    (∀ ν, -Real.pi < ν → ν < Real.pi → ∃ B, nuToB ν = .ok B ∧ bToNu B = .ok ν) ∧
    (∀ B : ℝ, ∃ ν, bToNu B = .ok ν ∧ nuToB ν = .ok B ∧ -Real.pi < ν ∧ ν < Real.pi) := by
  have hs := hypRatio_pos he
  refine ⟨?_, ?_, ?_, ?_⟩
  · rintro ν ⟨h1, h2, h3⟩
    have hx : hypRatio e * Real.tan (ν / 2) ∈ Set.Ioo (-1 : ℝ) 1 := (abs_hyp_lt he h1 h2).2 h3
    have hc := (cos_half_pos h1 h2).ne'
    refine ⟨_, nuToH_eq he h1 h2 h3, ?_, ?_, ?_⟩
    · rw [hToNu_eq he, tanh_half_two_artanh hx, ← mul_assoc, inv_mul_cancel₀ hs.ne', one_mul,
        two_arctan_tan_half h1 h2]
    · rw [cosh_two_artanh hx, cos_of_tan_half hc]
      have h3 := hypRatio_sq he
      generalize hypRatio e = s at *
      generalize Real.tan (ν / 2) = t at *
      have h4 : (0 : ℝ) < 1 + t ^ 2 := by positivity
      have h5 : (0 : ℝ) < 1 - s ^ 2 * t ^ 2 := by nlinarith [hx.1, hx.2]
      rw [mul_pow]
      field_simp
      linear_combination (2 * t ^ 2) * h3
    · rw [cosh_two_artanh hx, sinh_two_artanh hx, sin_of_tan_half hc, ← hypRatio_mul he]
      have h3 := hypRatio_sq he
      generalize hypRatio e = s at *
      generalize Real.tan (ν / 2) = t at *
      have h4 : (0 : ℝ) < 1 + t ^ 2 := by positivity
      have h5 : (0 : ℝ) < 1 - s ^ 2 * t ^ 2 := by nlinarith [hx.1, hx.2]
      rw [mul_pow]
      field_simp
      linear_combination (-t) * h3
  · intro H
    have ht : Real.tanh (H / 2) ∈ Set.Ioo (-1 : ℝ) 1 := Real.tanh_bijOn.mapsTo (Set.mem_univ _)
    obtain ⟨r1, r2⟩ := two_arctan_range ((hypRatio e)⁻¹ * Real.tanh (H / 2))
    have hx : hypRatio e * Real.tan (2 * Real.arctan ((hypRatio e)⁻¹ * Real.tanh (H / 2)) / 2) =
        Real.tanh (H / 2) := by
      rw [tan_half_two_arctan, ← mul_assoc, mul_inv_cancel₀ hs.ne', one_mul]
    have h3 : 0 < 1 + e * Real.cos (2 * Real.arctan ((hypRatio e)⁻¹ * Real.tanh (H / 2))) :=
      (abs_hyp_lt he r1 r2).1 (by rw [hx]; exact ht)
    refine ⟨_, hToNu_eq he, ?_, r1, r2, h3⟩
    rw [nuToH_eq he r1 r2 h3, hx, Real.artanh_tanh]
    congr 1; ring
  · intro ν h1 h2
    refine ⟨_, by rw [nuToB, ptan, if_neg (cos_half_pos h1 h2).ne'], ?_⟩
    rw [bToNu, two_arctan_tan_half h1 h2]
  · intro B
    obtain ⟨r1, r2⟩ := two_arctan_range B
    refine ⟨_, rfl, ?_, r1, r2⟩
    rw [nuToB, ptan, if_neg (cos_half_pos r1 r2).ne', tan_half_two_arctan]

example : NuDom 2 1 := by
  have := Real.pi_gt_three
  have h : 0 < Real.cos 1 := Real.cos_pos_of_mem_Ioo ⟨by linarith, by linarith⟩
  exact ⟨by linarith, by linarith, by linarith⟩

/-- **C10.** A negative eccentricity is refused; for every other one the mean anomaly is
defined on the whole passage, strictly increasing in the true anomaly, odd, and zero at
periapsis. -/
theorem mean_anomaly_monotone (e : ℝ) :
    (e < 0 → ∀ ν, keplerFromNu ν e = .error (.valueError "Eccentricity cannot be negative!")) ∧
    (0 ≤ e → keplerFromNu 0 e = .ok 0 ∧
      (∀ ν, NuDom e ν → ∃ M, keplerFromNu ν e = .ok M ∧ keplerFromNu (-ν) e = .ok (-M)) ∧
      (∀ ν ν' M M', NuDom e ν → NuDom e ν' → ν < ν' → keplerFromNu ν e = .ok M →
        keplerFromNu ν' e = .ok M' → M < M')) := by
  refine ⟨fun h ν => by unfold keplerFromNu; rw [if_pos h], fun he => ⟨?_, ?_, ?_⟩⟩
  · rw [keplerFromNu_eq he (nuDom_zero he), meanOf_zero]
  · intro ν h
    exact ⟨_, keplerFromNu_eq he h, by rw [keplerFromNu_eq he (nuDom_neg h), meanOf_neg h]⟩
  · intro ν ν' M M' h h' hlt hM hM'
    rw [keplerFromNu_eq he h] at hM
    rw [keplerFromNu_eq he h'] at hM'
    rw [← Except.ok.inj hM, ← Except.ok.inj hM']
    exact meanOf_strictMono he h h' hlt

/-- Mean motion of the conic with semi-latus rectum `p` and eccentricity `e`:
`√(μ/|a|³)` with `a = p/(1-e²)`, and `2 √(μ/p³)` for the parabola. -/
noncomputable def meanMotion (μ p e : ℝ) : ℝ :=
  if e = 1 then 2 * Real.sqrt (μ / p ^ 3) else Real.sqrt (μ / |p / (1 - e ^ 2)| ^ 3)

theorem meanMotion_eq {μ p e : ℝ} (hμ : 0 < μ) (hp : 0 < p) (he : 0 ≤ e) :
    meanMotion μ p e = meanRate μ p e := by
  have h0 : Real.sqrt (μ / p ^ 3) = Real.sqrt (μ / p) / p := by
    rw [show μ / p ^ 3 = μ / p / p ^ 2 by field_simp, Real.sqrt_div (by positivity),
      Real.sqrt_sq hp.le]
  have key : ∀ c : ℝ, 0 < c → Real.sqrt (μ / (p / c) ^ 3) = Real.sqrt (μ / p) / p * Real.sqrt c ^ 3 := by
    intro c hc
    rw [← h0, show μ / (p / c) ^ 3 = μ / p ^ 3 * (c ^ 2 * c) by field_simp,
      Real.sqrt_mul (by positivity), Real.sqrt_mul (by positivity), Real.sqrt_sq hc.le]
    congr 1
    rw [pow_succ, Real.sq_sqrt hc.le]
  unfold meanMotion meanRate meanFactor
  by_cases h1 : e = 1
  · rw [if_pos h1, if_neg (by rw [h1]; exact lt_irrefl 1), if_pos h1, h0]; ring
  · rw [if_neg h1]
    by_cases h2 : e < 1
    · have hc : 0 < 1 - e ^ 2 := by nlinarith
      rw [if_pos h2, abs_of_pos (by positivity), key _ hc]
    · have h3 : 1 < e := lt_of_le_of_ne (not_lt.1 h2) (Ne.symm h1)
      have hc : 0 < e ^ 2 - 1 := by nlinarith
      rw [if_neg h2, if_neg h1, show p / (1 - e ^ 2) = -(p / (e ^ 2 - 1)) by
        rw [← neg_sub (e ^ 2) 1, div_neg], abs_neg, abs_of_pos (by positivity), key _ hc]

/-- **C11.** Take any body moving under the inverse-square attraction that is at the point
of true anomaly `ν1` of a conic at time `0` with the velocity of that conic, at the point
of true anomaly `ν2` at time `T`, and does not cross the apoapsis direction in between.
Then the difference of the two mean anomalies divided by the mean motion is `T`. -/
theorem mean_anomaly_is_time {μ p e ν1 ν2 T : ℝ} (hμ : 0 < μ) (hp : 0 < p) (he : 0 ≤ e)
    (h1 : NuDom e ν1) (h2 : NuDom e ν2) {e1 e2 : V3} (hf : Orthonormal e1 e2) {pos vel : ℝ → V3}
    (hk : KeplerMotion μ pos vel) (hT : 0 ≤ T) (h0 : pos 0 = conicPos p e ν1 e1 e2)
    (hv : vel 0 = conicVel μ p e ν1 e1 e2) (hT2 : pos T = conicPos p e ν2 e1 e2)
    (hop : ∀ t, 0 ≤ t → t ≤ T → ¬ OppositeDirection e1 (pos t)) :
    ∃ M1 M2, keplerFromNu ν1 e = .ok M1 ∧ keplerFromNu ν2 e = .ok M2 ∧
      0 < meanMotion μ p e ∧ (M2 - M1) / meanMotion μ p e = T := by
  refine ⟨_, _, keplerFromNu_eq he h1, keplerFromNu_eq he h2, ?_, ?_⟩
  · rw [meanMotion_eq hμ hp he]; exact meanRate_pos hμ hp he
  · have := mean_linear hμ hp he hk (onConic_motion hμ hp h1.2.2 hf hk h0 hv) hT hop
    rw [hT2, h0, nuOf_conicPos hp h2 hf, nuOf_conicPos hp h1 hf] at this
    rw [this, meanMotion_eq hμ hp he]
    have := (meanRate_pos hμ hp he).ne'
    field_simp

/-- Non-vacuity of C11: the circular motion of unit radius, over a quarter turn. -/
example : ∃ pos vel : ℝ → V3, KeplerMotion 1 pos vel ∧ pos 0 = conicPos 1 0 0 ⟨1, 0, 0⟩ ⟨0, 1, 0⟩ ∧
    vel 0 = conicVel 1 1 0 0 ⟨1, 0, 0⟩ ⟨0, 1, 0⟩ ∧
    pos (Real.pi / 2) = conicPos 1 0 (Real.pi / 2) ⟨1, 0, 0⟩ ⟨0, 1, 0⟩ ∧
    ∀ t, 0 ≤ t → t ≤ Real.pi / 2 → ¬ OppositeDirection ⟨1, 0, 0⟩ (pos t) := by
  have hl : ∀ t, len ⟨Real.cos t, Real.sin t, 0⟩ = 1 := by
    intro t
    unfold len
    simp
  refine ⟨fun t => ⟨Real.cos t, Real.sin t, 0⟩, fun t => ⟨-Real.sin t, Real.cos t, 0⟩, ⟨?_, ?_, ?_⟩,
    ?_, ?_, ?_, ?_⟩
  · intro t h
    have := hl t
    simp only [h] at this
    simp [len] at this
  · intro t
    exact ⟨Real.hasDerivAt_cos t, Real.hasDerivAt_sin t, hasDerivAt_const t 0⟩
  · intro t
    rw [hl]
    refine ⟨?_, ?_, ?_⟩
    · exact ((Real.hasDerivAt_sin t).neg).congr_deriv (by simp)
    · simpa using Real.hasDerivAt_cos t
    · simpa using hasDerivAt_const t (0 : ℝ)
  · ext <;> simp [conicPos]
  · ext <;> simp [conicVel]
  · ext <;> simp [conicPos]
  · rintro t h1 h2 ⟨k, hk, h⟩
    have hx := congrArg V3.x h
    simp at hx
    have := Real.cos_nonneg_of_mem_Icc (x := t) ⟨by linarith [Real.pi_pos], h2⟩
    linarith

end Lamberthub
