import Verif.Proofs.AngleLemmas
import Verif.Proofs.Path

/-!
# Lagrange coefficients written with the semi-latus rectum

Several solvers compute `p` first and then `f = 1 - r2(1-cos θ)/p`,
`g = r1 r2 sin θ/√(μ p)`, `ġ = 1 - r1(1-cos θ)/p`.
-/

set_option autoImplicit false

namespace Lamberthub
open Spec LC

/-- The geometry constant in half-angle form. -/
noncomputable def halfA (R1 R2 θ : ℝ) : ℝ := Real.sqrt 2 * Real.sqrt (R1 * R2) * Real.cos (θ / 2)

theorem halfA_sq {R1 R2 θ : ℝ} (h : 0 ≤ R1 * R2) :
    halfA R1 R2 θ ^ 2 = R1 * R2 * (1 + Real.cos θ) := by
  have hc : Real.cos θ = 2 * Real.cos (θ / 2) ^ 2 - 1 := by
    rw [← Real.cos_two_mul]; congr 1; ring
  unfold halfA
  rw [mul_pow, mul_pow, Real.sq_sqrt (by norm_num), Real.sq_sqrt h, hc]; ring

theorem Angle.half_cos {pro : Bool} {r1 r2 : V3} {θ : ℝ} (h : Angle pro r1 r2 θ) :
    Real.cos (θ / 2) ≠ 0 ∧ (0 < Real.cos (θ / 2) ↔ θ < Real.pi) ∧ 0 < Real.sin (θ / 2) := by
  have hpi := Real.pi_pos
  have h1 := h.pos
  have h2 := h.lt
  have hs : 0 < Real.sin (θ / 2) := Real.sin_pos_of_pos_of_lt_pi (by linarith) (by linarith)
  rcases lt_or_gt_of_ne h.ne_pi with h3 | h3
  · have : 0 < Real.cos (θ / 2) :=
      Real.cos_pos_of_mem_Ioo ⟨by linarith, by linarith⟩
    exact ⟨this.ne', ⟨fun _ => h3, fun _ => this⟩, hs⟩
  · have : Real.cos (θ / 2) < 0 :=
      Real.cos_neg_of_pi_div_two_lt_of_lt (by linarith) (by linarith)
    exact ⟨this.ne, ⟨fun h => absurd h (not_lt.2 this.le), fun h => absurd h (not_lt.2 h3.le)⟩, hs⟩

theorem Angle.halfGeo {pro : Bool} {r1 r2 : V3} {θ : ℝ} (h : Angle pro r1 r2 θ)
    (hna : NotAligned r1 r2) :
    Geo r1 r2 (halfA (V3.norm r1) (V3.norm r2) θ) ∧
      (0 < halfA (V3.norm r1) (V3.norm r2) θ ↔ ShortWay pro r1 r2) := by
  have hR : 0 < V3.norm r1 * V3.norm r2 :=
    mul_pos (norm_pos_of_notAligned_left hna) (norm_pos_of_notAligned_right hna)
  refine ⟨h.geo hna (halfA_sq hR.le), ?_⟩
  rw [← h.short, ← h.half_cos.2.1]
  unfold halfA
  have : 0 < Real.sqrt 2 * Real.sqrt (V3.norm r1 * V3.norm r2) := by positivity
  constructor
  · intro hh; exact pos_of_mul_pos_right hh this.le
  · intro hh; positivity

/-- `g` in terms of `p` is `A √(V/μ)`. -/
theorem g_pform {pro : Bool} {r1 r2 : V3} {θ μ V p : ℝ} (h : Angle pro r1 r2 θ)
    (hna : NotAligned r1 r2) (hμ : 0 < μ) (hV : 0 < V)
    (hp : p = V3.norm r1 * V3.norm r2 * (1 - Real.cos θ) / V) :
    V3.norm r1 * V3.norm r2 * Real.sin θ / Real.sqrt (μ * p) =
      halfA (V3.norm r1) (V3.norm r2) θ * Real.sqrt (V / μ) := by
  have hR : 0 < V3.norm r1 * V3.norm r2 :=
    mul_pos (norm_pos_of_notAligned_left hna) (norm_pos_of_notAligned_right hna)
  obtain ⟨hc, -, hs⟩ := h.half_cos
  have h1 : 1 - Real.cos θ = 2 * Real.sin (θ / 2) ^ 2 := by
    have : Real.cos θ = 2 * Real.cos (θ / 2) ^ 2 - 1 := by
      rw [← Real.cos_two_mul]; congr 1; ring
    rw [this, Real.cos_sq']; ring
  have h2 : Real.sin θ = 2 * Real.sin (θ / 2) * Real.cos (θ / 2) := by
    rw [← Real.sin_two_mul]; congr 1; ring
  have h3 : Real.sqrt (μ * p) =
      Real.sqrt 2 * Real.sin (θ / 2) * Real.sqrt (V3.norm r1 * V3.norm r2) / Real.sqrt (V / μ) := by
    rw [hp, h1, show μ * (V3.norm r1 * V3.norm r2 * (2 * Real.sin (θ / 2) ^ 2) / V) =
      (2 * Real.sin (θ / 2) ^ 2 * (V3.norm r1 * V3.norm r2)) / (V / μ) by field_simp,
      Real.sqrt_div (by positivity), Real.sqrt_mul (by positivity), Real.sqrt_mul (by norm_num),
      Real.sqrt_sq hs.le]
  have hVm : 0 < Real.sqrt (V / μ) := by positivity
  have hRs : 0 < Real.sqrt (V3.norm r1 * V3.norm r2) := by positivity
  have e1 : Real.sqrt (V3.norm r1 * V3.norm r2) ^ 2 = V3.norm r1 * V3.norm r2 :=
    Real.sq_sqrt hR.le
  have e2 : Real.sqrt 2 ^ 2 = 2 := Real.sq_sqrt (by norm_num)
  rw [h3, h2, halfA]
  generalize Real.sqrt (V3.norm r1 * V3.norm r2) = S at *
  rw [← e1, div_eq_iff (by positivity)]
  field_simp
  rw [e2]

theorem f_pform {R1 R2 c V p : ℝ} (hR1 : 0 < R1) (hR2 : 0 < R2) (hc : 1 - c ≠ 0)
    (hV : 0 < V) (hp : p = R1 * R2 * (1 - c) / V) : R2 * (1 - c) / p = V / R1 := by
  rw [hp]; field_simp

theorem gdot_pform {R1 R2 c V p : ℝ} (hR1 : 0 < R1) (hR2 : 0 < R2) (hc : 1 - c ≠ 0)
    (hV : 0 < V) (hp : p = R1 * R2 * (1 - c) / V) : R1 * (1 - c) / p = V / R2 := by
  rw [hp]; field_simp

/-- `sin θ ≠ 0` rules out aligned positions. -/
theorem notAligned_of_sin {r1 r2 : V3} {pro : Bool} {θ : ℝ}
    (hθ : getTransferAngle r1 r2 pro = .ok θ) (h : Real.sin θ ≠ 0) : NotAligned r1 r2 :=
  notAligned_of_angle hθ (by rintro rfl; simp at h) (by rintro rfl; simp at h)

theorem Angle.cos_lt_one {pro : Bool} {r1 r2 : V3} {θ : ℝ} (h : Angle pro r1 r2 θ) :
    0 < 1 - Real.cos θ := by
  have h1 : 1 - Real.cos θ = 2 * Real.sin (θ / 2) ^ 2 := by
    have : Real.cos θ = 2 * Real.cos (θ / 2) ^ 2 - 1 := by
      rw [← Real.cos_two_mul]; congr 1; ring
    rw [this, Real.cos_sq']; ring
  have := h.half_cos.2.2
  rw [h1]; positivity

end Lamberthub
