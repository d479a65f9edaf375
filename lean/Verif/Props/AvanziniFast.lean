import Verif.Props.AvanziniRoots
import Verif.Props.McElreathSolves
import Verif.Props.Negrete

/-! # C91: the roots of the equation of `avanzini2008` for the parabolic and the hyperbolic times of flight -/

set_option autoImplicit false

namespace Lamberthub
open Spec LC Avanzini

/-- Energy of the orbit of parameter `V`, at the final position. -/
theorem fgV2_energy {μ A V : ℝ} (hμ : 0 < μ) (hV : 0 < V) {r1 r2 : V3} (hG : Geo r1 r2 A) :
    V3.dot (fgV2 μ r1 r2 A V) (fgV2 μ r1 r2 A V) / 2 - μ / V3.norm r2 =
      μ * ((V3.norm r1 + V3.norm r2 - V) ^ 2 - 2 * A ^ 2) / (2 * A ^ 2 * V) := by
  have hR2 := hG.R2
  have hA := hG.hA
  have h1 := norm_mul_self r1
  have h2 := norm_mul_self r2
  have hd : V3.dot r1 r2 = A ^ 2 - V3.norm r1 * V3.norm r2 := by rw [hG.hA2]; ring
  have hg2 : (A * Real.sqrt (V / μ)) ^ 2 = A ^ 2 * V / μ := by
    rw [mul_pow, Real.sq_sqrt (by positivity)]; ring
  have e : V3.dot (fgV2 μ r1 r2 A V) (fgV2 μ r1 r2 A V) =
      ((A * Real.sqrt (V / μ)) ^ 2)⁻¹ * (V3.dot r1 r1 - 2 * (1 - V / V3.norm r2) * V3.dot r1 r2 +
        (1 - V / V3.norm r2) ^ 2 * V3.dot r2 r2) := by
    unfold fgV2
    generalize A * Real.sqrt (V / μ) = g
    generalize 1 - V / V3.norm r2 = f
    simp only [V3.dot, V3.smul_x, V3.smul_y, V3.smul_z, V3.sub_x, V3.sub_y, V3.sub_z]
    rw [← inv_pow]
    ring
  rw [e, hg2, ← h1, ← h2, hd]
  field_simp
  ring

/-- **C91.** For every time of flight below that of the parabola the equation of `avanzini2008` has exactly one root; for the
time of the parabola it has none. -/
theorem avanzini_fast_root {mu : ℝ} {r1 r2 : V3} (hmu : 0 < mu) (hnp : NotPolar r1 r2) (pro : Bool) :
    ∃ g F, getGeometry r1 r2 pro = .ok g ∧ getEccTAtX g = .ok F ∧
      (∀ tof, 0 < tof → tof < parabolicTime mu r1 r2 pro → ∃! x, f F mu g tof x = .ok 0) ∧
      ∀ x, f F mu g (parabolicTime mu r1 r2 pro) x ≠ .ok 0 := by
  have hna : NotAligned r1 r2 := fun h => hnp h.2.2
  have hang := angle_of_eq hna (transferAngle_eq hna pro)
  obtain ⟨hG, hsh⟩ := hang.halfGeo hna
  rw [McElreath.halfA_signedA hna hang] at hG hsh
  have hT := Tpar_parabolicTime hmu hG
  generalize signedA pro r1 r2 = A at *
  have hb := Vallado.bound hG
  have hV : 0 < V3.norm r1 + V3.norm r2 - Real.sqrt 2 * A := by linarith [(abs_lt.1 hb).2]
  have hpar : Path mu (V3.norm r1 + V3.norm r2) A 0 (V3.norm r1 + V3.norm r2 - Real.sqrt 2 * A) (parabolicTime mu r1 r2 pro) := by
    rw [← hT]; exact .par hV rfl
  have h2 := Real.sq_sqrt (show (0 : ℝ) ≤ 2 by norm_num)
  have harc := hpar.arc hmu hG
  obtain ⟨g, F, hg, hF, -, hiff⟩ := avanzini_root_iff hmu hnp harc (sense_of_sign hmu hV hG.hA hnp hsh)
  refine ⟨g, F, hg, hF, fun tof ht hlt => ?_, fun x hx => (hiff.1 ⟨x, hx⟩).1 ?_⟩
  · obtain ⟨W, hP⟩ := Path.exists hmu hG.hA hb ht
    have hW := hP.V_pos
    obtain ⟨g', F', hg', hF', hmono, hiff'⟩ :=
      avanzini_root_iff hmu hnp (hP.arc hmu hG) (sense_of_sign hmu hW hG.hA hnp hsh)
    rw [hg] at hg'
    obtain rfl := Except.ok.inj hg'
    rw [hF] at hF'
    obtain rfl := Except.ok.inj hF'
    have hq := (hP.time_lt_iff hmu hG.hA hb hpar).1 hlt
    have hA := hG.hA
    have e1 : (V3.norm r1 + V3.norm r2 - (V3.norm r1 + V3.norm r2 - Real.sqrt 2 * A)) / A = Real.sqrt 2 := by
      field_simp; ring
    rw [e1] at hq
    have hpos : 0 < mu * ((V3.norm r1 + V3.norm r2 - W) ^ 2 - 2 * A ^ 2) / (2 * A ^ 2 * W) := by
      have h3 : 2 < ((V3.norm r1 + V3.norm r2 - W) / A) ^ 2 := by
        have := Real.sqrt_pos.2 (show (0 : ℝ) < 2 by norm_num)
        nlinarith
      rw [div_pow, lt_div_iff₀ (by positivity)] at h3
      have : 0 < (V3.norm r1 + V3.norm r2 - W) ^ 2 - 2 * A ^ 2 := by linarith
      positivity
    have k1 := fgV1_energy hmu hW hG
    have k2 := fgV2_energy hmu hW hG
    have hR1 : 0 < mu / V3.norm r1 := div_pos hmu hG.R1
    have hR2 : 0 < mu / V3.norm r2 := div_pos hmu hG.R2
    have hex := hiff'.2 (by
      rw [inner_eq_dot (fgV1 mu r1 r2 A W), inner_eq_dot (fgV2 mu r1 r2 A W), len_eq_norm, len_eq_norm]
      refine ⟨fun h => ?_, fun h => ?_, fun h => ?_⟩
      · rw [show 2 * mu / V3.norm r1 = 2 * (mu / V3.norm r1) by ring] at h
        linarith
      · linarith [h.2]
      · linarith [h.2])
    obtain ⟨x, hx⟩ := hex
    refine ⟨x, hx, fun y hy => ?_⟩
    rcases lt_trichotomy y x with h | h | h
    · exact absurd ((hmono _ _ _ _ hy hx).1 h) (lt_irrefl _)
    · exact h
    · exact absurd ((hmono _ _ _ _ hx hy).1 h) (lt_irrefl _)
  · have h := fgV1_energy hmu hV hG
    have e1 : (V3.norm r1 + V3.norm r2 - (V3.norm r1 + V3.norm r2 - Real.sqrt 2 * A)) ^ 2 - 2 * A ^ 2 = 0 := by
      linear_combination A ^ 2 * h2
    rw [e1, mul_zero, zero_div] at h
    rw [inner_eq_dot (fgV1 mu r1 r2 A _), len_eq_norm, show 2 * mu / V3.norm r1 = 2 * (mu / V3.norm r1) by ring]
    linarith

/-- Non-vacuity: positions a quarter turn apart, both senses. -/
example (pro : Bool) : ∃ g F, getGeometry ⟨1, 0, 0⟩ ⟨0, 2, 1⟩ pro = .ok g ∧ getEccTAtX g = .ok F ∧
    (∀ tof, 0 < tof → tof < parabolicTime 3 ⟨1, 0, 0⟩ ⟨0, 2, 1⟩ pro → ∃! x, f F 3 g tof x = .ok 0) ∧
    ∀ x, f F 3 g (parabolicTime 3 ⟨1, 0, 0⟩ ⟨0, 2, 1⟩ pro) x ≠ .ok 0 :=
  avanzini_fast_root (by norm_num) (by simp [NotPolar]) pro

end Lamberthub
