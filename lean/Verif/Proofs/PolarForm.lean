import Verif.Proofs.AngleLemmas

/-!
# Velocities given by radial and transverse components

Several solvers return `v = v_r u + v_t (h × u)`; these lemmas compare them with the
velocities built from Lagrange coefficients.
-/

set_option autoImplicit false

namespace Lamberthub
open Spec LC

theorem cross_norm_sq (r1 r2 : V3) :
    V3.norm (V3.cross r1 r2) ^ 2 = V3.norm r1 ^ 2 * V3.norm r2 ^ 2 - V3.dot r1 r2 ^ 2 := by
  rw [norm_sq, norm_sq, norm_sq]; unfold V3.cross V3.dot; ring

theorem cross_norm_pos {r1 r2 : V3} (h : NotAligned r1 r2) : 0 < V3.norm (V3.cross r1 r2) :=
  norm_pos_iff.2 fun h0 => (cross_eq_zero_iff.1 h0) h

theorem sub_norm_sq (r1 r2 : V3) :
    V3.norm (r2 - r1) ^ 2 = V3.norm r1 ^ 2 + V3.norm r2 ^ 2 - 2 * V3.dot r1 r2 := by
  rw [norm_sq, norm_sq, norm_sq]; unfold V3.dot; simp only [V3.sub_x, V3.sub_y, V3.sub_z]; ring

/-- `w × r1 = |r1|² r2 - (r1·r2) r1` for `w = r1 × r2`. -/
theorem cross_cross_left (r1 r2 : V3) :
    V3.cross (V3.cross r1 r2) r1 = (V3.norm r1 ^ 2) • r2 - V3.dot r1 r2 • r1 := by
  rw [norm_sq]
  ext <;> simp [V3.cross, V3.dot] <;> ring

/-- `w × r2 = (r1·r2) r2 - |r2|² r1` for `w = r1 × r2`. -/
theorem cross_cross_right (r1 r2 : V3) :
    V3.cross (V3.cross r1 r2) r2 = V3.dot r1 r2 • r2 - (V3.norm r2 ^ 2) • r1 := by
  rw [norm_sq]
  ext <;> simp [V3.cross, V3.dot] <;> ring

theorem norm_smul (c : ℝ) (v : V3) : V3.norm (c • v) = |c| * V3.norm v := by
  have h1 := norm_sq (c • v)
  have h2 := norm_sq v
  have h3 : V3.norm (c • v) ^ 2 = (|c| * V3.norm v) ^ 2 := by
    rw [h1, mul_pow, sq_abs, h2]; simp only [V3.smul_x, V3.smul_y, V3.smul_z]; ring
  exact (sq_eq_sq₀ (norm_nonneg _) (mul_nonneg (abs_nonneg _) (norm_nonneg _))).1 h3

theorem cross_smul_smul (a b : ℝ) (v w : V3) :
    V3.cross (a • v) (b • w) = (a * b) • V3.cross v w := by
  ext <;> simp [V3.cross] <;> ring

/-- The normalised cross product of the unit vectors is the normalised cross product. -/
theorem unit_normal {r1 r2 : V3} (h1 : 0 < V3.norm r1) (h2 : 0 < V3.norm r2) :
    (V3.norm (V3.cross ((V3.norm r1)⁻¹ • r1) ((V3.norm r2)⁻¹ • r2)))⁻¹ •
      V3.cross ((V3.norm r1)⁻¹ • r1) ((V3.norm r2)⁻¹ • r2) =
    (V3.norm (V3.cross r1 r2))⁻¹ • V3.cross r1 r2 := by
  rw [cross_smul_smul, norm_smul, abs_of_pos (by positivity)]
  rcases (norm_nonneg (V3.cross r1 r2)).lt_or_eq with h | h
  · ext <;> simp only [V3.smul_x, V3.smul_y, V3.smul_z] <;> field_simp
  · rw [← h]; ext <;> simp

/-- The transverse unit vector at `r1`, for the arc shorter than `π`. -/
noncomputable def trans1 (r1 r2 : V3) : V3 :=
  (V3.norm (V3.cross r1 r2) * V3.norm r1)⁻¹ • ((V3.norm r1 ^ 2) • r2 - V3.dot r1 r2 • r1)

/-- The transverse unit vector at `r2`, for the arc shorter than `π`. -/
noncomputable def trans2 (r1 r2 : V3) : V3 :=
  (V3.norm (V3.cross r1 r2) * V3.norm r2)⁻¹ • (V3.dot r1 r2 • r2 - (V3.norm r2 ^ 2) • r1)

theorem cross_unit_trans1 (r1 r2 : V3) :
    V3.cross ((V3.norm (V3.cross r1 r2))⁻¹ • V3.cross r1 r2) ((V3.norm r1)⁻¹ • r1) =
      trans1 r1 r2 := by
  rw [cross_smul_smul, cross_cross_left, trans1, mul_inv]

theorem cross_unit_trans2 (r1 r2 : V3) :
    V3.cross ((V3.norm (V3.cross r1 r2))⁻¹ • V3.cross r1 r2) ((V3.norm r2)⁻¹ • r2) =
      trans2 r1 r2 := by
  rw [cross_smul_smul, cross_cross_right, trans2, mul_inv]

theorem cross_swap (v w : V3) : V3.cross v w = -V3.cross w v := by
  ext <;> simp [V3.cross] <;> ring

/-- `g` of the Lagrange coefficients. -/
noncomputable def lagG (μ A V : ℝ) : ℝ := A * Real.sqrt (V / μ)

theorem fgV1_of_polar {μ A V ε vr vt : ℝ} {r1 r2 : V3} (hG : Geo r1 r2 A) (hε : ε ^ 2 = 1)
    (hvr : vr = (V - V3.norm r1 + V3.dot r1 r2 / V3.norm r1) / lagG μ A V)
    (hvt : vt = ε * V3.norm (V3.cross r1 r2) / (V3.norm r1 * lagG μ A V)) :
    vr • ((V3.norm r1)⁻¹ • r1) + vt • (ε • trans1 r1 r2) = fgV1 μ r1 r2 A V := by
  have hW := cross_norm_pos hG.hna
  have hR := hG.R1
  unfold trans1 fgV1
  change _ = (lagG μ A V)⁻¹ • _
  rw [hvr, hvt]
  simp only [div_eq_mul_inv _ (lagG μ A V), div_eq_mul_inv _ (_ * lagG μ A V), mul_inv _ (lagG μ A V)]
  generalize (lagG μ A V)⁻¹ = k
  have hε' : ε * ε = 1 := by rw [← sq]; exact hε
  ext <;> simp only [V3.add_x, V3.add_y, V3.add_z, V3.smul_x, V3.smul_y, V3.smul_z, V3.sub_x,
    V3.sub_y, V3.sub_z] <;> field_simp <;> rw [hε] <;> ring

theorem fgV2_of_polar {μ A V ε vr vt : ℝ} {r1 r2 : V3} (hG : Geo r1 r2 A) (hε : ε ^ 2 = 1)
    (hvr : vr = (V3.norm r2 - V - V3.dot r1 r2 / V3.norm r2) / lagG μ A V)
    (hvt : vt = ε * V3.norm (V3.cross r1 r2) / (V3.norm r2 * lagG μ A V)) :
    vr • ((V3.norm r2)⁻¹ • r2) + vt • (ε • trans2 r1 r2) = fgV2 μ r1 r2 A V := by
  have hW := cross_norm_pos hG.hna
  have hR := hG.R2
  unfold trans2 fgV2
  change _ = (lagG μ A V)⁻¹ • _
  rw [hvr, hvt]
  simp only [div_eq_mul_inv _ (lagG μ A V), div_eq_mul_inv _ (_ * lagG μ A V), mul_inv _ (lagG μ A V)]
  generalize (lagG μ A V)⁻¹ = k
  have hε' : ε * ε = 1 := by rw [← sq]; exact hε
  ext <;> simp only [V3.add_x, V3.add_y, V3.add_z, V3.smul_x, V3.smul_y, V3.smul_z, V3.sub_x,
    V3.sub_y, V3.sub_z] <;> field_simp <;> rw [hε] <;> ring

/-- Notation for the semi-perimeter form: `s = (R1+R2+c)/2`, `A = √2 s λ`. -/
structure Semi (R1 R2 c s lam : ℝ) : Prop where
  hs : s = (R1 + R2 + c) / 2
  spos : 0 < s
  cpos : 0 < c
  sum : R1 + R2 = s * (1 + lam ^ 2)
  chord : c = s * (1 - lam ^ 2)
  lam_lt : lam ^ 2 < 1

/-- The semi-perimeter form of the geometry constant. -/
theorem LC.Geo.semi {r1 r2 : V3} {A : ℝ} (hG : Geo r1 r2 A) :
    ∃ s lam, Semi (V3.norm r1) (V3.norm r2) (V3.norm (r2 - r1)) s lam ∧
      A = Real.sqrt 2 * s * lam := by
  have h12 : 0 < V3.norm (r2 - r1) := by
    rw [norm_pos_iff]
    intro h
    apply hG.hna
    have hx : r2.x - r1.x = 0 := congrArg V3.x h
    have hy : r2.y - r1.y = 0 := congrArg V3.y h
    have hz : r2.z - r1.z = 0 := congrArg V3.z h
    rw [show r2.x = r1.x by linarith, show r2.y = r1.y by linarith, show r2.z = r1.z by linarith]
    refine ⟨?_, ?_, ?_⟩ <;> ring
  have hc := sub_norm_sq r1 r2
  have hR1 := hG.R1
  have hR2 := hG.R2
  have hA2 := hG.hA2
  set c := V3.norm (r2 - r1)
  set R1 := V3.norm r1
  set R2 := V3.norm r2
  have hr2 : Real.sqrt 2 ^ 2 = 2 := Real.sq_sqrt (by norm_num)
  have hr2p : 0 < Real.sqrt 2 := by positivity
  have hs : 0 < (R1 + R2 + c) / 2 := by positivity
  refine ⟨(R1 + R2 + c) / 2, A / (Real.sqrt 2 * ((R1 + R2 + c) / 2)), ?_, ?_⟩
  · have hl : (A / (Real.sqrt 2 * ((R1 + R2 + c) / 2))) ^ 2 = (R1 + R2 - c) / (R1 + R2 + c) := by
      rw [div_pow, mul_pow, hr2, div_eq_div_iff (by positivity) (by positivity)]
      linear_combination (R1 + R2 + c) * hA2 + (R1 + R2 + c) / 2 * hc
    refine ⟨rfl, hs, h12, ?_, ?_, ?_⟩
    · rw [hl]; field_simp; ring
    · rw [hl]; field_simp; ring
    · rw [hl, div_lt_one (by positivity)]; linarith
  · field_simp

end Lamberthub
