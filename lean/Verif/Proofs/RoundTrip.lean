import Verif.Proofs.ElementsLemmas

/-! # State to elements to state -/

set_option autoImplicit false

namespace Lamberthub
open Spec LC

theorem arctan2_scale {c : ℝ} (hc : 0 < c) (y x : ℝ) : arctan2 (c * y) (c * x) = arctan2 y x := by
  unfold arctan2
  rw [← Complex.arg_real_mul ⟨x, y⟩ hc]
  congr 1
  apply Complex.ext <;> simp

theorem coe2rv_congr {k p e inc raan a a' n n' : ℝ} (h1 : Real.cos a = Real.cos a')
    (h2 : Real.sin a = Real.sin a') (h3 : Real.cos n = Real.cos n') (h4 : Real.sin n = Real.sin n') :
    coe2rv k p e inc raan a n = coe2rv k p e inc raan a' n' := by
  unfold coe2rv rvPqw coeRotationMatrix rotationMatrix
  simp only [h1, h2, h3, h4]

theorem planeDir_congr {inc raan u u' : ℝ} (h1 : Real.cos u = Real.cos u')
    (h2 : Real.sin u = Real.sin u') : planeDir inc raan u = planeDir inc raan u' := by
  unfold planeDir; rw [h1, h2]

theorem wrap_cos (ν : ℝ) :
    Real.cos (pmod (ν + Real.pi) (2 * Real.pi) - Real.pi) = Real.cos ν := by
  rw [Real.cos_sub_pi, cos_pmod, Real.cos_add_pi, neg_neg]

theorem wrap_sin (ν : ℝ) :
    Real.sin (pmod (ν + Real.pi) (2 * Real.pi) - Real.pi) = Real.sin ν := by
  rw [Real.sin_sub_pi, sin_pmod, Real.sin_add_pi, neg_neg]

/-- The plane of a non-equatorial angular momentum. -/
theorem plane_of_h {h : V3} {H : ℝ} (hH : 0 < H) (hH2 : H ^ 2 = inner h h)
    (hxy : ¬ (h.x = 0 ∧ h.y = 0)) {inc raan : ℝ} (hinc : inc = Real.arccos (h.z / H))
    (hraan : raan = pmod (arctan2 (V3.cross ⟨0, 0, 1⟩ h).y (V3.cross ⟨0, 0, 1⟩ h).x) (2 * Real.pi)) :
    h = H • planeNormal inc raan ∧
    ∀ (r : V3) (R : ℝ), 0 < R → R ^ 2 = inner r r → inner r h = 0 →
      r = R • planeDir inc raan (arctan2 (V3.dot r (V3.cross h (V3.cross ⟨0, 0, 1⟩ h)) / H)
        (V3.dot r (V3.cross ⟨0, 0, 1⟩ h))) := by
  have hx : (V3.cross ⟨0, 0, 1⟩ h).x = -h.y := by simp [V3.cross]
  have hy : (V3.cross ⟨0, 0, 1⟩ h).y = h.x := by simp [V3.cross]
  unfold inner at hH2
  have hD2 : 0 < h.x ^ 2 + h.y ^ 2 := by
    by_contra hc
    apply hxy
    constructor <;> nlinarith [sq_nonneg h.x, sq_nonneg h.y]
  obtain ⟨D, hD, hDD⟩ : ∃ D, 0 < D ∧ D ^ 2 = h.x ^ 2 + h.y ^ 2 :=
    ⟨Real.sqrt (h.x ^ 2 + h.y ^ 2), Real.sqrt_pos.2 hD2, Real.sq_sqrt hD2.le⟩
  have hsqD : Real.sqrt (h.x ^ 2 + h.y ^ 2) = D := by rw [← hDD, Real.sqrt_sq hD.le]
  have hz1 : -1 ≤ h.z / H := by
    rw [le_div_iff₀ hH]; nlinarith [sq_nonneg h.x, sq_nonneg h.y]
  have hz2 : h.z / H ≤ 1 := by
    rw [div_le_iff₀ hH]; nlinarith [sq_nonneg h.x, sq_nonneg h.y]
  have hci : Real.cos inc = h.z / H := by rw [hinc, Real.cos_arccos hz1 hz2]
  have hsi : Real.sin inc = D / H := by
    rw [hinc, Real.sin_arccos, show 1 - (h.z / H) ^ 2 = (D / H) ^ 2 by
      rw [div_pow, div_pow, hDD]; field_simp; linarith, Real.sqrt_sq (by positivity)]
  have hcr : Real.cos raan = -h.y / D := by
    rw [hraan, cos_pmod, hx, hy, cos_arctan2 (by
      by_contra hc; push Not at hc; exact hxy ⟨hc.2, by linarith [hc.1]⟩)]
    rw [show (-h.y) ^ 2 + h.x ^ 2 = h.x ^ 2 + h.y ^ 2 by ring, hsqD]
  have hsr : Real.sin raan = h.x / D := by
    rw [hraan, sin_pmod, hx, hy, sin_arctan2,
      show (-h.y) ^ 2 + h.x ^ 2 = h.x ^ 2 + h.y ^ 2 by ring, hsqD]
  constructor
  · unfold planeNormal
    rw [hci, hsi, hcr, hsr]
    ext <;> simp <;> field_simp
  · intro r R hR hRr hrh
    have e1 : V3.dot r (V3.cross ⟨0, 0, 1⟩ h) = D * inner r (nodeDir raan) := by
      unfold nodeDir inner
      rw [hcr, hsr]; simp [V3.dot, V3.cross]; field_simp
    have e2 : V3.dot r (V3.cross h (V3.cross ⟨0, 0, 1⟩ h)) / H = D * inner r (aheadDir inc raan) := by
      unfold aheadDir inner
      rw [hcr, hsr, hci, hsi]; simp [V3.dot, V3.cross]; field_simp
      linear_combination (-r.z) * hDD
    rw [e1, e2, arctan2_scale hD]
    have hf := planeDir_orthonormal inc raan 0
    have hn := planeDir_normal inc raan 0
    have p0 : planeDir inc raan 0 = nodeDir raan := by unfold planeDir; ext <;> simp
    have p1 : planeDir inc raan (0 + Real.pi / 2) = aheadDir inc raan := by
      unfold planeDir; ext <;> simp
    rw [p0, p1] at hf hn
    have hrn : inner r (outer (nodeDir raan) (aheadDir inc raan)) = 0 := by
      rw [hn]
      have : H * inner r (planeNormal inc raan) = 0 := by
        rw [← hrh]
        unfold planeNormal inner
        rw [hci, hsi, hcr, hsr]; simp; field_simp
      exact (mul_eq_zero.1 this).resolve_left hH.ne'
    have hcomb := comb_of_orthogonal hf hrn
    have hR2 : inner r (nodeDir raan) ^ 2 + inner r (aheadDir inc raan) ^ 2 = R ^ 2 := by
      rw [hRr]
      obtain ⟨h11, h22, h12⟩ := hf
      generalize nodeDir raan = a at *
      generalize aheadDir inc raan = b at *
      conv_rhs => rw [hcomb]
      generalize inner r a = α
      generalize inner r b = β
      have : inner (α • a + β • b) (α • a + β • b) =
          α ^ 2 * inner a a + 2 * α * β * inner a b + β ^ 2 * inner b b := by
        simp [inner]; ring
      rw [this, h11, h22, h12]; ring
    have hnz : inner r (nodeDir raan) ≠ 0 ∨ inner r (aheadDir inc raan) ≠ 0 := by
      by_contra hc; push Not at hc; rw [hc.1, hc.2] at hR2; nlinarith
    conv_lhs => rw [hcomb]
    unfold planeDir
    rw [cos_arctan2 hnz, sin_arctan2, hR2, Real.sqrt_sq hR.le]
    ext <;> simp <;> field_simp

end Lamberthub
