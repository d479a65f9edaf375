import Verif.Spec.Geometry
import Verif.Proofs.Conserved

/-! # The arrival velocity is determined by the departure state -/

set_option autoImplicit false

namespace Lamberthub
open Spec LC

/-- On one orbit there is only one velocity at a given position (off the line of the
departure position): the arrival velocity does not depend on the time or on the number of
revolutions. -/
theorem LambertArc.arrival_unique {μ : ℝ} (hμ : μ ≠ 0) {r1 r2 v1 v2 v2' : V3} {T T' : ℝ} {M M' : ℕ}
    (hna : NotAligned r1 r2) (h : LambertArc μ r1 r2 v1 v2 T M) (h' : LambertArc μ r1 r2 v1 v2' T' M') :
    v2 = v2' := by
  obtain ⟨-, pos, vel, hk, p0, q0, pT, qT, -⟩ := h
  obtain ⟨-, pos', vel', hk', p0', q0', pT', qT', -⟩ := h'
  have a1 := angMom_const hk T 0
  have a2 := angMom_const hk' T' 0
  have e1 := eccVec_const hμ hk T 0
  have e2 := eccVec_const hμ hk' T' 0
  rw [p0, q0, pT, qT] at a1 e1
  rw [p0', q0', pT', qT'] at a2 e2
  have ha : outer r2 v2 = outer r2 v2' := a1.trans a2.symm
  have he : eccVec μ r2 v2 = eccVec μ r2 v2' := e1.trans e2.symm
  have hR2 : len r2 ≠ 0 := by rw [← pT]; exact (len_pos (hk.no_collision T)).ne'
  have hR1 : len r1 ≠ 0 := by rw [← p0]; exact (len_pos (hk.no_collision 0)).ne'
  have hne : ¬ ((outer r2 v2).x = 0 ∧ (outer r2 v2).y = 0 ∧ (outer r2 v2).z = 0) := by
    rintro ⟨h1, h2, h3⟩
    apply hna
    unfold eccVec at e1
    rw [← a1] at e1
    have k : ∀ v w : V3, w.x = 0 → w.y = 0 → w.z = 0 → (outer v w).x = 0 ∧ (outer v w).y = 0 ∧ (outer v w).z = 0 := by
      intro v w a b c; simp [outer, a, b, c]
    obtain ⟨b1, b2, b3⟩ := k v2 _ h1 h2 h3
    obtain ⟨c1, c2, c3⟩ := k v1 _ h1 h2 h3
    have x := congrArg V3.x e1
    have y := congrArg V3.y e1
    have z := congrArg V3.z e1
    simp only [V3.sub_x, V3.sub_y, V3.sub_z, V3.smul_x, V3.smul_y, V3.smul_z, b1, b2, b3, c1, c2, c3, mul_zero,
      zero_sub, neg_inj] at x y z
    have x' : r2.x = len r2 / len r1 * r1.x := by field_simp at x ⊢; linarith
    have y' : r2.y = len r2 / len r1 * r1.y := by field_simp at y ⊢; linarith
    have z' : r2.z = len r2 / len r1 * r1.z := by field_simp at z ⊢; linarith
    rw [x', y', z']
    refine ⟨?_, ?_, ?_⟩ <;> ring
  have hx : 0 < r2.x ^ 2 + r2.y ^ 2 + r2.z ^ 2 := by
    rw [← len_sq]; positivity
  unfold eccVec at he
  rw [← ha] at he
  have ax := congrArg V3.x ha
  have ay := congrArg V3.y ha
  have az := congrArg V3.z ha
  have ex := congrArg V3.x he
  have ey := congrArg V3.y he
  have ez := congrArg V3.z he
  have hdot : r2.x * (outer r2 v2).x + r2.y * (outer r2 v2).y + r2.z * (outer r2 v2).z = 0 := by
    unfold outer; ring
  have bx : (outer r2 v2).x = r2.y * v2.z - r2.z * v2.y := rfl
  have bz : (outer r2 v2).y = r2.z * v2.x - r2.x * v2.z := rfl
  have by' : (outer r2 v2).z = r2.x * v2.y - r2.y * v2.x := rfl
  generalize outer r2 v2 = H at *
  simp only [outer, V3.sub_x, V3.sub_y, V3.sub_z, V3.smul_x, V3.smul_y, V3.smul_z] at ax ay az ex ey ez
  have fx : (v2.y - v2'.y) * H.z - (v2.z - v2'.z) * H.y = 0 := by
    have := mul_left_cancel₀ (one_div_ne_zero hμ) (sub_left_inj.1 ex)
    linarith
  have fy : (v2.z - v2'.z) * H.x - (v2.x - v2'.x) * H.z = 0 := by
    have := mul_left_cancel₀ (one_div_ne_zero hμ) (sub_left_inj.1 ey)
    linarith
  have fz : (v2.x - v2'.x) * H.y - (v2.y - v2'.y) * H.x = 0 := by
    have := mul_left_cancel₀ (one_div_ne_zero hμ) (sub_left_inj.1 ez)
    linarith
  have gx : r2.y * (v2.z - v2'.z) - r2.z * (v2.y - v2'.y) = 0 := by linarith
  have gy : r2.z * (v2.x - v2'.x) - r2.x * (v2.z - v2'.z) = 0 := by linarith
  have gz : r2.x * (v2.y - v2'.y) - r2.y * (v2.x - v2'.x) = 0 := by linarith
  clear ax ay az ex ey ez bx by' bz e1 e2 a1 a2 ha he
  have hx2 : v2.x - v2'.x = 0 ∧ v2.y - v2'.y = 0 ∧ v2.z - v2'.z = 0 := by
    generalize v2.x - v2'.x = dx at *
    generalize v2.y - v2'.y = dy at *
    generalize v2.z - v2'.z = dz at *
    have hd : H.x * dx + H.y * dy + H.z * dz = 0 := by
      have : (r2.x ^ 2 + r2.y ^ 2 + r2.z ^ 2) * (H.x * dx + H.y * dy + H.z * dz) = 0 := by
        linear_combination (r2.x * dx + r2.y * dy + r2.z * dz) * hdot
          - (H.z * r2.y - H.y * r2.z) * (-1) * gx - (H.x * r2.z - H.z * r2.x) * (-1) * gy
          - (H.y * r2.x - H.x * r2.y) * (-1) * gz
      exact (mul_eq_zero.1 this).resolve_left hx.ne'
    have hH : H.x ^ 2 + H.y ^ 2 + H.z ^ 2 ≠ 0 := by
      intro h0
      have q1 := sq_nonneg H.x
      have q2 := sq_nonneg H.y
      have q3 := sq_nonneg H.z
      exact hne ⟨pow_eq_zero_iff two_ne_zero |>.1 (le_antisymm (by linarith) q1),
        pow_eq_zero_iff two_ne_zero |>.1 (le_antisymm (by linarith) q2),
        pow_eq_zero_iff two_ne_zero |>.1 (le_antisymm (by linarith) q3)⟩
    refine ⟨(mul_eq_zero.1 (?_ : (H.x ^ 2 + H.y ^ 2 + H.z ^ 2) * dx = 0)).resolve_left hH,
      (mul_eq_zero.1 (?_ : (H.x ^ 2 + H.y ^ 2 + H.z ^ 2) * dy = 0)).resolve_left hH,
      (mul_eq_zero.1 (?_ : (H.x ^ 2 + H.y ^ 2 + H.z ^ 2) * dz = 0)).resolve_left hH⟩
    · linear_combination H.x * hd + H.y * fz - H.z * fy
    · linear_combination H.y * hd + H.z * fx - H.x * fz
    · linear_combination H.z * hd + H.x * fy - H.y * fx
  ext <;> linarith [hx2.1, hx2.2.1, hx2.2.2]

end Lamberthub
