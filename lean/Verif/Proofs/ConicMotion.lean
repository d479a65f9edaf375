import Verif.Proofs.Conserved
import Verif.Proofs.MeanAnomaly

/-! # A Kepler motion stays on its conic, and its true anomaly satisfies the area law -/

set_option autoImplicit false

namespace Lamberthub.LC
open Lamberthub Spec

theorem inner_comb {e1 e2 : V3} (hf : Orthonormal e1 e2) (a b : ℝ) :
    inner (a • e1 + b • e2) e1 = a ∧ inner (a • e1 + b • e2) e2 = b := by
  obtain ⟨h11, h22, h12⟩ := hf
  constructor
  · have : inner (a • e1 + b • e2) e1 = a * inner e1 e1 + b * inner e1 e2 := by
      simp [inner]; ring
    rw [this, h11, h12]; ring
  · have : inner (a • e1 + b • e2) e2 = a * inner e1 e2 + b * inner e2 e2 := by
      simp [inner]; ring
    rw [this, h22, h12]; ring

theorem len_comb {e1 e2 : V3} (hf : Orthonormal e1 e2) (a b : ℝ) :
    len (a • e1 + b • e2) ^ 2 = a ^ 2 + b ^ 2 := by
  obtain ⟨h11, h22, h12⟩ := hf
  rw [len_sq]
  have : (a • e1 + b • e2).x ^ 2 + (a • e1 + b • e2).y ^ 2 + (a • e1 + b • e2).z ^ 2 =
      a ^ 2 * inner e1 e1 + b ^ 2 * inner e2 e2 + 2 * a * b * inner e1 e2 := by
    simp [inner]; ring
  rw [this, h11, h22, h12]; ring

theorem outer_comb (e1 e2 : V3) (a b c d : ℝ) :
    outer (a • e1 + b • e2) (c • e1 + d • e2) = (a * d - b * c) • outer e1 e2 := by
  ext <;> simp [outer] <;> ring

theorem outer_comb_normal {e1 e2 : V3} (hf : Orthonormal e1 e2) (a b : ℝ) :
    outer (a • e1 + b • e2) (outer e1 e2) = b • e1 + (-a) • e2 := by
  obtain ⟨h11, h22, h12⟩ := hf
  have e : outer (a • e1 + b • e2) (outer e1 e2) =
      (a * inner e1 e2 + b * inner e2 e2) • e1 - (a * inner e1 e1 + b * inner e1 e2) • e2 := by
    ext <;> simp [outer, inner] <;> ring
  rw [e, h11, h22, h12]
  ext <;> simp <;> ring

theorem outer_smul (c : ℝ) (v w : V3) : outer v (c • w) = c • outer v w := by
  ext <;> simp [outer] <;> ring

theorem normal_unit {e1 e2 : V3} (hf : Orthonormal e1 e2) :
    inner (outer e1 e2) (outer e1 e2) = 1 := by
  obtain ⟨h11, h22, h12⟩ := hf
  have : inner (outer e1 e2) (outer e1 e2) = inner e1 e1 * inner e2 e2 - inner e1 e2 ^ 2 := by
    simp [outer, inner]; ring
  rw [this, h11, h22, h12]; ring

/-- The state of a body at a point of the plane of `e1, e2` whose angular momentum and
eccentricity vector are those of the conic. -/
structure OnConic (μ p e : ℝ) (e1 e2 : V3) (q w : V3) : Prop where
  inPlane : q = inner q e1 • e1 + inner q e2 • e2
  dist : len q = p - e * inner q e1
  dist_sq : len q ^ 2 = inner q e1 ^ 2 + inner q e2 ^ 2
  velx : inner w e1 = -Real.sqrt (μ / p) * (inner q e2 / len q)
  vely : inner w e2 = Real.sqrt (μ / p) * (e + inner q e1 / len q)
  velPlane : w = inner w e1 • e1 + inner w e2 • e2

theorem onConic_of_conserved {μ p e : ℝ} (hμ : 0 < μ) (hp : 0 < p) {e1 e2 : V3}
    (hf : Orthonormal e1 e2) {q w : V3} (hq : q ≠ 0)
    (hh : outer q w = (p * Real.sqrt (μ / p)) • outer e1 e2) (he : eccVec μ q w = e • e1) :
    OnConic μ p e e1 e2 q w := by
  obtain ⟨k, hkd⟩ : ∃ k, k = Real.sqrt (μ / p) := ⟨_, rfl⟩
  have hk : 0 < k := by rw [hkd]; positivity
  have hk2 : k ^ 2 * p = μ := by
    rw [hkd, Real.sq_sqrt (by positivity)]; field_simp
  rw [← hkd] at hh
  have hR := len_pos hq
  have hpk : p * k ≠ 0 := by positivity
  have o1 : inner q (outer e1 e2) = 0 := by
    have h0 : inner q (outer q w) = 0 := by simp [inner, outer]; ring
    rw [hh] at h0
    have : inner q ((p * k) • outer e1 e2) = p * k * inner q (outer e1 e2) := by
      simp [inner]; ring
    rw [this] at h0
    exact (mul_eq_zero.1 h0).resolve_left hpk
  have o2 : inner w (outer e1 e2) = 0 := by
    have h0 : inner w (outer q w) = 0 := by simp [inner, outer]; ring
    rw [hh] at h0
    have : inner w ((p * k) • outer e1 e2) = p * k * inner w (outer e1 e2) := by
      simp [inner]; ring
    rw [this] at h0
    exact (mul_eq_zero.1 h0).resolve_left hpk
  have c1 := comb_of_orthogonal hf o1
  have c2 := comb_of_orthogonal hf o2
  generalize hX : inner q e1 = X at *
  generalize hY : inner q e2 = Y at *
  generalize ha : inner w e1 = a at *
  generalize hb : inner w e2 = b at *
  have hlen : len q ^ 2 = X ^ 2 + Y ^ 2 := by rw [c1]; exact len_comb hf X Y
  have hecc : (p * k / μ * b - X / len q) • e1 + (-(p * k / μ * a) - Y / len q) • e2 =
      e • e1 + (0 : ℝ) • e2 := by
    have h1 : eccVec μ q w =
        (p * k / μ * b - X / len q) • e1 + (-(p * k / μ * a) - Y / len q) • e2 := by
      unfold eccVec
      rw [hh, outer_smul, c2, outer_comb_normal hf]
      have : (1 / len q) • q = (X / len q) • e1 + (Y / len q) • e2 := by
        generalize len q = L
        rw [c1]
        ext <;> simp <;> ring
      rw [this]
      ext <;> simp <;> ring
    rw [← h1, he]
    ext <;> simp
  obtain ⟨i1, i2⟩ := inner_comb hf (p * k / μ * b - X / len q) (-(p * k / μ * a) - Y / len q)
  obtain ⟨j1, j2⟩ := inner_comb hf e 0
  rw [hecc] at i1 i2
  rw [j1] at i1
  rw [j2] at i2
  have hpk' : p * k / μ = 1 / k := by rw [← hk2]; field_simp
  rw [hpk'] at i1 i2
  have hb' : b = k * (e + X / len q) := by rw [i1]; field_simp; ring
  have ha' : a = -k * (Y / len q) := by
    have : a = k * (1 / k * a) := by field_simp
    rw [this]; linear_combination k * i2
  have hdist : len q = p - e * X := by
    have h1 : outer q w = (X * b - Y * a) • outer e1 e2 := by
      rw [c1, c2]; exact outer_comb e1 e2 X Y a b
    rw [hh] at h1
    have h2 : p * k = X * b - Y * a := by
      have := congrArg (fun v => inner v (outer e1 e2)) h1
      have s : ∀ c : ℝ, inner (c • outer e1 e2) (outer e1 e2) = c := by
        intro c
        have : inner (c • outer e1 e2) (outer e1 e2) = c * inner (outer e1 e2) (outer e1 e2) := by
          simp [inner]; ring
        rw [this, normal_unit hf, mul_one]
      simp only [s] at this
      exact this
    rw [hb', ha'] at h2
    have h3 : p * k = k * (e * X + len q) := by
      have : X * (k * (e + X / len q)) - Y * (-k * (Y / len q)) =
          k * (e * X + (X ^ 2 + Y ^ 2) / len q) := by ring
      rw [h2, this, ← hlen]
      field_simp
    have h4 : p = e * X + len q := by
      have := mul_left_cancel₀ hk.ne' (show k * p = k * (e * X + len q) by linarith)
      exact this
    linarith
  refine ⟨by rw [hX, hY]; exact c1, by rw [hX]; exact hdist, by rw [hX, hY]; exact hlen,
    by rw [ha, hY, ← hkd]; exact ha', by rw [hb, hX, ← hkd]; exact hb', by rw [ha, hb]; exact c2⟩

/-- Conserved quantities of a point of the conic. -/
theorem conic_conserved {μ p e ν : ℝ} (hμ : 0 < μ) (hp : 0 < p) (hd : 0 < 1 + e * Real.cos ν)
    {e1 e2 : V3} (hf : Orthonormal e1 e2) :
    conicPos p e ν e1 e2 ≠ 0 ∧
    outer (conicPos p e ν e1 e2) (conicVel μ p e ν e1 e2) =
      (p * Real.sqrt (μ / p)) • outer e1 e2 ∧
    eccVec μ (conicPos p e ν e1 e2) (conicVel μ p e ν e1 e2) = e • e1 ∧
    len (conicPos p e ν e1 e2) = p / (1 + e * Real.cos ν) := by
  obtain ⟨k, hkd⟩ : ∃ k, k = Real.sqrt (μ / p) := ⟨_, rfl⟩
  have hk : 0 < k := by rw [hkd]; positivity
  have hk2 : k ^ 2 * p = μ := by
    rw [hkd, Real.sq_sqrt (by positivity)]; field_simp
  have hcs := Real.sin_sq_add_cos_sq ν
  have hpos : conicPos p e ν e1 e2 = (p / (1 + e * Real.cos ν) * Real.cos ν) • e1 +
      (p / (1 + e * Real.cos ν) * Real.sin ν) • e2 := by
    unfold conicPos; ext <;> simp <;> ring
  have hvel : conicVel μ p e ν e1 e2 = (k * -Real.sin ν) • e1 + (k * (e + Real.cos ν)) • e2 := by
    unfold conicVel; rw [← hkd]; ext <;> simp <;> ring
  have hl : len (conicPos p e ν e1 e2) = p / (1 + e * Real.cos ν) := by
    have h1 : len (conicPos p e ν e1 e2) ^ 2 = (p / (1 + e * Real.cos ν)) ^ 2 := by
      rw [hpos, len_comb hf]
      linear_combination (p / (1 + e * Real.cos ν)) ^ 2 * hcs
    have h2 : 0 ≤ len (conicPos p e ν e1 e2) := Real.sqrt_nonneg _
    exact (pow_left_inj₀ h2 (by positivity) two_ne_zero).1 h1
  have hne : conicPos p e ν e1 e2 ≠ 0 := by
    intro h0
    rw [h0] at hl
    have : len 0 = 0 := by simp [len]
    rw [this] at hl
    have : 0 < p / (1 + e * Real.cos ν) := by positivity
    linarith
  have ho : outer (conicPos p e ν e1 e2) (conicVel μ p e ν e1 e2) = (p * k) • outer e1 e2 := by
    rw [hpos, hvel, outer_comb]
    congr 1
    field_simp
    linear_combination hcs
  refine ⟨hne, by rw [← hkd]; exact ho, ?_, hl⟩
  unfold eccVec
  rw [ho, outer_smul, hvel, outer_comb_normal hf, hl, hpos]
  have hd' := hd.ne'
  rw [← hk2]
  ext <;> simp only [V3.sub_x, V3.sub_y, V3.sub_z, V3.add_x, V3.add_y, V3.add_z, V3.smul_x, V3.smul_y, V3.smul_z] <;> field_simp <;> ring

theorem onConic_motion {μ p e ν : ℝ} (hμ : 0 < μ) (hp : 0 < p) (hd : 0 < 1 + e * Real.cos ν)
    {e1 e2 : V3} (hf : Orthonormal e1 e2) {pos vel : ℝ → V3} (hk : KeplerMotion μ pos vel) {t0 : ℝ}
    (h0 : pos t0 = conicPos p e ν e1 e2) (hv : vel t0 = conicVel μ p e ν e1 e2) (t : ℝ) :
    OnConic μ p e e1 e2 (pos t) (vel t) := by
  obtain ⟨_, a, b, _⟩ := conic_conserved hμ hp hd hf
  refine onConic_of_conserved hμ hp hf (hk.no_collision t) ?_ ?_
  · rw [angMom_const hk t t0, h0, hv, a]
  · rw [eccVec_const hμ.ne' hk t t0, h0, hv, b]

end Lamberthub.LC
