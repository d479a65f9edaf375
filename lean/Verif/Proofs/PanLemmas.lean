import Verif.Model.Pan
import Verif.Proofs.ConicPath
import Verif.Proofs.PolarForm
import Verif.Proofs.JiangLemmas

/-! # Lemmas for the Pan solver -/

set_option autoImplicit false

namespace Lamberthub
open Spec LC

/-- Equal angles up to full turns have equal half-angle functions up to a common sign. -/
theorem half_sign {a b : ℝ} (hc : Real.cos a = Real.cos b) (hs : Real.sin a = Real.sin b) :
    ∃ σ : ℝ, (σ = 1 ∨ σ = -1) ∧ Real.sin (a / 2) = σ * Real.sin (b / 2) ∧ Real.cos (a / 2) = σ * Real.cos (b / 2) := by
  have he := Real.Angle.cos_sin_inj hc hs
  rw [Real.Angle.angle_eq_iff_two_pi_dvd_sub] at he
  obtain ⟨k, hk⟩ := he
  have : a / 2 = b / 2 + k * Real.pi := by linarith
  refine ⟨(-1) ^ k, ?_, ?_, ?_⟩
  · rcases Int.even_or_odd k with h | h
    · exact .inl h.neg_one_zpow
    · exact .inr h.neg_one_zpow
  · rw [this, Real.sin_add_int_mul_pi]
  · rw [this, Real.cos_add_int_mul_pi]

/-- `arctan2` recovers cosine and sine. -/
theorem arctan2_polar {R θ : ℝ} (hR : 0 < R) :
    Real.cos (arctan2 (R * Real.sin θ) (R * Real.cos θ)) = Real.cos θ ∧
      Real.sin (arctan2 (R * Real.sin θ) (R * Real.cos θ)) = Real.sin θ := by
  have hn : ‖(⟨R * Real.cos θ, R * Real.sin θ⟩ : ℂ)‖ = R := by
    rw [Complex.norm_def, Complex.normSq_mk,
      show R * Real.cos θ * (R * Real.cos θ) + R * Real.sin θ * (R * Real.sin θ) = R ^ 2 by
        linear_combination R ^ 2 * Real.sin_sq_add_cos_sq θ, Real.sqrt_sq hR.le]
  have hne : (⟨R * Real.cos θ, R * Real.sin θ⟩ : ℂ) ≠ 0 := by
    intro h; rw [h, norm_zero] at hn; exact hR.ne hn
  unfold arctan2
  rw [Complex.cos_arg hne, Complex.sin_arg, hn]
  constructor <;> field_simp

namespace Pan

/-- The plane geometry expressed in the basis of the code. -/
structure Plane (r1 r2 : V3) (θ : ℝ) (g : Geometry) : Prop where
  n1 : g.r1Norm = V3.norm r1
  n2 : g.r2Norm = V3.norm r2
  x1 : g.x1 = V3.norm r1
  y1 : g.y1 = 0
  x2 : g.x2 = V3.norm r2 * Real.cos θ
  y2 : g.y2 = V3.norm r2 * Real.sin θ
  xc : g.xc = V3.norm r2 * Real.cos θ - V3.norm r1
  yc : g.yc = V3.norm r2 * Real.sin θ
  p1 : r1 = V3.norm r1 • g.ix
  p2 : r2 = (V3.norm r2 * Real.cos θ) • g.ix + (V3.norm r2 * Real.sin θ) • g.iy

theorem sin_cross {pro : Bool} {r1 r2 : V3} {θ : ℝ} (hA : Angle pro r1 r2 θ) (hna : NotAligned r1 r2) :
    V3.norm r1 * V3.norm r2 * Real.sin θ =
      (if ShortWay pro r1 r2 then 1 else -1) * V3.norm (V3.cross r1 r2) := by
  have hR1 := norm_pos_of_notAligned_left hna
  have hR2 := norm_pos_of_notAligned_right hna
  have hsq : (V3.norm r1 * V3.norm r2 * Real.sin θ) ^ 2 = V3.norm (V3.cross r1 r2) ^ 2 := by
    rw [cross_norm_sq, mul_pow, Real.sin_sq, ← hA.cos_eq]; ring
  have hW := cross_norm_pos hna
  rcases sq_eq_sq_iff_eq_or_eq_neg.1 hsq with h | h
  · have hs : 0 < Real.sin θ := by
      by_contra hcon
      have := mul_nonpos_of_nonneg_of_nonpos (mul_pos hR1 hR2).le (not_lt.1 hcon)
      linarith
    have : θ < Real.pi := by
      by_contra hcon
      have h3 := Real.sin_nonpos_of_nonpos_of_neg_pi_le (x := θ - 2 * Real.pi) (by linarith [hA.lt])
        (by linarith [not_lt.1 hcon])
      rw [Real.sin_sub_two_pi] at h3
      linarith
    rw [if_pos (hA.short.1 this), h, one_mul]
  · have hs : ¬ θ < Real.pi := by
      intro hlt
      have := mul_pos (mul_pos hR1 hR2) (Real.sin_pos_of_pos_of_lt_pi hA.pos hlt)
      linarith
    rw [if_neg (fun h' => hs (hA.short.2 h')), h]; ring

theorem normal_eq {pro : Bool} {r1 r2 : V3} (hna : NotAligned r1 r2) :
    getOrbitNormalVector r1 r2 pro = .ok ((if ShortWay pro r1 r2 then (1 : ℝ) else -1) •
      ((V3.norm (V3.cross r1 r2))⁻¹ • V3.cross r1 r2)) := by
  have hW := cross_norm_pos hna
  have hinv : 0 < (V3.norm (V3.cross r1 r2))⁻¹ := inv_pos.2 hW
  have hdot : V3.dot kAxis ((V3.norm (V3.cross r1 r2))⁻¹ • V3.cross r1 r2) =
      (V3.norm (V3.cross r1 r2))⁻¹ * crossZ r1 r2 := by
    simp [V3.dot, kAxis, V3.cross, crossZ]
  unfold getOrbitNormalVector
  simp only [vdiv_eq hW.ne', ok_bind, hdot]
  have hpos : ((V3.norm (V3.cross r1 r2))⁻¹ * crossZ r1 r2 > 0) ↔ 0 < crossZ r1 r2 := by
    rw [gt_iff_lt, mul_pos_iff_of_pos_left hinv]
  have hneg : ((V3.norm (V3.cross r1 r2))⁻¹ * crossZ r1 r2 < 0) ↔ crossZ r1 r2 < 0 := by
    exact ⟨fun h => neg_of_mul_neg_right h hinv.le, fun h => mul_neg_of_pos_of_neg hinv h⟩
  have s1 : ∀ v : V3, (1 : ℝ) • v = v := fun v => by ext <;> simp
  have s2 : ∀ v : V3, (-1 : ℝ) • v = -v := fun v => by ext <;> simp
  cases pro
  · simp only [hneg, ShortWay, Bool.false_eq_true, if_false]
    by_cases h : crossZ r1 r2 < 0
    · rw [if_pos h, if_pos h, s1]
    · rw [if_neg h, if_neg h, s2]
  · simp only [hpos, ShortWay, if_true]
    by_cases h : 0 < crossZ r1 r2
    · rw [if_pos h, if_pos h, s1]
    · rw [if_neg h, if_neg h, s2]

theorem planarGeometry_eq {pro : Bool} {r1 r2 : V3} {θ : ℝ} (hA : Angle pro r1 r2 θ) (hna : NotAligned r1 r2) :
    ∃ g, getPlanarGeometry r1 r2 θ pro = .ok g ∧ Plane r1 r2 θ g := by
  have hR1 := norm_pos_of_notAligned_left hna
  have hR2 := norm_pos_of_notAligned_right hna
  have hW := cross_norm_pos hna
  unfold getPlanarGeometry
  simp only [vdiv_eq hR1.ne', ok_bind, normal_eq hna]
  refine ⟨_, rfl, ?_⟩
  have h1 : r1 = V3.norm r1 • ((V3.norm r1)⁻¹ • r1) := by
    ext <;> simp only [V3.smul_x, V3.smul_y, V3.smul_z] <;> field_simp
  refine ⟨rfl, rfl, rfl, by norm_num, rfl, rfl, rfl, by norm_num, h1, ?_⟩
  simp only []
  have hs := sin_cross hA hna
  have hc := hA.cos_eq
  have hε : (if ShortWay pro r1 r2 then (1 : ℝ) else -1) ^ 2 = 1 := by split <;> norm_num
  generalize (if ShortWay pro r1 r2 then (1 : ℝ) else -1) = ε at *
  have hcr : ∀ v w : V3, V3.cross (ε • v) w = ε • V3.cross v w := fun v w => by
    ext <;> simp [V3.cross] <;> ring
  rw [hcr, cross_unit_trans1, trans1]
  have hK : V3.norm r2 * Real.sin θ * ε * (V3.norm (V3.cross r1 r2) * V3.norm r1)⁻¹ = (V3.norm r1 ^ 2)⁻¹ := by
    rw [← div_eq_mul_inv, div_eq_iff (by positivity), inv_mul_eq_div, eq_div_iff (by positivity)]
    linear_combination V3.norm r1 * ε * hs + V3.norm r1 * V3.norm (V3.cross r1 r2) * hε
  have hc' : V3.norm r2 * Real.cos θ * (V3.norm r1)⁻¹ = (V3.norm r1 ^ 2)⁻¹ * V3.dot r1 r2 := by
    rw [← hc]; field_simp
  have hR : (V3.norm r1 ^ 2)⁻¹ * V3.norm r1 ^ 2 = 1 := inv_mul_cancel₀ (by positivity)
  generalize (V3.norm r1 ^ 2)⁻¹ = q at *
  generalize (V3.norm (V3.cross r1 r2) * V3.norm r1)⁻¹ = k at *
  generalize (V3.norm r1)⁻¹ = j at *
  generalize V3.norm r1 ^ 2 = n at *
  ext <;> simp only [V3.add_x, V3.add_y, V3.add_z, V3.smul_x, V3.smul_y, V3.smul_z, V3.sub_x, V3.sub_y, V3.sub_z]
  · linear_combination -r2.x * hR - r1.x * hc' - (n * r2.x - V3.dot r1 r2 * r1.x) * hK
  · linear_combination -r2.y * hR - r1.y * hc' - (n * r2.y - V3.dot r1 r2 * r1.y) * hK
  · linear_combination -r2.z * hR - r1.z * hc' - (n * r2.z - V3.dot r1 r2 * r1.z) * hK

/-- The elements describe a conic through both positions. -/
theorem elements_ok {r1 r2 : V3} {θ ω : ℝ} {g : Geometry} {el : Elements} (hP : Plane r1 r2 θ g)
    (hR1 : 0 < V3.norm r1) (hR2 : 0 < V3.norm r2) (hne : V3.norm r1 ≠ V3.norm r2)
    (h : elementsAtOmega g ω = .ok el) :
    0 < el.ecc ∧ el.ecc ≠ 1 ∧ el.f1 = -el.omega ∧
      el.f2 = arctan2 (V3.norm r2 * Real.sin θ) (V3.norm r2 * Real.cos θ) - el.omega ∧
      V3.norm r1 * (1 + el.ecc * Real.cos el.omega) = el.a * (1 - el.ecc ^ 2) ∧
      V3.norm r2 * (1 + el.ecc * (Real.cos θ * Real.cos el.omega + Real.sin θ * Real.sin el.omega)) =
        el.a * (1 - el.ecc ^ 2) := by
  unfold elementsAtOmega at h
  simp only [bind_ok, raiseIf_ok, pdiv_ok] at h
  obtain ⟨_, hc, ecc0, ⟨hc0, rfl⟩, _, hd, a, ⟨hd0, rfl⟩, h⟩ := h
  rw [hP.n1, hP.n2, hP.xc, hP.yc, hP.x1, hP.x2, hP.y1, hP.y2] at *
  have hd' := hP.n1
  obtain rfl := (Except.ok.inj h).symm
  simp only []
  have harc : arctan2 0 (V3.norm r1) = 0 := by
    unfold arctan2
    have : (⟨V3.norm r1, 0⟩ : ℂ) = ((V3.norm r1 : ℝ) : ℂ) := rfl
    rw [this, Complex.arg_ofReal_of_nonneg hR1.le]
  rw [harc]
  generalize V3.norm r1 = R1 at *
  generalize V3.norm r2 = R2 at *
  clear h hc hd
  generalize hC' : (R2 * Real.cos θ - R1) * Real.cos ω + R2 * Real.sin θ * Real.sin ω = C at *
  have hC := hC'.symm
  have hsub : R1 - R2 ≠ 0 := sub_ne_zero.2 hne
  have he0 : (R1 - R2) / C ≠ 0 := div_ne_zero hsub hc0
  have hdC : (R1 - R2) ^ 2 - C ^ 2 ≠ 0 := hd0
  have hp : C * (R2 * (R1 * Real.cos ω + 0 * Real.sin ω) - R1 * (R2 * Real.cos θ * Real.cos ω +
      R2 * Real.sin θ * Real.sin ω)) / ((R1 - R2) ^ 2 - C ^ 2) * (1 - ((R1 - R2) / C) ^ 2) =
      R1 * (1 + (R1 - R2) / C * Real.cos ω) := by
    have e : 1 - ((R1 - R2) / C) ^ 2 = -((R1 - R2) ^ 2 - C ^ 2) / C ^ 2 := by field_simp; ring
    rw [e]
    generalize (R1 - R2) ^ 2 - C ^ 2 = N at hdC
    field_simp
    rw [hC]; ring
  have hp2 : R2 * (1 + (R1 - R2) / C * (Real.cos θ * Real.cos ω + Real.sin θ * Real.sin ω)) =
      R1 * (1 + (R1 - R2) / C * Real.cos ω) := by
    field_simp
    rw [hC]; ring
  have hsq1 : ((R1 - R2) / C) ^ 2 ≠ 1 := by
    intro h1
    rw [div_pow, div_eq_one_iff_eq (pow_ne_zero _ hc0)] at h1
    exact hdC (by linarith)
  unfold fixEcc
  split
  · rename_i hneg
    simp only [Real.cos_add_pi, Real.sin_add_pi]
    refine ⟨by linarith, fun h1 => hsq1 ?_, by ring, trivial, ?_, ?_⟩
    · rw [← neg_sq, h1]; norm_num
    · rw [neg_sq, hp]; ring
    · rw [neg_sq, hp, ← hp2]; ring
  · rename_i hneg
    refine ⟨lt_of_le_of_ne (not_lt.1 hneg) (Ne.symm he0), fun h1 => hsq1 (by simp only [] at h1; rw [h1]; norm_num), by ring,
      trivial, ?_, ?_⟩
    · simp only []; rw [hp]
    · simp only []; rw [hp, hp2]

/-- The conic of the elements passes through both positions. -/
theorem twoPoints {pro : Bool} {r1 r2 : V3} {θ : ℝ} {el : Elements} (hA : Angle pro r1 r2 θ)
    (hR1 : 0 < V3.norm r1) (hR2 : 0 < V3.norm r2) (he : 0 < el.ecc) (h1 : el.f1 = -el.omega)
    (h2 : el.f2 = arctan2 (V3.norm r2 * Real.sin θ) (V3.norm r2 * Real.cos θ) - el.omega)
    (e1 : V3.norm r1 * (1 + el.ecc * Real.cos el.omega) = el.a * (1 - el.ecc ^ 2))
    (e2 : V3.norm r2 * (1 + el.ecc * (Real.cos θ * Real.cos el.omega + Real.sin θ * Real.sin el.omega)) =
        el.a * (1 - el.ecc ^ 2)) (hp : 0 < el.a * (1 - el.ecc ^ 2)) :
    ∃ σ, TwoPoints (el.a * (1 - el.ecc ^ 2)) el.ecc (V3.norm r1) (V3.norm r2) el.f1 el.f2 θ σ := by
  obtain ⟨hc, hs⟩ := arctan2_polar (θ := θ) hR2
  obtain ⟨σ, hσ, hsin, hcos⟩ := half_sign hc hs
  refine ⟨σ, hp, he.le, hR1, hR2, ?_, ?_, hA.half_cos.2.2, hσ, ?_, ?_⟩
  · rw [h1, Real.cos_neg, e1]
  · rw [h2, Real.cos_sub, hc, hs, e2]
  · rw [← Real.sin_sub, ← hsin, h1, h2]; congr 1; ring
  · rw [← Real.cos_sub, ← hcos, h1, h2]; congr 1; ring

/-- The velocities of the code are Lagrange's. -/
theorem reconstruct_eq {pro : Bool} {r1 r2 : V3} {θ mu : ℝ} {g : Geometry} {el : Elements} {v1 v2 : V3}
    (hmu : 0 < mu) (hA : Angle pro r1 r2 θ) (hna : NotAligned r1 r2) (hP : Plane r1 r2 θ g)
    (h1 : el.f1 = -el.omega)
    (h2 : el.f2 = arctan2 (V3.norm r2 * Real.sin θ) (V3.norm r2 * Real.cos θ) - el.omega)
    (e1 : V3.norm r1 * (1 + el.ecc * Real.cos el.omega) = el.a * (1 - el.ecc ^ 2))
    (e2 : V3.norm r2 * (1 + el.ecc * (Real.cos θ * Real.cos el.omega + Real.sin θ * Real.sin el.omega)) =
        el.a * (1 - el.ecc ^ 2)) (hp : 0 < el.a * (1 - el.ecc ^ 2))
    (h : reconstruct mu g el = .ok (v1, v2)) :
    v1 = fgV1 mu r1 r2 (halfA (V3.norm r1) (V3.norm r2) θ) (conicV (el.a * (1 - el.ecc ^ 2)) (V3.norm r1) (V3.norm r2) θ) ∧
    v2 = fgV2 mu r1 r2 (halfA (V3.norm r1) (V3.norm r2) θ) (conicV (el.a * (1 - el.ecc ^ 2)) (V3.norm r1) (V3.norm r2) θ) := by
  have hR1 := norm_pos_of_notAligned_left hna
  have hR2 := norm_pos_of_notAligned_right hna
  obtain ⟨hc, hs⟩ := arctan2_polar (θ := θ) hR2
  unfold reconstruct semiLatus at h
  simp only [if_neg (not_le.2 hp), bind_ok, raiseIf_ok, pdiv_ok, psqrt_ok] at h
  obtain ⟨_, -, _, ⟨-, rfl⟩, _, ⟨-, rfl⟩, h⟩ := h
  simp only [Except.ok.injEq, Prod.mk.injEq] at h
  obtain ⟨rfl, rfl⟩ := h
  have hcos1 := hA.cos_lt_one
  have hsinθ : Real.sin θ ≠ 0 := by
    have := sin_cross hA hna
    have hW := cross_norm_pos hna
    intro h0
    rw [h0, mul_zero] at this
    split at this <;> linarith
  have hV : 0 < conicV (el.a * (1 - el.ecc ^ 2)) (V3.norm r1) (V3.norm r2) θ := by unfold conicV; positivity
  have hpV : el.a * (1 - el.ecc ^ 2) = V3.norm r1 * V3.norm r2 * (1 - Real.cos θ) /
      conicV (el.a * (1 - el.ecc ^ 2)) (V3.norm r1) (V3.norm r2) θ := by
    unfold conicV; field_simp
  have hg := g_pform hA hna hmu hV hpV
  have hf := f_pform hR1 hR2 hcos1.ne' hV hpV
  have hgd := gdot_pform hR1 hR2 hcos1.ne' hV hpV
  unfold fgV1 fgV2
  rw [← hg, ← hf, ← hgd]
  generalize hpp : el.a * (1 - el.ecc ^ 2) = p at *
  have hs0 : Real.sqrt (mu * p) = Real.sqrt (mu / p) * p := by
    rw [show mu * p = mu / p * p ^ 2 by field_simp, Real.sqrt_mul (by positivity), Real.sqrt_sq hp.le]
  have hsp : 0 < Real.sqrt (mu / p) := by positivity
  rw [hs0, h1, h2, Real.sin_neg, Real.cos_neg, Real.sin_sub, Real.cos_sub, hc, hs]
  have t := Real.sin_sq_add_cos_sq el.omega
  have tθ := Real.sin_sq_add_cos_sq θ
  have hp1 := hP.p1
  have hp2 := hP.p2
  generalize Real.sqrt (mu / p) = s at *
  generalize V3.norm r1 = R1 at *
  generalize V3.norm r2 = R2 at *
  generalize Real.cos el.omega = c at *
  generalize Real.sin el.omega = w at *
  generalize Real.cos θ = C at *
  generalize Real.sin θ = S at *
  generalize el.ecc = e at *
  generalize g.ix = ix at *
  generalize g.iy = iy at *
  have hinv : (R1 * R2 * S / (s * p))⁻¹ = s * p / (R1 * R2 * S) := inv_div _ _
  have hE : R1 * R2 * S * (e * w) = R1 * p - R1 * R2 - R2 * C * (p - R1) := by
    linear_combination R1 * e2 - R2 * C * e1
  rw [hinv]
  have x1 : s * p / (R1 * R2 * S) * (R2 * C - (1 - R2 * (1 - C) / p) * R1) = -(s * (e * w)) := by
    rw [div_mul_eq_mul_div, div_eq_iff (by positivity)]
    field_simp
    linear_combination hE
  have y1 : s * p / (R1 * R2 * S) * (R2 * S) = s * (1 + e * c) := by
    rw [div_mul_eq_mul_div, div_eq_iff (by positivity)]
    linear_combination -s * R2 * S * e1
  have x2 : s * p / (R1 * R2 * S) * ((1 - R1 * (1 - C) / p) * (R2 * C) - R1) = -(s * (S + e * w)) := by
    rw [div_mul_eq_mul_div, div_eq_iff (by positivity)]
    field_simp
    linear_combination hE + R1 * R2 * tθ
  have y2 : s * p / (R1 * R2 * S) * ((1 - R1 * (1 - C) / p) * (R2 * S)) = s * (C + e * c) := by
    rw [div_mul_eq_mul_div, div_eq_iff (by positivity)]
    field_simp
    linear_combination -e1
  generalize s * p / (R1 * R2 * S) = G at *
  generalize 1 - R2 * (1 - C) / p = f at *
  generalize 1 - R1 * (1 - C) / p = gd at *
  constructor
  · rw [hp2, hp1]
    ext <;> simp only [V3.add_x, V3.add_y, V3.add_z, V3.smul_x, V3.smul_y, V3.smul_z, V3.sub_x, V3.sub_y, V3.sub_z]
    · linear_combination -ix.x * x1 - iy.x * y1 + s * iy.x * t
    · linear_combination -ix.y * x1 - iy.y * y1 + s * iy.y * t
    · linear_combination -ix.z * x1 - iy.z * y1 + s * iy.z * t
  · rw [hp2, hp1]
    ext <;> simp only [V3.add_x, V3.add_y, V3.add_z, V3.smul_x, V3.smul_y, V3.smul_z, V3.sub_x, V3.sub_y, V3.sub_z]
    · linear_combination -ix.x * x2 - iy.x * y2 + (s * C * iy.x - s * S * ix.x) * t
    · linear_combination -ix.y * x2 - iy.y * y2 + (s * C * iy.y - s * S * ix.y) * t
    · linear_combination -ix.z * x2 - iy.z * y2 + (s * C * iy.z - s * S * ix.z) * t

theorem eccentric_spec {p R f e E : ℝ} (he0 : 0 ≤ e) (he1 : e < 1) (hp : 0 < p) (hR : 0 < R)
    (hh : (1 + e) * Real.cos (f / 2) ^ 2 + (1 - e) * Real.sin (f / 2) ^ 2 = p / R)
    (h : trueToEccentric f e = .ok E) :
    Real.sqrt (1 - e) * Real.sin (f / 2) = Real.sqrt (p / R) * Real.sin (E / 2) ∧
    Real.sqrt (1 + e) * Real.cos (f / 2) = Real.sqrt (p / R) * Real.cos (E / 2) := by
  unfold trueToEccentric at h
  simp only [bind_ok, psqrt_ok] at h
  obtain ⟨_, ⟨h1, rfl⟩, _, ⟨h2, rfl⟩, h⟩ := h
  rw [← Except.ok.inj h, mul_div_cancel_left₀ _ (two_ne_zero' ℝ)]
  have hn : ‖(⟨Real.sqrt (1 + e) * Real.cos (f / 2), Real.sqrt (1 - e) * Real.sin (f / 2)⟩ : ℂ)‖ = Real.sqrt (p / R) := by
    rw [Complex.norm_def, Complex.normSq_mk, ← hh]
    congr 1
    linear_combination Real.cos (f / 2) ^ 2 * Real.sq_sqrt h2 + Real.sin (f / 2) ^ 2 * Real.sq_sqrt h1
  have hpos : 0 < Real.sqrt (p / R) := by positivity
  have hne : (⟨Real.sqrt (1 + e) * Real.cos (f / 2), Real.sqrt (1 - e) * Real.sin (f / 2)⟩ : ℂ) ≠ 0 := by
    intro h; rw [h, norm_zero] at hn; exact hpos.ne hn
  unfold arctan2
  rw [Complex.cos_arg hne, Complex.sin_arg, hn]
  constructor <;> field_simp

theorem pmod_eq {x d : ℝ} {k : ℤ} (h0 : 0 ≤ d) (h1 : d < 2 * Real.pi) (h : x = d + k * (2 * Real.pi)) :
    pmod x (2 * Real.pi) = d := by
  have hpi : 0 < 2 * Real.pi := by positivity
  have hf : ⌊x / (2 * Real.pi)⌋ = k := by
    rw [Int.floor_eq_iff, h]
    constructor
    · rw [le_div_iff₀ hpi]; linarith
    · rw [div_lt_iff₀ hpi]; linarith
  unfold pmod
  rw [hf, h]; ring

/-- The range of eccentricities in which the code uses the parabolic time of flight. -/
def NearOne (e : ℝ) : Prop := 1 ≤ e ∧ e ≤ 1 + (1e-8 + 1e-5)

theorem tofFromElements_ok {mu R1 R2 θ T : ℝ} {el : Elements} (hmu : 0 < mu) (hR1 : 0 < R1) (hR2 : 0 < R2)
    (he0 : 0 < el.ecc) (hne : el.ecc ≠ 1)
    (h2 : 0 < el.a * (1 - el.ecc ^ 2) → ∃ σ, TwoPoints (el.a * (1 - el.ecc ^ 2)) el.ecc R1 R2 el.f1 el.f2 θ σ)
    (h : tofFromElements mu el = .ok T) :
    0 < el.a * (1 - el.ecc ^ 2) ∧
      (¬ NearOne el.ecc → Path mu (R1 + R2) (halfA R1 R2 θ) 0 (conicV (el.a * (1 - el.ecc ^ 2)) R1 R2 θ) T) ∧
      (0 < T → ∃ T', Path mu (R1 + R2) (halfA R1 R2 θ) 0 (conicV (el.a * (1 - el.ecc ^ 2)) R1 R2 θ) T') := by
  unfold tofFromElements at h
  by_cases he1 : el.ecc < 1
  · rw [if_pos he1] at h
    simp only [bind_ok, raiseIf_ok, ellipticTof, pdiv_ok, psqrt_ok] at h
    obtain ⟨_, ha, E1, hE1, E2, hE2, _, ⟨-, rfl⟩, _, ⟨-, rfl⟩, h⟩ := h
    have hap : 0 < el.a := not_le.1 ha
    have h1e : 0 < 1 - el.ecc ^ 2 := by nlinarith
    have hp : 0 < el.a * (1 - el.ecc ^ 2) := mul_pos hap h1e
    obtain ⟨σ, hT⟩ := h2 hp
    obtain ⟨s1, c1⟩ := eccentric_spec he0.le he1 hp hR1 hT.half1 hE1
    obtain ⟨s2, c2⟩ := eccentric_spec he0.le he1 hp hR2 hT.half2 hE2
    obtain ⟨d, k, d0, d1, hk, hpath⟩ := hT.ell he1 hmu s1 c1 s2 c2
    rw [mul_div_cancel_right₀ _ h1e.ne'] at hpath
    have hTe : T = Real.sqrt (el.a ^ 3 / mu) * d := by
      rw [← Except.ok.inj h, pmod_eq d0.le d1 hk]
    rw [hTe]
    exact ⟨hp, fun _ => hpath, fun _ => ⟨_, hpath⟩⟩
  · rw [if_neg he1] at h
    have he : 1 < el.ecc := lt_of_le_of_ne (not_lt.1 he1) (Ne.symm hne)
    by_cases hn : |el.ecc - 1| ≤ 1e-8 + 1e-5
    · rw [if_pos hn] at h
      simp only [bind_ok, raiseIf_ok, parabolicTof, pdiv_ok, psqrt_ok, ptan_ok] at h
      obtain ⟨_, hp, _, ⟨-, rfl⟩, _, ⟨-, rfl⟩, _, ⟨-, rfl⟩, _, ⟨-, rfl⟩, h⟩ := h
      have hp' := not_le.1 hp
      obtain ⟨σ, hT⟩ := h2 hp'
      have hnear : NearOne el.ecc := ⟨he.le, by rw [abs_of_pos (by linarith)] at hn; linarith⟩
      refine ⟨hp', fun hno => absurd hnear hno, fun h0 => ?_⟩
      · rw [← Except.ok.inj h] at h0
        have hpos := pos_of_mul_pos_right h0 (Real.sqrt_nonneg _)
        have hlt : Real.tan (el.f1 / 2) < Real.tan (el.f2 / 2) := by
          by_contra hcon
          have hcon := not_lt.1 hcon
          generalize Real.tan (el.f1 / 2) = x at *
          generalize Real.tan (el.f2 / 2) = y at *
          have : 0 ≤ (x - y) * (1 + (x ^ 2 + x * y + y ^ 2) / 3) := by
            apply mul_nonneg (by linarith)
            nlinarith [sq_nonneg (x + y), sq_nonneg x, sq_nonneg y]
          nlinarith
        obtain ⟨F1, F2, -, -, hpath⟩ := hT.hyp_tan he hmu hlt
        exact ⟨_, hpath⟩
    · rw [if_neg hn] at h
      simp only [bind_ok, raiseIf_ok, hyperbolicTof, trueToHyperbolic, pdiv_ok, psqrt_ok, ptan_ok, partanh_ok] at h
      obtain ⟨_, ha, F1, ⟨_, ⟨-, rfl⟩, _, ⟨-, rfl⟩, _, ⟨-, rfl⟩, _, -, _, ⟨b1, rfl⟩, hF1⟩, F2,
        ⟨_, ⟨-, rfl⟩, _, ⟨-, rfl⟩, _, ⟨-, rfl⟩, _, -, _, ⟨b2, rfl⟩, hF2⟩, _, hd, _, ⟨-, rfl⟩, _, ⟨-, rfl⟩, h⟩ := h
      have ha' : el.a < 0 := not_le.1 ha
      have h1e : 0 < el.ecc ^ 2 - 1 := by nlinarith
      have hp : 0 < el.a * (1 - el.ecc ^ 2) := mul_pos_of_neg_of_neg ha' (by linarith)
      obtain ⟨σ, hT⟩ := h2 hp
      have hF1' := Except.ok.inj hF1
      have hF2' := Except.ok.inj hF2
      have hlt : F1 < F2 := by
        by_contra hcon
        have hcon := not_lt.1 hcon
        apply hd
        have hmono : ∀ {x y : ℝ}, x ≤ y → el.ecc * Real.sinh x - x ≤ el.ecc * Real.sinh y - y := by
          intro x y hxy
          have h1 : Real.sinh x - x ≤ Real.sinh y - y := Real.sinh_sub_id_strictMono.monotone hxy
          have h2 : Real.sinh x ≤ Real.sinh y := Real.sinh_le_sinh.2 hxy
          nlinarith
        linarith [hmono hcon]
      have hκ : 0 < Real.sqrt ((el.ecc - 1) / (el.ecc + 1)) :=
        Real.sqrt_pos.2 (div_pos (by linarith) (by linarith))
      have htan : Real.tan (el.f1 / 2) < Real.tan (el.f2 / 2) := by
        rw [← hF1', ← hF2'] at hlt
        have := (Real.artanh_lt_artanh_iff b1 b2).1 (by linarith)
        exact lt_of_mul_lt_mul_left this hκ.le
      obtain ⟨F1', F2', e1, e2, hpath⟩ := hT.hyp_tan he hmu htan
      rw [hF1'] at e1
      rw [hF2'] at e2
      rw [e1, e2, show el.a * (1 - el.ecc ^ 2) / (el.ecc ^ 2 - 1) = -el.a by
        rw [div_eq_iff h1e.ne']; ring] at hpath
      rw [← Except.ok.inj h]
      exact ⟨hp, fun _ => hpath, fun _ => ⟨_, hpath⟩⟩

end Pan
end Lamberthub
