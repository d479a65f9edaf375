import Verif.Model.Elements
import Verif.Props.Angles
import Verif.Props.Anomalies

/-! # Lemmas about the orbital elements -/

set_option autoImplicit false

namespace Lamberthub
open Spec LC

theorem planeDir_orthonormal (inc raan u : ℝ) :
    Orthonormal (planeDir inc raan u) (planeDir inc raan (u + Real.pi / 2)) := by
  have h1 := Real.sin_sq_add_cos_sq inc
  have h2 := Real.sin_sq_add_cos_sq raan
  have h3 := Real.sin_sq_add_cos_sq u
  unfold Orthonormal planeDir
  rw [Real.cos_add_pi_div_two, Real.sin_add_pi_div_two]
  simp only [inner, nodeDir, aheadDir, V3.add_x, V3.add_y, V3.add_z, V3.smul_x, V3.smul_y, V3.smul_z]
  generalize Real.sin inc = si at *
  generalize Real.cos inc = ci at *
  generalize Real.sin raan = sr at *
  generalize Real.cos raan = cr at *
  generalize Real.sin u = su at *
  generalize Real.cos u = cu at *
  refine ⟨?_, ?_, ?_⟩
  · linear_combination (su ^ 2) * h1 + (cu ^ 2 + su ^ 2 * ci ^ 2) * h2 + h3
  · linear_combination (cu ^ 2) * h1 + (su ^ 2 + cu ^ 2 * ci ^ 2) * h2 + h3
  · linear_combination (su * cu) * h1 + (su * cu * ci ^ 2 - cu * su) * h2

theorem planeDir_normal (inc raan u : ℝ) :
    outer (planeDir inc raan u) (planeDir inc raan (u + Real.pi / 2)) = planeNormal inc raan := by
  have h2 := Real.sin_sq_add_cos_sq raan
  have h3 := Real.sin_sq_add_cos_sq u
  unfold planeDir
  rw [Real.cos_add_pi_div_two, Real.sin_add_pi_div_two]
  ext <;> simp only [outer, nodeDir, aheadDir, planeNormal, V3.add_x, V3.add_y, V3.add_z, V3.smul_x,
    V3.smul_y, V3.smul_z]
  · linear_combination (Real.sin raan * Real.sin inc) * h3
  · linear_combination (-Real.cos raan * Real.sin inc) * h3
  · linear_combination (Real.cos inc * (Real.sin u ^ 2 + Real.cos u ^ 2)) * h2 + Real.cos inc * h3

/-- What `coe2rv` computes. -/
theorem coe2rv_eq {k p ecc inc raan argp nu : ℝ} (hk : 0 < k) (hp : 0 < p)
    (hd : 0 < 1 + ecc * Real.cos nu) :
    coe2rv k p ecc inc raan argp nu = .ok
      (conicPos p ecc nu (planeDir inc raan argp) (planeDir inc raan (argp + Real.pi / 2)),
       conicVel k p ecc nu (planeDir inc raan argp) (planeDir inc raan (argp + Real.pi / 2))) := by
  unfold coe2rv rvPqw coeRotationMatrix
  rw [pdiv_eq hd.ne', pdiv_eq hp.ne']
  simp only [ok_bind]
  rw [psqrt_eq (by positivity)]
  simp only [ok_bind, rotationMatrix]
  simp only [show ((2 : ℤ) = 0) = False by simp, show ((2 : ℤ) = 1) = False by simp, if_false, if_true,
    ok_bind]
  unfold planeDir conicPos conicVel
  rw [Real.cos_add_pi_div_two, Real.sin_add_pi_div_two]
  generalize p / (1 + ecc * Real.cos nu) = a
  generalize Real.sqrt (k / p) = b
  congr 1
  refine Prod.ext ?_ ?_
  · ext <;> simp [M3.app, Matrix.mul_apply, Fin.sum_univ_three, nodeDir, aheadDir] <;> ring
  · ext <;> simp [M3.app, Matrix.mul_apply, Fin.sum_univ_three, nodeDir, aheadDir] <;> ring

theorem planeDir_add (inc raan a b : ℝ) :
    Real.cos b • planeDir inc raan a + Real.sin b • planeDir inc raan (a + Real.pi / 2) =
      planeDir inc raan (a + b) := by
  unfold planeDir
  rw [Real.cos_add_pi_div_two, Real.sin_add_pi_div_two, Real.cos_add, Real.sin_add]
  ext <;> simp <;> ring

theorem outer_normal_planeDir (inc raan u : ℝ) :
    outer (planeNormal inc raan) (planeDir inc raan u) = planeDir inc raan (u + Real.pi / 2) := by
  rw [← planeDir_normal inc raan u]
  obtain ⟨h1, h2, h3⟩ := planeDir_orthonormal inc raan u
  generalize planeDir inc raan u = a at *
  generalize planeDir inc raan (u + Real.pi / 2) = b at *
  simp only [inner] at h1 h2 h3
  ext <;> simp only [outer]
  · linear_combination b.x * h1 - a.x * h3
  · linear_combination b.y * h1 - a.y * h3
  · linear_combination b.z * h1 - a.z * h3

/-- A state is recovered from its elements. -/
theorem state_recover {μ : ℝ} {r v : V3} {H R e ν inc raan argp : ℝ} (hμ : 0 < μ) (hH : 0 < H)
    (hR : 0 < R) (hRr : R ^ 2 = inner r r)
    (hec : e * Real.cos ν = H ^ 2 / μ / R - 1) (hes : e * Real.sin ν = inner r v * H / (μ * R))
    (hn : outer r v = H • planeNormal inc raan) (hr : r = R • planeDir inc raan (argp + ν)) :
    coe2rv μ (H ^ 2 / μ) e inc raan argp ν = .ok (r, v) := by
  have hp : 0 < H ^ 2 / μ := by positivity
  have hd : 1 + e * Real.cos ν = H ^ 2 / μ / R := by rw [hec]; ring
  rw [coe2rv_eq hμ hp (by rw [hd]; positivity)]
  have hpos : conicPos (H ^ 2 / μ) e ν (planeDir inc raan argp) (planeDir inc raan (argp + Real.pi / 2)) = r := by
    unfold conicPos
    rw [planeDir_add, hd]
    conv_rhs => rw [hr]
    congr 1
    field_simp
  have hs : Real.sqrt (μ / (H ^ 2 / μ)) = μ / H := by
    rw [show μ / (H ^ 2 / μ) = (μ / H) ^ 2 by field_simp, Real.sqrt_sq (by positivity)]
  have hvel : conicVel μ (H ^ 2 / μ) e ν (planeDir inc raan argp) (planeDir inc raan (argp + Real.pi / 2)) = v := by
    have e1 : conicVel μ (H ^ 2 / μ) e ν (planeDir inc raan argp)
        (planeDir inc raan (argp + Real.pi / 2)) =
        (μ / H) • ((e * Real.sin ν) • planeDir inc raan (argp + ν) +
          (1 + e * Real.cos ν) • planeDir inc raan (argp + ν + Real.pi / 2)) := by
      unfold conicVel
      rw [hs]
      congr 1
      have a1 := planeDir_add inc raan argp ν
      have a2 := planeDir_add inc raan (argp + Real.pi / 2) ν
      have a3 : planeDir inc raan (argp + Real.pi / 2 + Real.pi / 2) = -planeDir inc raan argp := by
        rw [show argp + Real.pi / 2 + Real.pi / 2 = argp + Real.pi by ring]
        unfold planeDir
        rw [Real.cos_add_pi, Real.sin_add_pi]
        ext <;> simp <;> ring
      rw [a3] at a2
      rw [show argp + ν + Real.pi / 2 = argp + Real.pi / 2 + ν by ring, ← a1, ← a2]
      generalize planeDir inc raan argp = a
      generalize planeDir inc raan (argp + Real.pi / 2) = b
      have h3 := Real.sin_sq_add_cos_sq ν
      ext
      · simp only [V3.add_x, V3.smul_x, V3.neg_x]; linear_combination (-e * b.x) * h3
      · simp only [V3.add_y, V3.smul_y, V3.neg_y]; linear_combination (-e * b.y) * h3
      · simp only [V3.add_z, V3.smul_z, V3.neg_z]; linear_combination (-e * b.z) * h3
    have e2 : v = (1 / R ^ 2) • (inner r v • r + outer (outer r v) r) := by
      have : inner r v • r + outer (outer r v) r = inner r r • v := by
        ext <;> simp [outer, inner] <;> ring
      rw [this, ← hRr]
      ext <;> simp <;> field_simp
    rw [e1, ← outer_normal_planeDir, hd, hes]
    conv_rhs => rw [e2, hn]
    have hr' : planeDir inc raan (argp + ν) = (1 / R) • r := by
      conv_rhs => rw [hr]
      ext <;> simp <;> field_simp
    rw [hr']
    generalize planeNormal inc raan = w
    generalize inner r v = c
    ext <;> simp only [outer, V3.add_x, V3.add_y, V3.add_z, V3.smul_x, V3.smul_y, V3.smul_z] <;>
      field_simp
  rw [hpos, hvel]

theorem eToNu_rel {E e ν : ℝ} (he0 : 0 ≤ e) (he1 : e < 1) (h1 : -Real.pi < E) (h2 : E ≤ Real.pi)
    (h : eToNu E e = .ok ν) :
    (1 - e * Real.cos E) * Real.cos ν = Real.cos E - e ∧
      (1 - e * Real.cos E) * Real.sin ν = Real.sqrt (1 - e ^ 2) * Real.sin E := by
  have h3 : E < Real.pi := by
    refine lt_of_le_of_ne h2 ?_
    rintro rfl
    unfold eToNu at h
    simp only [bind_ok, ptan_ok] at h
    obtain ⟨-, -, -, -, -, ⟨hc, -⟩, -⟩ := h
    exact hc Real.cos_pi_div_two
  obtain ⟨A, B, -, -⟩ := eccentric_anomaly he0 he1
  obtain ⟨ν', n1, n2, n3, n4⟩ := B E h1 h3
  rw [n1] at h
  obtain rfl := Except.ok.inj h
  obtain ⟨E', m1, -, -, -, -, -, m2, m3⟩ := A ν' n3 n4
  rw [n2] at m1
  obtain rfl := Except.ok.inj m1
  exact ⟨m2, m3⟩

theorem hToNu_rel {E e ν : ℝ} (he1 : 1 < e) (h : hToNu E e = .ok ν) :
    (e * Real.cosh E - 1) * Real.cos ν = e - Real.cosh E ∧
      (e * Real.cosh E - 1) * Real.sin ν = Real.sqrt (e ^ 2 - 1) * Real.sinh E := by
  obtain ⟨A, B, -, -⟩ := hyperbolic_parabolic_anomaly he1
  obtain ⟨ν', n1, n2, n3⟩ := B E
  rw [n1] at h
  obtain rfl := Except.ok.inj h
  obtain ⟨E', m1, -, m2, m3⟩ := A ν' n3
  rw [n2] at m1
  obtain rfl := Except.ok.inj m1
  exact ⟨m2, m3⟩

/-- The true anomaly of a non-circular orbit satisfies the polar equation of the conic. -/
theorem rv2coeNu_spec {μ H ecc R vn rv vv ν : ℝ} (hμ : 0 < μ) (hH : 0 < H) (hR : 0 < R)
    (hvn : vn ^ 2 = vv) (hH2 : H ^ 2 = R ^ 2 * vv - rv ^ 2) (he : 0 < ecc)
    (hecc : ecc ^ 2 = 1 + H ^ 2 * (vv - 2 * μ / R) / μ ^ 2)
    (h : rv2coeNu μ (H ^ 2 / μ) ecc R vn rv vv = .ok ν) :
    ecc * Real.cos ν = H ^ 2 / μ / R - 1 ∧ ecc * Real.sin ν = rv * H / (μ * R) := by
  have hp : 0 < H ^ 2 / μ := by positivity
  unfold rv2coeNu at h
  simp only [bind_ok, pdiv_ok] at h
  obtain ⟨a, ⟨ha0, ha⟩, h⟩ := h
  have hane : a ≠ 0 := by rw [ha]; exact div_ne_zero hp.ne' ha0
  have hpa : H ^ 2 / μ = a * (1 - ecc ^ 2) := by rw [ha]; field_simp
  -- vis viva
  have hvis : R * vv / μ - 1 = 1 - R / a := by
    have h1 : 1 - ecc ^ 2 = (H ^ 2 / μ) * ((2 * μ / R - vv) / μ) := by
      rw [hecc]; field_simp; ring
    have h2 : 1 = a * ((2 * μ / R - vv) / μ) := by
      have : H ^ 2 / μ * 1 = H ^ 2 / μ * (a * ((2 * μ / R - vv) / μ)) := by
        conv_lhs => rw [mul_one, hpa, h1]
        ring
      exact mul_left_cancel₀ hp.ne' this
    have h3 : 1 / a = (2 * μ / R - vv) / μ := by rw [div_eq_iff hane, mul_comm]; exact h2
    rw [show R / a = R * (1 / a) by ring, h3]
    field_simp; ring
  have hsum : rv ^ 2 / (μ * a) + (1 - R / a) ^ 2 = ecc ^ 2 := by
    have hrv : rv ^ 2 = R ^ 2 * vv - μ * (a * (1 - ecc ^ 2)) := by
      rw [← hpa]; field_simp; linarith
    have hvv : vv = μ * (2 - R / a) / R := by field_simp; field_simp at hvis; linarith
    rw [hrv, hvv]
    field_simp; ring
  split at h
  · rename_i hapos
    simp only [bind_ok, psqrt_ok, pdiv_ok] at h
    obtain ⟨s, ⟨hs0, hs⟩, es, ⟨hsn, hes⟩, q, ⟨-, hq⟩, h⟩ := h
    have he1 : ecc < 1 := by
      by_contra hc
      have h1 : 1 - ecc ^ 2 < 0 := lt_of_le_of_ne (by nlinarith) ha0
      have := div_neg_of_pos_of_neg hp h1
      rw [← ha] at this; linarith
    have hs2 : s ^ 2 = μ * a := by rw [hs, Real.sq_sqrt hs0]
    have hspos : 0 < s := by rw [hs]; exact Real.sqrt_pos.2 (by positivity)
    rw [hq, hvis] at h
    have hsq : (1 - R / a) ^ 2 + es ^ 2 = ecc ^ 2 := by
      rw [← hsum, hes, div_pow, hs2]; ring
    have hnz : 1 - R / a ≠ 0 ∨ es ≠ 0 := by
      by_contra hc; push Not at hc; rw [hc.1, hc.2] at hsq; nlinarith
    obtain ⟨r1, r2⟩ := eToNu_rel he.le he1 (Complex.neg_pi_lt_arg _) (Complex.arg_le_pi _) h
    have hc : Real.cos (arctan2 es (1 - R / a)) = (1 - R / a) / ecc := by
      rw [cos_arctan2 hnz, hsq, Real.sqrt_sq he.le]
    have hsn' : Real.sin (arctan2 es (1 - R / a)) = es / ecc := by
      rw [sin_arctan2, hsq, Real.sqrt_sq he.le]
    change (1 - ecc * Real.cos (arctan2 es (1 - R / a))) * _ =
      Real.cos (arctan2 es (1 - R / a)) - ecc at r1
    change (1 - ecc * Real.cos (arctan2 es (1 - R / a))) * _ = _ * Real.sin (arctan2 es (1 - R / a)) at r2
    rw [hc] at r1
    rw [hc, hsn'] at r2
    have e0 : 1 - ecc * ((1 - R / a) / ecc) = R / a := by field_simp; ring
    rw [e0] at r1 r2
    constructor
    · have h6 : R / a * (ecc * Real.cos ν) = 1 - R / a - ecc ^ 2 := by
        rw [show R / a * (ecc * Real.cos ν) = ecc * (R / a * Real.cos ν) by ring, r1]; field_simp
      rw [hpa, show ecc * Real.cos ν = a / R * (R / a * (ecc * Real.cos ν)) by field_simp, h6]
      field_simp; ring
    · have hsq1 : Real.sqrt (1 - ecc ^ 2) = H / s := by
        have : 1 - ecc ^ 2 = (H / s) ^ 2 := by
          rw [div_pow, hs2]
          have : H ^ 2 = μ * (a * (1 - ecc ^ 2)) := by rw [← hpa]; field_simp
          rw [this]; field_simp
        rw [this, Real.sqrt_sq (by positivity)]
      rw [hsq1, hes] at r2
      have hs2' : μ * a = s ^ 2 := hs2.symm
      have : R * (ecc * Real.sin ν) * μ = H * rv := by
        have h5 : R * ecc * Real.sin ν = a * H * rv / s ^ 2 := by
          field_simp at r2 ⊢
          linarith
        calc R * (ecc * Real.sin ν) * μ = (R * ecc * Real.sin ν) * μ := by ring
          _ = (μ * a) * H * rv / s ^ 2 := by rw [h5]; ring
          _ = H * rv := by rw [hs2']; field_simp
      field_simp
      linarith
  · rename_i hapos
    have haneg : a < 0 := lt_of_le_of_ne (not_lt.1 hapos) hane
    simp only [bind_ok, psqrt_ok, pdiv_ok, plog_ok] at h
    obtain ⟨s, ⟨hs0, hs⟩, es, ⟨hsn, hes⟩, q, ⟨-, hq⟩, w, ⟨hw0, hw⟩, l, ⟨hwpos, hl⟩, h⟩ := h
    have he1 : 1 < ecc := by
      by_contra hc
      have h1 : 0 < 1 - ecc ^ 2 := lt_of_le_of_ne (by nlinarith) ha0.symm
      have := div_pos hp h1
      rw [← ha] at this; linarith
    have hs2 : s ^ 2 = -(μ * a) := by rw [hs, Real.sq_sqrt hs0]
    have hspos : 0 < s := by rw [hs]; exact Real.sqrt_pos.2 (by nlinarith)
    rw [hvn] at hq
    have hq' : q - 1 = 1 - R / a := by rw [hq, hvis]
    rw [hq'] at hw hw0
    have hch : 1 < 1 - R / a := by
      have := div_neg_of_pos_of_neg hR haneg; linarith
    have hsq : (1 - R / a) ^ 2 - es ^ 2 = ecc ^ 2 := by
      rw [← hsum, hes, div_pow, hs2, div_neg]; ring
    generalize hCC : 1 - R / a = C at *
    have habs : |es| < C := by
      apply abs_lt_of_sq_lt_sq _ (by linarith)
      have : 0 < ecc ^ 2 := by positivity
      linarith
    have hp1 : 0 < C + es := by linarith [(abs_lt.1 habs).1]
    have hp2 : 0 < C - es := by linarith [(abs_lt.1 habs).2]
    have hw2 : w = ((C + es) / ecc) ^ 2 := by
      rw [hw, div_pow, ← hsq]
      have : C ^ 2 - es ^ 2 ≠ 0 := by rw [hsq]; positivity
      field_simp; ring
    have hl2 : l / 2 = Real.log ((C + es) / ecc) := by
      rw [hl, hw2, Real.log_pow]; push_cast; ring
    have hexp : Real.exp (l / 2) = (C + es) / ecc := by rw [hl2, Real.exp_log (by positivity)]
    have hexp' : Real.exp (-(l / 2)) = (C - es) / ecc := by
      rw [Real.exp_neg, hexp, inv_div, div_eq_div_iff (by positivity) (by positivity)]
      linear_combination -hsq
    have hcosh : Real.cosh (l / 2) = C / ecc := by
      rw [Real.cosh_eq, hexp, hexp']; ring
    have hsinh : Real.sinh (l / 2) = es / ecc := by
      rw [Real.sinh_eq, hexp, hexp']; ring
    obtain ⟨r1, r2⟩ := hToNu_rel he1 h
    rw [hcosh] at r1
    rw [hcosh, hsinh] at r2
    have e0 : ecc * (C / ecc) - 1 = -(R / a) := by rw [← hCC]; field_simp; ring
    rw [e0] at r1 r2
    constructor
    · have h6 : R / a * (ecc * Real.cos ν) = 1 - R / a - ecc ^ 2 := by
        rw [show R / a * (ecc * Real.cos ν) = -(ecc * (-(R / a) * Real.cos ν)) by ring, r1, hCC]
        field_simp; ring
      rw [hpa, show ecc * Real.cos ν = a / R * (R / a * (ecc * Real.cos ν)) by field_simp, h6]
      field_simp; ring
    · have hsq1 : Real.sqrt (ecc ^ 2 - 1) = H / s := by
        have : ecc ^ 2 - 1 = (H / s) ^ 2 := by
          rw [div_pow, hs2]
          have : H ^ 2 = μ * (a * (1 - ecc ^ 2)) := by rw [← hpa]; field_simp
          rw [this]; field_simp; ring
        rw [this, Real.sqrt_sq (by positivity)]
      rw [hsq1, hes] at r2
      have hs2' : μ * a = -s ^ 2 := by linarith
      have : R * (ecc * Real.sin ν) * μ = H * rv := by
        have h5 : R * ecc * Real.sin ν = -(a * H * rv / s ^ 2) := by
          field_simp at r2 ⊢
          linarith
        calc R * (ecc * Real.sin ν) * μ = (R * ecc * Real.sin ν) * μ := by ring
          _ = -((μ * a) * H * rv / s ^ 2) := by rw [h5]; ring
          _ = H * rv := by rw [hs2']; field_simp
      field_simp
      linarith

end Lamberthub
