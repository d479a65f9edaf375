import Verif.Props.OrderAvanzini
import Verif.Props.Unique
import Verif.Proofs.ThorneGeo

/-! # C91: the equation solved by `avanzini2008` has one root at most, and when it has none -/

set_option autoImplicit false

namespace Lamberthub
open Spec LC

namespace Avanzini
variable {pro : Bool} {r1 r2 : V3} {g : Geometry}

/-- The transverse eccentricity increases with the variable of the iteration and takes every value between its limits. -/
theorem eccT_range (hG : Good pro r1 r2 g) : ∃ F E, getEccTAtX g = .ok F ∧ (∀ x, F x = .ok (E x)) ∧ StrictMono E ∧
      (∀ x, E x < Real.sqrt (1 - ((g.r1Norm - g.r2Norm) / g.cNorm) ^ 2)) ∧
      (∀ x, Real.pi < g.dtheta →
        -Real.sqrt ((-1 / Real.cos (g.dtheta / 2)) ^ 2 - ((g.r1Norm - g.r2Norm) / g.cNorm) ^ 2) < E x) ∧
      ∀ e, e < Real.sqrt (1 - ((g.r1Norm - g.r2Norm) / g.cNorm) ^ 2) →
        (Real.pi < g.dtheta → -Real.sqrt ((-1 / Real.cos (g.dtheta / 2)) ^ 2 - ((g.r1Norm - g.r2Norm) / g.cNorm) ^ 2) < e) →
        ∃ x, E x = e := by
  have hc := hG.c
  have hcos := cos_half_ne hG
  have hlt := hG.eF_lt
  have hM : 1 ≤ (-1 / Real.cos (g.dtheta / 2)) ^ 2 := by
    rw [div_pow, neg_one_sq, le_div_iff₀ (by positivity), one_mul]
    exact Real.cos_sq_le_one _
  have hP : 0 < Real.sqrt (1 - ((g.r1Norm - g.r2Norm) / g.cNorm) ^ 2) := Real.sqrt_pos.2 (by linarith)
  have hH : 0 < Real.sqrt ((-1 / Real.cos (g.dtheta / 2)) ^ 2 - ((g.r1Norm - g.r2Norm) / g.cNorm) ^ 2) :=
    Real.sqrt_pos.2 (by linarith)
  have hF : getEccTAtX g = .ok (if Real.pi < g.dtheta then
      eccTAbove (Real.sqrt ((-1 / Real.cos (g.dtheta / 2)) ^ 2 - ((g.r1Norm - g.r2Norm) / g.cNorm) ^ 2))
        (Real.sqrt (1 - ((g.r1Norm - g.r2Norm) / g.cNorm) ^ 2))
      else eccTBelow (Real.sqrt (1 - ((g.r1Norm - g.r2Norm) / g.cNorm) ^ 2))) := by
    unfold getEccTAtX getEccTLimits eccHLimit
    rw [fundamental_eq hc.ne', ok_bind]
    simp only []
    rw [pdiv_eq hcos, ok_bind]
    split_ifs
    · rw [psqrt_eq (by linarith), ok_bind, ok_bind, psqrt_eq (by linarith), ok_bind, ok_bind]
    · rw [ok_bind, psqrt_eq (by linarith), ok_bind, ok_bind]
  rw [hF]
  generalize Real.sqrt ((-1 / Real.cos (g.dtheta / 2)) ^ 2 - ((g.r1Norm - g.r2Norm) / g.cNorm) ^ 2) = eH at *
  generalize Real.sqrt (1 - ((g.r1Norm - g.r2Norm) / g.cNorm) ^ 2) = eP at *
  by_cases hpi : Real.pi < g.dtheta
  · have hk : 0 < 1 / eH + 1 / eP := by positivity
    refine ⟨_, fun x => eP - eP * (eP + eH) / (eP + eH * Real.exp ((1 / eH + 1 / eP) * x)), rfl, fun x => ?_, ?_, fun x => ?_,
      fun x _ => ?_, fun e h1 h2 => ?_⟩
    · rw [if_pos hpi]
      unfold eccTAbove
      rw [pdiv_eq hH.ne', ok_bind, pdiv_eq hP.ne', ok_bind, pdiv_eq (by positivity)]
      congr 1
      have : eP + eH * Real.exp ((1 / eH + 1 / eP) * x) ≠ 0 := by positivity
      rw [eq_sub_iff_add_eq, ← add_div, div_eq_iff this]
      ring
    · intro x y hxy
      have h1 : Real.exp ((1 / eH + 1 / eP) * x) < Real.exp ((1 / eH + 1 / eP) * y) :=
        Real.exp_lt_exp.2 (mul_lt_mul_of_pos_left hxy hk)
      have h2 : eP * (eP + eH) / (eP + eH * Real.exp ((1 / eH + 1 / eP) * y)) <
          eP * (eP + eH) / (eP + eH * Real.exp ((1 / eH + 1 / eP) * x)) :=
        div_lt_div_of_pos_left (by positivity) (by positivity) (by linarith [mul_lt_mul_of_pos_left h1 hH])
      simp only []
      linarith
    · have : 0 < eP * (eP + eH) / (eP + eH * Real.exp ((1 / eH + 1 / eP) * x)) := by positivity
      simp only []
      linarith
    · have hX := Real.exp_pos ((1 / eH + 1 / eP) * x)
      have : eP * (eP + eH) / (eP + eH * Real.exp ((1 / eH + 1 / eP) * x)) < eP + eH := by
        rw [div_lt_iff₀ (by positivity)]
        nlinarith [mul_pos (show 0 < eP + eH by positivity) (mul_pos hH hX)]
      simp only []
      linarith
    · have h2 := h2 hpi
      have hd : 0 < eP - e := by linarith
      have hn : 0 < eH + e := by linarith
      have hX : 0 < eP * (eH + e) / (eH * (eP - e)) := by positivity
      refine ⟨Real.log (eP * (eH + e) / (eH * (eP - e))) / (1 / eH + 1 / eP), ?_⟩
      simp only []
      rw [mul_div_cancel₀ _ hk.ne', Real.exp_log hX]
      have : eP + eH * (eP * (eH + e) / (eH * (eP - e))) = eP * (eP + eH) / (eP - e) := by
        field_simp
        ring
      rw [this, div_div_cancel₀ (by positivity)]
      ring
  · refine ⟨_, fun x => eP * (1 - Real.exp (-x / eP)), rfl, fun x => ?_, ?_, fun x => ?_,
      fun x h => absurd h hpi, fun e h1 _ => ?_⟩
    · rw [if_neg hpi]
      unfold eccTBelow
      rw [pdiv_eq hP.ne', ok_bind]
    · intro x y hxy
      have h1 : Real.exp (-y / eP) < Real.exp (-x / eP) :=
        Real.exp_lt_exp.2 (div_lt_div_of_pos_right (by linarith) hP)
      exact mul_lt_mul_of_pos_left (by linarith) hP
    · have := mul_pos hP (Real.exp_pos (-x / eP))
      simp only []
      linarith
    · have hd : 0 < 1 - e / eP := by rw [sub_pos, div_lt_one hP]; exact h1
      refine ⟨-(eP * Real.log (1 - e / eP)), ?_⟩
      simp only []
      rw [neg_neg, mul_div_cancel_left₀ _ hP.ne', Real.exp_log hd]
      field_simp
      ring

/-- The half-angle products. -/
theorem half_products (hG : Good pro r1 r2 g) : ∃ B, 0 < B ∧ B ^ 2 = g.r1Norm * g.r2Norm * (1 - Real.cos g.dtheta) ∧
    halfA g.r1Norm g.r2Norm g.dtheta * B = g.r1Norm * g.r2Norm * Real.sin g.dtheta ∧
    halfA g.r1Norm g.r2Norm g.dtheta ^ 2 = g.r1Norm * g.r2Norm * (1 + Real.cos g.dtheta) := by
  have hR : 0 < g.r1Norm * g.r2Norm := mul_pos hG.R1 hG.R2
  have hs := hG.angle.half_cos.2.2
  refine ⟨Real.sqrt 2 * Real.sqrt (g.r1Norm * g.r2Norm) * Real.sin (g.dtheta / 2), by positivity, ?_, ?_, halfA_sq hR.le⟩
  · have hc : Real.cos g.dtheta = 1 - 2 * Real.sin (g.dtheta / 2) ^ 2 := by
      have := Real.cos_two_mul (g.dtheta / 2)
      rw [show 2 * (g.dtheta / 2) = g.dtheta by ring] at this
      have := Real.sin_sq_add_cos_sq (g.dtheta / 2)
      linarith
    rw [mul_pow, mul_pow, Real.sq_sqrt (by norm_num), Real.sq_sqrt hR.le, hc]; ring
  · have hc : Real.sin g.dtheta = 2 * Real.sin (g.dtheta / 2) * Real.cos (g.dtheta / 2) := by
      rw [← Real.sin_two_mul]; congr 1; ring
    unfold halfA
    rw [hc]
    have h2 := Real.mul_self_sqrt (show (0 : ℝ) ≤ 2 by norm_num)
    have h3 := Real.mul_self_sqrt hR.le
    linear_combination Real.cos (g.dtheta / 2) * Real.sin (g.dtheta / 2) * (Real.sqrt (g.r1Norm * g.r2Norm) *
      Real.sqrt (g.r1Norm * g.r2Norm) * h2 + 2 * h3)

theorem LC_path_gt {mu P A V T : ℝ} (h : Path mu P A 0 V T) (hA : A ≠ 0) : -Real.sqrt 2 < (P - V) / A := by
  have h2 : 0 < Real.sqrt 2 := by positivity
  have hpi := Real.pi_pos
  cases h with
  | ell h1 h2' hV0 hV =>
    rename_i φ
    have h1 : 0 < φ := by simpa using h1
    have h2' : φ < Real.pi := by simpa using h2'
    have hc : -1 < Real.cos φ := by
      rw [← Real.cos_pi]
      exact Real.cos_lt_cos_of_nonneg_of_le_pi h1.le le_rfl h2'
    have : (P - V) / A = Real.sqrt 2 * Real.cos φ := by rw [hV]; field_simp; ring
    rw [this]; nlinarith
  | par hV0 hV =>
    have : (P - V) / A = Real.sqrt 2 := by rw [hV]; field_simp; ring
    rw [this]; linarith
  | hyp hφ hV0 hV =>
    rename_i φ
    have hc := Real.cosh_pos φ
    have : (P - V) / A = Real.sqrt 2 * Real.cosh φ := by rw [hV]; field_simp; ring
    rw [this]; nlinarith

/-- Every conic path is the one of a transverse eccentricity between the limits of the code. -/
theorem ecc_of_path (hG : Good pro r1 r2 g) {mu V T : ℝ}
    (hp : Path mu (g.r1Norm + g.r2Norm) (halfA g.r1Norm g.r2Norm g.dtheta) 0 V T) :
    ∃ e, pOf g e = g.r1Norm * g.r2Norm * (1 - Real.cos g.dtheta) / V ∧
      e < Real.sqrt (1 - ((g.r1Norm - g.r2Norm) / g.cNorm) ^ 2) ∧
      (Real.pi < g.dtheta → -Real.sqrt ((-1 / Real.cos (g.dtheta / 2)) ^ 2 - ((g.r1Norm - g.r2Norm) / g.cNorm) ^ 2) < e) := by
  have hc := hG.c
  have hR1 := hG.R1
  have hR2 := hG.R2
  have hcsq := hG.csq
  have hV := hp.V_pos
  obtain ⟨hA, hb⟩ := halfA_facts hG
  have hq := LC_path_gt hp hA
  obtain ⟨B, hB, hB2, hAB, hA2⟩ := half_products hG
  have hsgn : Real.pi < g.dtheta → halfA g.r1Norm g.r2Norm g.dtheta < 0 := by
    intro h
    refine lt_of_le_of_ne (not_lt.1 fun h' => ?_) hA
    have h2 := (hG.angle.halfGeo hG.hna).2
    rw [← hG.n1, ← hG.n2, ← hG.angle.short] at h2
    linarith [h2.1 h']
  have hcos : (-1 / Real.cos (g.dtheta / 2)) ^ 2 = 2 / (1 + Real.cos g.dtheta) := by
    have := Real.cos_sq (g.dtheta / 2)
    rw [show 2 * (g.dtheta / 2) = g.dtheta by ring] at this
    rw [div_pow, this, neg_one_sq]
    have hh := cos_half_ne hG
    have : 0 < 1 + Real.cos g.dtheta := by
      have : 0 < Real.cos (g.dtheta / 2) ^ 2 := by positivity
      linarith
    field_simp
  rw [hcos]
  have hC1 : 0 < 1 + Real.cos g.dtheta := by
    have : 0 < halfA g.r1Norm g.r2Norm g.dtheta ^ 2 := by positivity
    rw [hA2] at this
    exact pos_of_mul_pos_right this (by positivity)
  unfold pOf
  have hS : ∀ e, e * g.r1Norm * g.r2Norm * Real.sin g.dtheta = e * (halfA g.r1Norm g.r2Norm g.dtheta * B) := by
    intro e; rw [hAB]; ring
  simp only [hS]
  rw [← hB2]
  generalize halfA g.r1Norm g.r2Norm g.dtheta = A at *
  generalize Real.cos g.dtheta = C at *
  generalize g.r1Norm = R1 at *
  generalize g.r2Norm = R2 at *
  generalize g.cNorm = c at *
  have h1 : 1 - ((R1 - R2) / c) ^ 2 = 2 * B ^ 2 / c ^ 2 := by
    rw [hB2]; field_simp; rw [hcsq]; ring
  have h2 : 2 / (1 + C) - ((R1 - R2) / c) ^ 2 = ((R1 + R2) * B / (A * c)) ^ 2 := by
    have e1 : ((R1 + R2) * B / (A * c)) ^ 2 = (R1 + R2) ^ 2 * B ^ 2 / (A ^ 2 * c ^ 2) := by ring
    rw [e1, hB2, hA2]
    field_simp
    rw [hcsq]; ring
  have h3 : Real.sqrt (2 * B ^ 2 / c ^ 2) = Real.sqrt 2 * B / c := by
    rw [Real.sqrt_div (by positivity), Real.sqrt_mul (by norm_num), Real.sqrt_sq hB.le, Real.sqrt_sq hc.le]
  have hcA : c ^ 2 = (R1 + R2) ^ 2 - 2 * A ^ 2 := by rw [hcsq, hA2]; ring
  rw [h1, h2, h3, Real.sqrt_sq_eq_abs]
  obtain ⟨q, rfl⟩ : ∃ q, V = R1 + R2 - q * A := ⟨(R1 + R2 - V) / A, by field_simp; ring⟩
  have hq' : (R1 + R2 - (R1 + R2 - q * A)) / A = q := by field_simp; ring
  rw [hq'] at hq
  have hs2 := Real.mul_self_sqrt (show (0 : ℝ) ≤ 2 by norm_num)
  generalize Real.sqrt 2 = w at *
  have hb2 := (abs_lt.1 hb).2
  generalize R1 + R2 = P at *
  refine ⟨B * (2 * A - P * q) / (c * (P - q * A)), ?_, ?_, fun h => ?_⟩
  · obtain ⟨W, hW⟩ : ∃ W, P - q * A = W := ⟨_, rfl⟩
    rw [hW] at hV ⊢
    field_simp
    rw [hcA, ← hW]; ring
  · rw [div_lt_div_iff₀ (by positivity) hc]
    have : 0 < (w + q) * (P - w * A) := mul_pos (by linarith) (by linarith)
    have h6 : (w + q) * (P - w * A) = w * (P - q * A) - (2 * A - P * q) := by linear_combination -A * hs2
    have h4 : 2 * A - P * q < w * (P - q * A) := by linarith
    have h5 := mul_lt_mul_of_pos_left h4 (mul_pos hB hc)
    linarith
  · have hAn := hsgn h
    have hPp : 0 < P := (abs_nonneg _).trans_lt hb
    have : |P * B / (A * c)| = -(P * B / (A * c)) :=
      abs_of_neg (div_neg_of_pos_of_neg (by positivity) (mul_neg_of_neg_of_pos hAn hc))
    rw [this, neg_neg]
    have e1 : P * B / (A * c) = -(P * B) / (-A * c) := by rw [← neg_div_neg_eq]; ring
    rw [e1, div_lt_div_iff₀ (mul_pos (by linarith) hc) (by positivity)]
    have h4 : A * (2 * A - P * q) < P * (P - q * A) := by nlinarith [sq_nonneg c, pow_pos hc 2]
    have h5 := mul_lt_mul_of_pos_left h4 (mul_pos hB hc)
    linarith

/-- The time of flight is defined exactly on the conics that are not parabolas and have neither position at the apocentre. -/
theorem tof_defined_iff (hG : Good pro r1 r2 g) {mu e : ℝ} (hmu : 0 < mu) (hp : 0 < pOf g e) :
    (∃ T, keplerTofAtEccT e mu g = .ok T) ↔ ((g.r1Norm - g.r2Norm) / g.cNorm) ^ 2 + e ^ 2 ≠ 1 ∧
      Real.cos (-wAtEccT e ((g.r1Norm - g.r2Norm) / g.cNorm) g.wC / 2) ≠ 0 ∧
      Real.cos ((-wAtEccT e ((g.r1Norm - g.r2Norm) / g.cNorm) g.wC + g.dtheta) / 2) ≠ 0 := by
  have hc := hG.c
  refine ⟨fun ⟨T, h⟩ => ?_, fun ⟨h1, h2, h3⟩ => tof_defined_of hG hmu hp h1 h2 h3⟩
  unfold keplerTofAtEccT at h
  simp only [bind_ok] at h
  obtain ⟨⟨ecc, a, p⟩, heap, h⟩ := h
  refine ⟨(eap_pOf hc.ne' heap).2, ?_⟩
  have hne1 := (eap_conic hG heap).ne1
  rw [fundamental_eq hc.ne'] at h
  simp only [bind_ok, getTrueAnomalies, Except.ok.injEq, exists_eq_left'] at h
  obtain ⟨M1, hM1, M2, hM2, -⟩ := h
  have inv : ∀ {ν M : ℝ}, keplerFromNu ν ecc = .ok M → Real.cos (ν / 2) ≠ 0 := by
    intro ν M hM
    unfold keplerFromNu at hM
    split_ifs at hM
    · unfold nuToE at hM
      simp only [bind_ok, ptan_ok] at hM
      obtain ⟨_, ⟨_, -, _, -, _, ⟨q, -⟩, -⟩, -⟩ := hM
      exact q
    · unfold nuToH at hM
      simp only [bind_ok, ptan_ok] at hM
      obtain ⟨_, ⟨_, -, _, -, _, ⟨q, -⟩, -⟩, -⟩ := hM
      exact q
  exact ⟨inv hM1, inv hM2⟩

/-- The conic of the transverse eccentricity `e` passes through both positions. -/
theorem pOf_at (hg : Good pro r1 r2 g) (e : ℝ) : g.r1Norm * (1 + exOf g e) = pOf g e ∧
    g.r2Norm * (1 + (Real.cos g.dtheta * exOf g e + Real.sin g.dtheta * eyOf g e)) = pOf g e := by
  have hc := hg.c
  have hcos : Real.cos g.wC = (g.r2Norm * Real.cos g.dtheta - g.r1Norm) / g.cNorm := by
    rw [eq_div_iff hc.ne', mul_comm]; exact hg.cosw
  have hsin : Real.sin g.wC = g.r2Norm * Real.sin g.dtheta / g.cNorm := by
    rw [eq_div_iff hc.ne', mul_comm]; exact hg.sinw
  constructor
  · unfold exOf pOf
    rw [hcos, hsin]
    have := hg.csq
    field_simp
    rw [this]; ring
  · unfold exOf eyOf pOf
    rw [hcos, hsin]
    have h1 := hg.csq
    have h2 := Real.sin_sq_add_cos_sq g.dtheta
    field_simp
    rw [h1]; linear_combination 2 * g.r2Norm ^ 2 * (g.r1Norm - g.r2Norm) * h2

/-- A frame of the plane of the positions. -/
theorem frame_exists (hG : Good pro r1 r2 g) : ∃ ix iy : V3, Spec.inner ix ix = 1 ∧ Spec.inner iy iy = 1 ∧ Spec.inner ix iy = 0 ∧
    r1 = V3.norm r1 • ix ∧ r2 = (V3.norm r2 * Real.cos g.dtheta) • ix + (V3.norm r2 * Real.sin g.dtheta) • iy := by
  have hR1 : 0 < V3.norm r1 := by rw [← hG.n1]; exact hG.R1
  have hR2 : 0 < V3.norm r2 := by rw [← hG.n2]; exact hG.R2
  have hS := hG.sin_ne
  have hd := hG.angle.cos_eq
  have q1 := norm_mul_self r1
  have q2 := norm_mul_self r2
  have t := Real.sin_sq_add_cos_sq g.dtheta
  generalize V3.norm r1 = R1 at *
  generalize V3.norm r2 = R2 at *
  generalize Real.cos g.dtheta = C at *
  generalize Real.sin g.dtheta = S at *
  unfold V3.dot at hd q1 q2
  refine ⟨(1 / R1) • r1, (1 / (R2 * S)) • (r2 - (R2 * C / R1) • r1), ?_, ?_, ?_, ?_, ?_⟩
  · simp only [Spec.inner, V3.smul_x, V3.smul_y, V3.smul_z]
    field_simp
    linear_combination -q1
  · simp only [Spec.inner, V3.smul_x, V3.smul_y, V3.smul_z, V3.sub_x, V3.sub_y, V3.sub_z]
    field_simp
    linear_combination -R1 ^ 2 * q2 - R2 ^ 2 * C ^ 2 * q1 + 2 * R1 * R2 * C * hd - R1 ^ 2 * R2 ^ 2 * t
  · simp only [Spec.inner, V3.smul_x, V3.smul_y, V3.smul_z, V3.sub_x, V3.sub_y, V3.sub_z]
    field_simp
    linear_combination -R1 * hd + R2 * C * q1
  · ext <;> simp <;> field_simp
  · ext <;> simp <;> field_simp <;> ring

/-- The state at the apocentre of a conic that is not a circle. -/
theorem apo_iff {R p ecc x y mu rv vv : ℝ} (hR : 0 < R) (hp : 0 < p) (hmu : 0 < mu) (he : 0 ≤ ecc) (hxy : x ^ 2 + y ^ 2 = ecc ^ 2)
    (at_ : R * (1 + x) = p) (hrv : rv = -(R * Real.sqrt (mu / p) * y)) (hvv : vv = mu / p * (1 + 2 * x + ecc ^ 2)) :
    (rv = 0 ∧ vv < mu / R) ↔ (ecc ≠ 0 ∧ ecc + x = 0) := by
  have hs : 0 < Real.sqrt (mu / p) := by positivity
  have h0 : rv = 0 ↔ y = 0 := by
    rw [hrv, neg_eq_zero, mul_eq_zero]
    exact ⟨fun h => h.resolve_left (by positivity), .inr⟩
  have h1 : 0 < 1 + x := pos_of_mul_pos_right (by rw [at_]; exact hp) hR.le
  have h2 : y = 0 → vv = mu / R * (1 + x) := by
    rintro rfl
    rw [hvv, ← hxy, ← at_]
    field_simp
    ring
  rw [h0]
  constructor
  · rintro ⟨rfl, hv⟩
    rw [h2 rfl] at hv
    have hx : x < 0 := by
      by_contra hx
      have : 0 < mu / R := by positivity
      nlinarith
    have : (ecc + x) * (ecc - x) = 0 := by linear_combination -hxy
    refine ⟨fun h => ?_, (mul_eq_zero.1 this).resolve_right (by linarith)⟩
    rw [h] at hxy
    nlinarith
  · rintro ⟨hne, hx⟩
    have hx : x = -ecc := by linarith
    have hy : y = 0 := by
      rw [hx] at hxy
      exact pow_eq_zero_iff (two_ne_zero) |>.1 (by linarith)
    refine ⟨hy, ?_⟩
    rw [h2 hy]
    have : 0 < mu / R := by positivity
    have : 0 < ecc := lt_of_le_of_ne he hne.symm
    nlinarith

/-- The time of flight of the code is defined exactly on the transfers that are not parabolic and have neither position
at the apocentre. -/
theorem tof_defined_state (hG : Good pro r1 r2 g) {mu e : ℝ} (hmu : 0 < mu) (hp : 0 < pOf g e) {v1 v2 : V3}
    (hv1 : v1 = fgV1 mu r1 r2 (halfA (V3.norm r1) (V3.norm r2) g.dtheta) (conicV (pOf g e) (V3.norm r1) (V3.norm r2) g.dtheta))
    (hv2 : v2 = fgV2 mu r1 r2 (halfA (V3.norm r1) (V3.norm r2) g.dtheta) (conicV (pOf g e) (V3.norm r1) (V3.norm r2) g.dtheta)) :
    (∃ T, keplerTofAtEccT e mu g = .ok T) ↔ Spec.inner v1 v1 ≠ 2 * mu / len r1 ∧
      ¬ (Spec.inner r1 v1 = 0 ∧ Spec.inner v1 v1 < mu / len r1) ∧
      ¬ (Spec.inner r2 v2 = 0 ∧ Spec.inner v2 v2 < mu / len r2) := by
  have hR1 := hG.R1
  have hR2 := hG.R2
  obtain ⟨a1, a2⟩ := pOf_at hG e
  obtain ⟨ix, iy, xx, yy, xy, p1, p2⟩ := frame_exists hG
  obtain ⟨w1, w2⟩ := conic_fg (p := pOf g e) hmu hG.angle hG.hna p1 p2 (by rw [← hG.n1]; exact a1) (by rw [← hG.n2]; exact a2) hp
  rw [← hv1] at w1
  rw [← hv2] at w2
  have hxy : exOf g e ^ 2 + eyOf g e ^ 2 = e ^ 2 + ((g.r1Norm - g.r2Norm) / g.cNorm) ^ 2 := by
    unfold exOf eyOf
    linear_combination (e ^ 2 + ((g.r1Norm - g.r2Norm) / g.cNorm) ^ 2) * Real.sin_sq_add_cos_sq g.wC
  have hw1 : exOf g e = Real.sqrt (exOf g e ^ 2 + eyOf g e ^ 2) * Real.cos (wAtEccT e ((g.r1Norm - g.r2Norm) / g.cNorm) g.wC) :=
    (arctan2_mul_cos _ _).symm
  have hw2 : eyOf g e = Real.sqrt (exOf g e ^ 2 + eyOf g e ^ 2) * Real.sin (wAtEccT e ((g.r1Norm - g.r2Norm) / g.cNorm) g.wC) :=
    (arctan2_mul_sin _ _).symm
  have hw0 : Real.sqrt (exOf g e ^ 2 + eyOf g e ^ 2) = 0 → wAtEccT e ((g.r1Norm - g.r2Norm) / g.cNorm) g.wC = 0 := by
    intro h
    have h' := (Real.sqrt_eq_zero (by positivity)).1 h
    have hx : exOf g e = 0 := by nlinarith [sq_nonneg (exOf g e), sq_nonneg (eyOf g e)]
    have hy : eyOf g e = 0 := by nlinarith [sq_nonneg (exOf g e), sq_nonneg (eyOf g e)]
    have : wAtEccT e ((g.r1Norm - g.r2Norm) / g.cNorm) g.wC = arctan2 (eyOf g e) (exOf g e) := rfl
    rw [this, hx, hy]
    unfold arctan2
    exact Complex.arg_zero
  have hch := cos_half_ne hG
  rw [tof_defined_iff hG hmu hp, len_eq_norm, len_eq_norm, ← hG.n1, ← hG.n2, cos_half_iff, cos_half_iff]
  rw [← hG.n1] at p1
  rw [← hG.n2] at p2
  have he0 := Real.sqrt_nonneg (exOf g e ^ 2 + eyOf g e ^ 2)
  have hesq : Real.sqrt (exOf g e ^ 2 + eyOf g e ^ 2) ^ 2 = exOf g e ^ 2 + eyOf g e ^ 2 := Real.sq_sqrt (by positivity)
  rw [show ((g.r1Norm - g.r2Norm) / g.cNorm) ^ 2 + e ^ 2 = exOf g e ^ 2 + eyOf g e ^ 2 by rw [hxy]; ring]
  rw [cos_half_iff] at hch
  have t := Real.sin_sq_add_cos_sq g.dtheta
  have hsm := Real.mul_self_sqrt (show 0 ≤ mu / pOf g e by positivity)
  clear hxy hv1 hv2
  rw [Real.cos_neg, show ∀ w, Real.cos (-w + g.dtheta) = Real.cos g.dtheta * Real.cos w + Real.sin g.dtheta * Real.sin w by
    intro w; rw [show -w + g.dtheta = g.dtheta - w by ring, Real.cos_sub]]
  generalize wAtEccT e ((g.r1Norm - g.r2Norm) / g.cNorm) g.wC = w at *
  generalize Real.sqrt (exOf g e ^ 2 + eyOf g e ^ 2) = ecc at *
  generalize exOf g e = x at *
  generalize eyOf g e = y at *
  generalize pOf g e = p at *
  generalize g.r1Norm = R1 at *
  generalize g.r2Norm = R2 at *
  generalize Real.cos g.dtheta = C at *
  generalize Real.sin g.dtheta = S at *
  unfold Spec.inner at xx yy xy
  have f1 : Spec.inner r1 v1 = -(R1 * Real.sqrt (mu / p) * y) := by
    rw [p1, ← w1]
    simp only [Spec.inner, V3.smul_x, V3.smul_y, V3.smul_z, V3.add_x, V3.add_y, V3.add_z]
    linear_combination -R1 * Real.sqrt (mu / p) * y * xx + R1 * Real.sqrt (mu / p) * (1 + x) * xy
  have f2 : Spec.inner v1 v1 = mu / p * (1 + 2 * x + ecc ^ 2) := by
    rw [hesq, ← hsm, ← w1]
    simp only [Spec.inner, V3.smul_x, V3.smul_y, V3.smul_z, V3.add_x, V3.add_y, V3.add_z]
    linear_combination (Real.sqrt (mu / p)) ^ 2 * (y ^ 2 * xx + (1 + x) ^ 2 * yy - 2 * y * (1 + x) * xy)
  have f3 : Spec.inner r2 v2 = -(R2 * Real.sqrt (mu / p) * (C * y - S * x)) := by
    rw [p2, ← w2]
    simp only [Spec.inner, V3.smul_x, V3.smul_y, V3.smul_z, V3.add_x, V3.add_y, V3.add_z]
    linear_combination R2 * Real.sqrt (mu / p) * (-C * (S + y) * xx + S * (C + x) * yy + (C * (C + x) - S * (S + y)) * xy)
  have f4 : Spec.inner v2 v2 = mu / p * (1 + 2 * (C * x + S * y) + ecc ^ 2) := by
    rw [hesq, ← hsm, ← w2]
    simp only [Spec.inner, V3.smul_x, V3.smul_y, V3.smul_z, V3.add_x, V3.add_y, V3.add_z]
    linear_combination (Real.sqrt (mu / p)) ^ 2 * ((S + y) ^ 2 * xx + (C + x) ^ 2 * yy - 2 * (S + y) * (C + x) * xy + t)
  rw [apo_iff hR1 hp hmu he0 hesq.symm a1 f1 f2, apo_iff hR2 hp hmu he0 (by rw [hesq]; linear_combination (x ^ 2 + y ^ 2) * t) a2 f3 f4]
  refine and_congr ?_ (and_congr ?_ ?_)
  · rw [f2, ← hesq, ne_eq, ne_eq, not_iff_not]
    have : mu / p * (1 + 2 * x + ecc ^ 2) - 2 * mu / R1 = mu / p * (ecc ^ 2 - 1) := by
      rw [← a1]
      have : 1 + x ≠ 0 := by
        rintro h
        rw [h, mul_zero] at a1
        linarith
      field_simp
      ring
    rw [← sub_eq_zero, ← sub_eq_zero (b := 2 * mu / R1), this, mul_eq_zero]
    exact ⟨.inr, fun h => h.resolve_left (by positivity)⟩
  · rcases eq_or_ne ecc 0 with h | h
    · rw [hw0 h, h]; simp
    · have : ecc + x = ecc * (1 + Real.cos w) := by rw [hw1]; ring
      rw [this]; simp [h]
  · rcases eq_or_ne ecc 0 with h | h
    · rw [hw0 h, h]; simpa using hch
    · have : ecc + (C * x + S * y) = ecc * (1 + (C * Real.cos w + S * Real.sin w)) := by rw [hw1, hw2]; ring
      rw [this]; simp [h]

/-- The code's function, put together. -/
theorem f_value {F : ℝ → Py ℝ} {mu tof x e T : ℝ} (hmu : 0 < mu) (hR : 0 < g.r1Norm) (he : F x = .ok e)
    (hT : keplerTofAtEccT e mu g = .ok T) (hT0 : 0 < T) (ht : 0 < tof) : f F mu g tof x = .ok (Real.log T - Real.log tof) := by
  have hs : 0 < Real.sqrt (g.r1Norm ^ 3 / mu) := by positivity
  unfold f
  rw [he, ok_bind, hT, ok_bind, pdiv_eq hmu.ne', ok_bind, psqrt_eq (by positivity), ok_bind, pdiv_eq hs.ne', ok_bind,
    pdiv_eq hs.ne', ok_bind, plog_ok.2 ⟨by positivity, rfl⟩, ok_bind, plog_ok.2 ⟨by positivity, rfl⟩, ok_bind,
    Real.log_div hT0.ne' hs.ne', Real.log_div ht.ne' hs.ne']
  congr 1
  ring

/-- The time of flight increases with the transverse eccentricity. -/
theorem tof_lt_iff (hG : Good pro r1 r2 g) {mu e e' T T' : ℝ} (hmu : 0 < mu)
    (he : e < Real.sqrt (1 - ((g.r1Norm - g.r2Norm) / g.cNorm) ^ 2))
    (he' : e' < Real.sqrt (1 - ((g.r1Norm - g.r2Norm) / g.cNorm) ^ 2))
    (hT : keplerTofAtEccT e mu g = .ok T) (hT' : keplerTofAtEccT e' mu g = .ok T') : T < T' ↔ e < e' := by
  have hc := hG.c
  have h0 : 0 ≤ 1 - ((g.r1Norm - g.r2Norm) / g.cNorm) ^ 2 := by linarith [hG.eF_lt]
  obtain ⟨_, _, p, heap, hp, hpath⟩ := avanzini_path hmu hG he h0 hT
  obtain ⟨_, _, p', heap', hp', hpath'⟩ := avanzini_path hmu hG he' h0 hT'
  have hpe := (eap_pOf hc.ne' heap).1
  have hpe' := (eap_pOf hc.ne' heap').1
  obtain ⟨hA, hb⟩ := halfA_facts hG
  obtain ⟨B, hB, hB2, hAB, -⟩ := half_products hG
  rw [hpath.time_lt_iff hmu hA hb hpath']
  unfold conicV
  rw [← hB2, ← sub_pos, ← sub_pos (b := e)]
  have hd : p - p' = (e' - e) * (halfA g.r1Norm g.r2Norm g.dtheta * B) / g.cNorm := by
    rw [hpe, hpe', hAB]; unfold pOf; ring
  have key : (g.r1Norm + g.r2Norm - B ^ 2 / p) / halfA g.r1Norm g.r2Norm g.dtheta -
      (g.r1Norm + g.r2Norm - B ^ 2 / p') / halfA g.r1Norm g.r2Norm g.dtheta = (e' - e) * (B ^ 3 / (g.cNorm * p * p')) := by
    have : (g.r1Norm + g.r2Norm - B ^ 2 / p) / halfA g.r1Norm g.r2Norm g.dtheta -
      (g.r1Norm + g.r2Norm - B ^ 2 / p') / halfA g.r1Norm g.r2Norm g.dtheta =
      B ^ 2 * (p - p') / (p * p' * halfA g.r1Norm g.r2Norm g.dtheta) := by field_simp; ring
    rw [this, hd]
    field_simp
  rw [key]
  exact mul_pos_iff_of_pos_right (by positivity)

end Avanzini

open Avanzini

/-- **C91.** The function whose root `avanzini2008` looks for is strictly increasing where it is defined, so it has one root
at most.  It has a root, whatever the geometry and the time of flight, unless the transfer asked for is parabolic or has the
initial or the final position at the apocentre of its orbit.  In those cases the function has no root: it is not defined
at the solution. -/
theorem avanzini_root_iff {mu tof : ℝ} {r1 r2 v1 v2 : V3} {pro : Bool} (hmu : 0 < mu) (hnp : NotPolar r1 r2)
    (harc : LambertArc mu r1 r2 v1 v2 tof 0) (hs : Sense pro r1 v1) :
    ∃ g F, getGeometry r1 r2 pro = .ok g ∧ getEccTAtX g = .ok F ∧
      (∀ x x' y y', f F mu g tof x = .ok y → f F mu g tof x' = .ok y' → (x < x' ↔ y < y')) ∧
      ((∃ x, f F mu g tof x = .ok 0) ↔ Spec.inner v1 v1 ≠ 2 * mu / len r1 ∧
        ¬ (Spec.inner r1 v1 = 0 ∧ Spec.inner v1 v1 < mu / len r1) ∧
        ¬ (Spec.inner r2 v2 = 0 ∧ Spec.inner v2 v2 < mu / len r2)) := by
  have hna : NotAligned r1 r2 := fun h => hnp h.2.2
  have ht : 0 < tof := harc.1
  obtain ⟨g, hg, hG⟩ := geometry_exists hna pro
  obtain ⟨F, E, hF, hFE, hmono, hlt, -, hsurj⟩ := eccT_range hG
  have h0 : 0 ≤ 1 - ((g.r1Norm - g.r2Norm) / g.cNorm) ^ 2 := by linarith [hG.eF_lt]
  refine ⟨g, F, hg, hF, ?_, ?_⟩
  · intro x x' y y' hy hy'
    obtain ⟨e, T, he, hT, hT0, -, rfl⟩ := f_split hmu hG.R1 hy
    obtain ⟨e', T', he', hT', hT0', -, rfl⟩ := f_split hmu hG.R1 hy'
    rw [hFE] at he he'
    obtain rfl := Except.ok.inj he
    obtain rfl := Except.ok.inj he'
    rw [sub_lt_sub_iff_right, Real.log_lt_log_iff hT0 hT0', tof_lt_iff hG hmu (hlt x) (hlt x') hT hT', hmono.lt_iff_lt]
  obtain ⟨A, V, hGeo, hP, hv1, hv2⟩ := path_of_arc hmu hna harc
  have hV := hP.V_pos
  obtain ⟨hGeo', hsh⟩ := hG.angle.halfGeo hna
  obtain rfl : A = halfA (V3.norm r1) (V3.norm r2) g.dtheta := by
    have hs' := sense_of_sign (r1 := r1) (r2 := r2) hmu hV hGeo'.hA hnp hsh
    rw [hv1] at hs
    exact geo_eq_of_sameTurn hmu hGeo hGeo' hV hV (sameTurn_of_sense hmu hGeo hGeo' hV hV hs hs')
  rw [← hG.n1, ← hG.n2] at hP
  obtain ⟨e, hpe, hel, heH⟩ := ecc_of_path hG hP
  have hk : 0 < g.r1Norm * g.r2Norm * (1 - Real.cos g.dtheta) :=
    mul_pos (mul_pos hG.R1 hG.R2) (by linarith [hG.angle.cos_lt_one])
  have hp : 0 < pOf g e := by rw [hpe]; positivity
  have hcV : conicV (pOf g e) g.r1Norm g.r2Norm g.dtheta = V := by
    unfold conicV
    rw [hpe, div_div_cancel₀ hk.ne']
  obtain ⟨hA, hb⟩ := halfA_facts hG
  rw [← tof_defined_state hG hmu hp (by rw [hv1, ← hG.n1, ← hG.n2, hcV]) (by rw [hv2, ← hG.n1, ← hG.n2, hcV])]
  constructor
  · rintro ⟨x, hx⟩
    obtain ⟨e', T, he', hT, hT0, -, hlog⟩ := f_split hmu hG.R1 hx
    rw [hFE] at he'
    obtain rfl := Except.ok.inj he'
    obtain rfl : T = tof := Real.log_injOn_pos hT0 ht (by linarith)
    obtain ⟨_, _, p', heap, hp', hpath⟩ := avanzini_path hmu hG (hlt x) h0 hT
    have hpe' := (eap_pOf hG.c.ne' heap).1
    have hVV := hpath.unique hmu hb hP
    have : pOf g (E x) = pOf g e := by
      rw [hpe, ← hpe', ← hVV]
      unfold conicV
      rw [div_div_cancel₀ hk.ne']
    have hee : E x = e := by
      unfold pOf at this
      have hc := hG.c
      have h3 : (E x - e) * (g.r1Norm * g.r2Norm * Real.sin g.dtheta / g.cNorm) = 0 := by linear_combination -this
      have h4 : g.r1Norm * g.r2Norm * Real.sin g.dtheta / g.cNorm ≠ 0 :=
        div_ne_zero (mul_ne_zero (mul_ne_zero hG.R1.ne' hG.R2.ne') hG.sin_ne) hc.ne'
      linarith [(mul_eq_zero.1 h3).resolve_right h4]
    rw [← hee]
    exact ⟨T, hT⟩
  · rintro ⟨T, hT⟩
    obtain ⟨_, _, p', heap, hp', hpath⟩ := avanzini_path hmu hG hel h0 hT
    have hpe' := (eap_pOf hG.c.ne' heap).1
    rw [hpe', hcV] at hpath
    have hTt : T = tof := by
      rcases lt_trichotomy T tof with h | h | h
      · exact absurd ((hpath.time_lt_iff hmu hA hb hP).1 h) (lt_irrefl _)
      · exact h
      · exact absurd ((hP.time_lt_iff hmu hA hb hpath).1 h) (lt_irrefl _)
    subst hTt
    obtain ⟨x, rfl⟩ := hsurj e hel heH
    exact ⟨x, by rw [f_value hmu hG.R1 (hFE x) hT ht ht, sub_self]⟩

/-- **C91.** Between any two positions there is a time of flight, that of the parabola, for which the function has no root. -/
theorem avanzini_no_root {mu : ℝ} {r1 r2 : V3} (hmu : 0 < mu) (hnp : NotPolar r1 r2) (pro : Bool) :
    ∃ tof g F, 0 < tof ∧ getGeometry r1 r2 pro = .ok g ∧ getEccTAtX g = .ok F ∧ ∀ x, f F mu g tof x ≠ .ok 0 := by
  have hna : NotAligned r1 r2 := fun h => hnp h.2.2
  obtain ⟨hG, hsh⟩ := (angle_of_eq hna (transferAngle_eq hna pro)).halfGeo hna
  generalize halfA (V3.norm r1) (V3.norm r2) _ = A at hG hsh
  have hb := (abs_lt.1 (Vallado.bound hG)).2
  have hV : 0 < V3.norm r1 + V3.norm r2 - Real.sqrt 2 * A := by linarith
  have harc := arc_par hmu hG hV rfl
  obtain ⟨g, F, hg, hF, -, hiff⟩ := avanzini_root_iff hmu hnp harc (sense_of_sign hmu hV hG.hA hnp hsh)
  refine ⟨_, g, F, harc.1, hg, hF, fun x hx => (hiff.1 ⟨x, hx⟩).1 ?_⟩
  have h := fgV1_energy hmu hV hG
  have e1 : (V3.norm r1 + V3.norm r2 - (V3.norm r1 + V3.norm r2 - Real.sqrt 2 * A)) ^ 2 - 2 * A ^ 2 = 0 := by
    have := Real.sq_sqrt (show (0 : ℝ) ≤ 2 by norm_num)
    linear_combination A ^ 2 * this
  rw [e1, mul_zero, zero_div] at h
  rw [inner_eq_dot, len_eq_norm]
  rw [show 2 * mu / V3.norm r1 = 2 * (mu / V3.norm r1) by ring]
  linarith

/-- Non-vacuity: a quarter of the unit circle meets the hypotheses, and the function has a root. -/
example : ∃ tof g F, 0 < tof ∧ getGeometry ⟨1, 0, 0⟩ ⟨0, 1, 0⟩ true = .ok g ∧ getEccTAtX g = .ok F ∧
    ∃ x, f F 1 g tof x = .ok 0 := by
  have n1 : V3.norm ⟨1, 0, 0⟩ = 1 := by simp [V3.norm, V3.dot]
  have n2 : V3.norm ⟨0, 1, 0⟩ = 1 := by simp [V3.norm, V3.dot]
  have hG : Geo ⟨1, 0, 0⟩ ⟨0, 1, 0⟩ 1 := ⟨one_ne_zero, by rw [n1, n2]; simp [V3.dot], by simp [NotAligned]⟩
  have harc := arc_ell (μ := 1) one_pos hG (φ := Real.pi / 4) (V := 1) (M := 0) (by simp; positivity) (by
    have := Real.pi_pos
    norm_num; linarith) one_pos (by
    rw [n1, n2, Real.cos_pi_div_four]
    have := Real.mul_self_sqrt (show (0 : ℝ) ≤ 2 by norm_num)
    linear_combination this / 2)
  have e1 : fgV1 1 ⟨1, 0, 0⟩ ⟨0, 1, 0⟩ 1 1 = ⟨0, 1, 0⟩ := by unfold fgV1; rw [n1]; ext <;> simp
  have e2 : fgV2 1 ⟨1, 0, 0⟩ ⟨0, 1, 0⟩ 1 1 = ⟨-1, 0, 0⟩ := by unfold fgV2; rw [n2]; ext <;> simp
  rw [e1, e2] at harc
  obtain ⟨g, F, hg, hF, -, hiff⟩ := avanzini_root_iff (pro := true) one_pos (by simp [NotPolar]) harc (by simp [Sense, angMomZ])
  refine ⟨_, g, F, harc.1, hg, hF, hiff.2 ?_⟩
  rw [len_eq_norm, len_eq_norm, n1, n2]
  norm_num [Spec.inner]

/-- The excluded case at the apocentre occurs: from the apocentre of the ellipse of eccentricity `1/2`, a quarter turn ahead. -/
example : ∃ tof g F, 0 < tof ∧ getGeometry ⟨1, 0, 0⟩ ⟨0, 1 / 2, 0⟩ true = .ok g ∧ getEccTAtX g = .ok F ∧
    ∀ x, f F 1 g tof x ≠ .ok 0 := by
  have h2 := Real.mul_self_sqrt (show (0 : ℝ) ≤ 2 by norm_num)
  have n1 : V3.norm ⟨1, 0, 0⟩ = 1 := by simp [V3.norm, V3.dot]
  have n2 : V3.norm ⟨0, 1 / 2, 0⟩ = 1 / 2 := by
    unfold V3.norm V3.dot
    rw [show (0 : ℝ) * 0 + 1 / 2 * (1 / 2) + 0 * 0 = (1 / 2) ^ 2 by norm_num, Real.sqrt_sq (by norm_num)]
  have hG : Geo ⟨1, 0, 0⟩ ⟨0, 1 / 2, 0⟩ (Real.sqrt 2 / 2) := ⟨by positivity, by
    rw [n1, n2]; norm_num [V3.dot, div_pow], by simp [NotAligned]⟩
  have harc := arc_ell (μ := 1) one_pos hG (φ := Real.pi / 3) (V := 1) (M := 0) (by simp; positivity) (by
    have := Real.pi_pos
    norm_num; linarith) one_pos (by
    rw [n1, n2, Real.cos_pi_div_three]
    linear_combination h2 / 4)
  have e1 : fgV1 1 ⟨1, 0, 0⟩ ⟨0, 1 / 2, 0⟩ (Real.sqrt 2 / 2) 1 = ⟨0, (Real.sqrt 2)⁻¹, 0⟩ := by
    have h3 : Real.sqrt 2 * 2⁻¹ = (Real.sqrt 2)⁻¹ := by
      apply eq_inv_of_mul_eq_one_left
      linear_combination h2 / 2
    unfold fgV1; rw [n1]; ext <;> simp [h3]
  rw [e1] at harc
  obtain ⟨g, F, hg, hF, -, hiff⟩ := avanzini_root_iff (pro := true) one_pos (by simp [NotPolar]) harc (by
    simp [Sense, angMomZ])
  refine ⟨_, g, F, harc.1, hg, hF, fun x hx => (hiff.1 ⟨x, hx⟩).2.1 ?_⟩
  rw [len_eq_norm, n1]
  refine ⟨by simp [Spec.inner], ?_⟩
  simp only [Spec.inner, mul_zero, zero_add, add_zero, ← mul_inv, h2]
  norm_num

end Lamberthub
