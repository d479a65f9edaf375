import Verif.Props.AvanziniRoots

/-! # C91: where the function of `avanzini2008` is defined -/

set_option autoImplicit false

namespace Lamberthub
open Spec LC

namespace Avanzini
variable {pro : Bool} {r1 r2 : V3} {g : Geometry}

/-- The semi-latus rectum is positive between the limits of the code. -/
theorem pOf_pos (hG : Good pro r1 r2 g) {e : ℝ} (h1 : e < Real.sqrt (1 - ((g.r1Norm - g.r2Norm) / g.cNorm) ^ 2))
    (h2 : Real.pi < g.dtheta → -Real.sqrt ((-1 / Real.cos (g.dtheta / 2)) ^ 2 - ((g.r1Norm - g.r2Norm) / g.cNorm) ^ 2) < e) :
    0 < pOf g e := by
  have hc := hG.c
  have hR1 := hG.R1
  have hR2 := hG.R2
  have hcsq := hG.csq
  obtain ⟨hA, hb⟩ := halfA_facts hG
  obtain ⟨B, hB, hB2, hAB, hA2⟩ := half_products hG
  have hsgn : halfA g.r1Norm g.r2Norm g.dtheta < 0 → Real.pi < g.dtheta := by
    intro h
    have h2 := (hG.angle.halfGeo hG.hna).2
    rw [← hG.n1, ← hG.n2, ← hG.angle.short] at h2
    refine lt_of_le_of_ne (not_lt.1 fun h' => ?_) hG.angle.ne_pi.symm
    linarith [h2.2 h']
  have hC1 : 0 < 1 + Real.cos g.dtheta := by
    have : 0 < halfA g.r1Norm g.r2Norm g.dtheta ^ 2 := by positivity
    rw [hA2] at this
    exact pos_of_mul_pos_right this (by positivity)
  have hcos : (-1 / Real.cos (g.dtheta / 2)) ^ 2 = 2 / (1 + Real.cos g.dtheta) := by
    have := Real.cos_sq (g.dtheta / 2)
    rw [show 2 * (g.dtheta / 2) = g.dtheta by ring] at this
    rw [div_pow, this, neg_one_sq]
    field_simp
  rw [hcos] at h2
  unfold pOf
  have hS : e * g.r1Norm * g.r2Norm * Real.sin g.dtheta = e * (halfA g.r1Norm g.r2Norm g.dtheta * B) := by rw [hAB]; ring
  rw [hS]
  have h2 := fun h => h2 (hsgn h)
  clear hsgn hS hAB
  generalize halfA g.r1Norm g.r2Norm g.dtheta = A at *
  generalize Real.cos g.dtheta = C at *
  generalize g.r1Norm = R1 at *
  generalize g.r2Norm = R2 at *
  generalize g.cNorm = c at *
  have k1 : 1 - ((R1 - R2) / c) ^ 2 = 2 * B ^ 2 / c ^ 2 := by
    rw [hB2]; field_simp; rw [hcsq]; ring
  have k2 : 2 / (1 + C) - ((R1 - R2) / c) ^ 2 = ((R1 + R2) * B / (A * c)) ^ 2 := by
    have e1 : ((R1 + R2) * B / (A * c)) ^ 2 = (R1 + R2) ^ 2 * B ^ 2 / (A ^ 2 * c ^ 2) := by ring
    rw [e1, hB2, hA2]
    field_simp
    rw [hcsq]; ring
  have k3 : Real.sqrt (2 * B ^ 2 / c ^ 2) = Real.sqrt 2 * B / c := by
    rw [Real.sqrt_div (by positivity), Real.sqrt_mul (by norm_num), Real.sqrt_sq hB.le, Real.sqrt_sq hc.le]
  rw [k1, k3, lt_div_iff₀ hc] at h1
  rw [k2, Real.sqrt_sq_eq_abs] at h2
  rw [k1]
  have hb2 := (abs_lt.1 hb).2
  have hP : 0 < R1 + R2 := by positivity
  generalize R1 + R2 = P at *
  have goal : 0 < P * B - e * c * A := by
    rcases lt_or_gt_of_ne hA with h | h
    · have h3 := h2 h
      rw [abs_of_neg (div_neg_of_pos_of_neg (by positivity) (mul_neg_of_neg_of_pos h hc)), neg_neg,
        div_lt_iff_of_neg (mul_neg_of_neg_of_pos h hc)] at h3
      linarith
    · have h3 := mul_lt_mul_of_pos_right h1 h
      have h4 := mul_lt_mul_of_pos_right hb2 hB
      linarith
  have e2 : P / 2 * (2 * B ^ 2 / c ^ 2) - e * (A * B) / c = B / c ^ 2 * (P * B - e * c * A) := by field_simp
  rw [e2]
  positivity

end Avanzini
open Avanzini

/-- **C91.** Except at three points at most, which depend only on the geometry, the function of `avanzini2008` is defined on
the whole real line, for every time of flight: the secant method cannot leave its domain otherwise. -/
theorem avanzini_defined {mu : ℝ} {r1 r2 : V3} (hmu : 0 < mu) (hna : NotAligned r1 r2) (pro : Bool) :
    ∃ g F, getGeometry r1 r2 pro = .ok g ∧ getEccTAtX g = .ok F ∧
      ∃ S : Finset ℝ, S.card ≤ 3 ∧ ∀ tof, 0 < tof → ∀ x, (∃ y, f F mu g tof x = .ok y) ↔ x ∉ S := by
  obtain ⟨g, hg, hG⟩ := geometry_exists hna pro
  obtain ⟨F, E, hF, hFE, hmono, hlt, hgt, hsurj⟩ := eccT_range hG
  have hc := hG.c
  have hR1 := hG.R1
  have hR2 := hG.R2
  have h0 : 0 ≤ 1 - ((g.r1Norm - g.r2Norm) / g.cNorm) ^ 2 := by linarith [hG.eF_lt]
  refine ⟨g, F, hg, hF, ?_⟩
  have one : ∀ P : ℝ → Prop, (∀ e e', P e → P e' → e = e') → ∃ S : Finset ℝ, S.card ≤ 1 ∧ ∀ x, P (E x) ↔ x ∈ S := by
    intro P hP
    by_cases h : ∃ x, P (E x)
    · obtain ⟨x, hx⟩ := h
      refine ⟨{x}, by simp, fun y => ?_⟩
      rw [Finset.mem_singleton]
      exact ⟨fun hy => hmono.injective (hP _ _ hy hx), fun hy => hy ▸ hx⟩
    · exact ⟨∅, by simp, fun y => ⟨fun hy => absurd ⟨y, hy⟩ h, fun hy => absurd hy (Finset.notMem_empty _)⟩⟩
  -- a vanishing component of the eccentricity vector determines the conic
  have apo : ∀ φ, (Real.cos (g.wC - φ) ≠ 0 ∨ (g.r1Norm - g.r2Norm) / g.cNorm ≠ 0) → ∀ e e' : ℝ,
      Real.cos ((-wAtEccT e ((g.r1Norm - g.r2Norm) / g.cNorm) g.wC + φ) / 2) = 0 →
      Real.cos ((-wAtEccT e' ((g.r1Norm - g.r2Norm) / g.cNorm) g.wC + φ) / 2) = 0 → e = e' := by
    intro φ hφ
    have key : ∀ e : ℝ, Real.cos ((-wAtEccT e ((g.r1Norm - g.r2Norm) / g.cNorm) g.wC + φ) / 2) = 0 →
        (g.r1Norm - g.r2Norm) / g.cNorm * Real.sin (g.wC - φ) + e * Real.cos (g.wC - φ) = 0 := by
      intro e he
      have hs : Real.sin (-wAtEccT e ((g.r1Norm - g.r2Norm) / g.cNorm) g.wC + φ) = 0 := by
        rw [show -wAtEccT e ((g.r1Norm - g.r2Norm) / g.cNorm) g.wC + φ =
          2 * ((-wAtEccT e ((g.r1Norm - g.r2Norm) / g.cNorm) g.wC + φ) / 2) by ring, Real.sin_two_mul, he, mul_zero]
      have hw1 : exOf g e = Real.sqrt (exOf g e ^ 2 + eyOf g e ^ 2) *
          Real.cos (wAtEccT e ((g.r1Norm - g.r2Norm) / g.cNorm) g.wC) := (arctan2_mul_cos _ _).symm
      have hw2 : eyOf g e = Real.sqrt (exOf g e ^ 2 + eyOf g e ^ 2) *
          Real.sin (wAtEccT e ((g.r1Norm - g.r2Norm) / g.cNorm) g.wC) := (arctan2_mul_sin _ _).symm
      generalize wAtEccT e ((g.r1Norm - g.r2Norm) / g.cNorm) g.wC = w at *
      rw [Real.sin_add, Real.sin_neg, Real.cos_neg] at hs
      have h3 : eyOf g e * Real.cos φ - exOf g e * Real.sin φ = 0 := by
        rw [hw2]
        generalize Real.sqrt (exOf g e ^ 2 + eyOf g e ^ 2) = ecc at *
        rw [hw1]
        linear_combination -ecc * hs
      rw [Real.sin_sub, Real.cos_sub]
      unfold exOf eyOf at h3
      linear_combination h3
    intro e e' he he'
    have k1 := key e he
    have k2 := key e' he'
    by_cases hz : Real.cos (g.wC - φ) = 0
    · exfalso
      have h4 := hφ.resolve_left (fun h => h hz)
      rw [hz, mul_zero, add_zero] at k1
      have := Real.sin_sq_add_cos_sq (g.wC - φ)
      rw [hz, (mul_eq_zero.1 k1).resolve_left h4] at this
      norm_num at this
    · have : (e - e') * Real.cos (g.wC - φ) = 0 := by linear_combination k1 - k2
      linarith [(mul_eq_zero.1 this).resolve_right hz]
  have hcw := hG.cosw
  have hsw := hG.sinw
  have hcos1 := hG.angle.cos_lt_one
  have a0 : Real.cos (g.wC - 0) ≠ 0 ∨ (g.r1Norm - g.r2Norm) / g.cNorm ≠ 0 := by
    by_contra hcon
    push Not at hcon
    obtain ⟨q1, q2⟩ := hcon
    have hR : g.r1Norm = g.r2Norm := by
      have := (div_eq_zero_iff.1 q2).resolve_right hc.ne'
      linarith
    rw [sub_zero] at q1
    rw [q1, mul_zero, hR] at hcw
    nlinarith
  have a1 : Real.cos (g.wC - g.dtheta) ≠ 0 ∨ (g.r1Norm - g.r2Norm) / g.cNorm ≠ 0 := by
    by_contra hcon
    push Not at hcon
    obtain ⟨q1, q2⟩ := hcon
    have hR : g.r1Norm = g.r2Norm := by
      have := (div_eq_zero_iff.1 q2).resolve_right hc.ne'
      linarith
    have h3 : g.cNorm * Real.cos (g.wC - g.dtheta) = g.r2Norm - g.r1Norm * Real.cos g.dtheta := by
      rw [Real.cos_sub]
      linear_combination Real.cos g.dtheta * hcw + Real.sin g.dtheta * hsw + g.r2Norm * Real.sin_sq_add_cos_sq g.dtheta
    rw [q1, mul_zero, hR] at h3
    nlinarith
  obtain ⟨S1, c1, m1⟩ := one (fun e => ((g.r1Norm - g.r2Norm) / g.cNorm) ^ 2 + e ^ 2 = 1 ∧
      e < Real.sqrt (1 - ((g.r1Norm - g.r2Norm) / g.cNorm) ^ 2)) (by
    have aux : ∀ e : ℝ, ((g.r1Norm - g.r2Norm) / g.cNorm) ^ 2 + e ^ 2 = 1 ∧
        e < Real.sqrt (1 - ((g.r1Norm - g.r2Norm) / g.cNorm) ^ 2) → e = -Real.sqrt (1 - ((g.r1Norm - g.r2Norm) / g.cNorm) ^ 2) := by
      rintro e ⟨q1, q2⟩
      have h3 := Real.sq_sqrt h0
      have : (e - Real.sqrt (1 - ((g.r1Norm - g.r2Norm) / g.cNorm) ^ 2)) *
          (e + Real.sqrt (1 - ((g.r1Norm - g.r2Norm) / g.cNorm) ^ 2)) = 0 := by linear_combination q1 - h3
      linarith [(mul_eq_zero.1 this).resolve_left (by linarith)]
    intro e e' he he'
    rw [aux e he, aux e' he'])
  obtain ⟨S2, c2, m2⟩ := one _ (apo 0 a0)
  obtain ⟨S3, c3, m3⟩ := one _ (apo g.dtheta a1)
  refine ⟨S1 ∪ S2 ∪ S3, ?_, fun tof ht x => ?_⟩
  · have := Finset.card_union_le S1 S2
    have := Finset.card_union_le (S1 ∪ S2) S3
    omega
  rw [Finset.mem_union, Finset.mem_union, ← m1, ← m2, ← m3, not_or, not_or]
  have hp := pOf_pos hG (hlt x) (hgt x)
  have hiff := tof_defined_iff hG hmu hp
  have : (∃ y, f F mu g tof x = .ok y) ↔ ∃ T, keplerTofAtEccT (E x) mu g = .ok T := by
    constructor
    · rintro ⟨y, hy⟩
      obtain ⟨e, T, he, hT, -⟩ := f_split hmu hG.R1 hy
      rw [hFE] at he
      obtain rfl := Except.ok.inj he
      exact ⟨T, hT⟩
    · rintro ⟨T, hT⟩
      obtain ⟨_, _, p, -, -, hpath⟩ := avanzini_path hmu hG (hlt x) h0 hT
      have hT0 : 0 < T := by
        obtain ⟨hGeo, -⟩ := hG.angle.halfGeo hG.hna
        rw [hG.n1, hG.n2] at hpath
        exact (Path.arc hmu hGeo hpath).1
      exact ⟨_, f_value hmu hG.R1 (hFE x) hT hT0 ht⟩
  rw [this, hiff, add_zero]
  have hl := hlt x
  tauto

/-- Non-vacuity: positions that are not aligned, in a plane through the polar axis. -/
example : ∃ g F, getGeometry ⟨1, 0, 0⟩ ⟨0, 0, 2⟩ true = .ok g ∧ getEccTAtX g = .ok F ∧
    ∃ S : Finset ℝ, S.card ≤ 3 ∧ ∀ tof, 0 < tof → ∀ x, (∃ y, f F 1 g tof x = .ok y) ↔ x ∉ S :=
  avanzini_defined one_pos (by simp [NotAligned]) true

end Lamberthub
