import Verif.Model.Avanzini
import Verif.Proofs.PanLemmas
import Verif.Proofs.RoundTrip
import Verif.Proofs.AssertLemmas
import Verif.Props.Angles

/-! # The geometry of Avanzini's method -/

set_option autoImplicit false

namespace Lamberthub
open Spec LC

/-- The velocities of a conic, written in a frame whose first axis points to `r1`, are
Lagrange's.  `(x, y)` is the eccentricity vector in that frame. -/
theorem conic_fg {pro : Bool} {r1 r2 ix iy : V3} {θ mu p x y : ℝ} (hmu : 0 < mu) (hA : Angle pro r1 r2 θ)
    (hna : NotAligned r1 r2) (hp1 : r1 = V3.norm r1 • ix)
    (hp2 : r2 = (V3.norm r2 * Real.cos θ) • ix + (V3.norm r2 * Real.sin θ) • iy)
    (e1 : V3.norm r1 * (1 + x) = p) (e2 : V3.norm r2 * (1 + (Real.cos θ * x + Real.sin θ * y)) = p) (hp : 0 < p) :
    Real.sqrt (mu / p) • (-y • ix + (1 + x) • iy) =
      fgV1 mu r1 r2 (halfA (V3.norm r1) (V3.norm r2) θ) (conicV p (V3.norm r1) (V3.norm r2) θ) ∧
    Real.sqrt (mu / p) • (-(Real.sin θ + y) • ix + (Real.cos θ + x) • iy) =
      fgV2 mu r1 r2 (halfA (V3.norm r1) (V3.norm r2) θ) (conicV p (V3.norm r1) (V3.norm r2) θ) := by
  have hR1 := norm_pos_of_notAligned_left hna
  have hR2 := norm_pos_of_notAligned_right hna
  have hcos1 := hA.cos_lt_one
  have hsinθ : Real.sin θ ≠ 0 := by
    have := Pan.sin_cross hA hna
    have hW := cross_norm_pos hna
    intro h0
    rw [h0, mul_zero] at this
    split at this <;> linarith
  have hV : 0 < conicV p (V3.norm r1) (V3.norm r2) θ := by unfold conicV; positivity
  have hpV : p = V3.norm r1 * V3.norm r2 * (1 - Real.cos θ) / conicV p (V3.norm r1) (V3.norm r2) θ := by
    unfold conicV; field_simp
  have hg := g_pform hA hna hmu hV hpV
  have hf := f_pform hR1 hR2 hcos1.ne' hV hpV
  have hgd := gdot_pform hR1 hR2 hcos1.ne' hV hpV
  unfold fgV1 fgV2
  rw [← hg, ← hf, ← hgd]
  have hs0 : Real.sqrt (mu * p) = Real.sqrt (mu / p) * p := by
    rw [show mu * p = mu / p * p ^ 2 by field_simp, Real.sqrt_mul (by positivity), Real.sqrt_sq hp.le]
  have hsp : 0 < Real.sqrt (mu / p) := by positivity
  rw [hs0]
  have tθ := Real.sin_sq_add_cos_sq θ
  clear hg hf hgd hpV hV hs0
  generalize Real.sqrt (mu / p) = s at *
  generalize V3.norm r1 = R1 at *
  generalize V3.norm r2 = R2 at *
  generalize Real.cos θ = C at *
  generalize Real.sin θ = S at *
  have hinv : (R1 * R2 * S / (s * p))⁻¹ = s * p / (R1 * R2 * S) := inv_div _ _
  have hE : R1 * R2 * S * y = R1 * p - R1 * R2 - R2 * C * (p - R1) := by
    linear_combination R1 * e2 - R2 * C * e1
  rw [hinv]
  have x1 : s * p / (R1 * R2 * S) * (R2 * C - (1 - R2 * (1 - C) / p) * R1) = -(s * y) := by
    rw [div_mul_eq_mul_div, div_eq_iff (by positivity)]
    field_simp
    linear_combination hE
  have y1 : s * p / (R1 * R2 * S) * (R2 * S) = s * (1 + x) := by
    rw [div_mul_eq_mul_div, div_eq_iff (by positivity)]
    linear_combination -s * R2 * S * e1
  have x2 : s * p / (R1 * R2 * S) * ((1 - R1 * (1 - C) / p) * (R2 * C) - R1) = -(s * (S + y)) := by
    rw [div_mul_eq_mul_div, div_eq_iff (by positivity)]
    field_simp
    linear_combination hE + R1 * R2 * tθ
  have y2 : s * p / (R1 * R2 * S) * ((1 - R1 * (1 - C) / p) * (R2 * S)) = s * (C + x) := by
    rw [div_mul_eq_mul_div, div_eq_iff (by positivity)]
    field_simp
    linear_combination -e1
  generalize s * p / (R1 * R2 * S) = G at *
  generalize 1 - R2 * (1 - C) / p = f at *
  generalize 1 - R1 * (1 - C) / p = gd at *
  constructor
  · rw [hp2, hp1]
    ext <;> simp only [V3.add_x, V3.add_y, V3.add_z, V3.smul_x, V3.smul_y, V3.smul_z, V3.sub_x, V3.sub_y, V3.sub_z]
    · linear_combination -ix.x * x1 - iy.x * y1
    · linear_combination -ix.y * x1 - iy.y * y1
    · linear_combination -ix.z * x1 - iy.z * y1
  · rw [hp2, hp1]
    ext <;> simp only [V3.add_x, V3.add_y, V3.add_z, V3.smul_x, V3.smul_y, V3.smul_z, V3.sub_x, V3.sub_y, V3.sub_z]
    · linear_combination -ix.x * x2 - iy.x * y2
    · linear_combination -ix.y * x2 - iy.y * y2
    · linear_combination -ix.z * x2 - iy.z * y2

theorem arctan2_mul_cos (y x : ℝ) : Real.sqrt (x ^ 2 + y ^ 2) * Real.cos (arctan2 y x) = x := by
  have h := Complex.norm_mul_cos_arg (⟨x, y⟩ : ℂ)
  rw [Complex.norm_def, Complex.normSq_mk] at h
  unfold arctan2
  rw [sq, sq]; exact h

theorem arctan2_mul_sin (y x : ℝ) : Real.sqrt (x ^ 2 + y ^ 2) * Real.sin (arctan2 y x) = y := by
  have h := Complex.norm_mul_sin_arg (⟨x, y⟩ : ℂ)
  rw [Complex.norm_def, Complex.normSq_mk] at h
  unfold arctan2
  rw [sq, sq]; exact h

namespace Avanzini

/-- The geometry computed by the code. -/
structure Good (pro : Bool) (r1 r2 : V3) (g : Geometry) : Prop where
  hna : NotAligned r1 r2
  n1 : g.r1Norm = V3.norm r1
  n2 : g.r2Norm = V3.norm r2
  R1 : 0 < g.r1Norm
  R2 : 0 < g.r2Norm
  c : 0 < g.cNorm
  angle : Angle pro r1 r2 g.dtheta
  csq : g.cNorm ^ 2 = g.r1Norm ^ 2 + g.r2Norm ^ 2 - 2 * g.r1Norm * g.r2Norm * Real.cos g.dtheta
  cosw : g.cNorm * Real.cos g.wC = g.r2Norm * Real.cos g.dtheta - g.r1Norm
  sinw : g.cNorm * Real.sin g.wC = g.r2Norm * Real.sin g.dtheta

theorem geometry_good {pro : Bool} {r1 r2 : V3} {g : Geometry} (h : getGeometry r1 r2 pro = .ok g)
    (hpi : g.dtheta ≠ Real.pi) : Good pro r1 r2 g := by
  unfold getGeometry at h
  simp only [bind_ok, assertTransferAngleNotZero, raiseIf_ok] at h
  obtain ⟨θ, hθ, _, h0, w, hw, h⟩ := h
  obtain rfl := (Except.ok.inj h).symm
  simp only at hpi
  have hna := notAligned_of_angle hθ h0 hpi
  have hA := angle_of_eq hna hθ
  have hna' : NotAligned r1 (r2 - r1) := by
    intro hcon
    apply hna
    obtain ⟨a, b, c⟩ := hcon
    simp only [V3.sub_x, V3.sub_y, V3.sub_z] at a b c
    exact ⟨by linarith, by linarith, by linarith⟩
  have hB := angle_of_eq hna' hw
  have hR1 := norm_pos_of_notAligned_left hna
  have hR2 := norm_pos_of_notAligned_right hna
  have hc := norm_pos_of_notAligned_right hna'
  have s1 := Pan.sin_cross hA hna
  have s2 := Pan.sin_cross hB hna'
  have hcr : V3.cross r1 (r2 - r1) = V3.cross r1 r2 := by
    ext <;> simp [V3.cross] <;> ring
  have hsh : ShortWay pro r1 (r2 - r1) ↔ ShortWay pro r1 r2 := by
    have : crossZ r1 (r2 - r1) = crossZ r1 r2 := by simp [crossZ]; ring
    unfold ShortWay; rw [this]
  rw [hcr] at s2
  simp only [hsh] at s2
  have c1 := hA.cos_eq
  have c2 := hB.cos_eq
  have hdot : V3.dot r1 (r2 - r1) = V3.dot r1 r2 - V3.norm r1 ^ 2 := by
    rw [sq, norm_mul_self]; simp [V3.dot]; ring
  rw [hdot, ← c1] at c2
  refine ⟨hna, rfl, rfl, hR1, hR2, hc, hA, ?_, ?_, ?_⟩
  · simp only []
    rw [sub_norm_sq, ← c1]; ring
  · simp only []
    apply mul_left_cancel₀ hR1.ne'
    linear_combination c2
  · simp only []
    apply mul_left_cancel₀ hR1.ne'
    linear_combination s2 - s1

/-- The eccentricity vector of the conic in the frame of `r1`: `x` towards `r1`. -/
noncomputable def exOf (g : Geometry) (eccT : ℝ) : ℝ :=
  (g.r1Norm - g.r2Norm) / g.cNorm * Real.cos g.wC - eccT * Real.sin g.wC
/-- The eccentricity vector of the conic in the frame of `r1`: `y` a quarter turn ahead. -/
noncomputable def eyOf (g : Geometry) (eccT : ℝ) : ℝ :=
  (g.r1Norm - g.r2Norm) / g.cNorm * Real.sin g.wC + eccT * Real.cos g.wC

/-- The conic of the code. -/
structure Conic (g : Geometry) (eccT ecc a p w : ℝ) : Prop where
  e0 : 0 ≤ ecc
  esq : ecc ^ 2 = eccT ^ 2 + ((g.r1Norm - g.r2Norm) / g.cNorm) ^ 2
  ne1 : ecc ≠ 1
  a_eq : a = p / (1 - ecc ^ 2)
  ex : exOf g eccT = ecc * Real.cos w
  ey : eyOf g eccT = ecc * Real.sin w
  at1 : g.r1Norm * (1 + ecc * Real.cos w) = p
  at2 : g.r2Norm * (1 + (Real.cos g.dtheta * (ecc * Real.cos w) + Real.sin g.dtheta * (ecc * Real.sin w))) = p

theorem eap_conic {pro : Bool} {r1 r2 : V3} {g : Geometry} (hg : Good pro r1 r2 g) {eccT ecc a p : ℝ}
    (h : eapFromEccT eccT g = .ok (ecc, a, p)) :
    Conic g eccT ecc a p (wAtEccT eccT ((g.r1Norm - g.r2Norm) / g.cNorm) g.wC) := by
  have hc := hg.c
  unfold eapFromEccT fundamental getEccF getAF getPF eccAtEccT pAtEccT aAtEccT at h
  simp only [bind_ok, pdiv_ok, psqrt_ok] at h
  obtain ⟨⟨eF, aF, pF⟩, ⟨_, ⟨-, rfl⟩, hf⟩, h⟩ := h
  simp only [Except.ok.injEq, Prod.mk.injEq] at hf
  obtain ⟨rfl, rfl, rfl⟩ := hf
  simp only [bind_ok] at h
  obtain ⟨e', ⟨he0, rfl⟩, p', ⟨_, ⟨-, rfl⟩, hp⟩, a', ⟨hne, rfl⟩, h⟩ := h
  simp only [Except.ok.injEq, Prod.mk.injEq] at h hp
  obtain ⟨rfl, rfl, rfl⟩ := h
  have hsq : Real.sqrt (eccT ^ 2 + ((g.r1Norm - g.r2Norm) / g.cNorm) ^ 2) ^ 2 =
    eccT ^ 2 + ((g.r1Norm - g.r2Norm) / g.cNorm) ^ 2 := Real.sq_sqrt he0
  have hxy : exOf g eccT ^ 2 + eyOf g eccT ^ 2 = eccT ^ 2 + ((g.r1Norm - g.r2Norm) / g.cNorm) ^ 2 := by
    unfold exOf eyOf
    linear_combination (eccT ^ 2 + ((g.r1Norm - g.r2Norm) / g.cNorm) ^ 2) * Real.sin_sq_add_cos_sq g.wC
  have hex : exOf g eccT = Real.sqrt (eccT ^ 2 + ((g.r1Norm - g.r2Norm) / g.cNorm) ^ 2) *
      Real.cos (wAtEccT eccT ((g.r1Norm - g.r2Norm) / g.cNorm) g.wC) := by
    rw [← hxy]; exact (arctan2_mul_cos _ _).symm
  have hey : eyOf g eccT = Real.sqrt (eccT ^ 2 + ((g.r1Norm - g.r2Norm) / g.cNorm) ^ 2) *
      Real.sin (wAtEccT eccT ((g.r1Norm - g.r2Norm) / g.cNorm) g.wC) := by
    rw [← hxy]; exact (arctan2_mul_sin _ _).symm
  have hcos : Real.cos g.wC = (g.r2Norm * Real.cos g.dtheta - g.r1Norm) / g.cNorm := by
    rw [eq_div_iff hc.ne', mul_comm]; exact hg.cosw
  have hsin : Real.sin g.wC = g.r2Norm * Real.sin g.dtheta / g.cNorm := by
    rw [eq_div_iff hc.ne', mul_comm]; exact hg.sinw
  refine ⟨Real.sqrt_nonneg _, hsq, ?_, ?_, hex, hey, ?_, ?_⟩
  · intro h1
    rw [h1] at hsq
    apply hne
    linarith
  · rw [hsq]; congr 1; ring
  · rw [← hex, ← hp]
    unfold exOf
    rw [hcos, hsin]
    have := hg.csq
    field_simp
    rw [this]; ring
  · rw [← hex, ← hey, ← hp]
    unfold exOf eyOf
    rw [hcos, hsin]
    have h1 := hg.csq
    have h2 := Real.sin_sq_add_cos_sq g.dtheta
    field_simp
    rw [h1]; linear_combination 2 * g.r2Norm ^ 2 * (g.r1Norm - g.r2Norm) * h2

theorem Conic.twoPoints {pro : Bool} {r1 r2 : V3} {g : Geometry} (hg : Good pro r1 r2 g) {eccT ecc a p w : ℝ}
    (h : Conic g eccT ecc a p w) (hp : 0 < p) :
    TwoPoints p ecc g.r1Norm g.r2Norm (-w) (-w + g.dtheta) g.dtheta 1 := by
  refine ⟨hp, h.e0, hg.R1, hg.R2, ?_, ?_, hg.angle.half_cos.2.2, .inl rfl, ?_, ?_⟩
  · rw [Real.cos_neg]; exact h.at1
  · rw [show -w + g.dtheta = g.dtheta - w by ring, Real.cos_sub, ← h.at2]; ring
  · rw [← Real.sin_sub, one_mul]; congr 1; ring
  · rw [← Real.cos_sub, one_mul]; congr 1; ring

/-- On a hyperbola whose eccentricity vector points away from the side of the chord on which
`eccT` is positive, the motion from the first point to the second is along the branch. -/
theorem Conic.tan_lt {pro : Bool} {r1 r2 : V3} {g : Geometry} (hg : Good pro r1 r2 g) {eccT ecc a p w : ℝ}
    (h : Conic g eccT ecc a p w) (hp : 0 < p) (he : 1 < ecc) (hT : eccT < 0) :
    Real.tan (-w / 2) < Real.tan ((-w + g.dtheta) / 2) := by
  have h2 := h.twoPoints hg hp
  have hR1 := hg.R1
  have hR2 := hg.R2
  have hc := hg.c
  have half1 := h2.half1
  have half2 := h2.half2
  -- the eccentricity vector across the chord
  have hcross : g.cNorm * eccT = -(ecc * (g.r2Norm * Real.sin (-w + g.dtheta) - g.r1Norm * Real.sin (-w))) := by
    have e1 : eccT = eyOf g eccT * Real.cos g.wC - exOf g eccT * Real.sin g.wC := by
      unfold exOf eyOf
      linear_combination -eccT * Real.sin_sq_add_cos_sq g.wC
    rw [show -w + g.dtheta = g.dtheta - w by ring, Real.sin_sub, Real.sin_neg]
    have hx := h.ex
    have hy := h.ey
    have hcw := hg.cosw
    have hsw := hg.sinw
    rw [hx, hy] at e1
    linear_combination g.cNorm * e1 + ecc * Real.sin w * hcw - ecc * Real.cos w * hsw
  have hlt : g.r1Norm * Real.sin (-w) < g.r2Norm * Real.sin (-w + g.dtheta) := by
    by_contra hcon
    have := not_lt.1 hcon
    have h3 : g.cNorm * eccT < 0 := mul_neg_of_pos_of_neg hc hT
    rw [hcross] at h3
    nlinarith
  have hs : ∀ f : ℝ, Real.sin f = 2 * Real.sin (f / 2) * Real.cos (f / 2) := fun f => by
    rw [← Real.sin_two_mul]; congr 1; ring
  rw [hs, hs (-w + g.dtheta)] at hlt
  have hcne : ∀ {f R : ℝ}, 0 < R → (1 + ecc) * Real.cos (f / 2) ^ 2 + (1 - ecc) * Real.sin (f / 2) ^ 2 = p / R →
      Real.cos (f / 2) ≠ 0 := by
    intro f R hR hf h0
    rw [h0] at hf
    have : 0 < p / R := by positivity
    nlinarith [sq_nonneg (Real.sin (f / 2))]
  have hc1 := hcne hR1 half1
  have hc2 := hcne hR2 half2
  rw [Real.tan_eq_sin_div_cos, Real.tan_eq_sin_div_cos]
  generalize Real.sin (-w / 2) = s1 at *
  generalize Real.cos (-w / 2) = c1 at *
  generalize Real.sin ((-w + g.dtheta) / 2) = s2 at *
  generalize Real.cos ((-w + g.dtheta) / 2) = c2 at *
  generalize g.r1Norm = R1 at *
  generalize g.r2Norm = R2 at *
  clear hcross h2 h hg hs hcne
  obtain ⟨t1, rfl⟩ : ∃ t, s1 = t * c1 := ⟨s1 / c1, by field_simp⟩
  obtain ⟨t2, rfl⟩ : ∃ t, s2 = t * c2 := ⟨s2 / c2, by field_simp⟩
  rw [mul_div_cancel_right₀ _ hc1, mul_div_cancel_right₀ _ hc2]
  have q1 : 0 < c1 ^ 2 := by positivity
  have q2 : 0 < c2 ^ 2 := by positivity
  have d1 : R1 * c1 ^ 2 * ((1 + ecc) - (ecc - 1) * t1 ^ 2) = p := by
    rw [eq_div_iff hR1.ne'] at half1; linear_combination half1
  have d2 : R2 * c2 ^ 2 * ((1 + ecc) - (ecc - 1) * t2 ^ 2) = p := by
    rw [eq_div_iff hR2.ne'] at half2; linear_combination half2
  have D1 : 0 < (1 + ecc) - (ecc - 1) * t1 ^ 2 := by
    refine pos_of_mul_pos_right (b := _) (a := R1 * c1 ^ 2) (by rw [d1]; exact hp) (by positivity)
  have D2 : 0 < (1 + ecc) - (ecc - 1) * t2 ^ 2 := by
    refine pos_of_mul_pos_right (b := _) (a := R2 * c2 ^ 2) (by rw [d2]; exact hp) (by positivity)
  by_contra hcon
  have hle := not_lt.1 hcon
  have hmid : 0 < (1 + ecc) + (ecc - 1) * (t1 * t2) := by
    nlinarith [mul_nonneg (show (0 : ℝ) ≤ ecc - 1 by linarith) (sq_nonneg (t1 + t2))]
  have hprod : 0 ≤ (t1 - t2) * ((1 + ecc) + (ecc - 1) * (t1 * t2)) := mul_nonneg (by linarith) hmid.le
  have k1 : R1 * c1 ^ 2 * t1 < R2 * c2 ^ 2 * t2 := by nlinarith
  have k2 : R1 * c1 ^ 2 * t1 * (((1 + ecc) - (ecc - 1) * t1 ^ 2) * ((1 + ecc) - (ecc - 1) * t2 ^ 2)) <
      R2 * c2 ^ 2 * t2 * (((1 + ecc) - (ecc - 1) * t1 ^ 2) * ((1 + ecc) - (ecc - 1) * t2 ^ 2)) :=
    mul_lt_mul_of_pos_right k1 (mul_pos D1 D2)
  have k3 : p * (t1 * ((1 + ecc) - (ecc - 1) * t2 ^ 2)) < p * (t2 * ((1 + ecc) - (ecc - 1) * t1 ^ 2)) := by
    calc _ = R1 * c1 ^ 2 * t1 * (((1 + ecc) - (ecc - 1) * t1 ^ 2) * ((1 + ecc) - (ecc - 1) * t2 ^ 2)) := by
          rw [← d1]; ring
      _ < _ := k2
      _ = _ := by rw [← d2]; ring
  have k4 := lt_of_mul_lt_mul_left k3 hp.le
  nlinarith

/-- The half-angle relations between true and eccentric anomaly. -/
theorem eccentric_exists {p R f e : ℝ} (he0 : 0 ≤ e) (he1 : e < 1) (hp : 0 < p) (hR : 0 < R)
    (hh : (1 + e) * Real.cos (f / 2) ^ 2 + (1 - e) * Real.sin (f / 2) ^ 2 = p / R) :
    ∃ E, Real.sqrt (1 - e) * Real.sin (f / 2) = Real.sqrt (p / R) * Real.sin (E / 2) ∧
    Real.sqrt (1 + e) * Real.cos (f / 2) = Real.sqrt (p / R) * Real.cos (E / 2) := by
  have h1 : 0 ≤ 1 - e := by linarith
  have h2 : 0 ≤ 1 + e := by linarith
  obtain ⟨E, hE⟩ : ∃ E, Pan.trueToEccentric f e = .ok E := by
    unfold Pan.trueToEccentric
    rw [psqrt_eq h1, ok_bind, psqrt_eq h2, ok_bind]
    exact ⟨_, rfl⟩
  exact ⟨E, Pan.eccentric_spec he0 he1 hp hR hh hE⟩

theorem Conic.path {pro : Bool} {r1 r2 : V3} {g : Geometry} (hg : Good pro r1 r2 g) {eccT ecc a p w mu : ℝ}
    (hmu : 0 < mu) (h : Conic g eccT ecc a p w) (hp : 0 < p) (hT : 1 < ecc → eccT < 0) :
    ∃ T, Path mu (g.r1Norm + g.r2Norm) (halfA g.r1Norm g.r2Norm g.dtheta) 0
      (conicV p g.r1Norm g.r2Norm g.dtheta) T := by
  have h2 := h.twoPoints hg hp
  rcases lt_or_gt_of_ne h.ne1 with he | he
  · obtain ⟨E1, s1, c1⟩ := eccentric_exists h.e0 he hp hg.R1 h2.half1
    obtain ⟨E2, s2, c2⟩ := eccentric_exists h.e0 he hp hg.R2 h2.half2
    obtain ⟨d, k, -, -, -, hpath⟩ := h2.ell he hmu s1 c1 s2 c2
    exact ⟨_, hpath⟩
  · obtain ⟨F1, F2, -, -, hpath⟩ := h2.hyp_tan he hmu (h.tan_lt hg hp he (hT he))
    exact ⟨_, hpath⟩

/-- The half-angle relations between true and eccentric anomaly, for the code's anomaly. -/
theorem nuToE_spec {p R f e E : ℝ} (he0 : 0 ≤ e) (he1 : e < 1) (hp : 0 < p) (hR : 0 < R)
    (hh : (1 + e) * Real.cos (f / 2) ^ 2 + (1 - e) * Real.sin (f / 2) ^ 2 = p / R)
    (h : nuToE f e = .ok E) :
    -Real.pi < E ∧ E < Real.pi ∧ ∃ j : ℤ,
      Real.sqrt (1 - e) * Real.sin (f / 2) = Real.sqrt (p / R) * Real.sin ((E + j * (2 * Real.pi)) / 2) ∧
      Real.sqrt (1 + e) * Real.cos (f / 2) = Real.sqrt (p / R) * Real.cos ((E + j * (2 * Real.pi)) / 2) := by
  have hpi := Real.pi_pos
  unfold nuToE at h
  simp only [bind_ok, pdiv_ok, psqrt_ok, ptan_ok] at h
  obtain ⟨_, ⟨hd, rfl⟩, _, ⟨-, rfl⟩, _, ⟨hcos, rfl⟩, h⟩ := h
  have hE := Except.ok.inj h
  have hE2 : E / 2 = Real.arctan (Real.sqrt ((1 - e) / (1 + e)) * Real.tan (f / 2)) := by rw [← hE]; ring
  have b1 := Real.neg_pi_div_two_lt_arctan (Real.sqrt ((1 - e) / (1 + e)) * Real.tan (f / 2))
  have b2 := Real.arctan_lt_pi_div_two (Real.sqrt ((1 - e) / (1 + e)) * Real.tan (f / 2))
  refine ⟨by linarith, by linarith, ?_⟩
  obtain ⟨E', s', c'⟩ := eccentric_exists he0 he1 hp hR hh
  have hq : 0 < Real.sqrt (p / R) := by positivity
  have h1 : 0 < Real.sqrt (1 + e) := Real.sqrt_pos.2 (by linarith)
  have hcE' : Real.cos (E' / 2) ≠ 0 := by
    intro h0
    rw [h0, mul_zero] at c'
    exact hcos ((mul_eq_zero.1 c').resolve_left h1.ne')
  have htan : Real.tan (E' / 2) = Real.sqrt ((1 - e) / (1 + e)) * Real.tan (f / 2) := by
    rw [Real.tan_eq_sin_div_cos, Real.tan_eq_sin_div_cos, Real.sqrt_div (by linarith)]
    field_simp
    apply mul_left_cancel₀ hq.ne'
    linear_combination (-(Real.sqrt (1 + e) * Real.cos (f / 2))) * s' + Real.sqrt (1 - e) * Real.sin (f / 2) * c'
  have htan2 : Real.tan (E / 2) = Real.tan (E' / 2) := by rw [hE2, Real.tan_arctan, htan]
  have hcE : 0 < Real.cos (E / 2) := by rw [hE2]; exact Real.cos_arctan_pos _
  -- equal tangents: the half angles differ by a multiple of π
  have hsin : Real.sin (E' / 2 - E / 2) = 0 := by
    rw [Real.sin_sub]
    rw [Real.tan_eq_sin_div_cos, Real.tan_eq_sin_div_cos, div_eq_div_iff hcE.ne' hcE'] at htan2
    linarith
  obtain ⟨j, hj⟩ := Real.sin_eq_zero_iff.1 hsin
  refine ⟨j, ?_, ?_⟩
  · rw [s', show (E + j * (2 * Real.pi)) / 2 = E' / 2 by linarith]
  · rw [c', show (E + j * (2 * Real.pi)) / 2 = E' / 2 by linarith]

/-- The mean anomaly of an ellipse lies in the same half turns as the eccentric one. -/
theorem mean_range {E e : ℝ} (he0 : 0 ≤ e) (he1 : e < 1) (h1 : -Real.pi < E) (h2 : E < Real.pi) :
    -Real.pi < E - e * Real.sin E ∧ E - e * Real.sin E < Real.pi := by
  rcases le_or_gt 0 E with h0 | h0
  · have hs := Real.sin_nonneg_of_nonneg_of_le_pi h0 h2.le
    have hle := Real.sin_le h0
    constructor
    · nlinarith [Real.pi_pos]
    · nlinarith
  · have hs := Real.sin_nonneg_of_nonneg_of_le_pi (x := -E) (by linarith) (by linarith)
    have hle := Real.sin_le (x := -E) (by linarith)
    rw [Real.sin_neg] at hs hle
    constructor
    · nlinarith
    · nlinarith [Real.pi_pos]

end Avanzini
end Lamberthub
