import Verif.Props.OneOrbit

/-! # C29, C60: `avanzini2008` in the equatorial plane, without assuming the sense -/

set_option autoImplicit false

namespace Lamberthub
open Spec LC Avanzini

/-- What `avanzini2008` returns in the equatorial plane: the velocities of a conic through both positions, in a
frame whose first axis is the `x` axis instead of the direction of `r1`. -/
theorem Avanzini.equatorial {mu : ℝ} {r1 r2 : V3} {tof : ℝ} {M : ℤ} {pro low : Bool} {maxiter : ℕ}
    {atol rtol : ℝ} {full : Bool} {clock : ℝ} {out : Output}
    (h : avanzini2008 mu r1 r2 tof M pro low maxiter atol rtol full clock = .ok out)
    (z1 : r1.z = 0) (z2 : r2.z = 0) :
    ∃ R1 R2 a b C S s p ex ey : ℝ, 0 < mu ∧ len r1 = R1 ∧ len r2 = R2 ∧ 0 < R1 ∧ 0 < R2 ∧ r1 = ⟨R1 * a, R1 * b, 0⟩ ∧
      r2 = ⟨R2 * (a * C - (if pro = true then 1 else -1) * b * S),
        R2 * (b * C + (if pro = true then 1 else -1) * a * S), 0⟩ ∧
      a ^ 2 + b ^ 2 = 1 ∧ C ^ 2 + S ^ 2 = 1 ∧ C < 1 ∧ 0 < s ∧ 0 < p ∧ s ^ 2 * p = mu ∧ R1 * (1 + ex) = p ∧
      R2 * (1 + (C * ex + S * ey)) = p ∧ out.v1 = ⟨-(s * ey), s * (1 + ex), 0⟩ ∧
      out.v2 = ⟨-(s * (S + ey)), s * (C + ex), 0⟩ := by
  obtain ⟨hM, hmu, g, F, x, n, eccT, el, hg, hF, -, hT, hel, hvel⟩ := ok_split h
  obtain ⟨hpi, h0, hlt⟩ := eccT_lt hF hT
  have hG := geometry_good hg hpi
  have hna := hG.hna
  obtain ⟨a, w, ix, iy, hp, hC, hv1, hv2, hequ, -⟩ := velocities_ok hmu hg hpi hel hvel
  obtain ⟨rfl, rfl⟩ := hequ ⟨z1, z2⟩
  have hR1 : 0 < len r1 := by rw [len_eq_norm]; exact norm_pos_of_notAligned_left hna
  have hR2 : 0 < len r2 := by rw [len_eq_norm]; exact norm_pos_of_notAligned_right hna
  have hs : 0 < Real.sqrt (mu / el.p) := by positivity
  have hsp : Real.sqrt (mu / el.p) ^ 2 * el.p = mu := by
    rw [Real.sq_sqrt (by positivity), div_mul_cancel₀ _ hp.ne']
  have l1 := len_sq r1
  rw [z1] at l1
  have c1 := hG.angle.cos_eq
  have s1 := Pan.sin_cross hG.angle hna
  rw [← len_eq_norm, ← len_eq_norm] at c1 s1
  have hd : V3.dot r1 r2 = r1.x * r2.x + r1.y * r2.y := by simp [V3.dot, z1]
  rw [hd] at c1
  have hcr : V3.cross r1 r2 = ⟨0, 0, r1.x * r2.y - r1.y * r2.x⟩ := by
    ext <;> simp [V3.cross, z1, z2]
  have hnn : V3.norm (V3.cross r1 r2) = |r1.x * r2.y - r1.y * r2.x| := by
    rw [hcr, ← len_eq_norm]; simp [len, Real.sqrt_sq_eq_abs]
  have hW : (if ShortWay pro r1 r2 then (1 : ℝ) else -1) * V3.norm (V3.cross r1 r2) =
      (if pro = true then 1 else -1) * (r1.x * r2.y - r1.y * r2.x) := by
    rw [hnn]
    have hcz : crossZ r1 r2 = r1.x * r2.y - r1.y * r2.x := rfl
    by_cases hsw : ShortWay pro r1 r2
    · rw [if_pos hsw]
      unfold ShortWay at hsw
      rw [hcz] at hsw
      cases pro
      · simp only [Bool.false_eq_true, if_false] at hsw ⊢
        rw [abs_of_neg hsw]; ring
      · simp only [if_true] at hsw ⊢
        rw [abs_of_pos hsw]
    · rw [if_neg hsw]
      unfold ShortWay at hsw
      rw [hcz] at hsw
      cases pro
      · simp only [Bool.false_eq_true, if_false] at hsw ⊢
        rw [abs_of_nonneg (not_lt.1 hsw)]
      · simp only [if_true] at hsw ⊢
        rw [abs_of_nonpos (not_lt.1 hsw)]; ring
  rw [hW] at s1
  have hε : (if pro = true then (1 : ℝ) else -1) ^ 2 = 1 := by split <;> norm_num
  have tθ := Real.sin_sq_add_cos_sq g.dtheta
  have hcos1 := hG.angle.cos_lt_one
  have at1 := hC.at1
  have at2 := hC.at2
  rw [hG.n1, ← len_eq_norm] at at1
  rw [hG.n2, ← len_eq_norm] at at2
  generalize (if pro = true then (1 : ℝ) else -1) = ε at *
  have e1 : r1.x = len r1 * (r1.x / len r1) := by field_simp
  have e2 : r1.y = len r1 * (r1.y / len r1) := by field_simp
  have hu : (r1.x / len r1) ^ 2 + (r1.y / len r1) ^ 2 = 1 := by
    rw [div_pow, div_pow, ← add_div, div_eq_one_iff_eq (by positivity)]; linarith
  generalize r1.x / len r1 = α at *
  generalize r1.y / len r1 = β at *
  rw [e1, e2] at c1 s1
  have hC1 : len r2 * Real.cos g.dtheta = α * r2.x + β * r2.y := mul_left_cancel₀ hR1.ne' (by linear_combination c1)
  have hS1 : len r2 * Real.sin g.dtheta = ε * (α * r2.y - β * r2.x) := mul_left_cancel₀ hR1.ne' (by linear_combination s1)
  refine ⟨len r1, len r2, α, β, Real.cos g.dtheta, Real.sin g.dtheta, Real.sqrt (mu / el.p), el.p, el.ecc * Real.cos w,
    el.ecc * Real.sin w, hmu, rfl, rfl, hR1, hR2, ?_, ?_, hu, by linarith, by linarith, hs, hp, hsp, at1, at2, ?_, ?_⟩
  · ext <;> simp [z1, ← e1, ← e2]
  · ext
    · linear_combination (-r2.x) * hu - α * hC1 + ε * β * hS1 + β * (α * r2.y - β * r2.x) * hε
    · linear_combination (-r2.y) * hu - β * hC1 - ε * α * hS1 - α * (α * r2.y - β * r2.x) * hε
    · exact z2
  · rw [hv1]; ext <;> simp only [V3.add_x, V3.add_y, V3.add_z, V3.smul_x, V3.smul_y, V3.smul_z] <;> ring
  · rw [hv2]; ext <;> simp only [V3.add_x, V3.add_y, V3.add_z, V3.smul_x, V3.smul_y, V3.smul_z] <;> ring

/-- **C60, prograde, equatorial, exactly**: the two velocities lie on one orbit if and only if `r1` is on the `x`
axis.  On the negative half of the axis the orbit is run backwards. -/
theorem avanzini_equatorial_prograde_iff {mu : ℝ} {r1 r2 : V3} {tof : ℝ} {M : ℤ} {low : Bool} {maxiter : ℕ}
    {atol rtol : ℝ} {full : Bool} {clock : ℝ} {out : Output}
    (h : avanzini2008 mu r1 r2 tof M true low maxiter atol rtol full clock = .ok out)
    (z1 : r1.z = 0) (z2 : r2.z = 0) :
    (OneOrbit mu r1 out.v1 r2 out.v2 ↔ r1.y = 0) ∧ (r1.y = 0 → (Sense true r1 out.v1 ↔ 0 < r1.x)) := by
  obtain ⟨R1, R2, a, b, C, S, s, p, ex, ey, hmu, l1, l2, hR1, hR2, rfl, rfl, hab, hCS, hC, hs, hp, hsp, at1, at2, hv1,
    hv2⟩ := Avanzini.equatorial h z1 z2
  simp only [if_true, one_mul] at *
  have hex : 0 < 1 + ex := by
    by_contra hc
    nlinarith
  refine ⟨⟨fun ho => ?_, fun hb => ?_⟩, fun hb => ?_⟩
  · obtain ⟨h1, -, h3⟩ := ho
    rw [l1, l2, hv1, hv2] at h3
    rw [hv1, hv2] at h1
    have gz := congrArg V3.z h1
    have gx := congrArg V3.x h3
    have gy := congrArg V3.y h3
    simp only [outer, V3.sub_x, V3.sub_y, V3.smul_x, V3.smul_y, mul_zero, zero_mul, sub_zero, zero_sub] at gz gx gy
    obtain ⟨H, hH⟩ : ∃ H, H = R1 * a * (s * (1 + ex)) - R1 * b * (-(s * ey)) := ⟨_, rfl⟩
    rw [← gz, ← hH] at gx gy
    rw [inv_mul_cancel_left₀ hR1.ne', inv_mul_cancel_left₀ hR2.ne'] at gx gy
    obtain ⟨k, hk⟩ : ∃ k, k = mu⁻¹ * (H * s) := ⟨_, rfl⟩
    have e1 : (k - a) * (C - 1) + b * S = 0 := by rw [hk]; linear_combination -gx
    have e2 : (k - a) * S - b * (C - 1) = 0 := by rw [hk]; linear_combination -gy
    have hb : b * ((C - 1) ^ 2 + S ^ 2) = 0 := by linear_combination S * e1 - (C - 1) * e2
    have hb0 : b = 0 := (mul_eq_zero.1 hb).resolve_right (by
      have : (C - 1) ^ 2 + S ^ 2 = 2 * (1 - C) := by linear_combination hCS
      rw [this]; linarith)
    simp [hb0]
  · have hb0 : b = 0 := (mul_eq_zero.1 hb).resolve_left hR1.ne'
    subst hb0
    have ha : a ^ 2 = 1 := by linarith
    refine ⟨?_, ?_, ?_⟩
    · rw [hv1, hv2]
      ext
      · simp [outer]
      · simp [outer]
      simp only [outer]
      linear_combination a * s * at1 - a * s * at2 - R2 * a * s * hCS
    · rw [l1, l2, hv1, hv2, len_sq, len_sq]
      simp only []
      have i1 : mu / R1 = s ^ 2 * (1 + ex) := by
        rw [div_eq_iff hR1.ne']; linear_combination -hsp - s ^ 2 * at1
      have i2 : mu / R2 = s ^ 2 * (1 + (C * ex + S * ey)) := by
        rw [div_eq_iff hR2.ne']; linear_combination -hsp - s ^ 2 * at2
      rw [i1, i2]
      linear_combination (-(s ^ 2) / 2) * hCS
    · rw [l1, l2, hv1, hv2]
      have hm : mu⁻¹ * (s ^ 2 * p) = 1 := by rw [hsp, inv_mul_cancel₀ hmu.ne']
      ext
      · simp only [outer, V3.sub_x, V3.smul_x]
        rw [inv_mul_cancel_left₀ hR1.ne', inv_mul_cancel_left₀ hR2.ne']
        linear_combination mu⁻¹ * s ^ 2 * a * (1 + ex) * at1 - mu⁻¹ * s ^ 2 * a * (C + ex) * at2
          - mu⁻¹ * s ^ 2 * a * (C + ex) * R2 * hCS + a * (1 - C) * hm
      · simp only [outer, V3.sub_y, V3.smul_y]
        rw [inv_mul_cancel_left₀ hR1.ne', inv_mul_cancel_left₀ hR2.ne']
        linear_combination mu⁻¹ * s ^ 2 * a * ey * at1 - mu⁻¹ * s ^ 2 * a * (S + ey) * at2
          - mu⁻¹ * s ^ 2 * a * (S + ey) * R2 * hCS - a * S * hm
      · simp [outer]
  · have hb0 : b = 0 := (mul_eq_zero.1 hb).resolve_left hR1.ne'
    subst hb0
    unfold Sense angMomZ
    rw [hv1]
    simp only [if_true, mul_zero, zero_mul, sub_zero]
    rw [mul_pos_iff_of_pos_right (by positivity)]

/-- **C60, retrograde, equatorial, exactly**: the two velocities lie on one orbit if and only if `r2` is on the `x`
axis and the semi-latus rectum, which is `(|r1| v1.y)² / μ`, has one particular value, that of the transfer during
which the eccentric anomaly changes by half a turn.  On the negative half of the axis the orbit is run backwards. -/
theorem avanzini_equatorial_retrograde_iff {mu : ℝ} {r1 r2 : V3} {tof : ℝ} {M : ℤ} {low : Bool} {maxiter : ℕ}
    {atol rtol : ℝ} {full : Bool} {clock : ℝ} {out : Output}
    (h : avanzini2008 mu r1 r2 tof M false low maxiter atol rtol full clock = .ok out)
    (z1 : r1.z = 0) (z2 : r2.z = 0) :
    (OneOrbit mu r1 out.v1 r2 out.v2 ↔
      r2.y = 0 ∧ (len r1 * out.v1.y) ^ 2 * (len r1 + len r2) = mu * (len r1 * len r2 - V3.dot r1 r2)) ∧
    (OneOrbit mu r1 out.v1 r2 out.v2 → (Sense false r1 out.v1 ↔ 0 < r2.x)) := by
  obtain ⟨R1, R2, a, b, C, S, s, p, ex, ey, hmu, l1, l2, hR1, hR2, rfl, rfl, hab, hCS, hC, hs, hp, hsp, at1, at2, hv1,
    hv2⟩ := Avanzini.equatorial h z1 z2
  simp only [Bool.false_eq_true, if_false] at *
  have hvy : (R1 * (s * (1 + ex))) ^ 2 = mu * p := by
    rw [← hsp, ← at1]; ring
  have hdot : V3.dot (⟨R1 * a, R1 * b, 0⟩ : V3) ⟨R2 * (a * C - -1 * b * S), R2 * (b * C + -1 * a * S), 0⟩ = R1 * R2 * C := by
    simp only [V3.dot]; linear_combination R1 * R2 * C * hab
  rw [l1, l2, hv1, hv2, hdot]
  simp only []
  rw [hvy]
  have key : OneOrbit mu ⟨R1 * a, R1 * b, 0⟩ ⟨-(s * ey), s * (1 + ex), 0⟩
      ⟨R2 * (a * C - -1 * b * S), R2 * (b * C + -1 * a * S), 0⟩ ⟨-(s * (S + ey)), s * (C + ex), 0⟩ →
      ∃ k : ℝ, k ^ 2 = 1 ∧ a = -(k * C) ∧ b = -(k * S) ∧ p * (R1 + R2) = R1 * R2 * (1 - C) ∧
        R1 * a * (s * (1 + ex)) - R1 * b * (-(s * ey)) = k * (s * p) := by
    rintro ⟨h1, -, h3⟩
    rw [l1, l2] at h3
    have gz := congrArg V3.z h1
    have gx := congrArg V3.x h3
    have gy := congrArg V3.y h3
    simp only [outer, V3.sub_x, V3.sub_y, V3.smul_x, V3.smul_y, mul_zero, zero_mul, sub_zero, zero_sub] at gz gx gy
    obtain ⟨H, hH⟩ : ∃ H, H = R1 * a * (s * (1 + ex)) - R1 * b * (-(s * ey)) := ⟨_, rfl⟩
    rw [← gz, ← hH] at gx gy
    rw [inv_mul_cancel_left₀ hR1.ne', inv_mul_cancel_left₀ hR2.ne'] at gx gy
    obtain ⟨k, hk⟩ : ∃ k, k = mu⁻¹ * (H * s) := ⟨_, rfl⟩
    have e1 : (k - a) * (C - 1) - b * S = 0 := by rw [hk]; linear_combination -gx
    have e2 : (k + a) * S - b * (C - 1) = 0 := by rw [hk]; linear_combination -gy
    have hC1 : C - 1 ≠ 0 := by linarith
    have ha : a = -(k * C) := by
      have : (C - 1) * (a + k * C) = 0 := by
        linear_combination (C - 1) / 2 * e1 - S / 2 * e2 + (a + k) / 2 * hCS
      linarith [(mul_eq_zero.1 this).resolve_left hC1]
    have hb : b = -(k * S) := by
      have : (C - 1) * (b + k * S) = 0 := by
        linear_combination S / 2 * e1 + (C - 1) / 2 * e2 + b / 2 * hCS
      linarith [(mul_eq_zero.1 this).resolve_left hC1]
    have hk2 : k ^ 2 = 1 := by
      rw [ha, hb] at hab
      linear_combination hab - k ^ 2 * hCS
    have hk0 : k ≠ 0 := by rintro rfl; norm_num at hk2
    have hHk : H * s = k * (s ^ 2 * p) := by rw [hk, hsp]; field_simp
    have hpk : R1 * (C * (1 + ex) + S * ey) = -p := by
      have : k * s ^ 2 * (R1 * (C * (1 + ex) + S * ey) + p) = 0 := by
        rw [hH, ha, hb] at hHk
        linear_combination -hHk
      linarith [(mul_eq_zero.1 this).resolve_left (by positivity)]
    have hpp : p * (R1 + R2) = R1 * R2 * (1 - C) := by
      linear_combination R2 * hpk - R1 * at2
    exact ⟨k, hk2, ha, hb, hpp, mul_right_cancel₀ hs.ne' (by rw [← hH]; linear_combination hHk)⟩
  refine ⟨⟨fun ho => ?_, fun hc => ?_⟩, fun ho => ?_⟩
  · obtain ⟨k, -, ha, hb, hpp, -⟩ := key ho
    exact ⟨by rw [ha, hb]; ring, by linear_combination mu * hpp⟩
  · obtain ⟨hy, hc⟩ := hc
    have hpp : p * (R1 + R2) = R1 * R2 * (1 - C) := mul_left_cancel₀ hmu.ne' (by linear_combination hc)
    have hy' : b * C - a * S = 0 := by
      have := (mul_eq_zero.1 hy).resolve_left hR2.ne'
      linarith
    obtain ⟨k, hk⟩ : ∃ k, k = -(a * C + b * S) := ⟨_, rfl⟩
    have ha : a = -(k * C) := by rw [hk]; linear_combination (-a) * hCS - S * hy'
    have hb : b = -(k * S) := by rw [hk]; linear_combination (-b) * hCS + C * hy'
    have hpk : R1 * (C * (1 + ex) + S * ey) = -p := by
      refine mul_left_cancel₀ hR2.ne' ?_
      linear_combination R1 * at2 + hpp
    have hpk2 : R2 * (C + ex) = -p := by
      refine mul_left_cancel₀ hR1.ne' ?_
      linear_combination R2 * at1 + hpp
    have hm : mu⁻¹ * (s ^ 2 * p) = 1 := by rw [hsp, inv_mul_cancel₀ hmu.ne']
    have hx2 : R2 * (a * C - -1 * b * S) = -(R2 * k) := by rw [hk]; ring
    have hH1 : R1 * a * (s * (1 + ex)) - R1 * b * (-(s * ey)) = k * (s * p) := by
      rw [ha, hb]; linear_combination (-(k * s)) * hpk
    have l2' : len (⟨-(R2 * k), 0, 0⟩ : V3) = R2 := by rw [hy, hx2] at l2; exact l2
    rw [hy, hx2]
    refine ⟨?_, ?_, ?_⟩
    · ext
      · simp [outer]
      · simp [outer]
      simp only [outer]
      linear_combination hH1 + k * s * hpk2
    · rw [l1, l2', len_sq, len_sq]
      simp only []
      have i1 : mu / R1 = s ^ 2 * (1 + ex) := by
        rw [div_eq_iff hR1.ne']; linear_combination -hsp - s ^ 2 * at1
      have i2 : mu / R2 = s ^ 2 * (1 + (C * ex + S * ey)) := by
        rw [div_eq_iff hR2.ne']; linear_combination -hsp - s ^ 2 * at2
      rw [i1, i2]
      linear_combination (-(s ^ 2) / 2) * hCS
    · rw [l1, l2']
      ext
      · simp only [outer, V3.sub_x, V3.smul_x]
        rw [inv_mul_cancel_left₀ hR1.ne', hH1, show R2⁻¹ * -(R2 * k) = -k by rw [← mul_neg, inv_mul_cancel_left₀ hR2.ne'], ha]
        linear_combination k * (1 - C) * hm + mu⁻¹ * (s * (C + ex)) * (s * k) * hpk2
      · simp only [outer, V3.sub_y, V3.smul_y]
        rw [inv_mul_cancel_left₀ hR1.ne', hH1, hb]
        linear_combination -(k * S) * hm + mu⁻¹ * (s * (S + ey)) * (s * k) * hpk2
      · simp [outer]
  · obtain ⟨k, hk2, ha, hb, hpp, hH⟩ := key ho
    unfold Sense angMomZ
    simp only [Bool.false_eq_true, if_false]
    rw [hH, show R2 * (a * C - -1 * b * S) = R2 * -k by rw [ha, hb]; linear_combination (-(R2 * k)) * hCS,
      mul_pos_iff_of_pos_left hR2, neg_pos]
    exact ⟨fun h => neg_of_mul_neg_left h (by positivity), fun h => mul_neg_of_neg_of_pos h (by positivity)⟩

/-- Both theorems at work: a quarter turn from the negative `x` axis gives one orbit run backwards, and a
retrograde quarter turn of a circle gives no orbit at all. -/
example : (∃ tof out, avanzini2008 1 ⟨-1, 0, 0⟩ ⟨0, -1, 0⟩ tof 0 true true 35 1e-5 1e-7 false 0 = .ok out ∧
      OneOrbit 1 ⟨-1, 0, 0⟩ out.v1 ⟨0, -1, 0⟩ out.v2 ∧ ¬ Sense true ⟨-1, 0, 0⟩ out.v1) ∧
    ∃ tof out, avanzini2008 1 ⟨1, 0, 0⟩ ⟨0, -1, 0⟩ tof 0 false true 35 1e-5 1e-7 false 0 = .ok out ∧
      ¬ OneOrbit 1 ⟨1, 0, 0⟩ out.v1 ⟨0, -1, 0⟩ out.v2 := by
  constructor
  · have hna : NotAligned ⟨-1, 0, 0⟩ ⟨0, -1, 0⟩ := by simp [NotAligned]
    obtain ⟨out, h⟩ := avanzini_returns one_pos hna (by simp [len]) (transferAngle_eq hna true) true 33
      (by norm_num : (0 : ℝ) ≤ 1e-5) (rtol := 1e-7) false 0
    obtain ⟨h1, h2⟩ := avanzini_equatorial_prograde_iff h rfl rfl
    refine ⟨_, out, h, h1.2 rfl, fun hs => ?_⟩
    have := (h2 rfl).1 hs
    norm_num at this
  · have hna : NotAligned ⟨1, 0, 0⟩ ⟨0, -1, 0⟩ := by simp [NotAligned]
    obtain ⟨out, h⟩ := avanzini_returns one_pos hna (by simp [len]) (transferAngle_eq hna false) true 33
      (by norm_num : (0 : ℝ) ≤ 1e-5) (rtol := 1e-7) false 0
    refine ⟨_, out, h, fun ho => ?_⟩
    have := ((avanzini_equatorial_retrograde_iff h rfl rfl).1.1 ho).1
    norm_num at this

end Lamberthub
