import Verif.Props.ReversalAvanzini
import Verif.Props.AvanziniEquator

/-! # C59: when `avanzini2008` reverses its transfers in the equatorial plane -/

set_option autoImplicit false

namespace Lamberthub
open Spec LC Avanzini

namespace Avanzini

/-- The velocities in the equatorial plane, with the elements they are computed from. -/
theorem velocities_equatorial {pro : Bool} {r1 r2 v1 v2 : V3} {g : Geometry} {mu eccT : ℝ} {el : Elements} (hmu : 0 < mu)
    (hg : getGeometry r1 r2 pro = .ok g) (hpi : g.dtheta ≠ Real.pi) (hel : coeAtEccT eccT r1 r2 pro = .ok el)
    (hv : velocities mu el = .ok (v1, v2)) (z1 : r1.z = 0) (z2 : r2.z = 0) :
    ∃ ecc a ex ey, eapFromEccT eccT g = .ok (ecc, a, el.p) ∧ 0 < el.p ∧ exOf g eccT = ex ∧
      V3.norm r1 * (1 + ex) = el.p ∧ V3.norm r2 * (1 + (Real.cos g.dtheta * ex + Real.sin g.dtheta * ey)) = el.p ∧
      v1 = ⟨-(Real.sqrt (mu / el.p) * ey), Real.sqrt (mu / el.p) * (1 + ex), 0⟩ ∧
      v2 = ⟨-(Real.sqrt (mu / el.p) * (Real.sin g.dtheta + ey)), Real.sqrt (mu / el.p) * (Real.cos g.dtheta + ex), 0⟩ := by
  have hG := geometry_good hg hpi
  obtain ⟨a, w, ix, iy, hp, hC, hv1, hv2, hequ, -⟩ := velocities_ok hmu hg hpi hel hv
  obtain ⟨rfl, rfl⟩ := hequ ⟨z1, z2⟩
  have heap : ∃ ecc a, eapFromEccT eccT g = .ok (ecc, a, el.p) := by
    unfold coeAtEccT at hel
    rw [hg, ok_bind] at hel
    simp only [bind_ok] at hel
    obtain ⟨⟨ecc, a, p⟩, he, _, -, _, -, _, -, _, -, _, -, _, -, hel⟩ := hel
    rw [← Except.ok.inj hel]
    exact ⟨ecc, a, he⟩
  obtain ⟨ecc, a', heap⟩ := heap
  have at1 := hC.at1
  have at2 := hC.at2
  rw [hG.n1] at at1
  rw [hG.n2] at at2
  refine ⟨ecc, a', _, _, heap, hp, hC.ex, at1, at2, ?_, ?_⟩
  · rw [hv1]; ext <;> simp only [V3.add_x, V3.add_y, V3.add_z, V3.smul_x, V3.smul_y, V3.smul_z] <;> ring
  · rw [hv2]; ext <;> simp only [V3.add_x, V3.add_y, V3.add_z, V3.smul_x, V3.smul_y, V3.smul_z] <;> ring

/-- The two local frames agree after the reversal for one value of the semi-latus rectum. -/
theorem frames_agree {R1 R2 C S p ex ey ex' ey' s : ℝ} (hs : 0 < s) (hR1 : 0 < R1) (hR2 : 0 < R2) (hCS : C ^ 2 + S ^ 2 = 1)
    (hS : S ≠ 0) (a1 : R1 * (1 + ex) = p) (a2 : R2 * (1 + (C * ex + S * ey)) = p) (b1 : R2 * (1 + ex') = p)
    (b2 : R1 * (1 + (C * ex' + S * ey')) = p) :
    ((⟨-(s * ey'), s * (1 + ex'), 0⟩ : V3) = -⟨-(s * (S + ey)), s * (C + ex), 0⟩ ∧
      (⟨-(s * (S + ey')), s * (C + ex'), 0⟩ : V3) = -⟨-(s * ey), s * (1 + ex), 0⟩) ↔
    p * (R1 + R2) = R1 * R2 * (1 - C) := by
  have e1 : ex' = C * ex + S * ey := by
    have := mul_left_cancel₀ hR2.ne' (b1.trans a2.symm); linarith
  have e2 : C * ex' + S * ey' = ex := by
    have := mul_left_cancel₀ hR1.ne' (b2.trans a1.symm); linarith
  have e3 : ey' = S * ex - C * ey := mul_left_cancel₀ hS (by rw [e1] at e2; linear_combination e2 - ex * hCS)
  have hX : R1 * R2 * ((1 + C) * (1 + ex) + S * ey) = p * (R1 + R2) - R1 * R2 * (1 - C) := by
    linear_combination R2 * a1 + R1 * a2
  have hC1 : 1 + C ≠ 0 := by
    intro h0
    have : C = -1 := by linarith
    rw [this] at hCS
    exact hS (pow_eq_zero_iff (n := 2) (by norm_num) |>.1 (by linarith))
  have hiff : (1 + C) * (1 + ex) + S * ey = 0 ↔ p * (R1 + R2) = R1 * R2 * (1 - C) := by
    constructor
    · intro h; rw [h] at hX; linarith
    · intro h
      rw [h, sub_self] at hX
      exact (mul_eq_zero.1 hX).resolve_left (by positivity)
  rw [← hiff]
  constructor
  · rintro ⟨h1, -⟩
    have := congrArg V3.y h1
    simp only [V3.neg_y] at this
    have h2 := mul_left_cancel₀ hs.ne' (this.trans (mul_neg s (C + ex)).symm)
    rw [e1] at h2
    linear_combination h2
  · intro h
    have hY : S * (1 + ex) + (1 - C) * ey = 0 :=
      (mul_eq_zero.1 (show (1 + C) * (S * (1 + ex) + (1 - C) * ey) = 0 by linear_combination S * h - ey * hCS)).resolve_left hC1
    rw [e1, e3]
    constructor
    · ext
      · simp only [V3.neg_x]; linear_combination (-s) * hY
      · simp only [V3.neg_y]; linear_combination s * h
      · simp
    · ext
      · simp only [V3.neg_x]; linear_combination (-s) * hY
      · simp only [V3.neg_y]; linear_combination s * h
      · simp

theorem sin_dtheta_ne {pro : Bool} {r1 r2 : V3} {g : Geometry} (hG : Good pro r1 r2 g) : Real.sin g.dtheta ≠ 0 := by
  intro h0
  have hp := hG.angle.pos
  have hl := hG.angle.lt
  have hne := hG.angle.ne_pi
  rcases lt_or_gt_of_ne hne with h | h
  · exact (Real.sin_pos_of_pos_of_lt_pi hp h).ne' h0
  · have := Real.sin_pos_of_pos_of_lt_pi (x := g.dtheta - Real.pi) (by linarith) (by linarith)
    rw [Real.sin_sub_pi, h0] at this
    simp at this

end Avanzini

/-- **C59 for `avanzini2008` in the equatorial plane, exactly**: when both problems are solved, the solutions are the
reversal of each other if and only if the semi-latus rectum, which is `(|r1| v1.y)² / μ`, has one particular value,
that of the transfer during which the eccentric anomaly changes by half a turn. -/
theorem avanzini_equatorial_reversal_iff {mu : ℝ} {r1 r2 : V3} {tof : ℝ} {M : ℤ} {pro low : Bool} {N : ℕ} {atol rtol : ℝ}
    {full : Bool} {clock : ℝ} {out rev : Output} (z1 : r1.z = 0) (z2 : r2.z = 0)
    (h : avanzini2008 mu r1 r2 tof M pro low N atol rtol full clock = .ok out)
    (h' : avanzini2008 mu r2 r1 tof M (!pro) low N atol rtol full clock = .ok rev) :
    rev = out.reversed ↔ (len r1 * out.v1.y) ^ 2 * (len r1 + len r2) = mu * (len r1 * len r2 - V3.dot r1 r2) := by
  unfold avanzini2008 at h h'
  simp only [bind_ok, raiseIf_ok] at h h'
  obtain ⟨_, -, _, hv, g, hg, F, hF, ⟨x, n⟩, hsec, tpi, ht, eccT, hT, el, hel, ⟨v1, v2⟩, hvel, h⟩ := h
  obtain ⟨_, -, _, -, g', hg', F', hF', ⟨x', n'⟩, hsec', tpi', ht', eccT', hT', el', hel', ⟨w1, w2⟩, hvel', h'⟩ := h'
  obtain ⟨hmu, -⟩ := assertParameters_ok hv
  have hgg := getGeometry_reversed hg hg'
  rw [getEccTAtX_reversed hgg, hF] at hF'
  obtain rfl := Except.ok.inj hF'
  obtain ⟨rfl, rfl⟩ : x = x' ∧ n = n' := by
    simpa using secant_agree (f_reversed hmu hg hg' hF) hsec hsec'
  rw [ht] at ht'
  obtain rfl := Except.ok.inj ht'
  rw [hT] at hT'
  obtain rfl := Except.ok.inj hT'
  obtain ⟨hpi, -, -⟩ := eccT_lt hF hT
  have hpi' : g'.dtheta ≠ Real.pi := by rw [hgg.2.2.2]; exact hpi
  have hG := geometry_good hg hpi
  obtain ⟨ecc, a, ex, ey, he, hp0, -, a1, a2, e1, e2⟩ := velocities_equatorial hmu hg hpi hel hvel z1 z2
  obtain ⟨ecc', a', ex', ey', he', -, -, b1, b2, e1', e2'⟩ := velocities_equatorial hmu hg' hpi' hel' hvel' z2 z1
  rw [eap_reversed hgg, he] at he'
  have hp : el.p = el'.p := by
    have := Except.ok.inj he'
    simp only [Prod.mk.injEq] at this
    exact this.2.2
  rw [← hp, hgg.2.2.2] at b2 e2'
  rw [← hp] at b1 e1'
  have hR1 := norm_pos_of_notAligned_left hG.hna
  have hR2 := norm_pos_of_notAligned_right hG.hna
  have hs : 0 < Real.sqrt (mu / el.p) := by positivity
  have hsp : Real.sqrt (mu / el.p) ^ 2 * el.p = mu := by
    rw [Real.sq_sqrt (by positivity), div_mul_cancel₀ _ hp0.ne']
  have key := frames_agree hs hR1 hR2 (Real.cos_sq_add_sin_sq _) (sin_dtheta_ne hG) a1 a2 b1 b2
  rw [← e1, ← e2, ← e1', ← e2'] at key
  have hrev : rev = out.reversed ↔ w1 = -v2 ∧ w2 = -v1 := by
    rw [← Except.ok.inj h, ← Except.ok.inj h', mkOutput_reversed]
    constructor
    · intro hh
      have k1 := congrArg Output.v1 hh
      have k2 := congrArg Output.v2 hh
      rw [mkOutput_v1, mkOutput_v1] at k1
      rw [mkOutput_v2, mkOutput_v2] at k2
      exact ⟨k1, k2⟩
    · rintro ⟨rfl, rfl⟩; rfl
  rw [hrev, key, ← Except.ok.inj h, mkOutput_v1, e1, len_eq_norm, len_eq_norm, ← hG.angle.cos_eq]
  have hvy : (V3.norm r1 * (Real.sqrt (mu / el.p) * (1 + ex))) ^ 2 = mu * el.p := by
    rw [show (V3.norm r1 * (Real.sqrt (mu / el.p) * (1 + ex))) ^ 2 =
      (Real.sqrt (mu / el.p) ^ 2) * (V3.norm r1 * (1 + ex)) ^ 2 by ring, a1]
    linear_combination el.p * hsp
  simp only []
  rw [hvy]
  constructor
  · intro hh; linear_combination mu * hh
  · intro hh; exact mul_left_cancel₀ hmu.ne' (by linear_combination hh)

/-- **C59 for `avanzini2008`: the property does not hold in the equatorial plane.**  Both problems of a circular
transfer of more than half a turn are solved, and the solutions are not the reversal of each other. -/
theorem avanzini_equatorial_not_reversible {mu : ℝ} (hmu : 0 < mu) {r1 r2 : V3} (hna : NotAligned r1 r2) (hlen : len r1 = len r2)
    (z1 : r1.z = 0) (z2 : r2.z = 0) {pro : Bool} (hlong : ¬ ShortWay pro r1 r2) (low : Bool) (k : ℕ) {atol rtol : ℝ}
    (ha : 0 ≤ atol) (full : Bool) (clock : ℝ) :
    ∃ tof out rev, 0 < tof ∧ avanzini2008 mu r1 r2 tof 0 pro low (k + 2) atol rtol full clock = .ok out ∧
      avanzini2008 mu r2 r1 tof 0 (!pro) low (k + 2) atol rtol full clock = .ok rev ∧ rev ≠ out.reversed := by
  have hθ := transferAngle_eq hna pro
  obtain ⟨out, ho, g, eccT, el, hg, h0, hel, hv⟩ := circular_run hmu hna hlen hθ low k (rtol := rtol) ha full clock
  obtain ⟨rev, hr⟩ := avanzini_returns hmu (NotAligned.symm hna) hlen.symm
    (by rw [← hθ]; exact transferAngle_reversed _ _ _) low k (rtol := rtol) ha full clock
  rw [← hlen] at hr
  have hA := angle_of_eq hna hθ
  have hR1 := norm_pos_of_notAligned_left hna
  refine ⟨_, out, rev, mul_pos (by rw [len_eq_norm]; positivity) hA.pos, ho, hr, fun hcon => ?_⟩
  rw [avanzini_equatorial_reversal_iff z1 z2 ho hr] at hcon
  obtain ⟨g', hg', hG⟩ := geometry_exists hna pro
  rw [hg] at hg'
  obtain rfl := Except.ok.inj hg'
  have hpi := hG.angle.ne_pi
  obtain ⟨ecc, a, ex, ey, -, hp0, hex, a1, a2, e1, -⟩ := velocities_equatorial hmu hg hpi hel hv z1 z2
  have hgt : Real.pi < g.dtheta := lt_of_le_of_ne (not_lt.1 fun h => hlong (hG.angle.short.1 h)) hpi.symm
  have hsin : Real.sin g.dtheta < 0 := by
    have := Real.sin_pos_of_pos_of_lt_pi (x := g.dtheta - Real.pi) (by linarith) (by linarith [hG.angle.lt])
    rw [Real.sin_sub_pi] at this
    linarith
  have hw : Real.sin g.wC ≤ 0 := by
    have := hG.sinw
    have h2 : g.cNorm * Real.sin g.wC < 0 := by rw [this]; exact mul_neg_of_pos_of_neg hG.R2 hsin
    exact (neg_of_mul_neg_right h2 hG.c.le).le
  have hexp : 0 ≤ ex := by
    rw [← hex, exOf, hG.n1, hG.n2, ← len_eq_norm, ← len_eq_norm, hlen, sub_self, zero_div, zero_mul]
    nlinarith
  have hcos : -1 < Real.cos g.dtheta := by
    have h1 := Real.cos_sq_add_sin_sq g.dtheta
    nlinarith [Real.neg_one_le_cos g.dtheta, mul_pos_of_neg_of_neg hsin hsin]
  have hsp : Real.sqrt (mu / el.p) ^ 2 * el.p = mu := by
    rw [Real.sq_sqrt (by positivity), div_mul_cancel₀ _ hp0.ne']
  have hvy : (V3.norm r1 * (Real.sqrt (mu / el.p) * (1 + ex))) ^ 2 = mu * el.p := by
    rw [show (V3.norm r1 * (Real.sqrt (mu / el.p) * (1 + ex))) ^ 2 =
      (Real.sqrt (mu / el.p) ^ 2) * (V3.norm r1 * (1 + ex)) ^ 2 by ring, a1]
    linear_combination el.p * hsp
  rw [← hlen, len_eq_norm, e1, ← hG.angle.cos_eq, ← len_eq_norm r2, ← hlen, len_eq_norm] at hcon
  simp only [] at hcon
  rw [hvy, ← a1] at hcon
  have h3 : mu * V3.norm r1 ^ 2 * (2 * (1 + ex) - (1 - Real.cos g.dtheta)) = 0 := by linear_combination hcon
  have h4 := (mul_eq_zero.1 h3).resolve_left (by positivity)
  linarith

/-- The hypotheses are satisfiable: three quarters of the unit circle, from `(0, 1, 0)` to `(1, 0, 0)`. -/
example : ∃ tof out rev, 0 < tof ∧ avanzini2008 1 ⟨0, 1, 0⟩ ⟨1, 0, 0⟩ tof 0 true true 35 1e-5 1e-7 true 2 = .ok out ∧
    avanzini2008 1 ⟨1, 0, 0⟩ ⟨0, 1, 0⟩ tof 0 false true 35 1e-5 1e-7 true 2 = .ok rev ∧ rev ≠ out.reversed :=
  avanzini_equatorial_not_reversible one_pos (by simp [NotAligned]) (by simp [len]) rfl rfl (pro := true)
    (by simp [ShortWay, crossZ]) true 33 (by norm_num) true 2

end Lamberthub
