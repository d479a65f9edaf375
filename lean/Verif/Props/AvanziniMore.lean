import Verif.Props.Avanzini

/-! # C29, continued: problems for which `avanzini2008` returns -/

set_option autoImplicit false

namespace Lamberthub
open Spec LC

namespace Avanzini

/-- The geometry is always computed for positions that are not aligned. -/
theorem geometry_exists {r1 r2 : V3} (hna : NotAligned r1 r2) (pro : Bool) :
    ∃ g, getGeometry r1 r2 pro = .ok g ∧ Good pro r1 r2 g := by
  have hna' : NotAligned r1 (r2 - r1) := by
    intro hcon
    apply hna
    obtain ⟨a, b, c⟩ := hcon
    simp only [V3.sub_x, V3.sub_y, V3.sub_z] at a b c
    exact ⟨by linarith, by linarith, by linarith⟩
  have hθ := transferAngle_eq hna pro
  have hA := angle_of_eq hna hθ
  have hg : ∃ g, getGeometry r1 r2 pro = .ok g ∧ g.dtheta ≠ Real.pi := by
    unfold getGeometry assertTransferAngleNotZero
    rw [hθ, ok_bind, raiseIf_neg _ hA.pos.ne', ok_bind, transferAngle_eq hna' pro, ok_bind]
    exact ⟨_, rfl, hA.ne_pi⟩
  obtain ⟨g, hg, hpi⟩ := hg
  exact ⟨g, hg, geometry_good hg hpi⟩

theorem fundamental_eq {R1 R2 c : ℝ} (hc : c ≠ 0) :
    fundamental R1 R2 c = .ok ((R1 - R2) / c, (R1 + R2) / 2, (R1 + R2) / 2 * (1 - ((R1 - R2) / c) ^ 2)) := by
  unfold fundamental getEccF getAF getPF
  rw [pdiv_eq hc, ok_bind]

theorem cos_half_ne {pro : Bool} {r1 r2 : V3} {g : Geometry} (hG : Good pro r1 r2 g) :
    Real.cos (g.dtheta / 2) ≠ 0 := by
  intro hcon
  have hlt := hG.angle.lt
  have hpos := hG.angle.pos
  apply hG.angle.ne_pi
  have h1 : Real.cos (g.dtheta / 2) = Real.cos (Real.pi / 2) := by rw [hcon, Real.cos_pi_div_two]
  have := Real.injOn_cos ⟨by linarith, by linarith⟩ ⟨by linarith [Real.pi_pos], by linarith [Real.pi_pos]⟩ h1
  linarith

/-- For two positions at the same distance, an elliptic value of `eccT` is accepted everywhere. -/
theorem eap_exists {pro : Bool} {r1 r2 : V3} {g : Geometry} (hG : Good pro r1 r2 g)
    (hR : g.r1Norm = g.r2Norm) {eccT : ℝ} (h0 : 0 ≤ eccT) (h1 : eccT < 1) :
    ∃ a p, eapFromEccT eccT g = .ok (eccT, a, p) ∧ 0 < p ∧ Real.cos (-wAtEccT eccT 0 g.wC / 2) ≠ 0 ∧
      Real.cos ((-wAtEccT eccT 0 g.wC + g.dtheta) / 2) ≠ 0 := by
  have hc := hG.c
  have hR1 := hG.R1
  have heF : (g.r1Norm - g.r2Norm) / g.cNorm = 0 := by rw [hR]; simp
  have hd : 1 - ((g.r1Norm - g.r2Norm) / g.cNorm) ^ 2 - eccT ^ 2 ≠ 0 := by
    rw [heF]; nlinarith
  have heap : ∃ ecc a p, eapFromEccT eccT g = .ok (ecc, a, p) ∧
      p = g.r1Norm - eccT * g.r1Norm * g.r1Norm * Real.sin g.dtheta / g.cNorm := by
    unfold eapFromEccT eccAtEccT pAtEccT aAtEccT
    rw [fundamental_eq hc.ne', ok_bind]
    simp only []
    rw [psqrt_eq (by positivity), ok_bind, pdiv_eq hc.ne', ok_bind, ok_bind, pdiv_eq hd, ok_bind]
    refine ⟨_, _, _, rfl, ?_⟩
    rw [heF, ← hR]; ring
  obtain ⟨ecc, a, p, heap, hp⟩ := heap
  have hC := eap_conic hG heap
  have he : ecc = eccT := by
    have := hC.esq
    rw [heF] at this
    nlinarith [hC.e0]
  rw [he] at heap hC
  rw [heF] at hC
  have hcsq := hG.csq
  rw [← hR] at hcsq
  have hlt := hG.angle.cos_lt_one
  have t := Real.sin_sq_add_cos_sq g.dtheta
  have hsin : (g.r1Norm * Real.sin g.dtheta) ^ 2 < g.cNorm ^ 2 := by
    rw [hcsq]
    have h2 : 0 < g.r1Norm ^ 2 * (1 - Real.cos g.dtheta) ^ 2 := by positivity
    nlinarith
  have habs := abs_lt.1 (abs_lt_of_sq_lt_sq hsin hc.le)
  have hS1 : g.r1Norm * Real.sin g.dtheta / g.cNorm < 1 := (div_lt_one hc).2 habs.2
  have hpR : p = g.r1Norm * (1 - eccT * (g.r1Norm * Real.sin g.dtheta / g.cNorm)) := by rw [hp]; ring
  have hcos1 : eccT * Real.cos (wAtEccT eccT 0 g.wC) = -(eccT * (g.r1Norm * Real.sin g.dtheta / g.cNorm)) := by
    apply mul_left_cancel₀ hR1.ne'
    linear_combination hC.at1 + hpR
  have hcos2 : eccT * Real.cos (-wAtEccT eccT 0 g.wC + g.dtheta) =
      -(eccT * (g.r1Norm * Real.sin g.dtheta / g.cNorm)) := by
    have h2 := hC.at2
    rw [← hR] at h2
    apply mul_left_cancel₀ hR1.ne'
    rw [show -wAtEccT eccT 0 g.wC + g.dtheta = g.dtheta - wAtEccT eccT 0 g.wC by ring, Real.cos_sub]
    linear_combination h2 + hpR
  have hw0 : eccT = 0 → wAtEccT eccT 0 g.wC = 0 := by
    rintro rfl
    unfold wAtEccT arctan2
    have : Complex.arg ⟨0, 0⟩ = 0 := Complex.arg_zero
    simpa using this
  have key : ∀ x, eccT * Real.cos x = -(eccT * (g.r1Norm * Real.sin g.dtheta / g.cNorm)) → 0 < eccT →
      Real.cos (x / 2) ≠ 0 := by
    intro x hx hpos h0
    have : Real.cos x = -1 := by
      rw [show x = 2 * (x / 2) by ring, Real.cos_two_mul, h0]; norm_num
    rw [this] at hx
    nlinarith
  refine ⟨a, p, heap, ?_, ?_, ?_⟩
  · rw [hpR]
    have : 0 < 1 - eccT * (g.r1Norm * Real.sin g.dtheta / g.cNorm) := by nlinarith
    positivity
  · rcases h0.eq_or_lt with h | h
    · rw [hw0 h.symm]; simp
    · exact key _ (by rw [Real.cos_neg]; exact hcos1) h
  · rcases h0.eq_or_lt with h | h
    · rw [hw0 h.symm, neg_zero, zero_add]
      exact cos_half_ne hG
    · exact key _ hcos2 h

/-- Kepler's time of flight exists for those values and is positive. -/
theorem tof_exists {pro : Bool} {r1 r2 : V3} {g : Geometry} (hG : Good pro r1 r2 g)
    (hR : g.r1Norm = g.r2Norm) {mu eccT : ℝ} (hmu : 0 < mu) (h0 : 0 ≤ eccT) (h1 : eccT < 1) :
    ∃ T, keplerTofAtEccT eccT mu g = .ok T ∧ 0 < T ∧
      (eccT = 0 → T = Real.sqrt (g.r1Norm ^ 3 / mu) * g.dtheta) := by
  obtain ⟨a, p, heap, hp, n1, n2⟩ := eap_exists hG hR h0 h1
  have hpi := Real.pi_pos
  have hc := hG.c
  have heF : (g.r1Norm - g.r2Norm) / g.cNorm = 0 := by rw [hR]; simp
  have hC := eap_conic hG heap
  have ha : 0 < a := by
    rw [hC.a_eq]
    have : 0 < 1 - eccT ^ 2 := by nlinarith
    positivity
  have hcase : (0 : ℝ) ≤ eccT ∧ eccT < 1 := ⟨h0, h1⟩
  have hq : (0 : ℝ) ≤ (1 - eccT) / (1 + eccT) := div_nonneg (by linarith) (by linarith)
  have hT : ∃ T, keplerTofAtEccT eccT mu g = .ok T ∧
      (eccT = 0 → T = Real.sqrt (g.r1Norm ^ 3 / mu) * g.dtheta) := by
    unfold keplerTofAtEccT
    rw [heap, ok_bind]
    simp only []
    rw [fundamental_eq hc.ne', ok_bind]
    simp only [heF, getTrueAnomalies]
    unfold keplerFromNu nuToE
    rw [if_neg (not_lt.2 h0), if_pos hcase, if_neg (not_lt.2 h0), if_pos hcase]
    rw [pdiv_eq (by linarith : (1 : ℝ) + eccT ≠ 0), ok_bind, psqrt_eq hq, ok_bind, ptan_ok.2 ⟨n1, rfl⟩, ok_bind,
      ok_bind, ok_bind]
    rw [ok_bind, psqrt_eq hq, ok_bind, ptan_ok.2 ⟨n2, rfl⟩, ok_bind, ok_bind, ok_bind]
    unfold tofFromDeltaM
    rw [if_pos hcase, pdiv_eq hmu.ne', ok_bind, psqrt_eq (by positivity), ok_bind]
    have hval : eccT = 0 → a = g.r1Norm ∧ wAtEccT eccT 0 g.wC = 0 := by
      rintro rfl
      constructor
      · rw [hC.a_eq, ← hC.at1]; ring
      · unfold wAtEccT arctan2
        have : Complex.arg ⟨0, 0⟩ = 0 := Complex.arg_zero
        simpa using this
    have hpos := hG.angle.pos
    have hlt := hG.angle.lt
    have hs : eccT = 0 → 0 < Real.sqrt (g.r1Norm ^ 3 / mu) := fun _ => by
      have := hG.R1
      positivity
    split
    · rename_i hneg
      refine ⟨_, rfl, fun hz => ?_⟩
      obtain ⟨ra, rw0⟩ := hval hz
      have hs := hs hz
      rw [ra, rw0, hz] at hneg ⊢
      unfold keplerElliptic at hneg ⊢
      simp only [neg_zero, zero_div, Real.tan_zero, mul_zero, Real.arctan_zero, zero_mul, sub_zero, zero_add,
        add_zero, div_one, Real.sqrt_one, one_mul] at hneg ⊢
      rcases lt_or_gt_of_ne hG.angle.ne_pi with hsh | hlo
      · rw [two_arctan_tan_half (by linarith) hsh] at hneg
        exact absurd hneg (not_lt.2 (by positivity))
      · rw [show Real.tan (g.dtheta / 2) = Real.tan ((g.dtheta - 2 * Real.pi) / 2) by
          rw [show (g.dtheta - 2 * Real.pi) / 2 = g.dtheta / 2 - Real.pi by ring, Real.tan_sub_pi],
          two_arctan_tan_half (by linarith) (by linarith)]
        ring
    · rename_i hneg
      refine ⟨_, rfl, fun hz => ?_⟩
      obtain ⟨ra, rw0⟩ := hval hz
      have hs := hs hz
      rw [ra, rw0, hz] at hneg ⊢
      unfold keplerElliptic at hneg ⊢
      simp only [neg_zero, zero_div, Real.tan_zero, mul_zero, Real.arctan_zero, zero_mul, sub_zero, zero_add,
        add_zero, div_one, Real.sqrt_one, one_mul] at hneg ⊢
      rcases lt_or_gt_of_ne hG.angle.ne_pi with hsh | hlo
      · rw [two_arctan_tan_half (by linarith) hsh]
      · exfalso
        apply hneg
        rw [show Real.tan (g.dtheta / 2) = Real.tan ((g.dtheta - 2 * Real.pi) / 2) by
          rw [show (g.dtheta - 2 * Real.pi) / 2 = g.dtheta / 2 - Real.pi by ring, Real.tan_sub_pi],
          two_arctan_tan_half (by linarith) (by linarith)]
        exact mul_neg_of_pos_of_neg hs (by linarith)
  obtain ⟨T, hT, hT0⟩ := hT
  refine ⟨T, hT, ?_, hT0⟩
  have hsq : Real.sqrt (1 - ((g.r1Norm - g.r2Norm) / g.cNorm) ^ 2) = 1 := by rw [heF]; simp
  obtain ⟨_, _, _, -, -, hpath⟩ := avanzini_path hmu hG (by rw [hsq]; exact h1) (by rw [heF]; norm_num) hT
  rw [hG.n1, hG.n2] at hpath
  exact (Path.arc hmu (Angle.halfGeo hG.angle hG.hna).1 hpath).1

/-- The function of `x` at the distances of a circle. -/
theorem eccTAtX_exists {pro : Bool} {r1 r2 : V3} {g : Geometry} (hG : Good pro r1 r2 g)
    (hR : g.r1Norm = g.r2Norm) :
    ∃ F, getEccTAtX g = .ok F ∧ F 0 = .ok 0 ∧ ∀ x, 0 ≤ x → ∃ e, F x = .ok e ∧ 0 ≤ e ∧ e < 1 := by
  have hc := hG.c
  have heF : (g.r1Norm - g.r2Norm) / g.cNorm = 0 := by rw [hR]; simp
  have hcos := cos_half_ne hG
  have hsq : Real.sqrt (1 - ((g.r1Norm - g.r2Norm) / g.cNorm) ^ 2) = 1 := by rw [heF]; simp
  have hF : ∃ F, getEccTAtX g = .ok F ∧ ((∃ eH, 0 < eH ∧ F = eccTAbove eH 1) ∨ F = eccTBelow 1) := by
    unfold getEccTAtX getEccTLimits eccHLimit
    rw [fundamental_eq hc.ne', ok_bind]
    simp only []
    rw [pdiv_eq hcos, ok_bind]
    split
    · rw [psqrt_eq (by rw [heF]; nlinarith [sq_nonneg (-1 / Real.cos (g.dtheta / 2))]), ok_bind, ok_bind,
        psqrt_eq (by rw [heF]; norm_num), ok_bind, ok_bind]
      refine ⟨_, rfl, .inl ⟨Real.sqrt ((-1 / Real.cos (g.dtheta / 2)) ^ 2 - ((g.r1Norm - g.r2Norm) / g.cNorm) ^ 2),
        Real.sqrt_pos.2 ?_, by rw [hsq]⟩⟩
      rw [heF]
      have : -1 / Real.cos (g.dtheta / 2) ≠ 0 := div_ne_zero (by norm_num) hcos
      have : 0 < (-1 / Real.cos (g.dtheta / 2)) ^ 2 := by positivity
      linarith
    · rw [ok_bind, psqrt_eq (by rw [heF]; norm_num), ok_bind, ok_bind]
      exact ⟨_, rfl, .inr (by rw [hsq])⟩
  obtain ⟨F, hF, hcase⟩ := hF
  have hval : F 0 = .ok 0 ∧ ∀ x, 0 ≤ x → ∃ e, F x = .ok e ∧ 0 ≤ e := by
    rcases hcase with ⟨eH, hH, rfl⟩ | rfl
    · constructor
      · unfold eccTAbove
        rw [pdiv_eq hH.ne', ok_bind, pdiv_eq one_ne_zero, ok_bind, pdiv_eq (by positivity)]
        simp
      · intro x hx
        unfold eccTAbove
        rw [pdiv_eq hH.ne', ok_bind, pdiv_eq one_ne_zero, ok_bind, pdiv_eq (by positivity)]
        refine ⟨_, rfl, ?_⟩
        have : 1 ≤ Real.exp ((1 / eH + 1 / 1) * x) := Real.one_le_exp (by positivity)
        apply div_nonneg
        · have : 0 ≤ Real.exp ((1 / eH + 1 / 1) * x) - 1 := by linarith
          positivity
        · positivity
    · constructor
      · unfold eccTBelow
        rw [pdiv_eq one_ne_zero, ok_bind]
        simp
      · intro x hx
        unfold eccTBelow
        rw [pdiv_eq one_ne_zero, ok_bind]
        refine ⟨_, rfl, ?_⟩
        have : Real.exp (-x / 1) ≤ 1 := Real.exp_le_one_iff.2 (by linarith [div_one (-x)])
        linarith
  refine ⟨F, hF, hval.1, fun x hx => ?_⟩
  obtain ⟨e, he, h0⟩ := hval.2 x hx
  refine ⟨e, he, h0, ?_⟩
  have := (eccT_lt hF he).2.2
  rwa [hsq] at this

/-- The elements and velocities exist for those values. -/
theorem velocities_exists {pro : Bool} {r1 r2 : V3} {g : Geometry} (hg : getGeometry r1 r2 pro = .ok g)
    (hG : Good pro r1 r2 g) (hR : g.r1Norm = g.r2Norm) {mu eccT : ℝ} (hmu : 0 < mu) (h0 : 0 ≤ eccT) (h1 : eccT < 1) :
    ∃ el v, coeAtEccT eccT r1 r2 pro = .ok el ∧ velocities mu el = .ok v := by
  obtain ⟨a, p, heap, hp, -, -⟩ := eap_exists hG hR h0 h1
  have hc := hG.c
  obtain ⟨n, θ, hn, -, hu, -⟩ := orbitNormal_spec hG.hna pro
  rw [len_eq_norm] at hu
  have hir : ∃ ir, getOrbitIncAndRaan r1 r2 pro = .ok ir := by
    unfold getOrbitIncAndRaan
    rw [hn, ok_bind]
    split
    · exact ⟨_, rfl⟩
    · have h2 := norm_sq n
      rw [hu] at h2
      rw [hu, pdiv_eq one_ne_zero, ok_bind, div_one,
        pacos_eq (by nlinarith [sq_nonneg n.x, sq_nonneg n.y]) (by nlinarith [sq_nonneg n.x, sq_nonneg n.y]), ok_bind]
      exact ⟨_, rfl⟩
  obtain ⟨⟨inc, raan⟩, hir⟩ := hir
  have hel : ∃ el, coeAtEccT eccT r1 r2 pro = .ok el ∧ el.p = p ∧ el.ecc = eccT := by
    unfold coeAtEccT
    rw [hg, ok_bind, heap, ok_bind]
    simp only []
    rw [fundamental_eq hc.ne', ok_bind]
    simp only []
    rw [vdiv_eq hG.R1.ne', ok_bind,
      vdiv_eq hG.R2.ne', ok_bind, hn, ok_bind, hir, ok_bind, hu, pdiv_eq one_ne_zero, ok_bind]
    exact ⟨_, rfl, rfl, rfl⟩
  obtain ⟨el, hel, rfl, rfl⟩ := hel
  have hden : ∀ x, 0 < 1 + el.ecc * Real.cos x := by
    intro x
    nlinarith [Real.neg_one_le_cos x]
  have hv : ∃ v, velocities mu el = .ok v := by
    unfold velocities
    rw [coe2rv_eq hmu hp (hden _), ok_bind, coe2rv_eq hmu hp (hden _), ok_bind]
    exact ⟨_, rfl⟩
  obtain ⟨v, hv⟩ := hv
  exact ⟨el, v, hel, hv⟩

end Avanzini

open Avanzini

/-- What `avanzini2008` does for every circular transfer between positions that are not
aligned, in either sense, with any nonnegative tolerances and at least two iterations. -/
theorem Avanzini.circular_run {mu : ℝ} (hmu : 0 < mu) {r1 r2 : V3} (hna : NotAligned r1 r2) (hlen : len r1 = len r2)
    {pro : Bool} {θ : ℝ} (hθ : getTransferAngle r1 r2 pro = .ok θ) (low : Bool) (k : ℕ) {atol rtol : ℝ}
    (ha : 0 ≤ atol) (full : Bool) (clock : ℝ) :
    ∃ out, avanzini2008 mu r1 r2 (Real.sqrt (len r1 ^ 3 / mu) * θ) 0 pro low (k + 2) atol rtol full clock = .ok out ∧
      ∃ g eccT el, getGeometry r1 r2 pro = .ok g ∧ 0 ≤ eccT ∧ coeAtEccT eccT r1 r2 pro = .ok el ∧
        velocities mu el = .ok (out.v1, out.v2) := by
  obtain ⟨g, hg, hG⟩ := geometry_exists hna pro
  have hR : g.r1Norm = g.r2Norm := by rw [hG.n1, hG.n2, ← len_eq_norm, ← len_eq_norm, hlen]
  obtain ⟨F, hF, F0, hFx⟩ := eccTAtX_exists hG hR
  have hθg : θ = g.dtheta := by
    unfold getGeometry at hg
    rw [hθ, ok_bind] at hg
    simp only [bind_ok] at hg
    obtain ⟨_, -, _, -, hg⟩ := hg
    rw [← Except.ok.inj hg]
  obtain ⟨tof, htof⟩ : ∃ tof, tof = Real.sqrt (len r1 ^ 3 / mu) * θ := ⟨_, rfl⟩
  rw [← htof]
  have hR1 := hG.R1
  have hs : 0 < Real.sqrt (g.r1Norm ^ 3 / mu) := by positivity
  have htof' : tof = Real.sqrt (g.r1Norm ^ 3 / mu) * g.dtheta := by
    rw [htof, hθg, hG.n1, len_eq_norm]
  have htof0 : 0 < tof := by rw [htof']; exact mul_pos hs hG.angle.pos
  -- the function of the root finder
  have hf : ∀ x, 0 ≤ x → ∃ y, f F mu g tof x = .ok y ∧ (x = 0 → y = 0) := by
    intro x hx
    obtain ⟨e, he, h0, h1⟩ := hFx x hx
    obtain ⟨T, hT, hTpos, hT0⟩ := tof_exists hG hR hmu h0 h1
    unfold f
    rw [he, ok_bind, hT, ok_bind, pdiv_eq hmu.ne', ok_bind, psqrt_eq (by positivity), ok_bind, pdiv_eq hs.ne', ok_bind,
      pdiv_eq hs.ne', ok_bind, plog_ok.2 ⟨by positivity, rfl⟩, ok_bind, plog_ok.2 ⟨by positivity, rfl⟩, ok_bind]
    refine ⟨_, rfl, ?_⟩
    rintro rfl
    rw [F0] at he
    rw [hT0 (Except.ok.inj he).symm, htof', sub_self]
  obtain ⟨y0, hy0, hz0⟩ := hf 0 le_rfl
  obtain rfl := hz0 rfl
  obtain ⟨y1, hy1, -⟩ := hf (0 + 1e-4) (by norm_num)
  have hsec : ∃ x n, secant (f F mu g tof) 0.0 (k + 2) atol rtol = .ok (x, n) ∧ 0 ≤ x ∧ 1 ≤ n := by
    unfold secant
    rw [show (0.0 : ℝ) = 0 by norm_num, hy0, ok_bind, if_pos (le_refl (0 : ℝ))]
    simp only []
    rw [hy1, ok_bind]
    rw [secantLoop]
    split
    · exact ⟨_, _, rfl, by norm_num, le_rfl⟩
    · rename_i hne
      rw [pdiv_eq (sub_ne_zero.2 hne), ok_bind]
      have hx0 : (0 : ℝ) + 1e-4 - y1 * (0 + 1e-4 - 0) / (y1 - 0) = 0 := by
        rw [sub_zero, sub_zero, mul_div_cancel_left₀ _ hne, sub_self]
      simp only [hx0]
      split
      · exact ⟨_, _, rfl, le_rfl, le_rfl⟩
      · rw [hy0, ok_bind, secantLoop, if_neg (Ne.symm hne), pdiv_eq (sub_ne_zero.2 (Ne.symm hne)), ok_bind]
        simp only [zero_mul, zero_div, sub_zero, sub_self, abs_zero, mul_zero, add_zero]
        rw [if_pos ha]
        exact ⟨_, _, rfl, le_rfl, by norm_num⟩
  obtain ⟨x, n, hsec, hx, hn⟩ := hsec
  obtain ⟨e, he, h0, h1⟩ := hFx x hx
  obtain ⟨el, v, hel, hv⟩ := velocities_exists hg hG hR hmu h0 h1
  obtain ⟨tpi, htpi⟩ := timePerIter_pos full clock hn
  refine ⟨mkOutput full v.1 v.2 n tpi, ?_, g, e, el, hg, h0, hel, by rw [hv, mkOutput_v1, mkOutput_v2]⟩
  unfold avanzini2008
  rw [raiseIf_neg _ (by norm_num), ok_bind, assertParameters_eq hmu (by rintro rfl; simp [NotAligned] at hna)
    (by rintro rfl; simp [NotAligned, mul_comm] at hna) htof0 le_rfl, ok_bind, hg, ok_bind, hF, ok_bind, hsec, ok_bind]
  simp only []
  rw [htpi, ok_bind, he, ok_bind, hel, ok_bind, hv, ok_bind]

/-- **`avanzini2008` returns** for every circular transfer between positions that are not
aligned, in either sense, with any nonnegative tolerances and at least two iterations. -/
theorem avanzini_returns {mu : ℝ} (hmu : 0 < mu) {r1 r2 : V3} (hna : NotAligned r1 r2) (hlen : len r1 = len r2)
    {pro : Bool} {θ : ℝ} (hθ : getTransferAngle r1 r2 pro = .ok θ) (low : Bool) (k : ℕ) {atol rtol : ℝ}
    (ha : 0 ≤ atol) (full : Bool) (clock : ℝ) :
    ∃ out, avanzini2008 mu r1 r2 (Real.sqrt (len r1 ^ 3 / mu) * θ) 0 pro low (k + 2) atol rtol full clock = .ok out := by
  obtain ⟨out, h, -⟩ := circular_run hmu hna hlen hθ low k (rtol := rtol) ha full clock
  exact ⟨out, h⟩

/-- **C51.** An exact root of the function that the secant method solves is an exact solution:
away from the equatorial plane, the velocities computed from it belong to a transfer from `r1`
to `r2` that takes the requested time, in the requested sense. -/
theorem avanzini_root_exact {mu : ℝ} {r1 r2 v1 v2 : V3} {pro : Bool} {g : Geometry} {F : ℝ → Py ℝ}
    {x eccT tof : ℝ} {el : Elements} (hmu : 0 < mu) (hg : getGeometry r1 r2 pro = .ok g)
    (hF : getEccTAtX g = .ok F) (hroot : f F mu g tof x = .ok 0) (hx : F x = .ok eccT)
    (hel : coeAtEccT eccT r1 r2 pro = .ok el) (hv : velocities mu el = .ok (v1, v2))
    (hplane : ¬ (r1.z = 0 ∧ r2.z = 0)) :
    LambertArc mu r1 r2 v1 v2 tof 0 ∧ (NotPolar r1 r2 → Sense pro r1 v1) := by
  unfold f at hroot
  rw [hx, ok_bind] at hroot
  simp only [bind_ok, pdiv_ok, psqrt_ok, plog_ok] at hroot
  obtain ⟨T, hT, _, ⟨-, rfl⟩, s, ⟨-, hs⟩, _, ⟨hs0, rfl⟩, _, ⟨-, rfl⟩, _, ⟨h1, rfl⟩, _, ⟨h2, rfl⟩, hroot⟩ := hroot
  have hlog := Real.log_injOn_pos h1 h2 (sub_eq_zero.1 (Except.ok.inj hroot))
  have : T = tof := by field_simp at hlog; exact hlog
  subst this
  exact avanzini_time_of_flight hmu hg hF hx hT hel hv hplane

/-- The hypotheses of `avanzini_root_exact` and `avanzini_time_of_flight` are met: `x = 0` is an
exact root for a quarter of an inclined circle. -/
example : ∃ g F eccT tof T el v1 v2, getGeometry ⟨1, 0, 0⟩ ⟨0, 3 / 5, 4 / 5⟩ true = .ok g ∧
    getEccTAtX g = .ok F ∧ F 0 = .ok eccT ∧ keplerTofAtEccT eccT 1 g = .ok T ∧ f F 1 g tof 0 = .ok 0 ∧
    coeAtEccT eccT ⟨1, 0, 0⟩ ⟨0, 3 / 5, 4 / 5⟩ true = .ok el ∧ velocities 1 el = .ok (v1, v2) ∧
    ¬ ((⟨1, 0, 0⟩ : V3).z = 0 ∧ (⟨0, 3 / 5, 4 / 5⟩ : V3).z = 0) := by
  have hna : NotAligned ⟨1, 0, 0⟩ ⟨0, 3 / 5, 4 / 5⟩ := by
    simp [NotAligned]
  obtain ⟨g, hg, hG⟩ := geometry_exists hna true
  have hR : g.r1Norm = g.r2Norm := by
    rw [hG.n1, hG.n2, ← len_eq_norm, ← len_eq_norm]
    simp [len]; norm_num
  obtain ⟨F, hF, hF0, -⟩ := eccTAtX_exists hG hR
  obtain ⟨T, hT, hT0, -⟩ := tof_exists hG hR one_pos le_rfl one_pos
  obtain ⟨el, ⟨v1, v2⟩, hel, hv⟩ := velocities_exists hg hG hR one_pos le_rfl one_pos
  refine ⟨g, F, 0, T, T, el, v1, v2, hg, hF, hF0, hT, ?_, hel, hv, by norm_num⟩
  have hR1 := hG.R1
  have hs : 0 < Real.sqrt (g.r1Norm ^ 3 / 1) := by positivity
  unfold f
  rw [hF0, ok_bind, hT, ok_bind, pdiv_eq one_ne_zero, ok_bind, psqrt_eq (by positivity), ok_bind, pdiv_eq hs.ne',
    ok_bind, ok_bind, plog_ok.2 ⟨by positivity, rfl⟩, ok_bind, ok_bind, sub_self]

/-- **Code defect.**  The parabola, which every transfer problem has at a finite value of `eccT`,
stops the time of flight function: `a_at_eccT` divides by zero. -/
theorem avanzini_parabolic_undefined {pro : Bool} {r1 r2 : V3} {g : Geometry} (hG : Good pro r1 r2 g) (mu : ℝ) :
    keplerTofAtEccT (-Real.sqrt (1 - ((g.r1Norm - g.r2Norm) / g.cNorm) ^ 2)) mu g = .error .undefined := by
  have hc := hG.c
  have h1 : ((g.r1Norm - g.r2Norm) / g.cNorm) ^ 2 ≤ 1 := by
    rw [div_pow, div_le_one (by positivity), hG.csq]
    nlinarith [mul_pos hG.R1 hG.R2, hG.angle.cos_lt_one]
  unfold keplerTofAtEccT eapFromEccT eccAtEccT pAtEccT aAtEccT
  rw [fundamental_eq hc.ne', ok_bind]
  simp only []
  rw [psqrt_eq (by positivity), ok_bind, pdiv_eq hc.ne', ok_bind, ok_bind]
  have h0 : 1 - ((g.r1Norm - g.r2Norm) / g.cNorm) ^ 2 -
      (-Real.sqrt (1 - ((g.r1Norm - g.r2Norm) / g.cNorm) ^ 2)) ^ 2 = 0 := by
    rw [neg_sq, Real.sq_sqrt (by linarith)]; ring
  rw [h0]
  unfold pdiv
  simp only [if_true]
  rfl

/-- The hypotheses of `avanzini_kepler_transfer_partial` and `avanzini_returns` are met: a
quarter of an inclined circle. -/
example : ∃ tof out, 0 < tof ∧
    avanzini2008 1 ⟨1, 0, 0⟩ ⟨0, 3 / 5, 4 / 5⟩ tof 0 true true 35 1e-5 1e-7 false 0 = .ok out ∧
    ((⟨1, 0, 0⟩ : V3).z = 0 → (⟨0, 3 / 5, 4 / 5⟩ : V3).z = 0 → true = true ∧ (⟨1, 0, 0⟩ : V3).y = 0 ∧
      0 < (⟨1, 0, 0⟩ : V3).x) := by
  have hna : NotAligned ⟨1, 0, 0⟩ ⟨0, 3 / 5, 4 / 5⟩ := by
    simp [NotAligned]
  have hθ := transferAngle_eq hna true
  have hA := angle_of_eq hna hθ
  have hl : len ⟨1, 0, 0⟩ = 1 := by simp [len]
  obtain ⟨out, h⟩ := avanzini_returns one_pos hna (by rw [hl]; simp [len]; norm_num) hθ true 33
    (by norm_num : (0 : ℝ) ≤ 1e-5) (rtol := 1e-7) false 0
  refine ⟨_, out, ?_, h, fun _ _ => ⟨rfl, rfl, by norm_num⟩⟩
  rw [hl]
  have := hA.pos
  positivity

/-- The hypotheses of `avanzini_equatorial_wrong` are met: a quarter of an equatorial circle
that starts on the `y` axis. -/
example : ∃ tof out, 0 < tof ∧
    avanzini2008 1 ⟨0, 1, 0⟩ ⟨-1, 0, 0⟩ tof 0 true true 35 1e-5 1e-7 false 0 = .ok out ∧
    ¬ ∃ T N, LambertArc 1 ⟨0, 1, 0⟩ ⟨-1, 0, 0⟩ out.v1 out.v2 T N ∧ Sense true ⟨0, 1, 0⟩ out.v1 := by
  have hna : NotAligned ⟨0, 1, 0⟩ ⟨-1, 0, 0⟩ := by
    simp [NotAligned]
  have hθ := transferAngle_eq hna true
  have hA := angle_of_eq hna hθ
  have hl : len ⟨0, 1, 0⟩ = 1 := by simp [len]
  obtain ⟨out, h⟩ := avanzini_returns one_pos hna (by rw [hl]; simp [len]) hθ true 33
    (by norm_num : (0 : ℝ) ≤ 1e-5) (rtol := 1e-7) false 0
  refine ⟨_, out, ?_, h, avanzini_equatorial_wrong h rfl rfl (by norm_num) (by simp)⟩
  rw [hl]
  have := hA.pos
  positivity

end Lamberthub
