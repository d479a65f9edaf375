import Verif.Proofs.AvanziniLemmas
import Verif.Proofs.Conserved
import Verif.Props.Der

/-! # C29: what `avanzini2008` returns is a true Kepler transfer -/

set_option autoImplicit false

namespace Lamberthub
open Spec LC

namespace Avanzini

/-- The function of `x` chosen by the code keeps `eccT` below the parabola of infinite time. -/
theorem eccT_lt {g : Geometry} {F : ℝ → Py ℝ} {x eccT : ℝ} (hF : getEccTAtX g = .ok F) (hx : F x = .ok eccT) :
    g.dtheta ≠ Real.pi ∧ 0 ≤ 1 - ((g.r1Norm - g.r2Norm) / g.cNorm) ^ 2 ∧
      eccT < Real.sqrt (1 - ((g.r1Norm - g.r2Norm) / g.cNorm) ^ 2) := by
  unfold getEccTAtX getEccTLimits fundamental getEccF at hF
  simp only [bind_ok, pdiv_ok, psqrt_ok] at hF
  obtain ⟨⟨oH, eP⟩, ⟨⟨eF, aF, pF⟩, ⟨_, ⟨-, rfl⟩, hf⟩, hF'⟩, hF⟩ := hF
  simp only [Except.ok.injEq, Prod.mk.injEq] at hf
  obtain ⟨rfl, -, -⟩ := hf
  simp only [bind_ok] at hF'
  obtain ⟨eM, ⟨hcos, rfl⟩, oH', hH, eP', ⟨h1, rfl⟩, hF'⟩ := hF'
  simp only [Except.ok.injEq, Prod.mk.injEq] at hF'
  obtain ⟨rfl, rfl⟩ := hF'
  refine ⟨fun hpi => hcos (by rw [hpi, Real.cos_pi_div_two]), h1, ?_⟩
  have hP0 := Real.sqrt_nonneg (1 - ((g.r1Norm - g.r2Norm) / g.cNorm) ^ 2)
  generalize Real.sqrt (1 - ((g.r1Norm - g.r2Norm) / g.cNorm) ^ 2) = eP at *
  unfold eccHLimit at hH
  split at hH
  · simp only [bind_ok, psqrt_ok] at hH
    obtain ⟨eH, ⟨-, hH1⟩, hH⟩ := hH
    obtain rfl := (Except.ok.inj hH).symm
    obtain rfl := (Except.ok.inj hF).symm
    unfold eccTAbove at hx
    simp only [bind_ok, pdiv_ok] at hx
    obtain ⟨_, ⟨hH0, rfl⟩, _, ⟨hP1, rfl⟩, hd, rfl⟩ := hx
    have hHp : 0 < eH := lt_of_le_of_ne (by rw [hH1]; exact Real.sqrt_nonneg _) (Ne.symm hH0)
    have hPp : 0 < eP := lt_of_le_of_ne hP0 (Ne.symm hP1)
    have hX := Real.exp_pos ((1 / eH + 1 / eP) * x)
    generalize Real.exp ((1 / eH + 1 / eP) * x) = X at *
    rw [div_lt_iff₀ (by positivity)]
    nlinarith [mul_pos hPp hHp, mul_pos hPp hPp]
  · obtain rfl := (Except.ok.inj hH).symm
    obtain rfl := (Except.ok.inj hF).symm
    unfold eccTBelow at hx
    simp only [bind_ok, pdiv_ok] at hx
    obtain ⟨_, ⟨hP1, rfl⟩, hx⟩ := hx
    rw [← Except.ok.inj hx]
    have hPp : 0 < eP := lt_of_le_of_ne hP0 (Ne.symm hP1)
    nlinarith [Real.exp_pos (-x / eP)]

/-- On the hyperbolas that the code can reach, `eccT` is negative. -/
theorem Conic.eccT_neg {g : Geometry} {eccT ecc a p w : ℝ} (h : Conic g eccT ecc a p w)
    (hlt : eccT < Real.sqrt (1 - ((g.r1Norm - g.r2Norm) / g.cNorm) ^ 2))
    (h0 : 0 ≤ 1 - ((g.r1Norm - g.r2Norm) / g.cNorm) ^ 2) (he : 1 < ecc) : eccT < 0 := by
  by_contra hcon
  have hT := not_lt.1 hcon
  have h1 := h.esq
  have h2 := Real.sq_sqrt h0
  have h3 : eccT ^ 2 < Real.sqrt (1 - ((g.r1Norm - g.r2Norm) / g.cNorm) ^ 2) ^ 2 :=
    pow_lt_pow_left₀ hlt hT two_ne_zero
  nlinarith

/-- What the code computes from `eccT`: a conic through both positions, and velocities on a
conic of that shape whose frame `(ix, iy)` is the one of the computed elements. -/
theorem velocities_ok {pro : Bool} {r1 r2 v1 v2 : V3} {g : Geometry} {mu eccT : ℝ} {el : Elements} (hmu : 0 < mu)
    (hg : getGeometry r1 r2 pro = .ok g) (hpi : g.dtheta ≠ Real.pi)
    (hel : coeAtEccT eccT r1 r2 pro = .ok el) (hv : velocities mu el = .ok (v1, v2)) :
    ∃ a w ix iy, 0 < el.p ∧ Conic g eccT el.ecc a el.p w ∧
      v1 = Real.sqrt (mu / el.p) • (-(el.ecc * Real.sin w) • ix + (1 + el.ecc * Real.cos w) • iy) ∧
      v2 = Real.sqrt (mu / el.p) • (-(Real.sin g.dtheta + el.ecc * Real.sin w) • ix +
        (Real.cos g.dtheta + el.ecc * Real.cos w) • iy) ∧
      ((r1.z = 0 ∧ r2.z = 0) → ix = ⟨1, 0, 0⟩ ∧ iy = ⟨0, 1, 0⟩) ∧
      (¬ (r1.z = 0 ∧ r2.z = 0) → r1 = V3.norm r1 • ix ∧
        r2 = (V3.norm r2 * Real.cos g.dtheta) • ix + (V3.norm r2 * Real.sin g.dtheta) • iy) := by
  have hG := geometry_good hg hpi
  have hna := hG.hna
  have hR1 := norm_pos_of_notAligned_left hna
  have hR2 := norm_pos_of_notAligned_right hna
  unfold coeAtEccT at hel
  rw [hg, ok_bind] at hel
  simp only [bind_ok] at hel
  obtain ⟨⟨ecc, a, p⟩, heap, ⟨eF, aF, pF⟩, hfun, _, -, _, -, ih, hih, ⟨inc, raan⟩, hir, py, hpy, hel⟩ := hel
  have heF : eF = (g.r1Norm - g.r2Norm) / g.cNorm := by
    unfold fundamental getEccF at hfun
    simp only [bind_ok, pdiv_ok] at hfun
    obtain ⟨_, ⟨-, rfl⟩, hf⟩ := hfun
    simp only [Except.ok.injEq, Prod.mk.injEq] at hf
    exact hf.1.symm
  subst heF
  have hC := eap_conic hG heap
  generalize wAtEccT eccT ((g.r1Norm - g.r2Norm) / g.cNorm) g.wC = w at *
  obtain rfl := (Except.ok.inj hel).symm
  simp only [getTrueAnomalies] at *
  clear hel
  -- the orientation of the plane
  obtain ⟨n, θ, hn, hθ, hu, ho1, ho2, hout, -⟩ := orbitNormal_spec hna pro
  have hθ' : θ = g.dtheta := by
    unfold getGeometry at hg
    rw [hθ, ok_bind] at hg
    simp only [bind_ok] at hg
    obtain ⟨_, -, _, -, hg⟩ := hg
    rw [← Except.ok.inj hg]
  rw [hn] at hih
  obtain rfl := Except.ok.inj hih
  rw [hθ'] at hout
  have hnorm : V3.norm n = 1 := by rw [← len_eq_norm]; exact hu
  rw [hnorm, pdiv_ok] at hpy
  obtain ⟨-, hpy⟩ := hpy
  -- the velocities
  generalize hU : arctan2 py (V3.dot r1 (V3.cross ⟨0, 0, 1⟩ n)) = U at *
  have hc : Real.cos (pmod (U - -w) (2 * Real.pi)) = Real.cos (U + w) := by rw [cos_pmod, sub_neg_eq_add]
  have hs : Real.sin (pmod (U - -w) (2 * Real.pi)) = Real.sin (U + w) := by rw [sin_pmod, sub_neg_eq_add]
  unfold velocities at hv
  simp only [coe2rv_congr hc hs rfl rfl, bind_ok] at hv
  obtain ⟨s1, hs1, s2, hs2, hv⟩ := hv
  have hp : 0 < p := by
    unfold coe2rv rvPqw at hs1
    simp only [bind_ok, pdiv_ok, psqrt_ok] at hs1
    obtain ⟨_, ⟨_, -, _, ⟨hp0, rfl⟩, _, ⟨hq, -⟩, -⟩, -⟩ := hs1
    by_contra hcon
    have : p < 0 := lt_of_le_of_ne (not_lt.1 hcon) hp0
    have := div_neg_of_pos_of_neg hmu this
    linarith
  have d1 : 0 < 1 + ecc * Real.cos (-w) := by
    rw [Real.cos_neg]
    exact pos_of_mul_pos_right (a := g.r1Norm) (by rw [hC.at1]; exact hp) hG.R1.le
  have hcos2 : Real.cos (-w + g.dtheta) = Real.cos g.dtheta * Real.cos w + Real.sin g.dtheta * Real.sin w := by
    rw [show -w + g.dtheta = g.dtheta - w by ring, Real.cos_sub]
  have hsin2 : Real.sin (-w + g.dtheta) = Real.sin g.dtheta * Real.cos w - Real.cos g.dtheta * Real.sin w := by
    rw [show -w + g.dtheta = g.dtheta - w by ring, Real.sin_sub]
  have d2 : 0 < 1 + ecc * Real.cos (-w + g.dtheta) := by
    refine pos_of_mul_pos_right (a := g.r2Norm) ?_ hG.R2.le
    rw [hcos2, show g.r2Norm * (1 + ecc * (Real.cos g.dtheta * Real.cos w + Real.sin g.dtheta * Real.sin w)) = p by
      rw [← hC.at2]; ring]
    exact hp
  rw [coe2rv_eq hmu hp d1] at hs1
  rw [coe2rv_eq hmu hp d2] at hs2
  obtain rfl := Except.ok.inj hs1
  obtain rfl := Except.ok.inj hs2
  simp only [Except.ok.injEq, Prod.mk.injEq] at hv
  obtain ⟨rfl, rfl⟩ := hv
  have f1 := planeDir_add inc raan U w
  have f2 : -Real.sin w • planeDir inc raan U + Real.cos w • planeDir inc raan (U + Real.pi / 2) =
      planeDir inc raan (U + w + Real.pi / 2) := by
    have := planeDir_add inc raan U (w + Real.pi / 2)
    rw [Real.cos_add_pi_div_two, Real.sin_add_pi_div_two] at this
    rw [this]; congr 1; ring
  have t := Real.sin_sq_add_cos_sq w
  refine ⟨a, w, planeDir inc raan U, planeDir inc raan (U + Real.pi / 2), hp, hC, ?_, ?_, ?_, ?_⟩
  · unfold conicVel
    rw [← f1, ← f2, Real.sin_neg, Real.cos_neg]
    generalize planeDir inc raan U = i
    generalize planeDir inc raan (U + Real.pi / 2) = j
    ext <;> simp only [V3.add_x, V3.add_y, V3.add_z, V3.smul_x, V3.smul_y, V3.smul_z]
    · linear_combination Real.sqrt (mu / p) * j.x * t
    · linear_combination Real.sqrt (mu / p) * j.y * t
    · linear_combination Real.sqrt (mu / p) * j.z * t
  · unfold conicVel
    rw [← f1, ← f2, hsin2, hcos2]
    generalize planeDir inc raan U = i
    generalize planeDir inc raan (U + Real.pi / 2) = j
    generalize Real.cos g.dtheta = C
    generalize Real.sin g.dtheta = S
    ext <;> simp only [V3.add_x, V3.add_y, V3.add_z, V3.smul_x, V3.smul_y, V3.smul_z]
    · linear_combination Real.sqrt (mu / p) * (C * j.x - S * i.x) * t
    · linear_combination Real.sqrt (mu / p) * (C * j.y - S * i.y) * t
    · linear_combination Real.sqrt (mu / p) * (C * j.z - S * i.z) * t
  · -- the equatorial plane
    rintro ⟨z1, z2⟩
    have hS : Real.sin g.dtheta ≠ 0 := by
      have := Pan.sin_cross hG.angle hna
      have hW := cross_norm_pos hna
      intro h0
      rw [h0, mul_zero] at this
      split at this <;> linarith
    have hK : len r1 * len r2 * Real.sin g.dtheta ≠ 0 := by
      rw [len_eq_norm, len_eq_norm]; positivity
    have hx : n.x = 0 := by
      have := congrArg V3.x hout
      simp only [outer, V3.smul_x, z1, z2] at this
      have : len r1 * len r2 * Real.sin g.dtheta * n.x = 0 := by linarith
      exact (mul_eq_zero.1 this).resolve_left hK
    have hy : n.y = 0 := by
      have := congrArg V3.y hout
      simp only [outer, V3.smul_y, z1, z2] at this
      have : len r1 * len r2 * Real.sin g.dtheta * n.y = 0 := by linarith
      exact (mul_eq_zero.1 this).resolve_left hK
    unfold getOrbitIncAndRaan at hir
    rw [hn, ok_bind, if_pos ⟨hx, hy⟩] at hir
    simp only [Except.ok.injEq, Prod.mk.injEq] at hir
    obtain ⟨rfl, rfl⟩ := hir
    have hnn : V3.cross ⟨0, 0, 1⟩ n = 0 := by
      ext <;> simp [V3.cross, hx, hy]
    have hU0 : U = 0 := by
      rw [← hU, hpy, hnn]
      have : Complex.arg ⟨0, 0⟩ = 0 := Complex.arg_zero
      simpa [V3.cross, V3.dot, arctan2] using this
    subst hU0
    constructor
    · ext <;> simp [planeDir, nodeDir, aheadDir]
    · ext <;> simp [planeDir, nodeDir, aheadDir]
  · intro hne
    have hxy : ¬ (n.x = 0 ∧ n.y = 0) := by
      rintro ⟨hx, hy⟩
      have hz : n.z ≠ 0 := by
        intro hz
        have : len n = 0 := by simp [len, hx, hy, hz]
        linarith
      apply hne
      unfold inner at ho1 ho2
      rw [hx, hy] at ho1 ho2
      exact ⟨by simpa [hz] using ho1, by simpa [hz] using ho2⟩
    unfold getOrbitIncAndRaan at hir
    rw [hn, ok_bind, if_neg hxy] at hir
    simp only [bind_ok, pdiv_ok, pacos_ok] at hir
    obtain ⟨_, ⟨-, rfl⟩, _, ⟨-, rfl⟩, hir⟩ := hir
    simp only [Except.ok.injEq, Prod.mk.injEq] at hir
    obtain ⟨hinc, hraan⟩ := hir
    have hn1 : (1 : ℝ) ^ 2 = inner n n := by
      have := len_sq n; rw [hu] at this; rw [this]; unfold inner; ring
    obtain ⟨pl1, pl2⟩ := plane_of_h (inc := inc) (raan := raan) one_pos hn1 hxy (by rw [← hinc, hnorm]) hraan.symm
    have hr1 := pl2 r1 (V3.norm r1) hR1 (by rw [sq, norm_mul_self]; rfl) (by rw [← ho1]; unfold inner; ring)
    rw [← hpy, hU] at hr1
    refine ⟨hr1, ?_⟩
    have hiy : planeDir inc raan (U + Real.pi / 2) = outer n (planeDir inc raan U) := by
      rw [← outer_normal_planeDir]
      congr 1
      rw [pl1]; ext <;> simp
    rw [hiy]
    have c1 := hG.angle.cos_eq
    rw [len_eq_norm, len_eq_norm] at hout
    have hq : V3.norm r1 ^ 2 = inner r1 r1 := by rw [sq, norm_mul_self]; rfl
    have hdd : V3.dot r1 r2 = inner r1 r2 := rfl
    rw [hdd] at c1
    -- the triple product
    have htri : outer (outer r1 r2) r1 = (inner r1 r1) • r2 - (inner r1 r2) • r1 := by
      ext <;> simp only [outer, inner, V3.sub_x, V3.sub_y, V3.sub_z, V3.smul_x, V3.smul_y, V3.smul_z] <;> ring
    rw [hout, ← hq, ← c1] at htri
    generalize planeDir inc raan U = i at *
    generalize V3.norm r1 = R1 at *
    generalize V3.norm r2 = R2 at *
    generalize Real.cos g.dtheta = C at *
    generalize Real.sin g.dtheta = S at *
    have hR1' := hR1.ne'
    have fx := congrArg V3.x htri
    have fy := congrArg V3.y htri
    have fz := congrArg V3.z htri
    simp only [outer, V3.sub_x, V3.sub_y, V3.sub_z, V3.smul_x, V3.smul_y, V3.smul_z] at fx fy fz
    have gx := congrArg V3.x hr1
    have gy := congrArg V3.y hr1
    have gz := congrArg V3.z hr1
    simp only [V3.smul_x, V3.smul_y, V3.smul_z] at gx gy gz
    have hsq : R1 ^ 2 ≠ 0 := by positivity
    ext <;> simp only [outer, V3.add_x, V3.add_y, V3.add_z, V3.smul_x, V3.smul_y, V3.smul_z]
    · apply mul_left_cancel₀ hsq
      rw [gx, gy, gz] at fx
      linear_combination -fx
    · apply mul_left_cancel₀ hsq
      rw [gx, gy, gz] at fy
      linear_combination -fy
    · apply mul_left_cancel₀ hsq
      rw [gx, gy, gz] at fz
      linear_combination -fz

/-- A run of `avanzini2008` that returns, taken apart. -/
theorem ok_split {mu : ℝ} {r1 r2 : V3} {tof : ℝ} {M : ℤ} {pro low : Bool} {maxiter : ℕ} {atol rtol : ℝ} {full : Bool}
    {clock : ℝ} {out : Output} (h : avanzini2008 mu r1 r2 tof M pro low maxiter atol rtol full clock = .ok out) :
    M = 0 ∧ 0 < mu ∧ ∃ g F x n eccT el, getGeometry r1 r2 pro = .ok g ∧ getEccTAtX g = .ok F ∧
      secant (f F mu g tof) 0.0 maxiter atol rtol = .ok (x, n) ∧ F x = .ok eccT ∧
      coeAtEccT eccT r1 r2 pro = .ok el ∧ velocities mu el = .ok (out.v1, out.v2) := by
  unfold avanzini2008 at h
  simp only [bind_ok, raiseIf_ok] at h
  obtain ⟨_, hM, _, hv, g, hg, F, hF, ⟨x, n⟩, hsec, tpi, -, eccT, hT, el, hel, ⟨v1, v2⟩, hvel, h⟩ := h
  obtain ⟨hmu, -, -, -, hM0⟩ := assertParameters_iff.1 hv
  obtain rfl := (Except.ok.inj h).symm
  exact ⟨by omega, hmu, g, F, x, n, eccT, el, hg, hF, hsec, hT, hel, by simpa using hvel⟩

end Avanzini

open Avanzini

/-- **C29 (partial).** Whenever `avanzini2008` returns, the number of revolutions is zero and
the returned velocities belong to one and the same Kepler orbit, which goes from `r1` to `r2`
in a positive time without completing a revolution, in the requested sense.

Missing: the equatorial plane, unless the motion is prograde and `r1` is on the positive `x`
axis; there the returned velocities are wrong (`avanzini_equatorial_wrong`). -/
theorem avanzini_kepler_transfer_partial {mu : ℝ} {r1 r2 : V3} {tof : ℝ} {M : ℤ} {pro low : Bool} {maxiter : ℕ}
    {atol rtol : ℝ} {full : Bool} {clock : ℝ} {out : Output}
    (h : avanzini2008 mu r1 r2 tof M pro low maxiter atol rtol full clock = .ok out)
    (hplane : r1.z = 0 → r2.z = 0 → pro = true ∧ r1.y = 0 ∧ 0 < r1.x) :
    M = 0 ∧ ∃ T, LambertArc mu r1 r2 out.v1 out.v2 T 0 ∧ (NotPolar r1 r2 → Sense pro r1 out.v1) := by
  obtain ⟨hM, hmu, g, F, x, n, eccT, el, hg, hF, -, hT, hel, hvel⟩ := ok_split h
  obtain ⟨hpi, h0, hlt⟩ := eccT_lt hF hT
  have hG := geometry_good hg hpi
  obtain ⟨a, w, ix, iy, hp, hC, hv1, hv2, hequ, hinc⟩ := velocities_ok hmu hg hpi hel hvel
  have hframe : r1 = V3.norm r1 • ix ∧
      r2 = (V3.norm r2 * Real.cos g.dtheta) • ix + (V3.norm r2 * Real.sin g.dtheta) • iy := by
    by_cases hz : r1.z = 0 ∧ r2.z = 0
    · obtain ⟨rfl, rfl⟩ := hequ hz
      obtain ⟨rfl, hy, hx⟩ := hplane hz.1 hz.2
      have hR1 : V3.norm r1 = r1.x := by
        have := norm_sq r1
        rw [hy, hz.1] at this
        nlinarith [norm_pos_of_notAligned_left hG.hna]
      have c1 := hG.angle.cos_eq
      have s1 := Pan.sin_cross hG.angle hG.hna
      have hR2 := norm_pos_of_notAligned_right hG.hna
      rw [hR1] at c1 s1
      have hd : V3.dot r1 r2 = r1.x * r2.x := by simp [V3.dot, hy, hz.1]
      have hW : (if ShortWay true r1 r2 then (1 : ℝ) else -1) * V3.norm (V3.cross r1 r2) = r1.x * r2.y := by
        have hcr : V3.cross r1 r2 = ⟨0, 0, r1.x * r2.y⟩ := by
          ext <;> simp [V3.cross, hy, hz.1, hz.2]
        have hcz : crossZ r1 r2 = r1.x * r2.y := by simp [crossZ, hy]
        have hnn : V3.norm (V3.cross r1 r2) = |r1.x * r2.y| := by
          rw [hcr, ← len_eq_norm]; simp [len, Real.sqrt_sq_eq_abs]
        rw [hnn]
        by_cases hs : ShortWay true r1 r2
        · rw [if_pos hs, one_mul, abs_of_pos]
          unfold ShortWay at hs
          rw [if_pos rfl, hcz] at hs
          exact hs
        · rw [if_neg hs]
          unfold ShortWay at hs
          rw [if_pos rfl, hcz] at hs
          rw [abs_of_nonpos (not_lt.1 hs)]; ring
      rw [hW] at s1
      rw [hd] at c1
      have e1 : V3.norm r2 * Real.cos g.dtheta = r2.x := mul_left_cancel₀ hx.ne' (by linarith)
      have e2 : V3.norm r2 * Real.sin g.dtheta = r2.y := mul_left_cancel₀ hx.ne' (by linarith)
      rw [e1, e2, hR1]
      constructor
      · ext <;> simp [hy, hz.1]
      · ext <;> simp [hz.2]
    · exact hinc hz
  have at1 := hC.at1
  have at2 := hC.at2
  rw [hG.n1] at at1
  rw [hG.n2] at at2
  obtain ⟨w1, w2⟩ := conic_fg hmu hG.angle hG.hna hframe.1 hframe.2 at1 at2 hp
  obtain ⟨T, hpath⟩ := hC.path hG hmu hp fun he => hC.eccT_neg hlt h0 he
  have h2 := hC.twoPoints hG hp
  obtain ⟨hGeo, hsh⟩ := hG.angle.halfGeo hG.hna
  rw [hG.n1, hG.n2] at hpath h2
  rw [hv1, hv2, w1, w2]
  exact ⟨hM, T, hpath.arc hmu hGeo, fun hnp => sense_of_sign hmu h2.V_pos hGeo.hA hnp hsh⟩

/-- The time of flight that the search compares with `tof` is the true one, on every orbit
that the search can reach. -/
theorem avanzini_path {pro : Bool} {r1 r2 : V3} {g : Geometry} {mu eccT T : ℝ} (hmu : 0 < mu)
    (hG : Good pro r1 r2 g) (hlt : eccT < Real.sqrt (1 - ((g.r1Norm - g.r2Norm) / g.cNorm) ^ 2))
    (h0 : 0 ≤ 1 - ((g.r1Norm - g.r2Norm) / g.cNorm) ^ 2) (h : keplerTofAtEccT eccT mu g = .ok T) :
    ∃ ecc a p, eapFromEccT eccT g = .ok (ecc, a, p) ∧ 0 < p ∧
      Path mu (g.r1Norm + g.r2Norm) (halfA g.r1Norm g.r2Norm g.dtheta) 0 (conicV p g.r1Norm g.r2Norm g.dtheta) T := by
  have hpi := Real.pi_pos
  unfold keplerTofAtEccT at h
  simp only [bind_ok] at h
  obtain ⟨⟨ecc, a, p⟩, heap, ⟨eF, aF, pF⟩, hfun, M1, hM1, M2, hM2, h⟩ := h
  have heF : eF = (g.r1Norm - g.r2Norm) / g.cNorm := by
    unfold fundamental getEccF at hfun
    simp only [bind_ok, pdiv_ok] at hfun
    obtain ⟨_, ⟨-, rfl⟩, hf⟩ := hfun
    simp only [Except.ok.injEq, Prod.mk.injEq] at hf
    exact hf.1.symm
  subst heF
  have hC := eap_conic hG heap
  generalize wAtEccT eccT ((g.r1Norm - g.r2Norm) / g.cNorm) g.wC = w at *
  simp only [getTrueAnomalies] at *
  refine ⟨ecc, a, p, heap, ?_⟩
  have he0 := hC.e0
  unfold tofFromDeltaM at h
  unfold keplerFromNu at hM1 hM2
  rw [if_neg (not_lt.2 he0)] at hM1 hM2
  rcases lt_or_gt_of_ne hC.ne1 with he | he
  · -- ellipse
    rw [if_pos ⟨he0, he⟩] at hM1 hM2 h
    simp only [bind_ok, pdiv_ok, psqrt_ok] at hM1 hM2 h
    obtain ⟨E1, hE1, hM1⟩ := hM1
    obtain ⟨E2, hE2, hM2⟩ := hM2
    obtain ⟨_, ⟨-, rfl⟩, _, ⟨-, rfl⟩, h⟩ := h
    have hp : 0 < p := by
      rw [← hC.at1]
      exact mul_pos hG.R1 (by nlinarith [Real.neg_one_le_cos w])
    have h2 := hC.twoPoints hG hp
    obtain ⟨a1, b1, j1, s1, c1⟩ := nuToE_spec he0 he hp hG.R1 h2.half1 hE1
    obtain ⟨a2, b2, j2, s2, c2⟩ := nuToE_spec he0 he hp hG.R2 h2.half2 hE2
    obtain ⟨d, k, d0, d1, hk, hpath⟩ := h2.ell he hmu s1 c1 s2 c2
    rw [Real.sin_add_int_mul_two_pi, Real.sin_add_int_mul_two_pi] at hk
    rw [← hC.a_eq] at hpath
    have r1' := mean_range he0 he a1 b1
    have r2' := mean_range he0 he a2 b2
    have hM1' := Except.ok.inj hM1
    have hM2' := Except.ok.inj hM2
    unfold keplerElliptic at hM1' hM2'
    rw [hM1'] at r1'
    rw [hM2'] at r2'
    have hdM : M2 - M1 = d + ((k - j2 + j1 : ℤ) : ℝ) * (2 * Real.pi) := by
      push_cast; rw [← hM1', ← hM2']; linarith
    have ha : 0 < a := by rw [hC.a_eq]; exact div_pos hp (by nlinarith)
    have hs : 0 < Real.sqrt (a ^ 3 / mu) := by positivity
    generalize k - j2 + j1 = z at hdM
    refine ⟨hp, ?_⟩
    split at h
    · rename_i hneg
      have hneg' : M2 - M1 < 0 := by
        by_contra hcon
        exact absurd hneg (not_lt.2 (mul_nonneg hs.le (not_lt.1 hcon)))
      have z1 : z < 0 := by
        by_contra hcon
        have : (0 : ℝ) ≤ (z : ℝ) := by exact_mod_cast not_lt.1 hcon
        nlinarith
      have z2 : -2 < z := by
        by_contra hcon
        have : (z : ℝ) ≤ -2 := by exact_mod_cast not_lt.1 hcon
        nlinarith
      have hz : z = -1 := by omega
      rw [hz] at hdM
      push_cast at hdM
      rw [← Except.ok.inj h, show M2 - M1 = d - 2 * Real.pi by linarith,
        show Real.sqrt (a ^ 3 / mu) * (d - 2 * Real.pi) + 2 * Real.pi * Real.sqrt (a ^ 3 / mu) =
          Real.sqrt (a ^ 3 / mu) * d by ring]
      exact hpath
    · rename_i hneg
      have hneg' : 0 ≤ M2 - M1 := by
        by_contra hcon
        exact hneg (mul_neg_of_pos_of_neg hs (not_le.1 hcon))
      have z1 : z < 1 := by
        by_contra hcon
        have : (1 : ℝ) ≤ (z : ℝ) := by exact_mod_cast not_lt.1 hcon
        nlinarith
      have z2 : -1 < z := by
        by_contra hcon
        have : (z : ℝ) ≤ -1 := by exact_mod_cast not_lt.1 hcon
        nlinarith
      have hz : z = 0 := by omega
      rw [hz] at hdM
      push_cast at hdM
      rw [← Except.ok.inj h, show M2 - M1 = d by linarith]
      exact hpath
  · -- hyperbola
    rw [if_neg (by push Not; intro _; exact he.le), if_neg he.ne'] at hM1 hM2 h
    simp only [bind_ok, pdiv_ok, psqrt_ok, nuToH, ptan_ok, partanh_ok] at hM1 hM2 h
    obtain ⟨H1, ⟨_, ⟨-, rfl⟩, _, ⟨-, rfl⟩, _, ⟨q1, rfl⟩, _, ⟨b1, rfl⟩, hH1⟩, hM1⟩ := hM1
    obtain ⟨H2, ⟨_, ⟨-, rfl⟩, _, ⟨-, rfl⟩, _, ⟨q2, rfl⟩, _, ⟨b2, rfl⟩, hH2⟩, hM2⟩ := hM2
    obtain ⟨_, ⟨-, rfl⟩, _, ⟨-, rfl⟩, h⟩ := h
    have hp : 0 < p := by
      have hsq : Real.sqrt ((ecc - 1) / (ecc + 1)) ^ 2 = (ecc - 1) / (ecc + 1) :=
        Real.sq_sqrt (div_nonneg (by linarith) (by linarith))
      have hlt1 : (Real.sqrt ((ecc - 1) / (ecc + 1)) * Real.tan (-w / 2)) ^ 2 < 1 := by
        rw [sq_lt_one_iff_abs_lt_one, abs_lt]; exact b1
      rw [mul_pow, hsq, Real.tan_eq_sin_div_cos, div_pow] at hlt1
      have hc2 : 0 < Real.cos (-w / 2) ^ 2 := by positivity
      rw [div_mul_div_comm, div_lt_one (mul_pos (by linarith) hc2)] at hlt1
      have hh := TwoPoints.cos_half (-w)
      rw [Real.cos_neg] at hh
      have t := Real.sin_sq_add_cos_sq (-w / 2)
      rw [← hC.at1]
      refine mul_pos hG.R1 ?_
      rw [hh]
      nlinarith
    refine ⟨hp, ?_⟩
    have h2 := hC.twoPoints hG hp
    obtain ⟨F1, F2, e1, e2, hpath⟩ := h2.hyp_tan he hmu (hC.tan_lt hG hp he (hC.eccT_neg hlt h0 he))
    have hM1' := Except.ok.inj hM1
    have hM2' := Except.ok.inj hM2
    unfold keplerHyperbolic at hM1' hM2'
    have f1 : F1 = H1 := by rw [e1, ← Except.ok.inj hH1]
    have f2 : F2 = H2 := by rw [e2, ← Except.ok.inj hH2]
    have hne : ecc ^ 2 - 1 ≠ 0 := by nlinarith
    have hne' : 1 - ecc ^ 2 ≠ 0 := by nlinarith
    have ha : -(a ^ 3) = (p / (ecc ^ 2 - 1)) ^ 3 := by
      rw [hC.a_eq, show p / (1 - ecc ^ 2) = -(p / (ecc ^ 2 - 1)) by
        rw [← div_neg]; congr 1; ring]
      ring
    rw [← Except.ok.inj h, ← hM1', ← hM2', ha, ← f1, ← f2]
    exact hpath

/-- The time of flight that Avanzini's search compares with `tof` is the true one: for every
value of the search variable, if the code computes a time `T` and velocities, these velocities
belong to a Kepler orbit that goes from `r1` to `r2` in exactly the time `T`.  The hypothesis
`hplane` is the one of `avanzini_kepler_transfer_partial`. -/
theorem avanzini_time_of_flight {mu : ℝ} {r1 r2 v1 v2 : V3} {pro : Bool} {g : Geometry} {F : ℝ → Py ℝ}
    {x eccT T : ℝ} {el : Elements} (hmu : 0 < mu) (hg : getGeometry r1 r2 pro = .ok g)
    (hF : getEccTAtX g = .ok F) (hx : F x = .ok eccT) (hT : keplerTofAtEccT eccT mu g = .ok T)
    (hel : coeAtEccT eccT r1 r2 pro = .ok el) (hv : velocities mu el = .ok (v1, v2))
    (hplane : ¬ (r1.z = 0 ∧ r2.z = 0)) :
    LambertArc mu r1 r2 v1 v2 T 0 ∧ (NotPolar r1 r2 → Sense pro r1 v1) := by
  obtain ⟨hpi, h0, hlt⟩ := eccT_lt hF hx
  have hG := geometry_good hg hpi
  obtain ⟨a, w, ix, iy, hp, hC, hv1, hv2, -, hinc⟩ := velocities_ok hmu hg hpi hel hv
  obtain ⟨ecc, a', p, heap, hp', hpath⟩ := avanzini_path hmu hG hlt h0 hT
  have hpp : p = el.p := by
    unfold coeAtEccT at hel
    rw [hg, ok_bind, heap, ok_bind] at hel
    simp only [bind_ok] at hel
    obtain ⟨_, -, _, -, _, -, _, -, _, -, _, -, hel⟩ := hel
    rw [← Except.ok.inj hel]
  have hframe := hinc hplane
  have at1 := hC.at1
  have at2 := hC.at2
  rw [hG.n1] at at1
  rw [hG.n2] at at2
  obtain ⟨w1, w2⟩ := conic_fg hmu hG.angle hG.hna hframe.1 hframe.2 at1 at2 hp
  have h2 := hC.twoPoints hG hp
  obtain ⟨hGeo, hsh⟩ := hG.angle.halfGeo hG.hna
  rw [hG.n1, hG.n2, hpp] at hpath
  rw [hG.n1, hG.n2] at h2
  rw [hv1, hv2, w1, w2]
  exact ⟨hpath.arc hmu hGeo, fun hnp => sense_of_sign hmu h2.V_pos hGeo.hA hnp hsh⟩

set_option maxHeartbeats 1000000 in
/-- In the equatorial plane the returned velocities do not even share the angular momentum and the eccentricity
vector of one orbit run in the requested sense. -/
theorem avanzini_equatorial_not_conserved {mu : ℝ} {r1 r2 : V3} {tof : ℝ} {M : ℤ} {pro low : Bool} {maxiter : ℕ}
    {atol rtol : ℝ} {full : Bool} {clock : ℝ} {out : Output}
    (h : avanzini2008 mu r1 r2 tof M pro low maxiter atol rtol full clock = .ok out)
    (z1 : r1.z = 0) (z2 : r2.z = 0) (hpro : pro = true → ¬ (r1.y = 0 ∧ 0 < r1.x))
    (hret : pro = false → ¬ (r2.y = 0 ∧ 0 < r2.x)) (hecc : eccVec mu r2 out.v2 = eccVec mu r1 out.v1)
    (hang : outer r2 out.v2 = outer r1 out.v1) (hsense : Sense pro r1 out.v1) : False := by
  obtain ⟨hM, hmu, g, F, x, n, eccT, el, hg, hF, -, hT, hel, hvel⟩ := ok_split h
  obtain ⟨hpi, h0, hlt⟩ := eccT_lt hF hT
  have hG := geometry_good hg hpi
  have hna := hG.hna
  obtain ⟨a, w, ix, iy, hp, hC, hv1, hv2, hequ, -⟩ := velocities_ok hmu hg hpi hel hvel
  obtain ⟨rfl, rfl⟩ := hequ ⟨z1, z2⟩
  have hR1 : 0 < len r1 := by rw [len_eq_norm]; exact norm_pos_of_notAligned_left hna
  have hR2 : 0 < len r2 := by rw [len_eq_norm]; exact norm_pos_of_notAligned_right hna
  have hs : 0 < Real.sqrt (mu / el.p) := by positivity
  have l1 := len_sq r1
  have l2 := len_sq r2
  rw [z1] at l1
  rw [z2] at l2
  have c1 := hG.angle.cos_eq
  have s1 := Pan.sin_cross hG.angle hna
  rw [← len_eq_norm, ← len_eq_norm] at c1 s1
  have hd : V3.dot r1 r2 = r1.x * r2.x + r1.y * r2.y := by simp [V3.dot, z1]
  rw [hd] at c1
  have hcr : V3.cross r1 r2 = ⟨0, 0, r1.x * r2.y - r1.y * r2.x⟩ := by
    ext <;> simp [V3.cross, z1, z2]
  have hnn : V3.norm (V3.cross r1 r2) = |r1.x * r2.y - r1.y * r2.x| := by
    rw [hcr, ← len_eq_norm]; simp [len, Real.sqrt_sq_eq_abs]
  have hW : (if ShortWay pro r1 r2 then (1 : ℝ) else -1) * V3.norm (V3.cross r1 r2) =
      (if pro = true then 1 else -1) * (r1.x * r2.y - r1.y * r2.x) := by
    rw [hnn]
    have hcz : crossZ r1 r2 = r1.x * r2.y - r1.y * r2.x := rfl
    by_cases hsw : ShortWay pro r1 r2
    · rw [if_pos hsw]
      unfold ShortWay at hsw
      rw [hcz] at hsw
      cases pro
      · simp only [Bool.false_eq_true, if_false] at hsw ⊢
        rw [abs_of_neg hsw]; ring
      · simp only [if_true] at hsw ⊢
        rw [abs_of_pos hsw]
    · rw [if_neg hsw]
      unfold ShortWay at hsw
      rw [hcz] at hsw
      cases pro
      · simp only [Bool.false_eq_true, if_false] at hsw ⊢
        rw [abs_of_nonneg (not_lt.1 hsw)]
      · simp only [if_true] at hsw ⊢
        rw [abs_of_nonpos (not_lt.1 hsw)]; ring
  rw [hW] at s1
  have hS : Real.sin g.dtheta ≠ 0 := by
    have := Pan.sin_cross hG.angle hna
    have hW := cross_norm_pos hna
    intro h0
    rw [h0, mul_zero] at this
    split at this <;> linarith
  have tθ := Real.sin_sq_add_cos_sq g.dtheta
  have hcos1 := hG.angle.cos_lt_one
  rw [hv1, hv2] at hecc hang
  rw [hv1] at hsense
  unfold eccVec at hecc
  generalize len r1 = R1 at *
  generalize len r2 = R2 at *
  generalize Real.sqrt (mu / el.p) = s at *
  generalize Real.cos g.dtheta = C at *
  generalize Real.sin g.dtheta = S at *
  generalize el.ecc * Real.cos w = ex at *
  generalize el.ecc * Real.sin w = ey at *
  clear hW hnn hcr hd hC hG hv1 hv2 hvel hel h
  have gz := congrArg V3.z hang
  have gx := congrArg V3.x hecc
  have gy := congrArg V3.y hecc
  simp only [outer, V3.sub_x, V3.sub_y, V3.sub_z, V3.smul_x, V3.smul_y, V3.smul_z, V3.add_x, V3.add_y,
    V3.add_z, z1, z2, mul_zero, mul_one, zero_mul, add_zero, zero_add, sub_zero, zero_sub] at gz gx gy
  -- the common angular momentum, and its sign
  obtain ⟨H, hH⟩ : ∃ H, H = r1.x * (s * (1 + ex)) - r1.y * (s * -ey) := ⟨_, rfl⟩
  rw [gz] at gx gy
  rw [← hH] at gx gy
  have hHs : if pro = true then 0 < H else H < 0 := by
    have : angMomZ r1 (s • (-ey • (⟨1, 0, 0⟩ : V3) + (1 + ex) • ⟨0, 1, 0⟩)) = H := by
      rw [hH]; simp [angMomZ]
    unfold Sense at hsense
    rw [this] at hsense
    exact hsense
  obtain ⟨k, hk⟩ : ∃ k, k = H * s / mu := ⟨_, rfl⟩
  obtain ⟨a, ha⟩ : ∃ a, a = r1.x / R1 := ⟨_, rfl⟩
  obtain ⟨b, hb⟩ : ∃ b, b = r1.y / R1 := ⟨_, rfl⟩
  obtain ⟨c, hc⟩ : ∃ c, c = r2.x / R2 := ⟨_, rfl⟩
  obtain ⟨d, hd⟩ : ∃ d, d = r2.y / R2 := ⟨_, rfl⟩
  have ha' : r1.x = R1 * a := by rw [ha]; field_simp
  have hb' : r1.y = R1 * b := by rw [hb]; field_simp
  have hc' : r2.x = R2 * c := by rw [hc]; field_simp
  have hd' : r2.y = R2 * d := by rw [hd]; field_simp
  rw [ha', hb'] at l1
  rw [ha', hb', hc', hd'] at c1 s1
  have u1 : a ^ 2 + b ^ 2 = 1 := mul_left_cancel₀ (a := R1 ^ 2) (by positivity) (by linarith)
  have hRR : R1 * R2 ≠ 0 := by positivity
  have cC : C = a * c + b * d := mul_left_cancel₀ hRR (by linear_combination c1)
  have ex' : k * (C - 1) = c - a := by
    rw [hk, hc, ha]; linear_combination gx
  have ey' : k * S = d - b := by
    rw [hk, hd, hb]; linear_combination gy
  cases pro
  · simp only [Bool.false_eq_true, if_false] at s1 hHs
    have sS : S = -(a * d - b * c) := mul_left_cancel₀ hRR (by linear_combination s1)
    have hkn : k < 0 := by rw [hk]; exact div_neg_of_neg_of_pos (mul_neg_of_neg_of_pos hHs hs) hmu
    have cc : c = a * C + b * S := by rw [cC, sS]; linear_combination (-c) * u1
    have dd : d = b * C - a * S := by rw [cC, sS]; linear_combination (-d) * u1
    have hk2 : k ^ 2 = 1 := by
      have h1 : (k ^ 2 - 1) * ((C - 1) ^ 2 + S ^ 2) = 0 := by
        have : k ^ 2 * ((C - 1) ^ 2 + S ^ 2) = (c - a) ^ 2 + (d - b) ^ 2 := by rw [← ex', ← ey']; ring
        rw [cc, dd] at this
        linear_combination this + ((C - 1) ^ 2 + S ^ 2) * u1
      have h2 : (C - 1) ^ 2 + S ^ 2 ≠ 0 := by positivity
      linarith [(mul_eq_zero.1 h1).resolve_right h2]
    have hk1 : k = -1 := by
      have h0 : (k - 1) * (k + 1) = 0 := by linear_combination hk2
      rcases mul_eq_zero.1 h0 with h1 | h1
      · linarith
      · linarith
    rw [hk1, cc] at ex'
    rw [hk1, dd] at ey'
    have hC1 : C - 1 ≠ 0 := by linarith
    have hSb : b = S := by
      have h1 : (C - 1) * (S - b) = 0 := by
        linear_combination (-(S / 2)) * ex' - (C - 1) / 2 * ey' - b / 2 * tθ
      linarith [(mul_eq_zero.1 h1).resolve_left hC1]
    have hCa : a = C := by
      rw [hSb] at ex'
      have h1 : (C - 1) * (a - C) = 0 := by linear_combination (-1) * ex' - tθ
      linarith [(mul_eq_zero.1 h1).resolve_left hC1]
    apply hret rfl
    have hd0 : d = 0 := by rw [dd, hCa, hSb]; ring
    have hc0 : c = 1 := by rw [cc, hCa, hSb]; linear_combination tθ
    rw [hd', hc', hd0, hc0]
    exact ⟨mul_zero _, by linarith⟩
  · simp only [if_true] at s1 hHs
    have sS : S = a * d - b * c := mul_left_cancel₀ hRR (by linear_combination s1)
    have hkn : 0 < k := by rw [hk]; positivity
    have cc : c = a * C - b * S := by rw [cC, sS]; linear_combination (-c) * u1
    have dd : d = b * C + a * S := by rw [cC, sS]; linear_combination (-d) * u1
    rw [cc] at ex'
    rw [dd] at ey'
    have h2 : (C - 1) ^ 2 + S ^ 2 ≠ 0 := by positivity
    have hb0 : b = 0 := by
      have h1 : b * ((C - 1) ^ 2 + S ^ 2) = 0 := by linear_combination S * ex' - (C - 1) * ey'
      exact (mul_eq_zero.1 h1).resolve_right h2
    have hak : a = k := by
      have h1 : (a - k) * ((C - 1) ^ 2 + S ^ 2) = 0 := by linear_combination -(C - 1) * ex' - S * ey'
      linarith [(mul_eq_zero.1 h1).resolve_right h2]
    have ha1 : a = 1 := by rw [hb0] at u1; nlinarith
    apply hpro rfl
    rw [ha', hb', ha1, hb0]
    exact ⟨mul_zero _, by linarith⟩

/-- **C29 fails in the equatorial plane.**  When both positions lie in the plane `z = 0`, the
returned velocities belong to no transfer from `r1` to `r2` in the requested sense, except
possibly when `r1` (prograde motion) or `r2` (retrograde motion) is on the positive `x` axis:
`coe_at_eccT` measures the argument of periapsis from the line of nodes, which does not exist
there, and the inclination of a retrograde equatorial orbit is taken to be zero. -/
theorem avanzini_equatorial_wrong {mu : ℝ} {r1 r2 : V3} {tof : ℝ} {M : ℤ} {pro low : Bool} {maxiter : ℕ}
    {atol rtol : ℝ} {full : Bool} {clock : ℝ} {out : Output}
    (h : avanzini2008 mu r1 r2 tof M pro low maxiter atol rtol full clock = .ok out)
    (z1 : r1.z = 0) (z2 : r2.z = 0) (hpro : pro = true → ¬ (r1.y = 0 ∧ 0 < r1.x))
    (hret : pro = false → ¬ (r2.y = 0 ∧ 0 < r2.x)) :
    ¬ ∃ T N, LambertArc mu r1 r2 out.v1 out.v2 T N ∧ Sense pro r1 out.v1 := by
  rintro ⟨T, N, ⟨_, pos, vel, hk, p0, q0, pT, qT, -⟩, hsense⟩
  obtain ⟨-, hmu, -⟩ := ok_split h
  have hecc := eccVec_const hmu.ne' hk T 0
  have hang := angMom_const hk T 0
  rw [p0, q0, pT, qT] at hecc hang
  exact avanzini_equatorial_not_conserved h z1 z2 hpro hret hecc hang hsense

end Lamberthub
