import Verif.Proofs.IzzoSlow

/-! # `izzo2015` in terms of the value `x` found by `_find_xy` -/

set_option autoImplicit false

namespace Lamberthub
open Filter Topology Spec LC

namespace Izzo

/-- `izzo2015` with zero revolutions returns exactly when `_find_xy` does, and what it returns is given by
the `x` found. -/
theorem run_zero {mu : ℝ} (hmu : 0 < mu) {r1 r2 : V3} (hna : NotAligned r1 r2) (pro : Bool) :
    ∃ U ll : ℝ, 0 < U ∧ U = timeUnit mu r1 r2 ∧ ll ^ 2 < 1 ∧ ll ≠ 0 ∧ (NotPolar r1 r2 → (0 < ll ↔ ShortWay pro r1 r2) ∧
        leastEnergyTime mu r1 r2 pro 0 = U * (Real.arccos ll + ll * Real.sqrt (1 - ll ^ 2)) ∧
        parabolicTime mu r1 r2 pro = U * (2 * (1 - ll ^ 3) / 3)) ∧
      ∀ (tof : ℝ) (low : Bool) (n : ℕ) (atol rtol : ℝ),
        (∀ v, izzo2015 mu r1 r2 tof 0 pro low n atol rtol = .ok v →
          ∃ xy, findXY ll (tof / U) 0 n atol rtol low = .ok xy) ∧
        ∀ x y, findXY ll (tof / U) 0 n atol rtol low = .ok (x, y) →
          ∃ v1 v2, izzo2015 mu r1 r2 tof 0 pro low n atol rtol = .ok (v1, v2) ∧
            energyOf mu r1 v1 = -(1 - x ^ 2) * mu / semiPerimeter r1 r2 ∧
            (NotPolar r1 r2 → Sense pro r1 v1) ∧
            (-1 < x → LambertArc mu r1 r2 v1 v2 (U * tm ll x) 0) := by
  obtain ⟨s, ll, it1, it2, hgeo⟩ := geometry_eq hna pro
  obtain ⟨ε, hε, hG, hS, hεl, h1, h2, hsw⟩ := geometry_ok hgeo
  have hs := hS.spos
  have hl := hS.lam_lt
  have hq : 0 < Real.sqrt (2 * mu / s ^ 3) := by positivity
  have hU : 0 < Real.sqrt (s ^ 3 / (2 * mu)) := by positivity
  have hqU : Real.sqrt (2 * mu / s ^ 3) = (Real.sqrt (s ^ 3 / (2 * mu)))⁻¹ := by
    rw [← Real.sqrt_inv, inv_div]
  have h0 : ll ≠ 0 := by rintro rfl; simp at hεl
  have hsg : NotPolar r1 r2 → (0 < ll ↔ ShortWay pro r1 r2) := by
    intro hnp
    rw [← hsw hnp]
    exact ⟨fun h => pos_of_mul_pos_left hεl h.le, fun h => pos_of_mul_pos_right hεl h.le⟩
  refine ⟨_, ll, hU, (Der.unit_eq hS).symm, hl, h0, fun hnp => ⟨hsg hnp, ?_, ?_⟩, fun tof low n atol rtol => ⟨?_, ?_⟩⟩
  · rw [Times.leastEnergyTime_eq hS h0 (hsg hnp), lancT, if_pos one_pos, lancY]; norm_num
  · rw [Der.parabolicTime_eq hS h0 (hsg hnp), Der.computeParabolicTime]
  · intro v h
    unfold izzo2015 at h
    rw [hgeo] at h
    simp only [ok_bind] at h
    rw [pdiv_eq (by positivity), ok_bind, psqrt_eq (by positivity), ok_bind, bind_ok] at h
    obtain ⟨xy, hxy, -⟩ := h
    refine ⟨xy, ?_⟩
    rw [← hxy, hqU, div_eq_mul_inv, mul_comm]
  · intro x y hxy
    have hy : computeY x ll = .ok y := by
      have h := hxy
      unfold findXY at h
      simp only [bind_ok, Except.ok.injEq, Prod.mk.injEq] at h
      obtain ⟨_, -, a, -, q, -, m, -, _, -, x0, -, x', -, y', hy', rfl, rfl⟩ := h
      exact hy'
    have hL := computeY_ok hy hl
    have hyy : y = lancY ll x := by rw [computeY] at hy; exact (psqrt_ok.1 hy).2
    have hc := hS.cpos
    have hrho : 0 ≤ 1 - ((V3.norm r1 - V3.norm r2) / V3.norm (r2 - r1)) ^ 2 := by
      rw [div_pow, sub_nonneg, div_le_one (by positivity), sub_norm_sq]
      linarith [(abs_lt.1 (abs_dot_lt hna)).2]
    have hrec : ∃ vr1 vr2 vt1 vt2, reconstruct x y (V3.norm r1) (V3.norm r2) ll (Real.sqrt (mu * s / 2))
        ((V3.norm r1 - V3.norm r2) / V3.norm (r2 - r1))
        (Real.sqrt (1 - ((V3.norm r1 - V3.norm r2) / V3.norm (r2 - r1)) ^ 2)) = .ok (vr1, vr2, vt1, vt2) := by
      simp only [reconstruct]
      rw [pdiv_eq hG.R1.ne', ok_bind, pdiv_eq hG.R2.ne', ok_bind, pdiv_eq hG.R1.ne', ok_bind,
        pdiv_eq hG.R2.ne', ok_bind]
      exact ⟨_, _, _, _, rfl⟩
    obtain ⟨vr1, vr2, vt1, vt2, hrec⟩ := hrec
    obtain ⟨hv1, hv2⟩ := reconstruct_ok hmu hε hG hS hεl hL rfl rfl hrho rfl hrec
    have hV : 0 < s * (y - ll * x) ^ 2 := by have := hL.eta_pos; positivity
    refine ⟨fgV1 mu r1 r2 (Real.sqrt 2 * s * ll) (s * (y - ll * x) ^ 2),
      fgV2 mu r1 r2 (Real.sqrt 2 * s * ll) (s * (y - ll * x) ^ 2), ?_, ?_, ?_, ?_⟩
    · unfold izzo2015
      rw [hgeo]
      simp only [ok_bind]
      rw [pdiv_eq (by positivity), ok_bind, psqrt_eq (by positivity), ok_bind, hqU, mul_comm, ← div_eq_mul_inv,
        hxy, ok_bind, psqrt_eq (by positivity), ok_bind, pdiv_eq hc.ne', ok_bind, psqrt_eq hrho, ok_bind, hrec, ok_bind,
        vdiv_eq hG.R1.ne', ok_bind, vdiv_eq hG.R2.ne', ok_bind, h1, h2, hv1, hv2]
    · rw [energyOf, hL.energy hmu hs hG hS.sum, semiPerimeter_eq, ← hS.hs]; ring
    · intro hnp
      refine sense_of_sign hmu hV hG.hA hnp ?_
      rw [← hsg hnp]
      have hr2p : 0 < Real.sqrt 2 := by positivity
      exact ⟨fun h => pos_of_mul_pos_right h (by positivity), fun h => by positivity⟩
    · intro hx
      obtain ⟨T, hpath, hT⟩ := hL.path hmu hs (M := 0) hx (.inl rfl)
      rw [← hS.sum] at hpath
      have e : Real.sqrt (s ^ 3 / (2 * mu)) * tm ll x = T := by
        rw [tm, ← hyy, ← hT, hqU]; field_simp
      rw [e]
      exact hpath.arc hmu hG

end Izzo
end Lamberthub
