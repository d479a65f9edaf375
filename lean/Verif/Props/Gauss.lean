import Verif.Model.Gauss
import Verif.Proofs.Hyp2F1
import Verif.Proofs.PForm
import Verif.Proofs.ThorneGeo
import Verif.Proofs.Conserved
import Verif.Proofs.AssertLemmas
import Verif.Proofs.PathTime
import Verif.Props.Angles
import Verif.Props.Negrete

/-! # C28: what `gauss1809` returns -/

set_option autoImplicit false

namespace Lamberthub
open Spec LC

theorem Angle.halfA_eq {pro : Bool} {r1 r2 : V3} {θ : ℝ} (h : Angle pro r1 r2 θ) (hna : NotAligned r1 r2) :
    halfA (V3.norm r1) (V3.norm r2) θ = signedA pro r1 r2 := by
  obtain ⟨hG, hs⟩ := h.halfGeo hna
  obtain ⟨-, hG'⟩ := getA_signedA h hna
  have hsq : halfA (V3.norm r1) (V3.norm r2) θ ^ 2 = signedA pro r1 r2 ^ 2 := by rw [hG.hA2, hG'.hA2]
  have hs' : 0 < signedA pro r1 r2 ↔ ShortWay pro r1 r2 := by
    have hne := hG'.hA
    unfold signedA at *
    split
    · rename_i hw
      rw [if_pos hw] at hne
      refine ⟨fun _ => hw, fun _ => lt_of_le_of_ne (by rw [one_mul]; exact Real.sqrt_nonneg _) hne.symm⟩
    · rename_i hw
      refine ⟨fun h0 => absurd h0 (not_lt.2 (by rw [neg_one_mul]; exact neg_nonpos.2 (Real.sqrt_nonneg _))), fun h0 => absurd h0 hw⟩
  rcases sq_eq_sq_iff_eq_or_eq_neg.1 hsq with h1 | h1
  · exact h1
  · exfalso
    rw [h1] at hs
    by_cases hw : ShortWay pro r1 r2
    · linarith [hs.2 hw, hs'.2 hw]
    · have a := mt hs.1 hw
      have b := mt hs'.1 hw
      exact hG'.hA (by linarith)

theorem LC.Geo.sum_gt {r1 r2 : V3} {A : ℝ} (hG : Geo r1 r2 A) : |Real.sqrt 2 * A| < V3.norm r1 + V3.norm r2 := by
  have hR1 := hG.R1
  have hR2 := hG.R2
  apply abs_lt_of_sq_lt_sq _ (by positivity)
  rw [mul_pow, Real.sq_sqrt (by norm_num)]
  nlinarith [hG.A2_lt, sq_nonneg (V3.norm r1 - V3.norm r2)]

namespace Gauss

theorem loop_ok {s w atol : ℝ} : ∀ (rem k : ℕ) {y0 x : ℝ} {n : ℕ}, loop s w atol rem k y0 = .ok (x, n) →
    k ≤ n ∧ n < k + rem ∧ ∃ y, firstEquation y s w = .ok x ∧ |secondEquation x s - y| ≤ atol
  | 0, k, y0, x, n, h => by simp [loop] at h
  | rem + 1, k, y0, x, n, h => by
    rw [loop, bind_ok] at h
    obtain ⟨x', hx, h⟩ := h
    simp only [] at h
    split at h
    · rename_i hs
      simp only [Except.ok.injEq, Prod.mk.injEq] at h
      obtain ⟨rfl, rfl⟩ := h
      exact ⟨le_rfl, by omega, y0, hx, hs⟩
    · obtain ⟨a, b, c⟩ := loop_ok rem (k + 1) h
      exact ⟨by omega, by omega, c⟩

theorem deltaAnomaly_ok {x d : ℝ} (h : deltaAnomaly x = .ok d) :
    (0 < x ∧ x ≤ 1 ∧ Real.cos (d / 2) = 1 - 2 * x) ∨ (x < 0 ∧ d / 2 = Real.arcosh (1 - 2 * x)) := by
  unfold deltaAnomaly at h
  split at h
  · rename_i hx
    simp only [bind_ok, pacos_ok] at h
    obtain ⟨_, ⟨⟨h1, h2⟩, rfl⟩, h⟩ := h
    rw [← Except.ok.inj h, mul_div_cancel_left₀ _ (two_ne_zero' ℝ), Real.cos_arccos h1 h2]
    exact .inl ⟨hx, by linarith, rfl⟩
  split at h
  · cases h
  · rename_i h1 h2
    simp only [bind_ok, pacosh_ok] at h
    obtain ⟨_, ⟨-, rfl⟩, h⟩ := h
    rw [← Except.ok.inj h, mul_div_cancel_left₀ _ (two_ne_zero' ℝ)]
    exact .inr ⟨lt_of_le_of_ne (not_lt.1 h1) h2, rfl⟩

/-- The computed velocities: the departure is that of the orbit with `cos φ = cos (dA/2)`, the
arrival is off by a multiple of `r1`. -/
theorem velocities_ok {mu : ℝ} {r1 r2 v1 v2 : V3} {pro : Bool} {θ x : ℝ} (hmu : 0 < mu)
    (hA : Angle pro r1 r2 θ) (hna : NotAligned r1 r2) (h : velocities mu r1 r2 θ x = .ok (v1, v2)) :
    ∃ d V δ, deltaAnomaly x = .ok d ∧
      V = V3.norm r1 + V3.norm r2 - Real.sqrt 2 * halfA (V3.norm r1) (V3.norm r2) θ * Real.cos (d / 2) ∧ 0 < V ∧
      v1 = fgV1 mu r1 r2 (halfA (V3.norm r1) (V3.norm r2) θ) V ∧ δ ≠ 0 ∧
      v2 = fgV2 mu r1 r2 (halfA (V3.norm r1) (V3.norm r2) θ) V +
        (δ * (1 / V3.norm r2 - 1 / V3.norm r1)) • r1 := by
  obtain ⟨hG, -⟩ := hA.halfGeo hna
  have hR1 := hG.R1
  have hR2 := hG.R2
  have hgt := hG.sum_gt
  unfold velocities at h
  simp only [bind_ok, pdiv_ok, psqrt_ok, vdiv_ok, ptan_ok] at h
  obtain ⟨d, hd, _, ⟨-, rfl⟩, p, ⟨-, rfl⟩, _, ⟨-, rfl⟩, _, ⟨-, rfl⟩, _, ⟨-, rfl⟩, _, ⟨-, rfl⟩, _, ⟨-, rfl⟩,
    _, ⟨hct, rfl⟩, _, ⟨-, rfl⟩, _, ⟨-, rfl⟩, _, ⟨-, rfl⟩, _, ⟨-, rfl⟩, h⟩ := h
  have hk : 2 * Real.sqrt (V3.norm r1 * V3.norm r2) * Real.cos (θ / 2) =
      Real.sqrt 2 * halfA (V3.norm r1) (V3.norm r2) θ := by
    unfold halfA
    linear_combination -Real.sqrt (V3.norm r1 * V3.norm r2) * Real.cos (θ / 2) * Real.mul_self_sqrt (show (0:ℝ) ≤ 2 by norm_num)
  rw [hk] at h
  have hV : 0 < V3.norm r1 + V3.norm r2 - Real.sqrt 2 * halfA (V3.norm r1) (V3.norm r2) θ * Real.cos (d / 2) := by
    have h1 : |Real.sqrt 2 * halfA (V3.norm r1) (V3.norm r2) θ * Real.cos (d / 2)| < V3.norm r1 + V3.norm r2 := by
      rw [abs_mul]
      calc _ ≤ |Real.sqrt 2 * halfA (V3.norm r1) (V3.norm r2) θ| * 1 :=
            mul_le_mul_of_nonneg_left (Real.abs_cos_le_one _) (abs_nonneg _)
        _ < _ := by rw [mul_one]; exact hgt
    linarith [(abs_lt.1 h1).2]
  refine ⟨d, _, Real.sqrt (mu / (V3.norm r1 * V3.norm r2 * (1 - Real.cos θ) / (V3.norm r1 + V3.norm r2 -
    Real.sqrt 2 * halfA (V3.norm r1) (V3.norm r2) θ * Real.cos (d / 2)))) * Real.tan (θ / 2), hd, rfl, hV, ?_⟩
  generalize V3.norm r1 + V3.norm r2 - Real.sqrt 2 * halfA (V3.norm r1) (V3.norm r2) θ * Real.cos (d / 2) = V at *
  have hc1 := hA.cos_lt_one
  have hpV : V3.norm r1 * V3.norm r2 * (1 - Real.cos θ) / V = V3.norm r1 * V3.norm r2 * (1 - Real.cos θ) / V := rfl
  have hp0 : 0 < V3.norm r1 * V3.norm r2 * (1 - Real.cos θ) / V := by positivity
  have hg := g_pform hA hna hmu hV hpV
  have hf := f_pform hR1 hR2 hc1.ne' hV hpV
  have hgd := gdot_pform hR1 hR2 hc1.ne' hV hpV
  rw [hg, hf, hgd] at h
  simp only [Except.ok.injEq, Prod.mk.injEq] at h
  obtain ⟨rfl, rfl⟩ := h
  have hsin := hA.half_cos.2.2
  have htan : Real.tan (θ / 2) ≠ 0 := by
    rw [Real.tan_eq_sin_div_cos]; exact div_ne_zero hsin.ne' hct
  refine ⟨rfl, by positivity, ?_⟩
  have hq : (1 - Real.cos θ) / (V3.norm r1 * V3.norm r2 * (1 - Real.cos θ) / V) = V / (V3.norm r1 * V3.norm r2) := by
    field_simp
  have hfd : Real.sqrt (mu / (V3.norm r1 * V3.norm r2 * (1 - Real.cos θ) / V)) * Real.tan (θ / 2) =
      V * (halfA (V3.norm r1) (V3.norm r2) θ * Real.sqrt (V / mu))⁻¹ := by
    have h1 : 1 - Real.cos θ = 2 * Real.sin (θ / 2) ^ 2 := by
      have : Real.cos θ = 2 * Real.cos (θ / 2) ^ 2 - 1 := by rw [← Real.cos_two_mul]; congr 1; ring
      rw [this, Real.cos_sq']; ring
    rw [h1, Real.tan_eq_sin_div_cos, halfA, show mu / (V3.norm r1 * V3.norm r2 * (2 * Real.sin (θ / 2) ^ 2) / V) =
      V ^ 2 / (V / mu) / (2 * Real.sin (θ / 2) ^ 2 * (V3.norm r1 * V3.norm r2)) by field_simp,
      Real.sqrt_div (by positivity), Real.sqrt_div (by positivity), Real.sqrt_mul (by positivity),
      Real.sqrt_mul (by norm_num), Real.sqrt_sq hsin.le, Real.sqrt_sq hV.le]
    have : 0 < Real.sqrt (V / mu) := by positivity
    have : 0 < Real.sqrt (V3.norm r1 * V3.norm r2) := by positivity
    have : 0 < Real.sqrt 2 := by positivity
    field_simp
  rw [hq, hfd]
  unfold fgV2
  generalize (halfA (V3.norm r1) (V3.norm r2) θ * Real.sqrt (V / mu))⁻¹ = G
  generalize V3.norm r1 = R1 at *
  generalize V3.norm r2 = R2 at *
  have e : V * G * (V / (R1 * R2) - 1 / R1 - 1 / R1) - (1 - V / R2) * G * (1 - V / R1) =
      -G + V * G * (1 / R2 - 1 / R1) := by field_simp; ring
  ext <;> simp only [V3.add_x, V3.add_y, V3.add_z, V3.smul_x, V3.smul_y, V3.smul_z, V3.sub_x, V3.sub_y, V3.sub_z]
  · linear_combination r1.x * e
  · linear_combination r1.y * e
  · linear_combination r1.z * e

end Gauss

open Gauss

theorem gauss_ok_split {mu : ℝ} {r1 r2 : V3} {tof : ℝ} {M : ℤ} {pro low : Bool} {maxiter : ℕ} {atol rtol : ℝ}
    {full : Bool} {clock : ℝ} {out : Output}
    (h : gauss1809 mu r1 r2 tof M pro low maxiter atol rtol full clock = .ok out) :
    0 < mu ∧ 0 < tof ∧ 0 ≤ M ∧ NotAligned r1 r2 ∧ ∃ θ s w x n tpi v1 v2, getTransferAngle r1 r2 pro = .ok θ ∧
      getS (V3.norm r1) (V3.norm r2) θ = .ok s ∧ getW mu tof (V3.norm r1) (V3.norm r2) θ = .ok w ∧
      loop s w atol maxiter 1 1.00 = .ok (x, n) ∧ velocities mu r1 r2 θ x = .ok (v1, v2) ∧
      timePerIter full clock n = .ok tpi ∧ out = mkOutput full v1 v2 n tpi := by
  unfold gauss1809 at h
  simp only [bind_ok, raiseIf_ok, assertTransferAngleNotZero, assertTransferAngleNotPi] at h
  obtain ⟨_, hv, θ, hθ, _, h0, _, hpi, s, hs, w, hw, ⟨x, n⟩, hl, tpi, ht, ⟨v1, v2⟩, hvel, h⟩ := h
  obtain ⟨hmu, -, -, htof, hM⟩ := assertParameters_iff.1 hv
  exact ⟨hmu, htof, hM, notAligned_of_angle hθ h0 hpi, θ, s, w, x, n, tpi, v1, v2, hθ, hs, hw, hl, hvel, ht,
    (Except.ok.inj h).symm⟩

/-- **C28 (partial).** Whenever `gauss1809` returns, the returned departure velocity turns in
the requested sense and its orbit is bound or parabolic.  If it is bound, that orbit goes from
`r1` to `r2` without completing a revolution, in a time longer than the parabolic one, and
when the two positions are equally far from the centre the returned arrival velocity is the
one of that orbit.

Missing: the arrival velocity in general, for which the statement is false
(`gauss_arrival_wrong`); and a flight time related to `tof`: since the transfer found is always
slower than the parabola, no problem with a faster `tof` is solved. -/
theorem gauss_kepler_transfer_partial {mu : ℝ} {r1 r2 : V3} {tof : ℝ} {M : ℤ} {pro low : Bool} {maxiter : ℕ}
    {atol rtol : ℝ} {full : Bool} {clock : ℝ} {out : Output}
    (h : gauss1809 mu r1 r2 tof M pro low maxiter atol rtol full clock = .ok out) :
    (NotPolar r1 r2 → Sense pro r1 out.v1) ∧ len out.v1 ^ 2 / 2 - mu / len r1 ≤ 0 ∧
    (len out.v1 ^ 2 / 2 - mu / len r1 < 0 → ∃ T w2, LambertArc mu r1 r2 out.v1 w2 T 0 ∧
      parabolicTime mu r1 r2 pro < T ∧ (len r1 = len r2 → w2 = out.v2)) := by
  obtain ⟨hmu, htof, -, hna, θ, s, w, x, n, tpi, v1, v2, hθ, hs, hw, hl, hvel, -, rfl⟩ := gauss_ok_split h
  have hA := angle_of_eq hna hθ
  obtain ⟨hG, hsh⟩ := hA.halfGeo hna
  obtain ⟨d, V, δ, -, hV, hV0, rfl, -, rfl⟩ := velocities_ok hmu hA hna hvel
  have hsq : ∀ v : V3, len v ^ 2 = V3.dot v v := by
    intro v; rw [len, Real.sq_sqrt (by positivity)]; unfold V3.dot; ring
  have hr2 : Real.sqrt 2 ^ 2 = 2 := Real.sq_sqrt (by norm_num)
  have hpar := Tpar_parabolicTime (pro := pro) hmu (hA.halfA_eq hna ▸ hG)
  rw [← hA.halfA_eq hna] at hpar
  simp only [mkOutput_v1, mkOutput_v2, len_eq_norm]
  rw [← len_eq_norm (fgV1 _ _ _ _ _), hsq, fgV1_energy hmu hV0 hG]
  generalize halfA (V3.norm r1) (V3.norm r2) θ = A at *
  have hAne := hG.hA
  have hE : (V3.norm r1 + V3.norm r2 - V) ^ 2 - 2 * A ^ 2 = -(2 * A ^ 2) * (1 - Real.cos (d / 2) ^ 2) := by
    rw [hV]; linear_combination A ^ 2 * Real.cos (d / 2) ^ 2 * hr2
  have hc := Real.cos_sq_le_one (d / 2)
  rw [hE]
  have hk : mu * (-(2 * A ^ 2) * (1 - Real.cos (d / 2) ^ 2)) / (2 * A ^ 2 * V) =
      -(mu * (1 - Real.cos (d / 2) ^ 2) / V) := by field_simp
  rw [hk]
  refine ⟨fun hnp => sense_of_sign hmu hV0 hAne hnp hsh, ?_, fun hneg => ?_⟩
  · have : 0 ≤ 1 - Real.cos (d / 2) ^ 2 := by linarith
    have : 0 ≤ mu * (1 - Real.cos (d / 2) ^ 2) / V := by positivity
    linarith
  · have hc1 : Real.cos (d / 2) ^ 2 < 1 := by
      by_contra hcon
      have : 1 - Real.cos (d / 2) ^ 2 = 0 := by linarith
      rw [this] at hneg
      simp at hneg
    have hab := abs_lt.1 ((sq_lt_one_iff_abs_lt_one _).1 hc1)
    have hφ0 : 0 < Real.arccos (Real.cos (d / 2)) := Real.arccos_pos.2 hab.2
    have hφ1 : Real.arccos (Real.cos (d / 2)) < Real.pi :=
      lt_of_le_of_ne (Real.arccos_le_pi _) (fun h0 => by rw [Real.arccos_eq_pi] at h0; linarith)
    have hpath : Path mu (V3.norm r1 + V3.norm r2) A 0 V (Tell mu A V (Real.arccos (Real.cos (d / 2)))) := by
      refine Path.ell (by simpa using hφ0) (by simpa using hφ1) hV0 ?_
      rw [Real.cos_arccos hab.1.le hab.2.le, hV]; ring
    refine ⟨_, _, hpath.arc hmu hG, ?_, fun he => ?_⟩
    · have hgt := hG.sum_gt
      have hVp : 0 < V3.norm r1 + V3.norm r2 - Real.sqrt 2 * A := by linarith [(abs_lt.1 hgt).2]
      rw [← hpar, (Path.par (μ := mu) hVp rfl).time_lt_iff hmu hAne hgt hpath, hV]
      have e1 : (V3.norm r1 + V3.norm r2 - (V3.norm r1 + V3.norm r2 - Real.sqrt 2 * A * Real.cos (d / 2))) / A =
          Real.sqrt 2 * Real.cos (d / 2) := by field_simp; ring
      have e2 : (V3.norm r1 + V3.norm r2 - (V3.norm r1 + V3.norm r2 - Real.sqrt 2 * A)) / A = Real.sqrt 2 * 1 := by
        field_simp; ring
      rw [e1, e2]
      exact mul_lt_mul_of_pos_left hab.2 (by positivity)
    · rw [he, sub_self, mul_zero]
      ext <;> simp

/-- **Finding.** When the positions are at different distances from the centre, the pair of
velocities that `gauss1809` returns belongs to no Kepler orbit at all: for no time and no
number of revolutions is it a transfer.  (`f_dot` is computed with `1/r1 + 1/r1`.) -/
theorem gauss_arrival_wrong {mu : ℝ} {r1 r2 : V3} {tof : ℝ} {M : ℤ} {pro low : Bool} {maxiter : ℕ}
    {atol rtol : ℝ} {full : Bool} {clock : ℝ} {out : Output}
    (h : gauss1809 mu r1 r2 tof M pro low maxiter atol rtol full clock = .ok out) (hne : len r1 ≠ len r2)
    (T : ℝ) (N : ℕ) : ¬ LambertArc mu r1 r2 out.v1 out.v2 T N := by
  obtain ⟨hmu, htof, -, hna, θ, s, w, x, n, tpi, v1, v2, hθ, hs, hw, hl, hvel, -, rfl⟩ := gauss_ok_split h
  have hA := angle_of_eq hna hθ
  obtain ⟨d, V, δ, -, hV, hV0, rfl, hδ, rfl⟩ := velocities_ok hmu hA hna hvel
  rintro ⟨-, pos, vel, hk, p0, q0, pT, qT, -⟩
  have ha := angMom_const hk T 0
  rw [p0, q0, pT, qT] at ha
  simp only [mkOutput_v1, mkOutput_v2, fgV1, fgV2] at ha
  rw [len_eq_norm, len_eq_norm] at hne
  have hR1 := norm_pos_of_notAligned_left hna
  have hR2 := norm_pos_of_notAligned_right hna
  have hκ : δ * (1 / V3.norm r2 - 1 / V3.norm r1) ≠ 0 := by
    refine mul_ne_zero hδ (sub_ne_zero.2 fun h0 => hne ?_)
    rw [one_div, one_div] at h0
    exact (inv_injective h0).symm
  apply hna
  generalize δ * (1 / V3.norm r2 - 1 / V3.norm r1) = κ at *
  generalize (halfA (V3.norm r1) (V3.norm r2) θ * Real.sqrt (V / mu))⁻¹ = G at *
  have hx := congrArg V3.x ha
  have hy := congrArg V3.y ha
  have hz := congrArg V3.z ha
  simp only [outer, V3.add_x, V3.add_y, V3.add_z, V3.smul_x, V3.smul_y, V3.smul_z, V3.sub_x, V3.sub_y, V3.sub_z] at hx hy hz
  refine ⟨?_, ?_, ?_⟩
  · exact (mul_eq_zero.1 (by linear_combination -hx : κ * (r1.y * r2.z - r1.z * r2.y) = 0)).resolve_left hκ
  · exact (mul_eq_zero.1 (by linear_combination -hy : κ * (r1.z * r2.x - r1.x * r2.z) = 0)).resolve_left hκ
  · exact (mul_eq_zero.1 (by linear_combination -hz : κ * (r1.x * r2.y - r1.y * r2.x) = 0)).resolve_left hκ

namespace Gauss

theorem k_eq (R1 R2 θ : ℝ) : 2 * Real.sqrt (R1 * R2) * Real.cos (θ / 2) = Real.sqrt 2 * halfA R1 R2 θ := by
  unfold halfA
  linear_combination -Real.sqrt (R1 * R2) * Real.cos (θ / 2) * Real.mul_self_sqrt (show (0:ℝ) ≤ 2 by norm_num)

theorem getS_eq {R1 R2 θ : ℝ} (h1 : 0 < R1) (h2 : 0 < R2) (hA : halfA R1 R2 θ ≠ 0) :
    getS R1 R2 θ = .ok ((R1 + R2) / (2 * (Real.sqrt 2 * halfA R1 R2 θ)) - 1 / 2) := by
  have hk := k_eq R1 R2 θ
  have hne : Real.sqrt 2 * halfA R1 R2 θ ≠ 0 := mul_ne_zero (by positivity) hA
  have e : 4 * Real.sqrt (R1 * R2) * Real.cos (θ / 2) = 2 * (Real.sqrt 2 * halfA R1 R2 θ) := by rw [← hk]; ring
  unfold getS
  rw [psqrt_eq (by positivity), ok_bind, e, pdiv_eq (mul_ne_zero two_ne_zero hne), ok_bind]

theorem getW_eq {mu tof R1 R2 θ : ℝ} (h1 : 0 < R1) (h2 : 0 < R2) (hA : halfA R1 R2 θ ≠ 0) :
    getW mu tof R1 R2 θ = .ok (mu * tof ^ 2 / (Real.sqrt 2 * halfA R1 R2 θ) ^ 3) := by
  have hne : Real.sqrt 2 * halfA R1 R2 θ ≠ 0 := mul_ne_zero (by positivity) hA
  unfold getW
  rw [psqrt_eq (by positivity), ok_bind, k_eq, pdiv_eq (pow_ne_zero 3 hne)]

open Izzo in
theorem xLoop_eq (x : ℝ) : ∀ (rem j : ℕ), xLoop x rem (3 + j) (hypTerm x j) (∑ i ∈ Finset.range (j + 1), hypTerm x i) =
    ∑ i ∈ Finset.range (j + 1 + rem), hypTerm x i
  | 0, j => rfl
  | rem + 1, j => by
    have e : hypTerm x j * (2 * ((3 + j : ℕ) : ℝ)) / (2 * ((3 + j : ℕ) : ℝ) - 1) * x = hypTerm x (j + 1) := by
      rw [hypTerm_eq, hypTerm_eq, hypCoef, pow_succ]
      push_cast
      have h1 : (2 * (3 + (j : ℝ)) - 1) ≠ 0 := by
        have : (0 : ℝ) ≤ j := Nat.cast_nonneg j
        linarith
      have h2 : (5 / 2 + (j : ℝ)) ≠ 0 := by positivity
      field_simp
      ring
    rw [xLoop, e, ← Finset.sum_range_succ, show 3 + j + 1 = 3 + (j + 1) by ring, xLoop_eq x rem (j + 1)]
    congr 2
    ring

open Izzo in
/-- The truncated series of the code is a partial sum of a hypergeometric series. -/
theorem XAt_eq (x : ℝ) (n : ℕ) : XAt x n = 4 / 3 * ∑ i ∈ Finset.range (n + 1), hypTerm x i := by
  have h := xLoop_eq x n 0
  rw [XAt, show (1.0 : ℝ) = hypTerm x 0 by rw [hypTerm_eq, hypCoef]; norm_num]
  rw [zero_add, Finset.sum_range_one, add_zero] at h
  rw [h, add_comm 1 n]

open Izzo in
theorem XAt_tendsto {x : ℝ} (hx : |x| < 1) :
    Filter.Tendsto (fun n => XAt x n) Filter.atTop (nhds (4 / 3 * hypF x)) := by
  have h := ((summable_hypTerm hx).hasSum.tendsto_sum_nat.comp (Filter.tendsto_add_atTop_nat 1)).const_mul (4 / 3)
  exact h.congr fun n => (XAt_eq x n).symm

end Gauss

/-- The transfer belonging to `x`: its parameter is `2 k (s + x)`, and its time satisfies `T |y| = tof |1 + X (s + x)|`. -/
theorem Gauss.path_time {mu tof : ℝ} (hmu : 0 < mu) (htof : 0 < tof) {r1 r2 : V3} (hna : NotAligned r1 r2)
    {pro : Bool} {θ s w x y : ℝ} (hθ : getTransferAngle r1 r2 pro = .ok θ)
    (hs : getS (V3.norm r1) (V3.norm r2) θ = .ok s) (hw : getW mu tof (V3.norm r1) (V3.norm r2) θ = .ok w)
    (hx : firstEquation y s w = .ok x) (hx1 : |x| < 1) :
    y ≠ 0 ∧ ∃ T, Path mu (V3.norm r1 + V3.norm r2) (halfA (V3.norm r1) (V3.norm r2) θ) 0
      (2 * (Real.sqrt 2 * halfA (V3.norm r1) (V3.norm r2) θ) * (s + x)) T ∧
      T * |y| = tof * |1 + 4 / 3 * Izzo.hypF x * (s + x)| := by
  have hA := angle_of_eq hna hθ
  obtain ⟨hG, -⟩ := hA.halfGeo hna
  have hR1 := hG.R1
  have hR2 := hG.R2
  have hAne := hG.hA
  rw [getS_eq hR1 hR2 hAne] at hs
  rw [getW_eq hR1 hR2 hAne] at hw
  generalize halfA (V3.norm r1) (V3.norm r2) θ = A at *
  have hs' := Except.ok.inj hs
  have hw' := Except.ok.inj hw
  unfold firstEquation at hx
  simp only [bind_ok, pdiv_ok] at hx
  obtain ⟨q, ⟨hy2, rfl⟩, hx⟩ := hx
  have hy : y ≠ 0 := fun h0 => hy2 (by rw [h0]; ring)
  have hx' := Except.ok.inj hx
  clear hs hw hx
  set k := Real.sqrt 2 * A with hk
  have hk0 : k ≠ 0 := mul_ne_zero (by positivity) hAne
  have hk2 : k ^ 2 = 2 * A ^ 2 := by rw [hk, mul_pow, Real.sq_sqrt (by norm_num)]
  have hr2 : Real.sqrt 2 ≠ 0 := by positivity
  -- the variable V
  have hV1 : V3.norm r1 + V3.norm r2 - k * (1 - 2 * x) = 2 * k * (s + x) := by
    rw [← hs']; field_simp; ring
  have hV2 : 2 * k * (s + x) = 2 * mu * tof ^ 2 / (k ^ 2 * y ^ 2) := by
    rw [show s + x = w / y ^ 2 by linarith, ← hw']; field_simp
  have hV0 : 0 < 2 * k * (s + x) := by
    rw [hV2]
    positivity
  have hVk : 2 * k * (s + x) = 2 * Real.sqrt 2 * A * (s + x) := by rw [hk]; ring
  obtain ⟨V, hV⟩ : ∃ V, V = 2 * k * (s + x) := ⟨_, rfl⟩
  have htofy : Real.sqrt (V / mu) * |A| * |y| = tof := by
    have e : V / mu * (A ^ 2 * y ^ 2) = tof ^ 2 := by
      rw [hV, hV2, hk2]; field_simp
    rw [mul_assoc, ← abs_mul, ← Real.sqrt_sq_eq_abs, ← Real.sqrt_mul (by rw [hV]; positivity), mul_pow, e,
      Real.sqrt_sq htof.le]
  obtain ⟨T, hpath, hT⟩ : ∃ T, Path mu (V3.norm r1 + V3.norm r2) A 0 V T ∧
      T = Real.sqrt (V / mu) * (A * (1 + 4 / 3 * Izzo.hypF x * (s + x))) := by
    have hVp : 0 < V := hV ▸ hV0
    rcases lt_trichotomy x 0 with h0 | h0 | h0
    · have hc1 : 1 < 1 - 2 * x := by linarith
      have hcosh : Real.cosh (Real.arcosh (1 - 2 * x)) = 1 - 2 * x := Real.cosh_arcosh hc1.le
      have hφ : 0 < Real.arcosh (1 - 2 * x) := Real.arcosh_pos hc1
      generalize Real.arcosh (1 - 2 * x) = φ at *
      refine ⟨_, Path.hyp hφ hVp (by rw [hcosh, hV, ← hV1]), ?_⟩
      have hsh := Real.sinh_pos_iff.2 hφ
      have hF := Izzo.hypF_sinh hφ.le (by rw [hcosh]; linarith [(abs_lt.1 hx1).1])
      rw [hcosh, show (1 - (1 - 2 * x)) / 2 = x by ring] at hF
      unfold Thyp
      rw [show Real.sinh (2 * φ) - 2 * φ = 4 / 3 * (Real.sinh φ ^ 3 * Izzo.hypF x) by rw [hF]; ring]
      congr 1
      rw [show V * (4 / 3 * (Real.sinh φ ^ 3 * Izzo.hypF x)) / (2 * Real.sqrt 2 * Real.sinh φ ^ 3) =
        V / (2 * Real.sqrt 2) * (4 / 3 * Izzo.hypF x) by field_simp, hV, hVk]
      field_simp
      ring
    · subst h0
      refine ⟨_, Path.par hVp (by rw [hV, ← hV1]; ring), ?_⟩
      rw [Izzo.hypF_zero, Tpar]
      congr 1
      rw [hV, hVk]
      linear_combination 2 * A * (s + 0) / 3 * Real.mul_self_sqrt (show (0:ℝ) ≤ 2 by norm_num)
    · have hab := abs_lt.1 hx1
      have hcos : Real.cos (Real.arccos (1 - 2 * x)) = 1 - 2 * x := Real.cos_arccos (by linarith) (by linarith)
      have hφ0 : 0 < Real.arccos (1 - 2 * x) := Real.arccos_pos.2 (by linarith)
      have hφ1 : Real.arccos (1 - 2 * x) < Real.pi :=
        lt_of_le_of_ne (Real.arccos_le_pi _) (fun h0 => by rw [Real.arccos_eq_pi] at h0; linarith)
      generalize Real.arccos (1 - 2 * x) = φ at *
      refine ⟨_, Path.ell (M := 0) (by simpa using hφ0) (by simpa using hφ1) hVp (by rw [hcos, hV, ← hV1]; ring), ?_⟩
      have hsh := Real.sin_pos_of_pos_of_lt_pi hφ0 hφ1
      have hF := Izzo.hypF_sin hφ0.le hφ1
      rw [hcos, show (1 - (1 - 2 * x)) / 2 = x by ring] at hF
      unfold Tell
      rw [abs_of_pos hsh, show 2 * φ - Real.sin (2 * φ) = 4 / 3 * (Real.sin φ ^ 3 * Izzo.hypF x) by rw [hF]; ring]
      congr 1
      rw [show V * (4 / 3 * (Real.sin φ ^ 3 * Izzo.hypF x)) / (2 * Real.sqrt 2 * Real.sin φ ^ 3) =
        V / (2 * Real.sqrt 2) * (4 / 3 * Izzo.hypF x) by field_simp, hV, hVk]
      field_simp
      ring
  have hVp : 0 < V := hV ▸ hV0
  have hTabs : T * |y| = tof * |1 + 4 / 3 * Izzo.hypF x * (s + x)| := by
    have hT0 : 0 < T := (hpath.arc hmu hG).1
    have : T = Real.sqrt (V / mu) * (|A| * |1 + 4 / 3 * Izzo.hypF x * (s + x)|) := by
      rw [← abs_of_pos hT0, hT, abs_mul, abs_of_nonneg (Real.sqrt_nonneg _), abs_mul]
    rw [← htofy, this]; ring
  exact ⟨hy, T, hV ▸ hpath, hTabs⟩

/-- **C49.** Gauss's two equations are the right ones.  For every `x` with `|x| < 1`, the
series of `_X_at_x` converges as its order grows, to some `X`; and if `_gauss_first_equation`
yields this `x` from `y`, then the zero-revolution transfer of the requested sense belonging to
`x` takes the time `T` with `T * |y| = tof * |1 + X * (s + x)|`.  So when the
second equation holds without truncation (`y = 1 + X * (s + x)`) the time of flight is met. -/
theorem gauss_equations {mu tof : ℝ} (hmu : 0 < mu) (htof : 0 < tof) {r1 r2 : V3} (hna : NotAligned r1 r2)
    {pro : Bool} {θ s w x y : ℝ} (hθ : getTransferAngle r1 r2 pro = .ok θ)
    (hs : getS (V3.norm r1) (V3.norm r2) θ = .ok s) (hw : getW mu tof (V3.norm r1) (V3.norm r2) θ = .ok w)
    (hx : firstEquation y s w = .ok x) (hx1 : |x| < 1) :
    ∃ X T v1 v2, Filter.Tendsto (fun n => XAt x n) Filter.atTop (nhds X) ∧ LambertArc mu r1 r2 v1 v2 T 0 ∧
      (NotPolar r1 r2 → Sense pro r1 v1) ∧ T * |y| = tof * |1 + X * (s + x)| ∧
      (y = 1 + X * (s + x) → T = tof) := by
  have hA := angle_of_eq hna hθ
  obtain ⟨hG, hsh⟩ := hA.halfGeo hna
  obtain ⟨hy, T, hpath, hTabs⟩ := Gauss.path_time hmu htof hna hθ hs hw hx hx1
  refine ⟨4 / 3 * Izzo.hypF x, T, _, _, XAt_tendsto hx1, hpath.arc hmu hG,
    fun hnp => sense_of_sign hmu hpath.V_pos hG.hA hnp hsh, hTabs, fun he => ?_⟩
  rw [← he] at hTabs
  exact mul_right_cancel₀ (abs_pos.2 hy).ne' hTabs

/-- For every geometry, sense and `x` in `(0, 1)` there are a time of flight and a tolerance
for which `gauss1809` returns at the first pass. -/
theorem gauss_returns {mu : ℝ} (hmu : 0 < mu) {r1 r2 : V3} (hna : NotAligned r1 r2) (pro low : Bool) (m : ℕ)
    (rtol : ℝ) (full : Bool) (clock : ℝ) {x : ℝ} (hx0 : 0 < x) (hx1 : x < 1) :
    ∃ tof atol out, 0 < tof ∧ gauss1809 mu r1 r2 tof 0 pro low (m + 1) atol rtol full clock = .ok out ∧
      len out.v1 ^ 2 / 2 - mu / len r1 < 0 := by
  have hθ := transferAngle_eq hna pro
  generalize (if ShortWay pro r1 r2 then _ else _ : ℝ) = θ at hθ
  have hA := angle_of_eq hna hθ
  obtain ⟨hG, -⟩ := hA.halfGeo hna
  have hR1 := hG.R1
  have hR2 := hG.R2
  have hAne := hG.hA
  have hgt := hG.sum_gt
  have hc := hA.cos_lt_one
  have hk0 : Real.sqrt 2 * halfA (V3.norm r1) (V3.norm r2) θ ≠ 0 := mul_ne_zero (by positivity) hAne
  obtain ⟨k, hk⟩ : ∃ k, k = Real.sqrt 2 * halfA (V3.norm r1) (V3.norm r2) θ := ⟨_, rfl⟩
  obtain ⟨s, hs⟩ : ∃ s, s = (V3.norm r1 + V3.norm r2) / (2 * k) - 1 / 2 := ⟨_, rfl⟩
  rw [← hk] at hk0 hgt
  have hVpos : 0 < V3.norm r1 + V3.norm r2 - k * (1 - 2 * x) := by
    have : |k * (1 - 2 * x)| ≤ |k| := by
      rw [abs_mul]
      exact mul_le_of_le_one_right (abs_nonneg _) (abs_le.2 ⟨by linarith, by linarith⟩)
    linarith [le_abs_self (k * (1 - 2 * x))]
  have hks : V3.norm r1 + V3.norm r2 - k * (1 - 2 * x) = 2 * k * (s + x) := by rw [hs]; field_simp; ring
  have hw0 : 0 < k ^ 3 * (s + x) / mu := by
    have : 0 < k * (s + x) := by linarith
    rw [show k ^ 3 * (s + x) = k ^ 2 * (k * (s + x)) by ring]
    positivity
  have hcos : Real.cos (2 * Real.arccos (1 - 2 * x) / 2) = 1 - 2 * x := by
    rw [mul_div_cancel_left₀ _ (two_ne_zero' ℝ), Real.cos_arccos (by linarith) (by linarith)]
  have hd : deltaAnomaly x = .ok (2 * Real.arccos (1 - 2 * x)) := by
    rw [deltaAnomaly, if_pos hx0, pacos_eq (by linarith) (by linarith), ok_bind]
  have hp : 0 < V3.norm r1 * V3.norm r2 * (1 - Real.cos θ) / (V3.norm r1 + V3.norm r2 - k * (1 - 2 * x)) := by
    have : 0 < 1 - Real.cos θ := by linarith
    positivity
  have hg := g_pform hA hna hmu hVpos rfl
  have hg0 : V3.norm r1 * V3.norm r2 * Real.sin θ / Real.sqrt (mu * (V3.norm r1 * V3.norm r2 * (1 - Real.cos θ) /
      (V3.norm r1 + V3.norm r2 - k * (1 - 2 * x)))) ≠ 0 := by
    rw [hg]; exact mul_ne_zero hAne (by positivity)
  have hvel : ∃ v, velocities mu r1 r2 θ x = .ok v := by
    unfold velocities
    rw [hd]
    simp only [ok_bind]
    rw [psqrt_eq (by positivity), ok_bind, k_eq, hcos, ← hk, pdiv_eq hVpos.ne', ok_bind, pdiv_eq hp.ne', ok_bind,
      psqrt_eq (by positivity), ok_bind, pdiv_eq (by positivity), ok_bind, pdiv_eq hp.ne', ok_bind,
      psqrt_eq (by positivity), ok_bind, ptan_ok.2 ⟨hA.half_cos.1, rfl⟩, ok_bind, pdiv_eq hp.ne', ok_bind,
      pdiv_eq hR1.ne', ok_bind, pdiv_eq hp.ne', ok_bind, vdiv_eq hg0, ok_bind]
    exact ⟨_, rfl⟩
  obtain ⟨⟨v1, v2⟩, hvel⟩ := hvel
  obtain ⟨tpi, htpi⟩ := timePerIter_pos full clock (le_refl 1)
  refine ⟨Real.sqrt (k ^ 3 * (s + x) / mu), |secondEquation x s - 1|, mkOutput full v1 v2 1 tpi,
    Real.sqrt_pos.2 hw0, ?_, ?_⟩
  · unfold gauss1809
    rw [assertParameters_eq hmu (by rintro rfl; simp [NotAligned] at hna)
      (by rintro rfl; simp [NotAligned, mul_comm] at hna) (Real.sqrt_pos.2 hw0) le_rfl, ok_bind, hθ, ok_bind]
    simp only [assertTransferAngleNotZero, assertTransferAngleNotPi]
    rw [raiseIf_neg _ hA.pos.ne', ok_bind, raiseIf_neg _ hA.ne_pi, ok_bind, getS_eq hR1 hR2 hAne, ok_bind,
      getW_eq hR1 hR2 hAne, ok_bind, ← hk, ← hs, Real.sq_sqrt hw0.le]
    have e : mu * (k ^ 3 * (s + x) / mu) / k ^ 3 = s + x := by field_simp
    have h1 : loop s (s + x) |secondEquation x s - 1| (m + 1) 1 1.00 = .ok (x, 1) := by
      rw [loop, firstEquation, show (1.00 : ℝ) = 1 by norm_num, pdiv_eq (by norm_num), ok_bind,
        show (s + x) / 1 ^ 2 - s = x by ring, ok_bind]
      exact if_pos le_rfl
    rw [e, h1]
    simp only [ok_bind]
    rw [htpi, ok_bind, hvel]
    rfl
  · obtain ⟨d, V, δ, hd', hV, hV0, rfl, -, -⟩ := velocities_ok hmu hA hna hvel
    rw [hd] at hd'
    have hd'' := Except.ok.inj hd'
    rw [← hd'', hcos, ← hk] at hV
    have hsq : ∀ v : V3, len v ^ 2 = V3.dot v v := by
      intro v; rw [len, Real.sq_sqrt (by positivity)]; unfold V3.dot; ring
    rw [mkOutput_v1, len_eq_norm r1, hsq, fgV1_energy hmu hV0 hG]
    have hk2 : k ^ 2 = 2 * halfA (V3.norm r1) (V3.norm r2) θ ^ 2 := by rw [hk, mul_pow, Real.sq_sqrt (by norm_num)]
    rw [hV, ← hk2, show (V3.norm r1 + V3.norm r2 - (V3.norm r1 + V3.norm r2 - k * (1 - 2 * x))) ^ 2 - k ^ 2 =
      -(k ^ 2 * (4 * (x * (1 - x)))) by ring]
    have : 0 < x * (1 - x) := mul_pos hx0 (by linarith)
    rw [mul_neg, neg_div]
    have : 0 < mu * (k ^ 2 * (4 * (x * (1 - x)))) / (k ^ 2 * (V3.norm r1 + V3.norm r2 - k * (1 - 2 * x))) := by
      positivity
    linarith

/-- **Finding.** If the iteration ends exactly at the parabola (`x = 0`), the change of anomaly
is never assigned and `gauss1809` fails with an unbound variable. -/
theorem gauss_parabola_unbound {mu : ℝ} {r1 r2 : V3} {tof : ℝ} {M : ℤ} {pro : Bool} {θ s w atol : ℝ} {maxiter n : ℕ}
    (hv : assertParametersAreValid mu r1 r2 tof M = .ok ()) (hna : NotAligned r1 r2)
    (hθ : getTransferAngle r1 r2 pro = .ok θ) (hs : getS (V3.norm r1) (V3.norm r2) θ = .ok s)
    (hw : getW mu tof (V3.norm r1) (V3.norm r2) θ = .ok w) (hl : loop s w atol maxiter 1 1.00 = .ok (0, n))
    (low : Bool) (rtol : ℝ) (full : Bool) (clock : ℝ) :
    gauss1809 mu r1 r2 tof M pro low maxiter atol rtol full clock = .error (.unboundLocal "deltaAnomaly") := by
  have hA := angle_of_eq hna hθ
  obtain ⟨tpi, htpi⟩ := timePerIter_pos full clock (loop_ok _ _ hl).1
  unfold gauss1809
  rw [hv, ok_bind, hθ, ok_bind]
  simp only [assertTransferAngleNotZero, assertTransferAngleNotPi]
  rw [raiseIf_neg _ hA.pos.ne', ok_bind, raiseIf_neg _ hA.ne_pi, ok_bind, hs, ok_bind, hw, ok_bind, hl]
  simp only [ok_bind]
  rw [htpi, ok_bind]
  simp [velocities, deltaAnomaly]

/-- The hypotheses of the first two theorems are satisfiable, with unequal distances. -/
example : ∃ tof atol out, 0 < tof ∧
    gauss1809 1 ⟨1, 0, 0⟩ ⟨0, 2, 0⟩ tof 0 true true 250 atol 1e-7 false 0 = .ok out ∧
    len out.v1 ^ 2 / 2 - 1 / len ⟨1, 0, 0⟩ < 0 ∧ (∀ T N, ¬ LambertArc 1 ⟨1, 0, 0⟩ ⟨0, 2, 0⟩ out.v1 out.v2 T N) := by
  obtain ⟨tof, atol, out, h1, h2, h3⟩ := gauss_returns (mu := 1) one_pos (r1 := ⟨1, 0, 0⟩) (r2 := ⟨0, 2, 0⟩)
    (by simp [NotAligned]) true true 249 1e-7 false 0 (x := 1 / 2) (by norm_num) (by norm_num)
  refine ⟨tof, atol, out, h1, h2, h3, gauss_arrival_wrong h2 ?_⟩
  intro h
  have := congrArg (· ^ 2) h
  simp only [len_sq] at this
  norm_num at this

/-- The hypotheses of `gauss_equations` are satisfiable with each sign of `x`: every `x` in
`(-s, 1)` arises for a suitable time of flight, here from `y = 1`. -/
example {s x : ℝ} : firstEquation 1 s (s + x) = .ok x := by
  rw [firstEquation, pdiv_eq (by norm_num), ok_bind]; congr 1; ring

end Lamberthub
