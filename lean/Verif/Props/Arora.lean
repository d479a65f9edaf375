import Verif.Proofs.AroraSeries
import Verif.Props.Vallado
import Verif.Props.Der

/-! # C22: what `arora2013` returns is a true Kepler transfer -/

set_option autoImplicit false

namespace Lamberthub
open Spec LC Arora

namespace Arora

/-- The sign used by l.96. -/
noncomputable def dsign (pro : Bool) (r1 r2 : V3) : ℝ := if ShortWay pro r1 r2 then 1 else -1

section
variable {mu : ℝ} {r1 r2 : V3}

noncomputable def tauOf (pro : Bool) (r1 r2 : V3) : ℝ := signedA pro r1 r2 / (V3.norm r1 + V3.norm r2)
noncomputable def Tref (mu : ℝ) (r1 : V3) : ℝ := Real.sqrt (V3.norm r1 ^ 3 / mu)
noncomputable def Shat (r1 r2 : V3) : ℝ := Real.sqrt ((1 + V3.norm r2 / V3.norm r1) ^ 3)
noncomputable def tofPOf (pro : Bool) (r1 r2 : V3) : ℝ :=
  Shat r1 r2 * Real.sqrt (1 - Real.sqrt 2 * tauOf pro r1 r2) * (tauOf pro r1 r2 + Real.sqrt 2) / 3

theorem hat_norm_left (h : 0 < V3.norm r1) : V3.norm ((V3.norm r1)⁻¹ • r1) = 1 := by
  rw [norm_smul, abs_of_pos (by positivity), inv_mul_cancel₀ h.ne']

theorem hat_norm_right (h : 0 < V3.norm r1) : V3.norm ((V3.norm r1)⁻¹ • r2) = V3.norm r2 / V3.norm r1 := by
  rw [norm_smul, abs_of_pos (by positivity), inv_mul_eq_div]

theorem tau_lt (hna : NotAligned r1 r2) (pro : Bool) : |Real.sqrt 2 * tauOf pro r1 r2| < 1 := by
  have hG := (getA_signedA (angle_of_eq hna (transferAngle_eq hna pro)) hna).2
  have hP : 0 < V3.norm r1 + V3.norm r2 := add_pos hG.R1 hG.R2
  have h := hG.A2_lt
  rw [← sq_lt_one_iff_abs_lt_one, mul_pow, sqrt2_sq, tauOf, div_pow, ← mul_div_assoc, div_lt_one (by positivity)]
  nlinarith [sq_nonneg (V3.norm r1 - V3.norm r2)]

/-- For valid non-aligned input the preliminary computations succeed. -/
theorem arora_eq {minimize : Minimizer} {brentq : Brent} {tof : ℝ} {M : ℤ} {pro low : Bool} {maxiter : ℕ}
    {atol rtol : ℝ} {fo : Bool} {clock : ℝ} (hmu : 0 < mu) (hna : NotAligned r1 r2) (htof : 0 < tof) (hM : 0 ≤ M) :
    arora2013 minimize brentq mu r1 r2 tof M pro low maxiter atol rtol fo clock = (do
      let k0 ← initialGuess minimize brentq (tof / Tref mu r1) (tofPOf pro r1 r2) (tauOf pro r1 r2) (Shat r1 r2)
        (dsign pro r1 r2) M low atol rtol
      let (k, numiter) ← iterate (tof / Tref mu r1) (tofPOf pro r1 r2) (tauOf pro r1 r2) (Shat r1 r2)
        (dsign pro r1 r2) M atol maxiter 0 k0
      let tpi ← timePerIter fo clock numiter
      let (v1, v2) ← reconstruct k (tauOf pro r1 r2) (Shat r1 r2) 1 (V3.norm r1) (Tref mu r1)
        ((V3.norm r1)⁻¹ • r1) ((V3.norm r1)⁻¹ • r2) 1 (V3.norm r2 / V3.norm r1)
      .ok (mkOutput fo v1 v2 numiter tpi)) := by
  have hR1 := norm_pos_of_notAligned_left hna
  have hR2 := norm_pos_of_notAligned_right hna
  have h12 : r1 ≠ r2 := by rintro rfl; exact hna ⟨by ring, by ring, by ring⟩
  have hψ := transferAngle_eq hna pro
  have hA := angle_of_eq hna hψ
  generalize (if ShortWay pro r1 r2 then theta0 r1 r2 else 2 * Real.pi - theta0 r1 r2) = θ at *
  have hT : 0 < Tref mu r1 := by unfold Tref; positivity
  have hT2 : Tref mu r1 ^ 2 = V3.norm r1 ^ 3 / mu := Real.sq_sqrt (by positivity)
  have hmuHat : mu * (Tref mu r1 ^ 2 / V3.norm r1 ^ 3) = 1 := by rw [hT2]; field_simp
  have hd : (if θ ≤ Real.pi then (1 : ℝ) else -1) = dsign pro r1 r2 := by
    unfold dsign
    have : θ ≤ Real.pi ↔ ShortWay pro r1 r2 := by
      rw [← hA.short]; exact ⟨fun h => lt_of_le_of_ne h hA.ne_pi, le_of_lt⟩
    simp only [this]
  have hc : 0 ≤ 1 + Real.cos θ := by linarith [Real.neg_one_le_cos θ]
  have hroot : Real.sqrt (1 * (V3.norm r2 / V3.norm r1) * (1 + Real.cos θ)) =
      Real.sqrt (V3.norm r1 * V3.norm r2 + V3.dot r1 r2) / V3.norm r1 := by
    rw [← hA.cos_eq, show 1 * (V3.norm r2 / V3.norm r1) * (1 + Real.cos θ) =
      (V3.norm r1 * V3.norm r2 + V3.norm r1 * V3.norm r2 * Real.cos θ) / V3.norm r1 ^ 2 by field_simp,
      Real.sqrt_div (by nlinarith [mul_pos hR1 hR2]), Real.sqrt_sq hR1.le]
  have htau : dsign pro r1 r2 * Real.sqrt (1 * (V3.norm r2 / V3.norm r1) * (1 + Real.cos θ)) /
      (1 + V3.norm r2 / V3.norm r1) = tauOf pro r1 r2 := by
    rw [hroot]
    unfold tauOf signedA dsign
    generalize (if ShortWay pro r1 r2 then (1 : ℝ) else -1) = e
    field_simp
  have hlt := (abs_lt.1 (tau_lt hna pro)).2
  unfold arora2013
  simp only [assertParameters_eq hmu (norm_pos_iff.1 hR1) h12 htof hM, ok_bind]
  simp only [vdiv_eq hR1.ne', vdiv_eq hR2.ne', ok_bind, hψ]
  simp only [assertTransferAngleNotZero]
  rw [raiseIf_neg _ hA.pos.ne', ok_bind, pdiv_eq hmu.ne', ok_bind, psqrt_eq (by positivity), ok_bind]
  simp only [hat_norm_left hR1, hat_norm_right hR1, hd]
  rw [show Real.sqrt (V3.norm r1 ^ 3 / mu) = Tref mu r1 from rfl, pdiv_eq hT.ne', ok_bind,
    pdiv_eq (by positivity), ok_bind, hmuHat, pdiv_eq one_ne_zero, ok_bind, div_one, psqrt_eq (by positivity), ok_bind,
    psqrt_eq (by positivity), ok_bind, pdiv_eq (by positivity), ok_bind, htau,
    psqrt_eq (by linarith), ok_bind]
  rfl

theorem reconstruct_eq {pro : Bool} (hmu : 0 < mu) (hna : NotAligned r1 r2) {k V : ℝ}
    (hV : V = V3.norm r1 + V3.norm r2 - k * signedA pro r1 r2) (hV0 : 0 < V) :
    reconstruct k (tauOf pro r1 r2) (Shat r1 r2) 1 (V3.norm r1) (Tref mu r1)
        ((V3.norm r1)⁻¹ • r1) ((V3.norm r1)⁻¹ • r2) 1 (V3.norm r2 / V3.norm r1) =
      .ok (fgV1 mu r1 r2 (signedA pro r1 r2) V, fgV2 mu r1 r2 (signedA pro r1 r2) V) := by
  have hG := (getA_signedA (angle_of_eq hna (transferAngle_eq hna pro)) hna).2
  have hR1 := hG.R1
  have hR2 := hG.R2
  have hP : 0 < V3.norm r1 + V3.norm r2 := add_pos hR1 hR2
  have hT : 0 < Tref mu r1 := by unfold Tref; positivity
  have hA0 := hG.hA
  have hu : 1 - k * tauOf pro r1 r2 = V / (V3.norm r1 + V3.norm r2) := by
    unfold tauOf; rw [hV]; field_simp
  have hg : Tref mu r1 * (Shat r1 r2 * tauOf pro r1 r2 * Real.sqrt (V / (V3.norm r1 + V3.norm r2))) =
      signedA pro r1 r2 * Real.sqrt (V / mu) := by
    unfold Tref Shat
    have : Real.sqrt (V3.norm r1 ^ 3 / mu) * Real.sqrt ((1 + V3.norm r2 / V3.norm r1) ^ 3) *
        Real.sqrt (V / (V3.norm r1 + V3.norm r2)) = Real.sqrt (V / mu) * (V3.norm r1 + V3.norm r2) := by
      rw [← Real.sqrt_mul (by positivity), ← Real.sqrt_mul (by positivity),
        show V3.norm r1 ^ 3 / mu * (1 + V3.norm r2 / V3.norm r1) ^ 3 * (V / (V3.norm r1 + V3.norm r2)) =
          V / mu * (V3.norm r1 + V3.norm r2) ^ 2 by field_simp,
        Real.sqrt_mul (by positivity), Real.sqrt_sq hP.le]
    rw [show ∀ a b c t : ℝ, a * (b * t * c) = (a * b * c) * t from fun a b c t => by ring, this, tauOf]
    field_simp
  have hgne : Shat r1 r2 * tauOf pro r1 r2 * Real.sqrt (V / (V3.norm r1 + V3.norm r2)) ≠ 0 := by
    intro h0
    rw [h0, mul_zero] at hg
    exact mul_ne_zero hA0 (by positivity) hg.symm
  unfold reconstruct
  simp only [hu, mul_one]
  rw [pdiv_eq one_ne_zero, ok_bind, psqrt_eq (by positivity), ok_bind, pdiv_eq (by positivity), ok_bind, vdiv_eq hgne,
    ok_bind, pdiv_eq hT.ne', ok_bind, vdiv_eq hgne, ok_bind]
  have key : ∀ x y : ℝ, V3.norm r1 / Tref mu r1 * ((Shat r1 r2 * tauOf pro r1 r2 *
      Real.sqrt (V / (V3.norm r1 + V3.norm r2)))⁻¹ * ((V3.norm r1)⁻¹ * x - y * (V3.norm r1)⁻¹)) =
      (signedA pro r1 r2 * Real.sqrt (V / mu))⁻¹ * (x - y) := by
    intro x y
    rw [← hg]
    field_simp
  have ef : V / (V3.norm r1 + V3.norm r2) * (1 + V3.norm r2 / V3.norm r1) / 1 = V / V3.norm r1 := by
    field_simp
  have eg : V / (V3.norm r1 + V3.norm r2) * (1 + V3.norm r2 / V3.norm r1) / (V3.norm r2 / V3.norm r1) =
      V / V3.norm r2 := by field_simp
  rw [ef, eg]
  congr 1
  refine Prod.ext ?_ ?_
  · unfold fgV1
    refine V3.ext ?_ ?_ ?_
    · simp only [V3.smul_x, V3.sub_x]; rw [← key]; ring
    · simp only [V3.smul_y, V3.sub_y]; rw [← key]; ring
    · simp only [V3.smul_z, V3.sub_z]; rw [← key]; ring
  · unfold fgV2
    refine V3.ext ?_ ?_ ?_
    · simp only [V3.smul_x, V3.sub_x]; rw [← key]; ring
    · simp only [V3.smul_y, V3.sub_y]; rw [← key]; ring
    · simp only [V3.smul_z, V3.sub_z]; rw [← key]; ring

/-- The bounds keep `k` on the elliptic side when the time exceeds the parabolic one. -/
theorem boundK_le {k tof tofP tau d k' : ℝ} (h : boundK k tof tofP tau d = .ok k') (ht : tofP < tof) :
    k' ≤ Real.sqrt 2 := by
  unfold boundK at h
  simp only [] at h
  rw [if_neg (fun hh => by linarith [hh.1])] at h
  rw [← Except.ok.inj h]
  generalize (if (if k < -Real.sqrt 2 then -Real.sqrt 2 + 1e-12 else k) < Real.sqrt 2 ∧ tof < tofP then
    Real.sqrt 2 + 1e-12 else if k < -Real.sqrt 2 then -Real.sqrt 2 + 1e-12 else k) = k2
  split
  · norm_num
  · rename_i hh
    by_contra hlt
    push Not at hlt
    exact hh ⟨hlt, ht⟩

/-- What the iteration has checked when it stops. -/
theorem iterate_ok {tof tofP tau S d atol : ℝ} {M : ℤ} : ∀ {m n : ℕ} {k k' : ℝ} {n' : ℕ},
    iterate tof tofP tau S d M atol m n k = .ok (k', n') →
    tau ≠ 0 ∧ 1 ≤ n' ∧ (∃ W, getW k' M = .ok W ∧ 0 ≤ 1 - k' * tau ∧
      |tof - S * Real.sqrt (1 - k' * tau) * (tau + (1 - k' * tau) * W)| ≤ atol) ∧
      (tofP < tof → k ≤ Real.sqrt 2 → k' ≤ Real.sqrt 2)
  | 0, n, k, k', n', h => by simp [iterate] at h
  | m + 1, n, k, k', n', h => by
    rw [iterate] at h
    simp only [bind_ok, pdiv_ok, getTOF, psqrt_ok] at h
    obtain ⟨W, hW, Wp, -, Wpp, -, c, ⟨ht, -⟩, tofc, ⟨q, ⟨hq, rfl⟩, he⟩, h⟩ := h
    have he := (Except.ok.inj he).symm
    split at h
    · rename_i hle
      obtain ⟨rfl, rfl⟩ := Prod.mk.inj (Except.ok.inj h)
      exact ⟨ht, by omega, ⟨W, hW, hq, by rw [← he]; exact hle⟩, fun _ h => h⟩
    · simp only [bind_ok] at h
      obtain ⟨_, -, _, -, _, -, _, -, k2, hk2, h⟩ := h
      obtain ⟨h1, h2, h3, h4⟩ := iterate_ok h
      exact ⟨h1, h2, h3, fun htp _ => h4 htp (boundK_le hk2 htp)⟩

/-- The multi-revolution guess lies on the elliptic side. -/
theorem multirev_le {minimize : Minimizer} (hmin : MinimizerSpec minimize) {brentq : Brent} (hb : BrentSpec brentq)
    {tof tau S : ℝ} {M : ℤ} {low : Bool} {atol rtol k : ℝ}
    (h : getMultirevKGuess minimize brentq tof tau S M low atol rtol = .ok k) : k ≤ Real.sqrt 2 := by
  unfold getMultirevKGuess at h
  simp only [bind_ok, raiseIf_ok] at h
  obtain ⟨⟨kMin, tofMin, ok⟩, hm, _, -, _, -, h⟩ := h
  have hl := lt_sqrt2
  have hmem := hmin (by norm_num at hl ⊢; linarith) hm
  have hle : kMin ≤ Real.sqrt 2 - 1e-8 := hmem.2
  have hge : -Real.sqrt 2 + 1e-8 ≤ kMin := hmem.1
  split at h
  · rw [← Except.ok.inj h]; norm_num at hle; linarith
  · simp only [bind_ok] at h
    obtain ⟨⟨x, n⟩, hbr, h⟩ := h
    have hx := Except.ok.inj h
    simp only [] at hx
    subst hx
    cases low
    · simp only [Bool.false_eq_true, if_false] at hbr
      have := (hb.mem hge hbr).1.2
      norm_num at hle; linarith
    · simp only [if_true] at hbr
      have := (hb.mem hle hbr).1.2
      norm_num at this; linarith

/-- A run that returns has non-aligned positions. -/
theorem notAligned_of_ok {minimize : Minimizer} {brentq : Brent} {tof : ℝ} {M : ℤ} {pro low : Bool} {maxiter : ℕ}
    {atol rtol : ℝ} {fo : Bool} {clock : ℝ} {out : Output}
    (h : arora2013 minimize brentq mu r1 r2 tof M pro low maxiter atol rtol fo clock = .ok out) :
    NotAligned r1 r2 ∧ 0 < mu ∧ 0 < tof ∧ 0 ≤ M := by
  unfold arora2013 at h
  simp only [bind_ok, pdiv_ok, psqrt_ok, vdiv_ok, assertTransferAngleNotZero, raiseIf_ok] at h
  obtain ⟨_, ha, _, -, _, -, θ, hθ, _, h0, _, -, _, -, r1h, -, r2h, -, _, -, _, -, _, -, S, -, _, ⟨_, rfl⟩,
    tau, ⟨-, htau⟩, _, -, k0, -, ⟨k, n⟩, hit, -⟩ := h
  obtain ⟨hmu, -, -, htof, hM⟩ := assertParameters_iff.1 ha
  refine ⟨notAligned_of_angle hθ h0 ?_, hmu, htof, hM⟩
  rintro rfl
  apply (iterate_ok hit).1
  rw [htau]; simp

/-- Arora's parabolic time is Euler's. -/
theorem tofP_eq {pro : Bool} (hmu : 0 < mu) (hna : NotAligned r1 r2) :
    Tref mu r1 * tofPOf pro r1 r2 = parabolicTime mu r1 r2 pro := by
  have hA := angle_of_eq hna (transferAngle_eq hna pro)
  obtain ⟨s, σ, hG, hS, h0, hsg, -, -⟩ := Der.geo hna hA
  have hG' := (getA_signedA hA hna).2
  have hR1 := hG.R1
  have hR2 := hG.R2
  have hP : 0 < V3.norm r1 + V3.norm r2 := add_pos hR1 hR2
  have hs := hS.spos
  have hσ := (abs_lt.1 ((sq_lt_one_iff_abs_lt_one _).1 hS.lam_lt)).2
  have hr2 := sqrt2_pos
  have hAe : signedA pro r1 r2 = Real.sqrt 2 * s * σ := by
    have e : Real.sqrt (V3.norm r1 * V3.norm r2 + V3.dot r1 r2) = Real.sqrt 2 * s * |σ| := by
      rw [← hG.hA2, Real.sqrt_sq_eq_abs, abs_mul, abs_of_pos (by positivity)]
    unfold signedA
    rw [e]
    simp only [← hsg]
    split
    · rename_i h; rw [abs_of_pos h]; ring
    · rename_i h; rw [abs_of_neg (lt_of_le_of_ne (not_lt.1 h) h0)]; ring
  rw [Der.parabolicTime_eq hS h0 hsg, Der.computeParabolicTime]
  have hu : 1 - Real.sqrt 2 * tauOf pro r1 r2 = s * (1 - σ) ^ 2 / (V3.norm r1 + V3.norm r2) := by
    unfold tauOf
    rw [hAe, eq_div_iff hP.ne', sub_mul, show Real.sqrt 2 * (Real.sqrt 2 * s * σ / (V3.norm r1 + V3.norm r2)) *
      (V3.norm r1 + V3.norm r2) = Real.sqrt 2 ^ 2 * s * σ by field_simp, sqrt2_sq, hS.sum]; ring
  have ht : tauOf pro r1 r2 = Real.sqrt 2 * s * σ / (V3.norm r1 + V3.norm r2) := by rw [tauOf, hAe]
  unfold tofPOf
  rw [hu, ht]
  have e : Tref mu r1 * Shat r1 r2 * Real.sqrt (s * (1 - σ) ^ 2 / (V3.norm r1 + V3.norm r2)) =
      Real.sqrt (s ^ 3 / (2 * mu)) * (Real.sqrt 2 * (1 - σ) * (V3.norm r1 + V3.norm r2) / s) := by
    unfold Tref Shat
    rw [← Real.sqrt_mul (by positivity), ← Real.sqrt_mul (by positivity),
      show V3.norm r1 ^ 3 / mu * (1 + V3.norm r2 / V3.norm r1) ^ 3 * (s * (1 - σ) ^ 2 / (V3.norm r1 + V3.norm r2)) =
        s ^ 3 / (2 * mu) * (Real.sqrt 2 * (1 - σ) * (V3.norm r1 + V3.norm r2) / s) ^ 2 by
          rw [div_pow, mul_pow, mul_pow, sqrt2_sq]; field_simp,
      Real.sqrt_mul (by positivity), Real.sqrt_sq (by
        have : 0 < 1 - σ := by linarith
        positivity)]
  have hq : ∀ T S q x : ℝ, T * (S * q * x / 3) = T * S * q * (x / 3) := fun _ _ _ _ => by ring
  rw [hq, e, mul_assoc]
  congr 1
  have h2 := sqrt2_sq
  generalize Real.sqrt 2 = w at *
  rw [hS.sum]
  have : 0 < 1 + σ ^ 2 := by positivity
  field_simp
  linear_combination ((1 - σ) * (1 + σ + σ ^ 2)) * h2

/-- Time of flight of the code in physical units. -/
theorem time_scaled {pro : Bool} (hmu : 0 < mu) (hna : NotAligned r1 r2) (k W : ℝ) :
    Tref mu r1 * (Shat r1 r2 * Real.sqrt (1 - k * tauOf pro r1 r2) *
      (tauOf pro r1 r2 + (1 - k * tauOf pro r1 r2) * W)) =
    timeW mu (V3.norm r1 + V3.norm r2) (signedA pro r1 r2) k W := by
  have hR1 := norm_pos_of_notAligned_left hna
  have hR2 := norm_pos_of_notAligned_right hna
  have : Tref mu r1 * Shat r1 r2 = Real.sqrt ((V3.norm r1 + V3.norm r2) ^ 3 / mu) := by
    unfold Tref Shat
    rw [← Real.sqrt_mul (by positivity)]; congr 1; field_simp
  unfold timeW
  rw [← this, tauOf]; ring

end
end Arora

/-- **C22.** Whenever `arora2013` returns, the velocities belong to one Kepler orbit that goes
from `r1` to `r2` with exactly `M` revolutions, in the requested sense. The time it takes
differs from the requested one by at most `atol` times the reference time
`sqrt(|r1|³/mu)` of the code (plus, for zero revolutions, the truncation error of the series
used around the parabola, below `1e-17 sqrt((|r1|+|r2|)³/mu)`).

Partial: for `M > 0` the requested time must exceed the parabolic time; without it the claim
is false, see `arora_open_orbit_for_revolutions`. -/
theorem arora_kepler_transfer_partial {minimize : Minimizer} (hmin : MinimizerSpec minimize) {brentq : Brent}
    (hb : BrentSpec brentq) {mu : ℝ} {r1 r2 : V3} {tof : ℝ} {M : ℤ} {pro low : Bool} {maxiter : ℕ}
    {atol rtol : ℝ} {fo : Bool} {clock : ℝ} {out : Output}
    (h : arora2013 minimize brentq mu r1 r2 tof M pro low maxiter atol rtol fo clock = .ok out)
    (hM : M = 0 ∨ parabolicTime mu r1 r2 pro < tof) :
    (∃ T, LambertArc mu r1 r2 out.v1 out.v2 T M.toNat ∧
      |T - tof| ≤ atol * Real.sqrt (len r1 ^ 3 / mu) +
        (if M = 0 then 1e-17 * Real.sqrt ((len r1 + len r2) ^ 3 / mu) else 0)) ∧
      (NotPolar r1 r2 → Sense pro r1 out.v1) := by
  obtain ⟨hna, hmu, htof, hM0⟩ := notAligned_of_ok h
  obtain ⟨M, rfl⟩ := Int.eq_ofNat_of_zero_le hM0
  rw [arora_eq hmu hna htof hM0] at h
  simp only [bind_ok] at h
  obtain ⟨k0, hk0, ⟨k, n⟩, hit, tpi, -, ⟨v1, v2⟩, hrec, h⟩ := h
  have hout := (Except.ok.inj h).symm
  subst hout
  obtain ⟨hna0, hn, ⟨W, hW, hu0, hle⟩, hk⟩ := iterate_ok hit
  have hA := angle_of_eq hna (transferAngle_eq hna pro)
  have hG := (getA_signedA hA hna).2
  have hR1 := hG.R1
  have hR2 := hG.R2
  have hP : 0 < V3.norm r1 + V3.norm r2 := add_pos hR1 hR2
  have hT : 0 < Tref mu r1 := by unfold Tref; positivity
  have hu : 1 - k * tauOf pro r1 r2 =
      (V3.norm r1 + V3.norm r2 - k * signedA pro r1 r2) / (V3.norm r1 + V3.norm r2) := by
    unfold tauOf; field_simp
  obtain ⟨V, hV⟩ : ∃ V, V = V3.norm r1 + V3.norm r2 - k * signedA pro r1 r2 := ⟨_, rfl⟩
  rw [← hV] at hu
  have hV0 : 0 < V := by
    rcases hu0.lt_or_eq with h1 | h1
    · rw [hu] at h1; exact (div_pos_iff_of_pos_right hP).1 h1
    · exfalso
      unfold reconstruct at hrec
      simp only [bind_ok, vdiv_ok, psqrt_ok, ← h1] at hrec
      obtain ⟨_, -, _, ⟨_, rfl⟩, _, -, _, ⟨hg, -⟩, -⟩ := hrec
      apply hg; simp
  rw [Arora.reconstruct_eq hmu hna hV hV0] at hrec
  obtain ⟨rfl, rfl⟩ := Prod.mk.inj (Except.ok.inj hrec)
  simp only [mkOutput_v1, mkOutput_v2, Int.toNat_natCast]
  have hsg : 0 < signedA pro r1 r2 ↔ ShortWay pro r1 r2 := by
    have : 0 < Real.sqrt (V3.norm r1 * V3.norm r2 + V3.dot r1 r2) := by
      rw [← hG.hA2]; exact Real.sqrt_pos.2 (by have := hG.hA; positivity)
    unfold signedA
    split
    · rename_i hs; simp only [one_mul, this, hs]
    · rename_i hs; simp only [hs, iff_false, not_lt]; linarith
  refine ⟨?_, fun hnp => sense_of_sign hmu hV0 hG.hA hnp hsg⟩
  have htime : |timeW mu (V3.norm r1 + V3.norm r2) (signedA pro r1 r2) k W - tof| ≤
      atol * Real.sqrt (len r1 ^ 3 / mu) := by
    rw [← time_scaled hmu hna, len_eq_norm]
    have e : Tref mu r1 * (tof / Tref mu r1) = tof := by field_simp
    conv_lhs => rw [← e, ← mul_sub, abs_mul, abs_of_pos hT, abs_sub_comm, mul_comm]
    exact mul_le_mul_of_nonneg_right hle hT.le
  have hX : (0 : ℝ) ≤ if (M : ℤ) = 0 then 1e-17 * Real.sqrt ((len r1 + len r2) ^ 3 / mu) else 0 := by
    split <;> positivity
  rcases getW_ok hW with ⟨h1, h2, -, rfl⟩ | ⟨h1, rfl⟩ | ⟨rfl, h1, h2, rfl⟩
  · exact ⟨_, (path_ell hmu hP h1 h2 hV hV0).arc hmu hG, by linarith⟩
  · have hMz : M = 0 := by
      rcases hM with h | h
      · exact_mod_cast h
      · by_contra hM1
        have htp : tofPOf pro r1 r2 < tof / Tref mu r1 := by
          rw [lt_div_iff₀ hT, mul_comm, tofP_eq hmu hna]; exact h
        unfold initialGuess at hk0
        rw [if_neg (not_le.2 htp), if_neg (by exact_mod_cast hM1)] at hk0
        have := hk htp (multirev_le hmin hb hk0)
        linarith [eps_pos]
    subst hMz
    exact ⟨_, (path_hyp hmu hP (by linarith [eps_pos]) hV hV0).arc hmu hG, by linarith⟩
  · have hl := lt_sqrt2
    have he : epsilon = 2e-2 := rfl
    have hkp : 0 < k := by rw [he] at h1; norm_num at h1 hl; linarith
    refine ⟨_, (path_true hmu hP (by linarith) hV hV0).arc hmu hG, ?_⟩
    have hd : |timeW mu (V3.norm r1 + V3.norm r2) (signedA pro r1 r2) k (trueW k) -
        timeW mu (V3.norm r1 + V3.norm r2) (signedA pro r1 r2) k (seriesW k)| ≤
        1e-17 * Real.sqrt ((len r1 + len r2) ^ 3 / mu) := by
      rw [len_eq_norm, len_eq_norm]
      have hs := series_error h1 h2
      have hup : 0 < 1 - k * (signedA pro r1 r2 / (V3.norm r1 + V3.norm r2)) := by
        have := hu; unfold tauOf at this; rw [this]; positivity
      have hu2 : 1 - k * (signedA pro r1 r2 / (V3.norm r1 + V3.norm r2)) ≤ 4 := by
        have := (abs_lt.1 (tau_lt hna pro)).1
        unfold tauOf at this
        have h3 := sqrt2_lt
        rw [he] at h2
        generalize signedA pro r1 r2 / (V3.norm r1 + V3.norm r2) = t at *
        norm_num at h2 h3 hl
        by_cases ht : 0 ≤ t
        · nlinarith
        · push Not at ht
          have : -1 < t := by nlinarith
          nlinarith
      unfold timeW
      generalize 1 - k * (signedA pro r1 r2 / (V3.norm r1 + V3.norm r2)) = u at *
      have hq : Real.sqrt u ≤ 2 := by
        rw [show (2 : ℝ) = Real.sqrt 4 by rw [show (4 : ℝ) = 2 ^ 2 by norm_num, Real.sqrt_sq (by norm_num)]]
        exact Real.sqrt_le_sqrt hu2
      have hq0 := Real.sqrt_nonneg u
      rw [show ∀ S q a b c d : ℝ, S * q * (a + b * c) - S * q * (a + b * d) = S * (q * b * (c - d)) from
        fun _ _ _ _ _ _ => by ring, abs_mul, abs_of_nonneg (Real.sqrt_nonneg _), mul_comm]
      apply mul_le_mul_of_nonneg_right _ (Real.sqrt_nonneg _)
      rw [abs_mul, abs_of_nonneg (by positivity), abs_sub_comm]
      calc _ ≤ (2 * 4) * (1e-18 : ℝ) := mul_le_mul (mul_le_mul hq hu2 hup.le (by norm_num)) hs (abs_nonneg _) (by norm_num)
        _ ≤ 1e-17 := by norm_num
    rw [if_pos (by norm_num)]
    have := abs_sub_le (timeW mu (V3.norm r1 + V3.norm r2) (signedA pro r1 r2) k (trueW k))
      (timeW mu (V3.norm r1 + V3.norm r2) (signedA pro r1 r2) k (seriesW k)) tof
    linarith

end Lamberthub
