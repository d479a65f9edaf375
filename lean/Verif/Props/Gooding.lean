import Verif.Proofs.GoodingDomain
import Verif.Proofs.GoodingLemmas
import Verif.Props.Angles
import Verif.Proofs.AssertLemmas

/-! # Properties of the Gooding solver -/

set_option autoImplicit false

namespace Lamberthub
open Spec LC

theorem cross_smul_left (a : ℝ) (v w : V3) : V3.cross (a • v) w = a • V3.cross v w := by
  ext <;> simp [V3.cross] <;> ring

namespace Gooding

/-- `vlamb` recovers the number of revolutions from the total angle. -/
theorem splitAngle_eq {θ : ℝ} (h0 : 0 < θ) (h1 : θ < 2 * Real.pi) (M : ℕ) :
    splitAngle (2.0 * Real.pi * (M : ℤ) + θ) = .ok (θ / 2, (M : ℤ)) := by
  have key : ∀ (M : ℕ) (j : ℤ), whileLoop (fun s : ℝ × ℤ => s.1 > 2 * Real.pi)
      (fun s => .ok (s.1 - 2 * Real.pi, s.2 + 1)) (2 * Real.pi * M + θ, j) = .ok (θ, j + M) := by
    intro M
    induction M with
    | zero => intro j; rw [whileLoop_false (by simp; linarith)]; simp
    | succ M ih =>
      intro j
      have hpi := Real.pi_pos
      rw [whileLoop_true (s' := (2 * Real.pi * M + θ, j + 1)) _ _, ih]
      · congr 2; push_cast; ring
      · show _ > _
        have : (0 : ℝ) ≤ M := by positivity
        push_cast; nlinarith
      · show Except.ok _ = _
        congr 2; push_cast; ring
  unfold splitAngle
  have e : (2.0 * Real.pi * ((M : ℤ) : ℝ) + θ, (0 : ℤ)) = (2 * Real.pi * (M : ℝ) + θ, (0 : ℤ)) := by
    norm_num
  rw [e, key, ok_bind]
  norm_num

/-- The auxiliary parameters of `vlamb` (`q` is Lancaster's `λ`). -/
theorem auxParams_ok {pro : Bool} {mu θ : ℝ} {r1 r2 : V3} (hA : Angle pro r1 r2 θ)
    (hna : NotAligned r1 r2) (hmu : 0 < mu) :
    ∃ s q, auxParams mu (V3.norm r1) (V3.norm r2) (θ / 2) = .ok (Real.sqrt (mu * s / 2), s, 1 - q ^ 2,
        q, (V3.norm r1 - V3.norm r2) / V3.norm (r2 - r1),
        1 - ((V3.norm r1 - V3.norm r2) / V3.norm (r2 - r1)) ^ 2) ∧
      Semi (V3.norm r1) (V3.norm r2) (V3.norm (r2 - r1)) s q ∧
      halfA (V3.norm r1) (V3.norm r2) θ = Real.sqrt 2 * s * q := by
  obtain ⟨hG, -⟩ := hA.halfGeo hna
  obtain ⟨s, q, hS, hq⟩ := hG.semi
  have hR1 := hG.R1
  have hR2 := hG.R2
  have hs := hS.spos
  have hc := hS.cpos
  refine ⟨s, q, ?_, hS, hq⟩
  have hcsq : (V3.norm r1 - V3.norm r2) * (V3.norm r1 - V3.norm r2) +
      4.0 * (V3.norm r1 * V3.norm r2) * Real.sin (θ / 2) ^ 2 = V3.norm (r2 - r1) ^ 2 := by
    rw [sub_norm_sq, ← hA.cos_eq, show (4.0 : ℝ) = 4 by norm_num]
    have : Real.cos θ = 1 - 2 * Real.sin (θ / 2) ^ 2 := by
      have h1 := Real.cos_two_mul (θ / 2)
      have h2 := Real.sin_sq_add_cos_sq (θ / 2)
      rw [show 2 * (θ / 2) = θ by ring] at h1
      linear_combination h1 + 2 * h2
    rw [this]; ring
  unfold auxParams
  simp only []
  rw [hcsq, psqrt_eq (by positivity), ok_bind, Real.sqrt_sq hc.le]
  have hse : (V3.norm r1 + V3.norm r2 + V3.norm (r2 - r1)) / 2.0 = s := by
    rw [show (2.0 : ℝ) = 2 by norm_num]; exact hS.hs.symm
  rw [hse, psqrt_eq (by positivity), ok_bind, pdiv_eq hs.ne', ok_bind, psqrt_eq (by positivity), ok_bind,
    pdiv_eq hs.ne', ok_bind, if_pos hc.ne', pdiv_eq hc.ne', ok_bind, pdiv_eq (by positivity), ok_bind]
  have e1 : V3.norm (r2 - r1) / s = 1 - q ^ 2 := by rw [hS.chord]; field_simp
  have e2 : Real.sqrt (V3.norm r1 * V3.norm r2) * Real.cos (θ / 2) / s = q := by
    have hr2p : 0 < Real.sqrt 2 := by positivity
    unfold halfA at hq
    rw [div_eq_iff hs.ne']
    apply mul_left_cancel₀ hr2p.ne'
    linear_combination hq
  have e3 : 4.0 * (V3.norm r1 * V3.norm r2) * Real.sin (θ / 2) ^ 2 / V3.norm (r2 - r1) ^ 2 =
      1 - ((V3.norm r1 - V3.norm r2) / V3.norm (r2 - r1)) ^ 2 := by
    rw [div_pow, eq_sub_iff_add_eq, ← add_div, div_eq_one_iff_eq (by positivity), ← hcsq,
      add_comm]; rw [sq]
  rw [e1, e2, e3, show (2.0 : ℝ) = 2 by norm_num]

/-- The velocity components of `vlamb`. -/
theorem velocities_eq {mu s q x z ε rho : ℝ} {r1 r2 : V3} {M : ℤ}
    (hmu : 0 < mu) (hε : ε ^ 2 = 1) (hG : Geo r1 r2 (Real.sqrt 2 * s * q))
    (hS : Semi (V3.norm r1) (V3.norm r2) (V3.norm (r2 - r1)) s q) (hεq : 0 < ε * q)
    (hL : Lanc q x z) (hr : rho = (V3.norm r1 - V3.norm r2) / V3.norm (r2 - r1)) :
    ∃ v, velocities M q (1 - q ^ 2) x (Real.sqrt (mu * s / 2)) rho (1 - rho ^ 2) (V3.norm r1)
      (V3.norm r2) = .ok v ∧
    v.1 • ((V3.norm r1)⁻¹ • r1) + v.2.1 • (ε • trans1 r1 r2) =
      fgV1 mu r1 r2 (Real.sqrt 2 * s * q) (s * (z - q * x) ^ 2) ∧
    v.2.2.1 • ((V3.norm r2)⁻¹ • r2) + v.2.2.2 • (ε • trans2 r1 r2) =
      fgV2 mu r1 r2 (Real.sqrt 2 * s * q) (s * (z - q * x) ^ 2) := by
  have hq : q ≠ 0 := by rintro rfl; simp at hεq
  have hR1 := hG.R1
  have hR2 := hG.R2
  have hc := hS.cpos
  have hrho : 0 ≤ 1 - rho ^ 2 := by
    rw [hr, div_pow, sub_nonneg, div_le_one (by positivity), sub_norm_sq]
    linarith [(abs_lt.1 (abs_dot_lt hG.hna)).2]
  unfold velocities tlamb
  rw [if_pos rfl, psqrt_eq (abs_nonneg _), ok_bind, psqrt_z hL, ok_bind, u_eq, velCoeffs_eq hL hq]
  simp only [ok_bind]
  rw [psqrt_eq hrho, ok_bind, pdiv_eq hR1.ne', ok_bind, pdiv_eq hR1.ne', ok_bind, pdiv_eq hR2.ne',
    ok_bind, pdiv_eq hR2.ne', ok_bind]
  refine ⟨_, rfl, Izzo.reconstruct_ok hmu hε hG hS hεq hL rfl hr hrho rfl ?_⟩
  unfold Izzo.reconstruct
  rw [pdiv_eq hR1.ne', ok_bind, pdiv_eq hR2.ne', ok_bind, pdiv_eq hR1.ne', ok_bind, pdiv_eq hR2.ne',
    ok_bind]
  congr 2 <;> ring_nf

end Gooding

open Gooding

/-- The normal vector exists only for non-aligned positions. -/
theorem notAligned_of_orbitNormal {r1 r2 ih : V3} {pro : Bool}
    (h : getOrbitNormalVector r1 r2 pro = .ok ih) : NotAligned r1 r2 := by
  by_contra hna
  unfold getOrbitNormalVector at h
  rw [cross_eq_zero_iff.2 hna] at h
  simp only [bind_ok, vdiv_ok] at h
  obtain ⟨_, ⟨h0, -⟩, -⟩ := h
  exact h0 (norm_eq_zero_iff.2 rfl)

/-- For valid input, `gooding1990` is its root finder `xlamb` followed by the Lagrange
velocities with `V = s (z - q x)²`. -/
theorem gooding_eq {mu : ℝ} {r1 r2 : V3} {tof : ℝ} {M : ℕ} (pro low : Bool)
    (maxiter : ℕ) (atol rtol clock : ℝ) (full : Bool) (hna : NotAligned r1 r2) (hmu : 0 < mu)
    (htof : 0 < tof) :
    ∃ s q, Semi (V3.norm r1) (V3.norm r2) (V3.norm (r2 - r1)) s q ∧
      Geo r1 r2 (Real.sqrt 2 * s * q) ∧ (0 < q ↔ ShortWay pro r1 r2) ∧
      gooding1990 mu r1 r2 tof (M : ℤ) pro low maxiter atol rtol full clock =
        (do
          let res ← xlamb M q (1 - q ^ 2) (Real.sqrt (8 * mu / s ^ 3) * tof) maxiter atol rtol full clock
          match res with
          | .four _ _ _ => .error (.valueError "not enough values to unpack (expected 5, got 4)")
          | .five n x xpl numiter tpi =>
            .ok (mkOutput full
              (fgV1 mu r1 r2 (Real.sqrt 2 * s * q)
                (s * (lancY q (selectRoot low n x xpl) - q * selectRoot low n x xpl) ^ 2))
              (fgV2 mu r1 r2 (Real.sqrt 2 * s * q)
                (s * (lancY q (selectRoot low n x xpl) - q * selectRoot low n x xpl) ^ 2))
              numiter tpi)) := by
  have hθ := transferAngle_eq hna pro
  set θ := if ShortWay pro r1 r2 then theta0 r1 r2 else 2 * Real.pi - theta0 r1 r2 with hθd
  have hA := angle_of_eq hna hθ
  obtain ⟨hG, hsw⟩ := hA.halfGeo hna
  obtain ⟨s, q, haux, hS, hq⟩ := auxParams_ok hA hna hmu
  rw [hq] at hG hsw
  have hs := hS.spos
  have hr2p : 0 < Real.sqrt 2 := by positivity
  have hqs : 0 < q ↔ ShortWay pro r1 r2 := by
    rw [← hsw]
    constructor
    · intro h; positivity
    · intro h; exact pos_of_mul_pos_right h (by positivity)
  refine ⟨s, q, hS, hG, hqs, ?_⟩
  have hR1 := hG.R1
  have hR2 := hG.R2
  have hr1 : r1 ≠ 0 := norm_pos_iff.1 hR1
  have hne : r1 ≠ r2 := by
    rintro rfl
    have : V3.cross r1 r1 = 0 := by ext <;> simp [V3.cross] <;> ring
    exact (cross_eq_zero_iff.1 this) hna
  have ht : 4.0 * Real.sqrt (mu * s / 2) * tof / s ^ 2 = Real.sqrt (8 * mu / s ^ 3) * tof := by
    rw [show 8 * mu / s ^ 3 = mu * s / 2 * (4 / s ^ 2) ^ 2 by field_simp; norm_num,
      Real.sqrt_mul (by positivity), Real.sqrt_sq (by positivity)]
    norm_num; ring
  set ε : ℝ := if ShortWay pro r1 r2 then 1 else -1 with hε
  have hε2 : ε ^ 2 = 1 := by rw [hε]; split <;> norm_num
  have hq0 : q ≠ 0 := by rintro rfl; exact hG.hA (by ring)
  have hεq : 0 < ε * q := by
    rw [hε]
    split
    · rename_i hc; rw [one_mul]; exact hqs.2 hc
    · rename_i hc
      have : ¬ 0 < q := fun h => hc (hqs.1 h)
      have := lt_of_le_of_ne (not_lt.1 this) hq0
      linarith
  have ht1 : V3.cross (ε • ((V3.norm (V3.cross r1 r2))⁻¹ • V3.cross r1 r2)) ((V3.norm r1)⁻¹ • r1) =
      ε • trans1 r1 r2 := by
    rw [← cross_unit_trans1, cross_smul_left]
  have ht2 : V3.cross (ε • ((V3.norm (V3.cross r1 r2))⁻¹ • V3.cross r1 r2)) ((V3.norm r2)⁻¹ • r2) =
      ε • trans2 r1 r2 := by
    rw [← cross_unit_trans2, cross_smul_left]
  unfold gooding1990
  rw [assertParameters_eq hmu hr1 hne htof (by omega), ok_bind]
  simp only []
  rw [vdiv_eq hR1.ne', ok_bind, vdiv_eq hR2.ne', ok_bind, hθ, ok_bind]
  rw [assertTransferAngleNotZero, raiseIf_neg _ hA.pos.ne', ok_bind, orbitNormal_eq hna, ok_bind]
  rw [ht1, ht2]
  unfold vlamb
  rw [splitAngle_eq hA.pos hA.lt, ok_bind]
  simp only [haux, ok_bind]
  rw [pdiv_eq (by positivity), ok_bind, ht]
  cases hx : xlamb (M : ℤ) q (1 - q ^ 2) (Real.sqrt (8 * mu / s ^ 3) * tof) maxiter atol rtol full
      clock with
  | error e => rfl
  | ok res =>
    cases res with
    | four a b c => rfl
    | five n x xpl k tp =>
      simp only [ok_bind]
      obtain ⟨v, hv, hv1, hv2⟩ := velocities_eq (M := (M : ℤ)) hmu hε2 hG hS hεq
        (lanc_lancY hS.lam_lt (selectRoot low n x xpl)) rfl
      rw [hv, ok_bind]
      simp only [ok_bind, hv1, hv2]

/-- **C19.**  Whatever `gooding1990` returns: there is a final iterate `x` of the solver's
root finder such that, whenever it lies in the domain of the time equation (`x > -1`, and
`x < 1` for `M ≥ 1`), the velocities belong to one and the same Kepler orbit that goes from
`r1` to `r2` with exactly `M` complete revolutions, in the time given by the solver's own
time equation at `x`; this includes the series branch near the parabola and the short
series of the logarithm.  It does lie in that domain, and the flight time differs from `tof`
by exactly the residual, as soon as the residual of the time equation at `x` is at most half
the time sought and that time exceeds `M` periods of the fastest orbit (`2 M π`).

Missing for the full claim: the solver never bounds that residual (see
`gooding_unconverged_accepted`). -/
theorem gooding_kepler_transfer_partial {mu : ℝ} {r1 r2 : V3} {tof : ℝ} {M : ℕ} {pro low : Bool}
    {maxiter : ℕ} {atol rtol clock : ℝ} {full : Bool} {out : Output}
    (h : gooding1990 mu r1 r2 tof (M : ℤ) pro low maxiter atol rtol full clock = .ok out) :
    ∃ s q n x xpl numiter tpi, s = (len r1 + len r2 + len (r2 - r1)) / 2 ∧
      xlamb M q (1 - q ^ 2) (Real.sqrt (8 * mu / s ^ 3) * tof) maxiter atol rtol full clock =
        .ok (.five n x xpl numiter tpi) ∧
      (-1 < selectRoot low n x xpl → (M = 0 ∨ selectRoot low n x xpl < 1) →
        ∃ T d, LambertArc mu r1 r2 out.v1 out.v2 T M ∧
          tlamb M q (1 - q ^ 2) (selectRoot low n x xpl) 0 =
            .ok (Real.sqrt (8 * mu / s ^ 3) * T, d)) ∧
      (∀ t d, tlamb M q (1 - q ^ 2) (selectRoot low n x xpl) 0 = .ok (t, d) →
        2 * M * Real.pi ≤ Real.sqrt (8 * mu / s ^ 3) * tof →
        |t - Real.sqrt (8 * mu / s ^ 3) * tof| ≤ Real.sqrt (8 * mu / s ^ 3) * tof / 2 →
        ∃ T, LambertArc mu r1 r2 out.v1 out.v2 T M ∧ t = Real.sqrt (8 * mu / s ^ 3) * T) ∧
      (NotPolar r1 r2 → Sense pro r1 out.v1) := by
  have h' := h
  unfold gooding1990 at h'
  simp only [bind_ok, vdiv_ok] at h'
  obtain ⟨_, hval, ir1, -, ir2, -, θ, hθ, _, hθ0, ih, hih, -⟩ := h'
  obtain ⟨hmu, -, -, htof, -⟩ := assertParameters_ok hval
  have hna := notAligned_of_orbitNormal hih
  obtain ⟨s, q, hS, hG, hqs, heq⟩ := gooding_eq (M := M) pro low maxiter atol rtol clock full hna hmu htof
  rw [heq] at h
  have hs := hS.spos
  simp only [bind_ok] at h
  obtain ⟨res, hres, h⟩ := h
  cases res with
  | four a b c => simp at h
  | five n x xpl k tp =>
    have h := Except.ok.inj h
    set xr := selectRoot low n x xpl with hxr
    have hL := lanc_lancY hS.lam_lt xr
    set z := lancY q xr with hz
    have e1 : out.v1 = fgV1 mu r1 r2 (Real.sqrt 2 * s * q) (s * (z - q * xr) ^ 2) := by
      rw [← h, mkOutput_v1]
    have e2 : out.v2 = fgV2 mu r1 r2 (Real.sqrt 2 * s * q) (s * (z - q * xr) ^ 2) := by
      rw [← h, mkOutput_v2]
    have hdom : -1 < xr → (M = 0 ∨ xr < 1) → ∃ T d, LambertArc mu r1 r2 out.v1 out.v2 T M ∧
        tlamb M q (1 - q ^ 2) xr 0 = .ok (Real.sqrt (8 * mu / s ^ 3) * T, d) := by
      intro hx1 hx2
      obtain ⟨T, hpath, hT⟩ := hL.path hmu hs (M := M) hx1 hx2
      obtain ⟨d, hd⟩ := tlamb_time hL (M := M) hx1 hx2 (n := 0) (by norm_num)
      refine ⟨T, d, ?_, ?_⟩
      · rw [← hS.sum] at hpath
        rw [e1, e2]
        exact hpath.arc hmu hG
      · rw [hd, ← hT, show 8 * mu / s ^ 3 = (2 * mu / s ^ 3) * 2 ^ 2 by ring,
          Real.sqrt_mul (by positivity), Real.sqrt_sq (by norm_num)]
        congr 2; ring
    refine ⟨s, q, n, x, xpl, _, _, ?_, hres, hdom, ?_, ?_⟩
    · rw [len_eq_norm, len_eq_norm, len_eq_norm]; exact hS.hs
    · intro t d ht hM2 hle
      have hq0 : q ≠ 0 := fun h0 => hG.hA (by rw [h0, mul_zero])
      obtain ⟨hx1, hx2⟩ := in_domain hS.lam_lt hq0 (by positivity) hM2 ht hle
      obtain ⟨T, d', hT1, hT2⟩ := hdom hx1 hx2
      rw [hT2] at ht
      exact ⟨T, hT1, (Prod.mk.inj (Except.ok.inj ht)).1.symm⟩
    · intro hnp
      rw [e1]
      have hV : 0 < s * (z - q * xr) ^ 2 := by have := hL.eta_pos; positivity
      refine sense_of_sign hmu hV hG.hA hnp ?_
      rw [← hqs]
      have hr2p : 0 < Real.sqrt 2 := by positivity
      constructor
      · intro h; exact pos_of_mul_pos_right h (by positivity)
      · intro h; positivity

end Lamberthub
