import Verif.Proofs.McElreathLemmas
import Verif.Proofs.PForm
import Verif.Props.Der

/-! # C24: what `mcelreath2025` returns is a Kepler transfer -/

set_option autoImplicit false

namespace Lamberthub
open Spec LC McElreath

namespace McElreath

theorem sin_ne {pro : Bool} {r1 r2 : V3} {θ : ℝ} (hA : Angle pro r1 r2 θ) : Real.sin θ ≠ 0 := by
  have hhalf := hA.half_cos
  have : Real.sin θ = 2 * Real.sin (θ / 2) * Real.cos (θ / 2) := by
    rw [← Real.sin_two_mul]; congr 1; ring
  rw [this]
  exact mul_ne_zero (mul_ne_zero two_ne_zero hhalf.2.2.ne') hhalf.1

theorem chord_ne {r1 r2 : V3} (hna : NotAligned r1 r2) : V3.norm (r2 - r1) ≠ 0 := by
  intro h
  rw [norm_eq_zero_iff] at h
  have hx : r2 = r1 := by
    have e1 := congrArg V3.x h
    have e2 := congrArg V3.y h
    have e3 := congrArg V3.z h
    simp only [V3.sub_x, V3.sub_y, V3.sub_z, V3.zero_x, V3.zero_y, V3.zero_z] at e1 e2 e3
    ext <;> linarith
  rw [hx] at hna
  simp [NotAligned, mul_comm] at hna

/-- The velocities reconstructed from `x`. -/
theorem reconstruct_ok {mu θ m : ℝ} {r1 r2 v1 v2 : V3} {pro : Bool} {x : ℂ} (hmu : 0 < mu)
    (hna : NotAligned r1 r2) (hA : Angle pro r1 r2 θ)
    (h : reconstruct mu r1 r2 (V3.norm r1) (V3.norm r2) θ m x = .ok (v1, v2)) :
    1 - Complex.cos x ≠ 0 ∧ 0 < V3.norm r1 + V3.norm r2 - 2 * m * (Complex.cos (x / 2)).re ∧
      v1 = fgV1 mu r1 r2 (halfA (V3.norm r1) (V3.norm r2) θ)
        (V3.norm r1 + V3.norm r2 - 2 * m * (Complex.cos (x / 2)).re) ∧
      v2 = fgV2 mu r1 r2 (halfA (V3.norm r1) (V3.norm r2) θ)
        (V3.norm r1 + V3.norm r2 - 2 * m * (Complex.cos (x / 2)).re) := by
  have hR1 := norm_pos_of_notAligned_left hna
  have hR2 := norm_pos_of_notAligned_right hna
  have hc := hA.cos_lt_one
  have hsin := sin_ne hA
  unfold reconstruct at h
  rw [bind_ok] at h
  obtain ⟨⟨al, u1, u0, u3⟩, ha, h⟩ := h
  unfold alphaAndUniversalValues at ha
  simp only [bind_ok, cdiv_ok] at ha
  obtain ⟨_, ⟨-, rfl⟩, _, ⟨-, -⟩, _, ⟨hne, -⟩, ha⟩ := ha
  simp only [Except.ok.injEq, Prod.mk.injEq] at ha
  obtain ⟨-, -, rfl, -⟩ := ha
  simp only [bind_ok, pdiv_ok, psqrt_ok, vdiv_ok] at h
  obtain ⟨p, ⟨hV, hp⟩, _, ⟨hmp, rfl⟩, _, ⟨hden, rfl⟩, _, ⟨hp0, rfl⟩, _, ⟨-, rfl⟩, _, ⟨-, rfl⟩, _, ⟨-, rfl⟩,
    _, ⟨-, rfl⟩, _, ⟨hcn, rfl⟩, h⟩ := h
  generalize V3.norm r1 + V3.norm r2 - 2 * m * (Complex.cos (x / 2)).re = V at *
  have hpp : 0 < p := lt_of_le_of_ne (nonneg_of_mul_nonneg_right hmp hmu) (Ne.symm hp0)
  have hVp : 0 < V := by
    have hk : 0 < V3.norm r1 * V3.norm r2 * (1 - Real.cos θ) := by
      have : 0 < 1 - Real.cos θ := by linarith
      positivity
    rw [hp] at hpp
    exact (div_pos_iff_of_pos_left hk).1 hpp
  have hg := g_pform hA hna hmu hVp hp
  have hsc : Real.sqrt (mu * p) / (V3.norm r1 * V3.norm r2 * Real.sin θ) =
      (halfA (V3.norm r1) (V3.norm r2) θ * Real.sqrt (V / mu))⁻¹ := by
    rw [← hg, inv_div]
  have hvr : Real.sqrt (mu / p) * (1 - Real.cos θ) / Real.sin θ =
      Real.sqrt (mu * p) / (V3.norm r1 * V3.norm r2 * Real.sin θ) * V := by
    have e : Real.sqrt (mu / p) = Real.sqrt (mu * p) / p := by
      rw [show mu / p = mu * p / p ^ 2 by field_simp, Real.sqrt_div hmp, Real.sqrt_sq hpp.le]
    have e2 : V * p = V3.norm r1 * V3.norm r2 * (1 - Real.cos θ) := by rw [hp]; field_simp
    rw [e]
    field_simp
    linear_combination -e2
  refine ⟨?_, hVp, ?_⟩
  · intro h0
    apply hne
    rw [h0, zero_div, zero_mul]
  · simp only [Except.ok.injEq, Prod.mk.injEq] at h
    obtain ⟨rfl, rfl⟩ := h
    have hvc : V3.norm (r2 - r1) * Real.sqrt (mu * p) / (V3.norm r1 * V3.norm r2 * Real.sin θ) *
        (V3.norm (r2 - r1))⁻¹ = Real.sqrt (mu * p) / (V3.norm r1 * V3.norm r2 * Real.sin θ) := by field_simp
    rw [hvr]
    rw [hsc] at hvc ⊢
    unfold fgV1 fgV2
    generalize (halfA (V3.norm r1) (V3.norm r2) θ * Real.sqrt (V / mu))⁻¹ = g at *
    generalize V3.norm (r2 - r1) * Real.sqrt (mu * p) / (V3.norm r1 * V3.norm r2 * Real.sin θ) = w at *
    generalize (V3.norm (r2 - r1))⁻¹ = ci at *
    rw [div_eq_mul_inv V, div_eq_mul_inv V]
    constructor <;> ext <;> simp only [V3.smul_x, V3.smul_y, V3.smul_z, V3.sub_x, V3.sub_y, V3.sub_z, V3.add_x,
      V3.add_y, V3.add_z]
    · linear_combination (r2.x - r1.x) * hvc
    · linear_combination (r2.y - r1.y) * hvc
    · linear_combination (r2.z - r1.z) * hvc
    · linear_combination (r2.x - r1.x) * hvc
    · linear_combination (r2.y - r1.y) * hvc
    · linear_combination (r2.z - r1.z) * hvc

/-- The parameter `m` of the code. -/
theorem m_eq {R1 R2 θ : ℝ} (M : ℕ) :
    2 * ((-1) ^ M * Real.sqrt (R1 * R2) * Real.cos (θ / 2)) = (-1) ^ M * (Real.sqrt 2 * halfA R1 R2 θ) := by
  have h2 : Real.sqrt 2 * Real.sqrt 2 = 2 := Real.mul_self_sqrt (by norm_num)
  unfold halfA
  linear_combination (-(-1) ^ M * Real.sqrt (R1 * R2) * Real.cos (θ / 2)) * h2

theorem m_lt {pro : Bool} {r1 r2 : V3} {θ : ℝ} (hna : NotAligned r1 r2) (hA : Angle pro r1 r2 θ) (M : ℕ) :
    |2 * ((-1) ^ M * Real.sqrt (V3.norm r1 * V3.norm r2) * Real.cos (θ / 2))| < V3.norm r1 + V3.norm r2 := by
  have hR1 := norm_pos_of_notAligned_left hna
  have hR2 := norm_pos_of_notAligned_right hna
  obtain ⟨-, -, hs⟩ := hA.half_cos
  have h1 := Real.sin_sq_add_cos_sq (θ / 2)
  rw [abs_mul, abs_mul, abs_mul, abs_pow, abs_neg, abs_one, one_pow, one_mul, abs_of_pos (by positivity : (0:ℝ) < 2),
    abs_of_nonneg (Real.sqrt_nonneg _)]
  have hc : |Real.cos (θ / 2)| < 1 := by
    rw [← sq_lt_one_iff_abs_lt_one]; nlinarith
  have hq := Real.sq_sqrt (mul_pos hR1 hR2).le
  have hqp := Real.sqrt_pos.2 (mul_pos hR1 hR2)
  have : 2 * Real.sqrt (V3.norm r1 * V3.norm r2) ≤ V3.norm r1 + V3.norm r2 :=
    abs_le_of_sq_le_sq' (by nlinarith [sq_nonneg (V3.norm r1 - V3.norm r2)]) (by linarith) |>.2
  nlinarith

/-- Elliptic transfer of given `cos (x/2)`. -/
theorem path_of_cos {μ P A V c : ℝ} (M : ℕ) (hc : c ^ 2 < 1) (hV : 0 < V)
    (hVe : V = P - (-1) ^ M * (Real.sqrt 2 * A) * c) : ∃ T, Path μ P A M V T := by
  have h1 := neg_one_pow_mul_self M
  have hsq : ((-1) ^ M * c) ^ 2 < 1 := by
    rw [mul_pow, sq, h1, one_mul]; exact hc
  obtain ⟨ha, hb⟩ := abs_lt.1 ((sq_lt_one_iff_abs_lt_one _).1 hsq)
  have hp0 := Real.arccos_pos.2 hb
  have hp1 : Real.arccos ((-1) ^ M * c) < Real.pi := by
    rw [Real.arccos_lt_pi]; exact ha
  refine ⟨_, Path.ell (φ := Real.arccos ((-1) ^ M * c) + M * Real.pi) (by linarith) (by linarith) hV ?_⟩
  rw [Real.cos_add_nat_mul_pi, Real.cos_arccos ha.le hb.le, hVe]
  linear_combination (-(-1) ^ M * (Real.sqrt 2 * A) * c) * (1 - h1)

/-- Zero revolution transfer for any `cos (x/2) > -1`. -/
theorem path_of_cos_zero {μ P A V c : ℝ} (hc : -1 < c) (hV : 0 < V) (hVe : V = P - Real.sqrt 2 * A * c) :
    ∃ T, Path μ P A 0 V T := by
  rcases lt_trichotomy c 1 with h | h | h
  · exact path_of_cos 0 (c := c) (by nlinarith) hV (by rw [hVe]; ring)
  · exact ⟨_, Path.par hV (by rw [hVe, h, mul_one])⟩
  · exact ⟨_, Path.hyp (φ := Real.arcosh c) (Real.arcosh_pos h) hV
      (by rw [Real.cosh_arcosh h.le, hVe])⟩

theorem geo_swap {r1 r2 : V3} {A : ℝ} (h : Geo r1 r2 A) : Geo r2 r1 (-A) := by
  obtain ⟨h1, h2, h3⟩ := h
  refine ⟨neg_ne_zero.2 h1, ?_, ?_⟩
  · rw [neg_sq, h2]; simp only [V3.dot]; ring
  · rintro ⟨a, b, c⟩
    exact h3 ⟨by linarith, by linarith, by linarith⟩

theorem fg_swap (μ : ℝ) (r1 r2 : V3) (A V : ℝ) :
    fgV1 μ r2 r1 (-A) V = fgV2 μ r1 r2 A V ∧ fgV2 μ r2 r1 (-A) V = fgV1 μ r1 r2 A V := by
  unfold fgV1 fgV2
  rw [neg_mul, inv_neg]
  generalize (A * Real.sqrt (V / μ))⁻¹ = g
  constructor <;> ext <;> simp only [V3.smul_x, V3.smul_y, V3.smul_z, V3.sub_x, V3.sub_y, V3.sub_z] <;> ring

end McElreath

/-- What `mcelreath2025` needs to return. -/
theorem mcelreath_ok_split {mu : ℝ} {r1 r2 : V3} {tof : ℝ} {M : ℤ} {pro low : Bool} {maxiter : ℕ}
    {atol rtol : ℝ} {full : Bool} {clock : ℝ} {out : Output}
    (h : mcelreath2025 mu r1 r2 tof M pro low maxiter atol rtol full clock = .ok out) :
    0 ≤ M ∧ 0 < mu ∧ 0 < tof ∧ NotAligned r1 r2 ∧ ∃ θ x n tpi v1 v2,
      getTransferAngle r1 r2 pro = .ok θ ∧
      findX (Real.sqrt mu * tof) (V3.norm r1) (V3.norm r2)
        ((-1) ^ M.toNat * Real.sqrt (V3.norm r1 * V3.norm r2) * Real.cos (θ / 2)) θ M.toNat low maxiter atol rtol =
        .ok (x, n) ∧
      timePerIter full clock n = .ok tpi ∧
      reconstruct mu r1 r2 (V3.norm r1) (V3.norm r2) θ
        ((-1) ^ M.toNat * Real.sqrt (V3.norm r1 * V3.norm r2) * Real.cos (θ / 2)) x = .ok (v1, v2) ∧
      out = mkOutput full v1 v2 n tpi := by
  unfold mcelreath2025 at h
  simp only [bind_ok, assertTransferAngleNotZero, raiseIf_ok] at h
  obtain ⟨_, hv, θ, hθ, _, hz, _, hp, ⟨x, n⟩, hf, tpi, htpi, ⟨v1, v2⟩, hr, h⟩ := h
  obtain ⟨h1, -, -, h3, h4⟩ := assertParameters_iff.1 hv
  have hpi : θ ≠ Real.pi := by
    rintro rfl
    apply hp
    rw [Real.sin_pi]
    norm_num
  exact ⟨h4, h1, h3, notAligned_of_angle hθ hz hpi, θ, x, n, tpi, v1, v2, hθ, hf, htpi, hr,
    (Except.ok.inj h).symm⟩

namespace McElreath

/-- The parabolic time of the code is Euler's. -/
theorem parabolicTof_eq {mu θ : ℝ} {r1 r2 : V3} {pro : Bool} (hmu : 0 < mu)
    (hna : NotAligned r1 r2) (hA : Angle pro r1 r2 θ) :
    getParabolicTof (V3.norm r1 + V3.norm r2) ((-1) ^ 0 * Real.sqrt (V3.norm r1 * V3.norm r2) * Real.cos (θ / 2)) =
      .ok (Real.sqrt mu * parabolicTime mu r1 r2 pro) := by
  obtain ⟨hG, hsh⟩ := hA.halfGeo hna
  obtain ⟨s, l, hS, hs⟩ := hG.semi
  have hsp := hS.spos
  have hl := hS.lam_lt
  have hl1 : l < 1 := (abs_lt.1 ((sq_lt_one_iff_abs_lt_one _).1 hl)).2
  have h2 : Real.sqrt 2 * Real.sqrt 2 = 2 := Real.mul_self_sqrt (by norm_num)
  have hme := m_eq (R1 := V3.norm r1) (R2 := V3.norm r2) (θ := θ) 0
  rw [hs] at hme hG hsh
  have hm : (-1) ^ 0 * Real.sqrt (V3.norm r1 * V3.norm r2) * Real.cos (θ / 2) = s * l := by
    rw [pow_zero] at hme ⊢
    linear_combination hme / 2 + s * l / 2 * h2
  have h0 : l ≠ 0 := by rintro rfl; exact hG.hA (by ring)
  have hsg : 0 < l ↔ ShortWay pro r1 r2 := by rw [← hsh, mul_pos_iff_of_pos_left (by positivity)]
  rw [hm, hS.sum, Der.parabolicTime_eq hS h0 hsg]
  unfold getParabolicTof
  have e : 2 * (s * (1 + l ^ 2) - 2 * (s * l)) = (2 * s) * (1 - l) ^ 2 := by ring
  have hl' : 0 < 1 - l := by linarith
  rw [e, psqrt_eq (by positivity), ok_bind, Real.sqrt_mul (by positivity), Real.sqrt_sq hl'.le]
  congr 1
  have hq : Real.sqrt (2 * s) ^ 2 = 2 * s := Real.sq_sqrt (by positivity)
  have e2 : Real.sqrt mu * Real.sqrt (s ^ 3 / (2 * mu)) = s * Real.sqrt (2 * s) / 2 := by
    rw [← Real.sqrt_mul hmu.le, show mu * (s ^ 3 / (2 * mu)) = (s / 2) ^ 2 * (2 * s) by field_simp,
      Real.sqrt_mul (by positivity), Real.sqrt_sq (by positivity)]
    ring
  rw [← mul_assoc (Real.sqrt mu), e2]
  unfold Der.computeParabolicTime
  have h3 : Real.sqrt (2 * s) ^ 3 = 2 * s * Real.sqrt (2 * s) := by rw [pow_succ, hq]
  rw [mul_pow, h3]
  ring

end McElreath

/-- **C24** (partial).  Whatever the inputs, if `mcelreath2025` returns, the velocities
belong to a true Kepler motion from `r1` to `r2` that takes some positive time and makes
exactly `M` complete revolutions, in the requested sense.  The only exception is a
zero-revolution problem faster than the parabolic time, where the motion may also be one
that goes from `r2` to `r1`.  Missing: that the time is `tof` (the code stops on the size of
the last step and never looks at the residual). -/
theorem mcelreath_kepler_transfer_partial {mu : ℝ} {r1 r2 : V3} {tof : ℝ} {M : ℤ} {pro low : Bool} {maxiter : ℕ}
    {atol rtol : ℝ} {full : Bool} {clock : ℝ} {out : Output}
    (h : mcelreath2025 mu r1 r2 tof M pro low maxiter atol rtol full clock = .ok out) :
    0 ≤ M ∧
    ((∃ T, LambertArc mu r1 r2 out.v1 out.v2 T M.toNat ∧ (NotPolar r1 r2 → Sense pro r1 out.v1)) ∨
      (M = 0 ∧ tof ≤ parabolicTime mu r1 r2 pro ∧ (∃ T, LambertArc mu r2 r1 out.v2 out.v1 T 0) ∧
        (NotPolar r1 r2 → Sense pro r1 out.v1))) := by
  obtain ⟨hM, hmu, -, hna, θ, x, n, tpi, v1, v2, hθ, hf, -, hr, rfl⟩ := mcelreath_ok_split h
  have hA := angle_of_eq hna hθ
  obtain ⟨hG, hsh⟩ := hA.halfGeo hna
  obtain ⟨hc1, hV, rfl, rfl⟩ := reconstruct_ok hmu hna hA hr
  refine ⟨hM, ?_⟩
  simp only [mkOutput_v1, mkOutput_v2]
  have hs := fun hnp => sense_of_sign (pro := pro) hmu hV hG.hA hnp hsh
  have hmeq := m_eq (R1 := V3.norm r1) (R2 := V3.norm r2) (θ := θ) M.toNat
  have hVe : V3.norm r1 + V3.norm r2 - 2 * ((-1) ^ M.toNat * Real.sqrt (V3.norm r1 * V3.norm r2) *
      Real.cos (θ / 2)) * (Complex.cos (x / 2)).re = V3.norm r1 + V3.norm r2 - (-1) ^ M.toNat *
        (Real.sqrt 2 * halfA (V3.norm r1) (V3.norm r2) θ) * (Complex.cos (x / 2)).re := by rw [hmeq]
  rcases findX_ok (m_lt hna hA M.toNat) hf with ⟨t, rfl⟩ | ⟨hM0, tp, htp, hlt⟩
  · left
    have hcr : (Complex.cos ((t : ℂ) / 2)).re = Real.cos (t / 2) := by
      rw [show ((t : ℂ) / 2) = ((t / 2 : ℝ) : ℂ) by push_cast; rfl, Complex.cos_ofReal_re]
    have hcx : Real.cos t ≠ 1 := by
      intro e; apply hc1; rw [← Complex.ofReal_cos, e]; simp
    have hc2 : Real.cos (t / 2) ^ 2 < 1 := by
      have e1 := one_sub_cos t
      have e2 := Real.sin_sq_add_cos_sq (t / 2)
      have e3 := Real.cos_le_one t
      rcases e3.lt_or_eq with e | e
      · nlinarith
      · exact absurd e hcx
    obtain ⟨T, hT⟩ := path_of_cos (μ := mu) M.toNat hc2 hV (by rw [hVe, hcr])
    exact ⟨T, hT.arc hmu hG, hs⟩
  · have hMz : M = 0 := by omega
    subst hMz
    simp only [Int.toNat_zero] at *
    rw [parabolicTof_eq hmu hna hA] at htp
    rw [← Except.ok.inj htp] at hlt
    have hlt' := le_of_mul_le_mul_left hlt (Real.sqrt_pos.2 hmu)
    have hVe' : V3.norm r1 + V3.norm r2 - 2 * ((-1) ^ 0 * Real.sqrt (V3.norm r1 * V3.norm r2) *
      Real.cos (θ / 2)) * (Complex.cos (x / 2)).re = V3.norm r1 + V3.norm r2 -
        Real.sqrt 2 * halfA (V3.norm r1) (V3.norm r2) θ * (Complex.cos (x / 2)).re := by rw [hVe, pow_zero, one_mul]
    rcases lt_or_ge (-1) (Complex.cos (x / 2)).re with hc | hc
    · left
      obtain ⟨T, hT⟩ := path_of_cos_zero (μ := mu) hc hV hVe'
      exact ⟨T, hT.arc hmu hG, hs⟩
    · right
      obtain ⟨T, hT⟩ := path_of_cos_zero (μ := mu) (P := V3.norm r2 + V3.norm r1)
        (A := -halfA (V3.norm r1) (V3.norm r2) θ) (c := -(Complex.cos (x / 2)).re) (by linarith) hV
        (by rw [hVe']; ring)
      have := hT.arc hmu (geo_swap hG)
      rw [(fg_swap _ _ _ _ _).1, (fg_swap _ _ _ _ _).2] at this
      exact ⟨trivial, hlt', ⟨T, this⟩, hs⟩

end Lamberthub
