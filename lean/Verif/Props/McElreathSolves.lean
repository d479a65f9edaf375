import Verif.Proofs.McElreathRun
import Verif.Proofs.McElreathSlow
import Verif.Proofs.ThorneGeo
import Verif.Props.JiangFast

/-! # C78: problems that `mcelreath2025` solves, and slow transfers -/

set_option autoImplicit false

namespace Lamberthub
open Filter Topology Spec LC McElreath

namespace McElreath

theorem halfA_signedA {pro : Bool} {r1 r2 : V3} {θ : ℝ} (hna : NotAligned r1 r2) (hA : Angle pro r1 r2 θ) :
    halfA (V3.norm r1) (V3.norm r2) θ = signedA pro r1 r2 := by
  obtain ⟨hG, hsh⟩ := hA.halfGeo hna
  have h0 := hG.hA
  have h2 := hG.hA2
  unfold signedA
  rw [← h2, Real.sqrt_sq_eq_abs]
  split <;> rename_i h
  · rw [abs_of_pos (hsh.2 h), one_mul]
  · rw [abs_of_nonpos (not_lt.1 fun h' => h (hsh.1 h'))]
    ring

/-- The paths of the search. -/
theorem time_path {mu : ℝ} (hmu : 0 < mu) {pro : Bool} {r1 r2 : V3} {θ x : ℝ} (hna : NotAligned r1 r2)
    (hA : Angle pro r1 r2 θ) (h0 : 0 < x) (h1 : x < 2 * Real.pi) :
    Path mu (V3.norm r1 + V3.norm r2) (halfA (V3.norm r1) (V3.norm r2) θ) 0
      (V3.norm r1 + V3.norm r2 - 2 * ((-1) ^ 0 * Real.sqrt (V3.norm r1 * V3.norm r2) * Real.cos (θ / 2)) * Real.cos (x / 2))
      ((rFull (V3.norm r1 + V3.norm r2) ((-1) ^ 0 * Real.sqrt (V3.norm r1 * V3.norm r2) * Real.cos (θ / 2)) x).1 /
        Real.sqrt mu) := by
  have hP := m_lt hna hA 0
  have hmeq := m_eq (R1 := V3.norm r1) (R2 := V3.norm r2) (θ := θ) 0
  have hV := V_pos (x := x) hP
  have ht := time_tE hP h0 h1
  rw [hmeq] at ht hV ⊢
  simp only [pow_zero, one_mul] at ht hV ⊢
  have hr2p : 0 < Real.sqrt 2 := by positivity
  have hm : 0 < Real.sqrt mu := Real.sqrt_pos.2 hmu
  have hs := scale_ell (V := V3.norm r1 + V3.norm r2 - Real.sqrt 2 * halfA (V3.norm r1) (V3.norm r2) θ * Real.cos (x / 2))
    hmu (by linarith : 0 < x / 2) (by linarith) rfl hV.le
  rw [← ht] at hs
  have e : (rFull (V3.norm r1 + V3.norm r2) (Real.sqrt (V3.norm r1 * V3.norm r2) * Real.cos (θ / 2)) x).1 / Real.sqrt mu =
      Tell mu (halfA (V3.norm r1) (V3.norm r2) θ)
        (V3.norm r1 + V3.norm r2 - Real.sqrt 2 * halfA (V3.norm r1) (V3.norm r2) θ * Real.cos (x / 2)) (x / 2) := by
    rw [div_eq_iff hm.ne']
    apply mul_left_cancel₀ hr2p.ne'
    linear_combination -hs
  rw [e]
  exact Path.ell (by push_cast; linarith) (by push_cast; linarith) hV (by rw [pow_zero]; ring)

/-- Above the parabolic time. -/
theorem par_lt {mu : ℝ} (hmu : 0 < mu) {pro : Bool} {r1 r2 : V3} {θ x : ℝ} (hna : NotAligned r1 r2)
    (hA : Angle pro r1 r2 θ) (h0 : 0 < x) (h1 : x < 2 * Real.pi) :
    Real.sqrt mu * parabolicTime mu r1 r2 pro <
      (rFull (V3.norm r1 + V3.norm r2) ((-1) ^ 0 * Real.sqrt (V3.norm r1 * V3.norm r2) * Real.cos (θ / 2)) x).1 := by
  have hP := m_lt hna hA 0
  obtain ⟨hG, hsh⟩ := hA.halfGeo hna
  have hmeq := m_eq (R1 := V3.norm r1) (R2 := V3.norm r2) (θ := θ) 0
  have hp := time_path hmu hna hA h0 h1
  have hm : 0 < Real.sqrt mu := Real.sqrt_pos.2 hmu
  rw [hmeq] at hP hp
  simp only [pow_zero, one_mul] at hP hp ⊢
  have hV := (abs_lt.1 hP).2
  have hq : Path mu (V3.norm r1 + V3.norm r2) (halfA (V3.norm r1) (V3.norm r2) θ) 0 _
      (Tpar mu (halfA (V3.norm r1) (V3.norm r2) θ) (V3.norm r1 + V3.norm r2 - Real.sqrt 2 * halfA (V3.norm r1) (V3.norm r2) θ)) :=
    Path.par (by linarith) rfl
  have := (Path.time_lt_iff hmu hG.hA hP hq hp).2 (by
    have hc : Real.cos (x / 2) < 1 := by
      rw [← Real.cos_zero]
      exact Real.strictAntiOn_cos ⟨le_rfl, Real.pi_pos.le⟩ ⟨by linarith, by linarith⟩ (by linarith)
    have hA0 := hG.hA
    have hr2p : 0 < Real.sqrt 2 := by positivity
    generalize halfA (V3.norm r1) (V3.norm r2) θ = A at *
    rw [show ∀ P : ℝ, (P - (P - Real.sqrt 2 * A * Real.cos (x / 2))) / A = Real.sqrt 2 * Real.cos (x / 2) by
      intro P; field_simp; ring, show ∀ P : ℝ, (P - (P - Real.sqrt 2 * A)) / A = Real.sqrt 2 by intro P; field_simp; ring]
    nlinarith)
  rw [halfA_signedA hna hA] at this hG
  rw [Tpar_parabolicTime hmu hG, lt_div_iff₀ hm] at this
  linarith

/-- The test for a half turn in terms of the positions. -/
theorem sin_of_outer {pro : Bool} {r1 r2 : V3} {θ : ℝ} (hna : NotAligned r1 r2) (hA : Angle pro r1 r2 θ)
    (h : 1e-14 * (len r1 * len r2) < len (outer r1 r2)) : 1e-14 < |Real.sin θ| := by
  have hR : 0 < V3.norm r1 * V3.norm r2 :=
    mul_pos (norm_pos_of_notAligned_left hna) (norm_pos_of_notAligned_right hna)
  rw [len_eq_norm, len_eq_norm, len_eq_norm] at h
  have h1 := norm_mul_self r1
  have h2 := norm_mul_self r2
  have h3 := norm_mul_self (outer r1 r2)
  have hc := hA.cos_eq
  have hs := Real.sin_sq_add_cos_sq θ
  have e : V3.norm (outer r1 r2) ^ 2 = (V3.norm r1 * V3.norm r2 * |Real.sin θ|) ^ 2 := by
    rw [mul_pow, sq_abs, sq, h3]
    have : Real.sin θ ^ 2 = 1 - Real.cos θ ^ 2 := by linarith
    rw [this, show (V3.norm r1 * V3.norm r2) ^ 2 * (1 - Real.cos θ ^ 2) = (V3.norm r1 * V3.norm r1) * (V3.norm r2 * V3.norm r2) -
      (V3.norm r1 * V3.norm r2 * Real.cos θ) ^ 2 by ring, hc, h1, h2]
    simp only [V3.dot, outer]
    ring
  have hn : V3.norm (outer r1 r2) = V3.norm r1 * V3.norm r2 * |Real.sin θ| :=
    (pow_left_inj₀ (norm_nonneg _) (by positivity) two_ne_zero).1 e
  rw [hn, mul_comm] at h
  exact lt_of_mul_lt_mul_left h hR.le

/-- The elliptic start. -/
noncomputable def start (tp tθ θ τ : ℝ) : ℝ :=
  2 * Real.pi * (Real.sqrt ((τ - tp) / (tθ - tp)) * (θ / (2 * Real.pi - θ))) /
    (1 + Real.sqrt ((τ - tp) / (tθ - tp)) * (θ / (2 * Real.pi - θ)))

/-- The transfer whose eccentric anomalies differ by the transfer angle. -/
theorem semiMajor_theta {mu : ℝ} (hmu : 0 < mu) {pro : Bool} {r1 r2 : V3} {θ : ℝ} (hna : NotAligned r1 r2)
    (hA : Angle pro r1 r2 θ) :
    HasSemiMajor mu r1 (fgV1 mu r1 r2 (halfA (V3.norm r1) (V3.norm r2) θ)
      (V3.norm r1 + V3.norm r2 - 2 * ((-1) ^ 0 * Real.sqrt (V3.norm r1 * V3.norm r2) * Real.cos (θ / 2)) * Real.cos (θ / 2)))
      ((len r1 + len r2 - Real.sqrt (len r1 * len r2) * (1 + Spec.inner r1 r2 / (len r1 * len r2))) /
        (1 - Spec.inner r1 r2 / (len r1 * len r2))) := by
  obtain ⟨hG, -⟩ := hA.halfGeo hna
  have hR : 0 < V3.norm r1 * V3.norm r2 :=
    mul_pos (norm_pos_of_notAligned_left hna) (norm_pos_of_notAligned_right hna)
  have hV := V_pos (x := θ) (m_lt hna hA 0)
  have hc := hA.cos_lt_one
  have hc2 : Real.cos θ = 2 * Real.cos (θ / 2) ^ 2 - 1 := by
    rw [← Real.cos_two_mul]; congr 1; ring
  have hi : Spec.inner r1 r2 / (len r1 * len r2) = Real.cos θ := by
    rw [len_eq_norm, len_eq_norm, div_eq_iff hR.ne']
    have := hA.cos_eq
    simp only [Spec.inner, V3.dot] at this ⊢
    linarith
  have he := fgV1_energy hmu hV hG
  have hA2 := halfA_sq (θ := θ) hR.le
  have hmeq := m_eq (R1 := V3.norm r1) (R2 := V3.norm r2) (θ := θ) 0
  rw [hi]
  unfold HasSemiMajor
  simp only [len_eq_norm]
  have hVe : V3.norm r1 + V3.norm r2 - 2 * ((-1) ^ 0 * Real.sqrt (V3.norm r1 * V3.norm r2) * Real.cos (θ / 2)) * Real.cos (θ / 2) =
      V3.norm r1 + V3.norm r2 - Real.sqrt (V3.norm r1 * V3.norm r2) * (1 + Real.cos θ) := by rw [hc2]; ring
  have hc1 : 0 < 1 - Real.cos θ := by linarith
  rw [hVe] at he hV ⊢
  refine ⟨by positivity, ?_⟩
  rw [sq (V3.norm (fgV1 _ _ _ _ _)), norm_mul_self, he]
  have hA0 := hG.hA
  have hq := Real.sq_sqrt hR.le
  have e : (V3.norm r1 + V3.norm r2 - (V3.norm r1 + V3.norm r2 - Real.sqrt (V3.norm r1 * V3.norm r2) * (1 + Real.cos θ))) ^ 2 -
      2 * halfA (V3.norm r1) (V3.norm r2) θ ^ 2 = -(halfA (V3.norm r1) (V3.norm r2) θ ^ 2) * (1 - Real.cos θ) := by
    rw [hA2]
    linear_combination (1 + Real.cos θ) ^ 2 * hq
  rw [e]
  generalize V3.norm r1 + V3.norm r2 - Real.sqrt (V3.norm r1 * V3.norm r2) * (1 + Real.cos θ) = V at *
  generalize halfA (V3.norm r1) (V3.norm r2) θ = A at *
  generalize 1 - Real.cos θ = d at *
  field_simp

/-- What the search has to return for the routine to return. -/
theorem run_zero {mu : ℝ} (hmu : 0 < mu) {r1 r2 : V3} (hna : NotAligned r1 r2) (pro : Bool)
    (hsin : 1e-14 * (len r1 * len r2) < len (outer r1 r2)) :
    ∃ θ P m, 0 < θ ∧ θ < 2 * Real.pi ∧ |2 * m| < P ∧
      (∀ x, 0 < x → x < 2 * Real.pi → Real.sqrt mu * parabolicTime mu r1 r2 pro < (rFull P m x).1) ∧
      0 < parabolicTime mu r1 r2 pro ∧
      (∃ w1 w2, LambertArc mu r1 r2 w1 w2 ((rFull P m θ).1 / Real.sqrt mu) 0 ∧ (NotPolar r1 r2 → Sense pro r1 w1) ∧
        HasSemiMajor mu r1 w1 ((len r1 + len r2 - Real.sqrt (len r1 * len r2) * (1 + Spec.inner r1 r2 / (len r1 * len r2))) /
          (1 - Spec.inner r1 r2 / (len r1 * len r2)))) ∧
      ∀ (tof : ℝ) (low : Bool) (maxiter : ℕ) (atol rtol : ℝ) (full : Bool) (clock : ℝ) (x : ℝ) (n : ℕ),
        0 ≤ rtol → 0 ≤ atol → atol + rtol * (Real.sqrt mu * parabolicTime mu r1 r2 pro) <
          Real.sqrt mu * tof - Real.sqrt mu * parabolicTime mu r1 r2 pro →
        desiredLoop (Real.sqrt mu * tof) P m 0 0 (some (2 * Real.pi)) (if rtol < 1e-10 then rtol else 1e-10) maxiter 1
          (start (Real.sqrt mu * parabolicTime mu r1 r2 pro) (rFull P m θ).1 θ (Real.sqrt mu * tof) : ℝ) = .ok ((x : ℂ), n) →
        0 < x → x < 2 * Real.pi → 1 ≤ n →
        ∃ v1 v2 tpi, mcelreath2025 mu r1 r2 tof 0 pro low maxiter atol rtol full clock = .ok (mkOutput full v1 v2 n tpi) ∧
          LambertArc mu r1 r2 v1 v2 ((rFull P m x).1 / Real.sqrt mu) 0 ∧ (NotPolar r1 r2 → Sense pro r1 v1) := by
  have h10 : r1 ≠ 0 := by rintro rfl; simp [NotAligned] at hna
  have h12 : r1 ≠ r2 := by rintro rfl; simp [NotAligned, mul_comm] at hna
  obtain ⟨θ, hθ⟩ : ∃ θ, getTransferAngle r1 r2 pro = .ok θ := ⟨_, transferAngle_eq hna pro⟩
  have hA := angle_of_eq hna hθ
  have hsn := sin_of_outer hna hA hsin
  obtain ⟨hG, hsh⟩ := hA.halfGeo hna
  have hP := m_lt hna hA 0
  have hm : 0 < Real.sqrt mu := Real.sqrt_pos.2 hmu
  have hpp : 0 < parabolicTime mu r1 r2 pro := by
    rw [halfA_signedA hna hA] at hG
    rw [← Tpar_parabolicTime hmu hG]
    have hme := m_eq (R1 := V3.norm r1) (R2 := V3.norm r2) (θ := θ) 0
    rw [hme, pow_zero, one_mul, halfA_signedA hna hA] at hP
    exact ((Path.par (by linarith [(abs_lt.1 hP).2]) rfl :
      Path mu (V3.norm r1 + V3.norm r2) (signedA pro r1 r2) 0 _ _).arc hmu hG).1
  refine ⟨θ, V3.norm r1 + V3.norm r2, (-1) ^ 0 * Real.sqrt (V3.norm r1 * V3.norm r2) * Real.cos (θ / 2), hA.pos, hA.lt, hP,
    fun x h0 h1 => par_lt hmu hna hA h0 h1, hpp,
    ⟨_, _, (time_path hmu hna hA hA.pos hA.lt).arc hmu hG,
      fun hnp => sense_of_sign (pro := pro) hmu (V_pos (x := θ) hP) hG.hA hnp hsh, semiMajor_theta hmu hna hA⟩, ?_⟩
  intro tof low maxiter atol rtol full clock x n hr ha hgap hloop h0 h1 hn
  have hpθ := par_lt hmu hna hA hA.pos hA.lt
  have htp0 : 0 ≤ Real.sqrt mu * parabolicTime mu r1 r2 pro := by positivity
  have hgap0 : 0 < Real.sqrt mu * tof - Real.sqrt mu * parabolicTime mu r1 r2 pro :=
    lt_of_le_of_lt (by positivity) hgap
  have htof : 0 < tof := by
    have : 0 < Real.sqrt mu * tof := by linarith
    exact (mul_pos_iff_of_pos_left hm).1 this
  have hstart : ellipticStart (Real.sqrt mu * tof) (Real.sqrt mu * parabolicTime mu r1 r2 pro) (V3.norm r1 + V3.norm r2)
      ((-1) ^ 0 * Real.sqrt (V3.norm r1 * V3.norm r2) * Real.cos (θ / 2)) θ =
      .ok ((start (Real.sqrt mu * parabolicTime mu r1 r2 pro) (rFull (V3.norm r1 + V3.norm r2)
        ((-1) ^ 0 * Real.sqrt (V3.norm r1 * V3.norm r2) * Real.cos (θ / 2)) θ).1 θ (Real.sqrt mu * tof) : ℝ) : ℂ) := by
    have h2 := hA.lt
    have h3 := hA.pos
    have h4 : 0 < θ / (2 * Real.pi - θ) := div_pos h3 (by linarith)
    unfold ellipticStart start
    rw [tofEquation_real hP (cos_ne_of hA.pos hA.lt), ok_bind, Complex.ofReal_re, pdiv_eq (by linarith), ok_bind,
      psqrt_eq (div_nonneg hgap0.le (by linarith)), ok_bind, pdiv_eq (by linarith), ok_bind]
    simp only []
    rw [pdiv_eq (by positivity), ok_bind]
  have hf : findX (Real.sqrt mu * tof) (V3.norm r1) (V3.norm r2)
      ((-1) ^ 0 * Real.sqrt (V3.norm r1 * V3.norm r2) * Real.cos (θ / 2)) θ 0 low maxiter atol rtol = .ok ((x : ℂ), n) := by
    unfold findX
    rw [if_pos rfl, findSingleRevolutionX, parabolicTof_eq hmu hna hA, ok_bind, if_neg (by
      rw [abs_of_pos hgap0, abs_of_nonneg htp0]; exact not_le.2 hgap), if_pos (by linarith), hstart, ok_bind]
    exact hloop
  obtain ⟨v1, v2, hrec⟩ := reconstruct_real (M := 0) hmu hna hA (cos_ne_of h0 h1)
  obtain ⟨tpi, htpi⟩ := timePerIter_pos full clock hn
  have hrun : mcelreath2025 mu r1 r2 tof 0 pro low maxiter atol rtol full clock = .ok (mkOutput full v1 v2 n tpi) := by
    unfold mcelreath2025
    rw [assertParameters_eq hmu h10 h12 htof le_rfl, ok_bind]
    simp only []
    rw [hθ, ok_bind, assertTransferAngleNotZero, raiseIf_neg _ hA.pos.ne', ok_bind, raiseIf_neg _ (by
      rw [show (0.0 : ℝ) = 0 by norm_num, sub_zero, abs_zero, mul_zero, add_zero]; exact not_le.2 hsn), ok_bind,
      Int.toNat_zero, hf, ok_bind]
    simp only []
    rw [htpi, ok_bind, hrec, ok_bind]
  refine ⟨v1, v2, tpi, hrun, ?_, ?_⟩
  · obtain ⟨-, -, rfl, rfl⟩ := reconstruct_ok hmu hna hA hrec
    have hcr : (Complex.cos ((x : ℂ) / 2)).re = Real.cos (x / 2) := by
      rw [show ((x : ℂ) / 2) = ((x / 2 : ℝ) : ℂ) by push_cast; rfl, Complex.cos_ofReal_re]
    rw [hcr]
    exact (time_path hmu hna hA h0 h1).arc hmu hG
  · intro hnp
    have := mcelreath_kepler_transfer_partial hrun
    rw [mkOutput_v1] at this
    rcases this.2 with ⟨_, -, h⟩ | ⟨-, -, -, h⟩
    · exact h hnp
    · exact h hnp

theorem start_theta {tp tθ θ : ℝ} (hp : tp < tθ) (h1 : θ < 2 * Real.pi) : start tp tθ θ tθ = θ := by
  have hpi := Real.pi_pos
  unfold start
  rw [div_self (by linarith), Real.sqrt_one, one_mul]
  have : 2 * Real.pi - θ ≠ 0 := by linarith
  have e : 1 + θ / (2 * Real.pi - θ) = 2 * Real.pi / (2 * Real.pi - θ) := by field_simp; ring
  rw [e]
  field_simp

theorem start_continuousAt {tp tθ θ : ℝ} (h0 : 0 < θ) (h1 : θ < 2 * Real.pi) (τ : ℝ) :
    ContinuousAt (start tp tθ θ) τ := by
  have h4 : 0 < θ / (2 * Real.pi - θ) := div_pos h0 (by linarith)
  unfold start
  refine ContinuousAt.div (by fun_prop) (by fun_prop) ?_
  positivity

theorem start_slow {tp tθ θ : ℝ} (hp : tp < tθ) (h0 : 0 < θ) (h1 : θ < 2 * Real.pi) :
    Tendsto (start tp tθ θ) atTop (𝓝[<] (2 * Real.pi)) ∧
      Tendsto (fun τ => Real.sin (start tp tθ θ τ / 2) ^ 3 * τ) atTop (𝓝 0) := by
  have hpi := Real.pi_pos
  have h4 : 0 < θ / (2 * Real.pi - θ) := div_pos h0 (by linarith)
  have hd : 0 < tθ - tp := by linarith
  obtain ⟨β, hβ⟩ : ∃ β : ℝ → ℝ, β = fun τ => Real.sqrt ((τ - tp) / (tθ - tp)) * (θ / (2 * Real.pi - θ)) := ⟨_, rfl⟩
  have hβ0 : ∀ τ, 0 ≤ β τ := fun τ => by rw [hβ]; positivity
  have kβ : Tendsto β atTop atTop := by
    rw [hβ]
    refine Tendsto.atTop_mul_const h4 (Real.tendsto_sqrt_atTop.comp ?_)
    exact (tendsto_atTop_add_const_right _ (-tp) tendsto_id).atTop_div_const hd
  have ki : Tendsto (fun τ => 1 / (1 + β τ)) atTop (𝓝 0) := by
    have := (tendsto_inv_atTop_zero (𝕜 := ℝ)).comp (tendsto_atTop_add_const_left _ 1 kβ)
    refine this.congr fun τ => ?_
    simp
  have he : ∀ τ, start tp tθ θ τ = 2 * Real.pi - 2 * Real.pi * (1 / (1 + β τ)) := by
    intro τ
    have := hβ0 τ
    have e : start tp tθ θ τ = 2 * Real.pi * β τ / (1 + β τ) := by rw [hβ]; rfl
    rw [e]
    field_simp
    ring
  refine ⟨tendsto_nhdsWithin_iff.2 ⟨?_, ?_⟩, ?_⟩
  · have := (ki.const_mul (2 * Real.pi)).const_sub (2 * Real.pi)
    rw [mul_zero, sub_zero] at this
    exact this.congr fun τ => (he τ).symm
  · refine Eventually.of_forall fun τ => ?_
    have := hβ0 τ
    have h5 : 0 < 2 * Real.pi * (1 / (1 + β τ)) := by positivity
    rw [Set.mem_Iio, he]
    linarith
  · have kb := ki.const_mul (Real.pi ^ 3 * (2 * (tθ - tp) / (θ / (2 * Real.pi - θ)) ^ 2))
    rw [mul_zero] at kb
    have hs : ∀ τ, 0 ≤ Real.sin (start tp tθ θ τ / 2) ∧ Real.sin (start tp tθ θ τ / 2) ≤ Real.pi * (1 / (1 + β τ)) := by
      intro τ
      have := hβ0 τ
      have h6 : 1 / (1 + β τ) ≤ 1 := by rw [div_le_one (by linarith)]; linarith
      have h7 : 0 ≤ Real.pi * (1 / (1 + β τ)) := by positivity
      have e : Real.sin (start tp tθ θ τ / 2) = Real.sin (Real.pi * (1 / (1 + β τ))) := by
        rw [← Real.sin_pi_sub, he]; congr 1; ring
      rw [e]
      exact ⟨Real.sin_nonneg_of_nonneg_of_le_pi h7 (by nlinarith), Real.sin_le h7⟩
    refine squeeze_zero' ?_ ?_ kb
    · filter_upwards [eventually_ge_atTop 0] with τ a
      have := (hs τ).1
      positivity
    · filter_upwards [eventually_ge_atTop 0, eventually_ge_atTop (2 * tp)] with τ a b
      have hb := hβ0 τ
      have hb2 : β τ ^ 2 = (τ - tp) / (tθ - tp) * (θ / (2 * Real.pi - θ)) ^ 2 := by
        rw [hβ]
        simp only []
        rw [mul_pow, Real.sq_sqrt (div_nonneg (by linarith) hd.le)]
      have ht : τ ≤ 2 * (tθ - tp) / (θ / (2 * Real.pi - θ)) ^ 2 * β τ ^ 2 := by
        rw [hb2]
        have : 2 * (tθ - tp) / (θ / (2 * Real.pi - θ)) ^ 2 * ((τ - tp) / (tθ - tp) * (θ / (2 * Real.pi - θ)) ^ 2) = 2 * (τ - tp) := by
          generalize θ / (2 * Real.pi - θ) = k at *
          field_simp
        rw [this]
        linarith
      have h3 := pow_le_pow_left₀ (hs τ).1 (hs τ).2 3
      refine (mul_le_mul h3 ht a (by positivity)).trans ?_
      have h : 0 ≤ 2 * (tθ - tp) / (θ / (2 * Real.pi - θ)) ^ 2 := by positivity
      generalize 2 * (tθ - tp) / (θ / (2 * Real.pi - θ)) ^ 2 = K at *
      have hc : (1 / (1 + β τ)) ^ 2 * β τ ^ 2 ≤ 1 := by
        rw [← mul_pow]
        refine pow_le_one₀ (by positivity) ?_
        rw [one_div_mul_eq_div, div_le_one (by linarith)]
        linarith
      have hi : 0 ≤ 1 / (1 + β τ) := by positivity
      calc (Real.pi * (1 / (1 + β τ))) ^ 3 * (K * β τ ^ 2) = Real.pi ^ 3 * K * (1 / (1 + β τ)) * ((1 / (1 + β τ)) ^ 2 * β τ ^ 2) := by ring
        _ ≤ Real.pi ^ 3 * K * (1 / (1 + β τ)) * 1 := by gcongr
        _ = _ := by ring

end McElreath

/-- **C78**, the problems solved.  For every geometry there is a zero-revolution transfer, the one with the semi-major axis
written below (the circular one when the two distances are equal), around whose flight time `mcelreath2025` solves every
problem, for every tolerance, given enough iterations; the flight time of the answer is as close to `tof` as the tolerance
on the steps.  (The hypothesis on the vector product is the negation of the code's own test for a half turn, and the
last one that of its test for a parabola.) -/
theorem mcelreath_solved_near {mu : ℝ} (hmu : 0 < mu) {r1 r2 : V3} (hnp : NotPolar r1 r2) (pro : Bool)
    (hsin : 1e-14 * (len r1 * len r2) < len (outer r1 r2)) :
    ∃ T0 w1 w2, parabolicTime mu r1 r2 pro < T0 ∧ LambertArc mu r1 r2 w1 w2 T0 0 ∧ Sense pro r1 w1 ∧
      HasSemiMajor mu r1 w1 ((len r1 + len r2 - Real.sqrt (len r1 * len r2) * (1 + Spec.inner r1 r2 / (len r1 * len r2))) /
        (1 - Spec.inner r1 r2 / (len r1 * len r2))) ∧
      ∃ ε > 0, ∃ C, ∀ rtol : ℝ, 0 < rtol → ∃ N : ℕ, ∀ (tof : ℝ) (low : Bool) (maxiter : ℕ) (atol : ℝ) (full : Bool) (clock : ℝ),
        |tof - T0| < ε → N ≤ maxiter → 0 ≤ atol →
        atol + rtol * (Real.sqrt mu * parabolicTime mu r1 r2 pro) < Real.sqrt mu * (tof - parabolicTime mu r1 r2 pro) →
        ∃ v1 v2 n tpi T', mcelreath2025 mu r1 r2 tof 0 pro low maxiter atol rtol full clock = .ok (mkOutput full v1 v2 n tpi) ∧
          LambertArc mu r1 r2 v1 v2 T' 0 ∧ Sense pro r1 v1 ∧ |T' - tof| ≤ C * min rtol 1e-10 := by
  have hna : NotAligned r1 r2 := fun h => hnp h.2.2
  have hm : 0 < Real.sqrt mu := Real.sqrt_pos.2 hmu
  obtain ⟨θ, P, m, h0, h1, hP, hpar, hpp, ⟨w1, w2, harc, hse, hsm⟩, hrun⟩ := run_zero hmu hna pro hsin
  obtain ⟨δ, hδ, hδ0, hδ1, C, hloop⟩ := desired_near hP h0 h1
  have hpθ := hpar θ h0 h1
  have hmono := time_mono hP
  have hth : θ ∈ Set.Ioo 0 (2 * Real.pi) := ⟨h0, h1⟩
  have ha : (rFull P m (θ - δ / 2)).1 < (rFull P m θ).1 := hmono ⟨by linarith, by linarith⟩ hth (by linarith)
  have hb : (rFull P m θ).1 < (rFull P m (θ + δ / 2)).1 := hmono hth ⟨by linarith, by linarith⟩ (by linarith)
  have hst : ∀ᶠ τ in 𝓝 (rFull P m θ).1, |start (Real.sqrt mu * parabolicTime mu r1 r2 pro) (rFull P m θ).1 θ τ - θ| < δ := by
    have hc := start_continuousAt (tp := Real.sqrt mu * parabolicTime mu r1 r2 pro) (tθ := (rFull P m θ).1) h0 h1 (rFull P m θ).1
    have := (hc.sub_const θ).abs.eventually_lt_const (u := δ) (by simpa [start_theta hpθ h1] using hδ)
    exact this
  have hroot : ∀ᶠ τ in 𝓝 (rFull P m θ).1, ∃ r, |r - θ| < δ ∧ (rFull P m r).1 = τ := by
    filter_upwards [eventually_gt_nhds ha, eventually_lt_nhds hb] with τ g1 g2
    obtain ⟨r, hr, he⟩ := intermediate_value_Icc (f := fun x => (rFull P m x).1) (a := θ - δ / 2) (b := θ + δ / 2) (by linarith)
      (fun y hy => (rT_deriv hP (cos_ne_of (by linarith [hy.1]) (by linarith [hy.2]))).continuousAt.continuousWithinAt)
      ⟨g1.le, g2.le⟩
    exact ⟨r, abs_lt.2 ⟨by linarith [hr.1], by linarith [hr.2]⟩, he⟩
  obtain ⟨ε, hε, hball⟩ := Metric.eventually_nhds_iff.1 (hst.and hroot)
  refine ⟨(rFull P m θ).1 / Real.sqrt mu, w1, w2, by rw [lt_div_iff₀ hm]; linarith, harc, hse hnp, hsm, ε / Real.sqrt mu,
    by positivity, C / Real.sqrt mu, fun rtol hr => ?_⟩
  have htol : 0 < (if rtol < 1e-10 then rtol else 1e-10) := by split <;> norm_num [hr]
  have hmin : (if rtol < 1e-10 then rtol else 1e-10) = min rtol 1e-10 := by
    split <;> rename_i h
    · rw [min_eq_left h.le]
    · rw [min_eq_right (not_lt.1 h)]
  obtain ⟨N, hN⟩ := hloop _ htol
  refine ⟨N, fun tof low maxiter atol full clock ht hmx hat hgap => ?_⟩
  obtain ⟨g1, r, g2, g3⟩ := hball (y := Real.sqrt mu * tof) (by
    rw [Real.dist_eq, show Real.sqrt mu * tof - (rFull P m θ).1 = Real.sqrt mu * (tof - (rFull P m θ).1 / Real.sqrt mu) by
      field_simp, abs_mul, abs_of_pos hm]
    rw [lt_div_iff₀ hm] at ht
    linarith)
  obtain ⟨x', n', e, e1, e2, e3, e4⟩ := hN r _ maxiter 1 g2 g1 hmx
  rw [g3] at e e4
  obtain ⟨v1, v2, tpi, q1, q2, q3⟩ := hrun tof low maxiter atol rtol full clock x' n' hr.le hat (by linarith) e e2 e3 e1
  refine ⟨v1, v2, n', tpi, _, q1, q2, q3 hnp, ?_⟩
  rw [show (rFull P m x').1 / Real.sqrt mu - tof = ((rFull P m x').1 - Real.sqrt mu * tof) / Real.sqrt mu by field_simp,
    abs_div, abs_of_pos hm, ← hmin, div_mul_eq_mul_div]
  gcongr

/-- The hypotheses of `mcelreath_solved_near` and `mcelreath_slow_wrong` hold for two points a quarter of a turn apart. -/
example : NotPolar ⟨1, 0, 0⟩ ⟨0, 1, 0⟩ ∧
    1e-14 * (len (⟨1, 0, 0⟩ : V3) * len (⟨0, 1, 0⟩ : V3)) < len (outer (⟨1, 0, 0⟩ : V3) ⟨0, 1, 0⟩) := by
  constructor
  · norm_num [NotPolar]
  · norm_num [len, outer]

/-- **C78**, slow transfers.  For every geometry, every tolerance and every budget of at least one iteration, and for every
factor `c`: once the time of flight is long enough, `mcelreath2025` stops after one iteration and returns a transfer that
takes more than `c` times too long.  (Its start is already close to the end `2π` of the interval, and its steps are compared
with the variable, not with the distance to `2π` that determines the time.) -/
theorem mcelreath_slow_wrong {mu : ℝ} (hmu : 0 < mu) {r1 r2 : V3} (hnp : NotPolar r1 r2) (pro : Bool)
    (hsin : 1e-14 * (len r1 * len r2) < len (outer r1 r2)) {rtol atol : ℝ} (hr : 0 < rtol) (ha : 0 ≤ atol) {c : ℝ} (hc : 1 ≤ c) :
    ∀ᶠ tof in atTop, ∀ (low : Bool) (maxiter : ℕ) (full : Bool) (clock : ℝ), 1 ≤ maxiter →
      ∃ v1 v2 tpi T', mcelreath2025 mu r1 r2 tof 0 pro low maxiter atol rtol full clock = .ok (mkOutput full v1 v2 1 tpi) ∧
        LambertArc mu r1 r2 v1 v2 T' 0 ∧ Sense pro r1 v1 ∧ c * tof < T' ∧ ¬ LambertArc mu r1 r2 v1 v2 tof 0 := by
  have hna : NotAligned r1 r2 := fun h => hnp h.2.2
  have hm : 0 < Real.sqrt mu := Real.sqrt_pos.2 hmu
  obtain ⟨θ, P, m, h0, h1, hP, hpar, hpp, -, hrun⟩ := run_zero hmu hna pro hsin
  obtain ⟨s1, s2⟩ := start_slow (hpar θ h0 h1) h0 h1
  obtain ⟨Y, hY, hstep⟩ := step_slow hP s1 s2
  have htol : 0 < (if rtol < 1e-10 then rtol else 1e-10) := by split <;> norm_num [hr]
  have hlin : Tendsto (fun tof : ℝ => Real.sqrt mu * tof) atTop atTop := tendsto_id.const_mul_atTop hm
  filter_upwards [hlin.eventually (hstep _ htol), hlin.eventually (hY.eventually_gt_atTop c), eventually_gt_atTop 0,
    hlin.eventually_gt_atTop (atol + rtol * (Real.sqrt mu * parabolicTime mu r1 r2 pro) +
      Real.sqrt mu * parabolicTime mu r1 r2 pro)] with tof g1 g2 g3 g4 low maxiter full clock hmx
  obtain ⟨y0, y1, hl⟩ := g1
  obtain ⟨k, rfl⟩ : ∃ k, maxiter = k + 1 := ⟨maxiter - 1, by omega⟩
  obtain ⟨v1, v2, tpi, q1, q2, q3⟩ := hrun tof low (k + 1) atol rtol full clock _ 1 hr.le ha (by linarith) (hl k 1) y0 y1 le_rfl
  have hT : c * tof < (rFull P m (Y (Real.sqrt mu * tof))).1 / Real.sqrt mu := by
    rw [lt_div_iff₀ (by positivity)] at g2
    rw [lt_div_iff₀ hm]
    linarith
  refine ⟨v1, v2, tpi, _, q1, q2, q3 hnp, hT, fun h => ?_⟩
  have := arc_time_unique hmu hna h q2
  nlinarith

end Lamberthub
