import Verif.Props.NegreteConverges
import Verif.Proofs.NegreteUnivalent

/-!
# C25: `negrete2024` solves the fast problems with almost opposite positions

The hypotheses of `negrete_hyperbolic_converges` are established, with nothing assumed about
poles, for every pair of positions whose directions are almost opposite and every time of
flight between those of the universal variables `-1 + 5e-7` and `-5e-7`.
-/

set_option autoImplicit false

namespace Lamberthub
open Spec Set Filter Topology Negrete McElreath LC

namespace Negrete

theorem real_F {R1 R2 A z : ℝ} (hP : 0 < R1 + R2) (hA : |A| ≤ (R1 + R2) / 400) (h1 : |z| ≤ 2) (h8 : 1e-8 ≤ |z|)
    (hpi : z < 4 * Real.pi ^ 2) : 0 < uvY (R1 + R2) A z ∧ ∀ {mu : ℝ}, 0 < mu →
    ((Real.sqrt mu * uvT mu (R1 + R2) A z : ℝ) : ℂ) =
      ((R1 + R2) * Real.sqrt (R1 + R2) : ℝ) * Fof (A / (R1 + R2)) z := by
  have hz : ‖(z : ℂ)‖ ≤ 2 := by rw [Complex.norm_real, Real.norm_eq_abs]; exact h1
  have hz8 : 1e-8 ≤ ‖(z : ℂ)‖ := by rw [Complex.norm_real, Real.norm_eq_abs]; exact h8
  have h2 := series2_pos_of_lt hpi
  have e := yAtZ_F (A := A) hP hz hz8
  rw [yAtZ_large_eq h8 h2] at e
  have e := Except.ok.inj e
  have hy : 0 < uvY (R1 + R2) A z := by
    have := congrArg Complex.re e
    rw [Complex.ofReal_re, Complex.re_ofReal_mul] at this
    have h3 := re_ge (Y_near hz (alpha_le hP hA))
    rw [this]
    exact mul_pos hP (by norm_num at h3; linarith)
  refine ⟨hy, fun {mu} hmu => ?_⟩
  have e2 : (stumpffSeries 2 z : ℂ) = S 2 z := Except.ok.inj ((c2_large h8).symm.trans (c2_S hz8))
  have e3 : (stumpffSeries 3 z : ℂ) = S 3 z := Except.ok.inj ((c3_large h8).symm.trans (c3_S hz8))
  rw [← time_F hP hA hz, ← e, ← e2, ← e3, ← Complex.ofReal_div, csqrt_ofReal (by positivity), csqrt_ofReal hy.le]
  have hs : Real.sqrt mu ≠ 0 := (Real.sqrt_pos.2 hmu).ne'
  unfold uvT
  rw [mul_div_cancel₀ _ hs]
  push_cast
  rfl

theorem simplePole {mu R1 R2 A tof zs : ℝ} (hmu : 0 < mu) (hP : 0 < R1 + R2) (hA : |A| ≤ (R1 + R2) / 400)
    (h1 : |zs| < 1) (h8 : 1e-8 ≤ |zs|) (hT : uvT mu (R1 + R2) A zs = tof) :
    SimplePole (poleFunction mu R1 R2 A tof)
      (fun z => 1 / (((R1 + R2) * Real.sqrt (R1 + R2) : ℝ) * dslope (Fof (A / (R1 + R2))) zs z))
      (Metric.ball 0 1) (Metric.ball 0 1 ∩ {z | 1e-8 < ‖z‖} ∩ {(zs : ℂ)}ᶜ) zs := by
  have hα := alpha_le hP hA
  have hpi : zs < 4 * Real.pi ^ 2 := by nlinarith [(abs_lt.1 h1).2, Real.pi_gt_three]
  have hF := (real_F hP hA (by linarith) h8 hpi).2 hmu
  have hzs : ‖(zs : ℂ)‖ < 1 := by rw [Complex.norm_real, Real.norm_eq_abs]; exact h1
  have hk : (((R1 + R2) * Real.sqrt (R1 + R2) : ℝ) : ℂ) ≠ 0 := by
    have : (R1 + R2) * Real.sqrt (R1 + R2) ≠ 0 := by positivity
    exact_mod_cast this
  have hds : ∀ z ∈ Metric.ball (0 : ℂ) 1, dslope (Fof (A / (R1 + R2))) zs z ≠ 0 := by
    intro z hz
    rw [mem_ball_zero_iff] at hz
    by_cases h : z = zs
    · rw [h, dslope_same]; exact F_deriv_ne hα hzs.le
    · rw [dslope_of_ne _ h, slope_def_field, div_ne_zero_iff]
      exact ⟨fun h0 => h (F_inj hα hz.le hzs.le (sub_eq_zero.1 h0)), sub_ne_zero.2 h⟩
  have hdiff : DifferentiableOn ℂ (dslope (Fof (A / (R1 + R2))) zs) (Metric.ball 0 1) := by
    rw [Complex.differentiableOn_dslope (Metric.isOpen_ball.mem_nhds (mem_ball_zero_iff.2 hzs))]
    exact fun z hz => (F_diffAt hα (by rw [mem_ball_zero_iff] at hz; linarith)).differentiableWithinAt
  refine ⟨?_, fun z hz => hz.1.1, ?_, fun h => h.2 rfl, ?_, ?_⟩
  · refine (Metric.isOpen_ball.inter (isOpen_lt continuous_const continuous_norm)).inter isOpen_compl_singleton
  · rintro z ⟨⟨hz, hz8⟩, hne⟩
    have hz1 := mem_ball_zero_iff.1 hz
    have hz2 : ‖z‖ ≤ 2 := by linarith
    have hz8' : 1e-8 ≤ ‖z‖ := le_of_lt hz8
    have hne : z ≠ zs := hne
    have hS := S2_ge hz2
    have hSne : S 2 z ≠ 0 := by intro h; rw [h, norm_zero] at hS; norm_num at hS
    have hval : csqrt (((R1 + R2 : ℝ) : ℂ) * Yof (A / (R1 + R2)) z / S 2 z) ^ 3 * S 3 z +
        A * csqrt ((R1 + R2 : ℝ) * Yof (A / (R1 + R2)) z) - Real.sqrt mu * tof =
        ((R1 + R2) * Real.sqrt (R1 + R2) : ℝ) * (Fof (A / (R1 + R2)) z - Fof (A / (R1 + R2)) zs) := by
      rw [time_F hP hA hz2, mul_sub, ← hF, hT]
      push_cast
      ring
    have hne0 : Fof (A / (R1 + R2)) z - Fof (A / (R1 + R2)) zs ≠ 0 := fun h0 =>
      hne (F_inj hα hz1.le hzs.le (sub_eq_zero.1 h0))
    unfold poleFunction
    rw [yAtZ_F hP hz2 hz8', ok_bind, c2_S hz8', ok_bind, cdiv_eq hSne, ok_bind, c3_S hz8', ok_bind, psqrt_eq hmu.le, ok_bind,
      hval, cdiv_eq (mul_ne_zero hk hne0)]
    congr 1
    rw [dslope_of_ne _ hne, slope_def_field]
    have := sub_ne_zero.2 hne
    field_simp
  · refine DifferentiableOn.div (differentiableOn_const _) (hdiff.const_mul _) fun z hz => mul_ne_zero hk (hds z hz)
  · exact one_div_ne_zero (mul_ne_zero hk (hds _ (mem_ball_zero_iff.2 hzs)))

end Negrete

/-- **C25**, total correctness in the limit, on a class of problems.  Let the directions of
the positions be almost opposite, and let the time of flight be that of the universal
variable `zs`, anywhere between `-1 + 5e-7` and `-5e-7` (hyperbolic transfers).  For every
`ε` and every large enough `maxiter`, `negrete2024` returns a direct Kepler transfer in the
requested sense, whose time of flight is within `ε` of the requested one. -/
theorem negrete_antipodal_converges {mu : ℝ} {r1 r2 : V3} {tof : ℝ} {pro : Bool} (hmu : 0 < mu)
    (hna : NotAligned r1 r2) (hop : len r1 * len r2 + V3.dot r1 r2 ≤ ((len r1 + len r2) / 400) ^ 2)
    {zs atol rtol : ℝ} (h1 : -1 + 5e-7 < zs) (h2 : zs < -5e-7)
    (hT : uvT mu (len r1 + len r2) (signedA pro r1 r2) zs = tof)
    (hat : 0 < atol) (hrt : 0 ≤ rtol) {ε : ℝ} (hε : 0 < ε) :
    ∃ N : ℕ, ∀ maxiter ≥ N, ∀ (low full : Bool) (clock : ℝ), ∃ out T,
      negrete2024 mu r1 r2 tof 0 pro low maxiter atol rtol full clock = .ok out ∧
      LambertArc mu r1 r2 out.v1 out.v2 T 0 ∧ (NotPolar r1 r2 → Sense pro r1 out.v1) ∧ |T - tof| < ε := by
  have hpi := Real.pi_pos
  have hpi3 := Real.pi_gt_three
  obtain ⟨θ, hθ⟩ : ∃ θ, getTransferAngle r1 r2 pro = .ok θ := ⟨_, transferAngle_eq hna pro⟩
  obtain ⟨-, hG⟩ := getA_signedA (angle_of_eq hna hθ) hna
  rw [len_eq_norm, len_eq_norm] at hop hT
  have hR1 := hG.R1
  have hR2 := hG.R2
  have hP : 0 < V3.norm r1 + V3.norm r2 := by linarith
  have hA : |signedA pro r1 r2| ≤ (V3.norm r1 + V3.norm r2) / 400 := by
    refine abs_le_of_sq_le_sq ?_ (by positivity)
    rw [hG.hA2]; exact hop
  have hY : ∀ z : ℝ, -1 ≤ z → z < -5e-7 → 0 < uvY (V3.norm r1 + V3.norm r2) (signedA pro r1 r2) z := by
    intro z ha hb
    norm_num at hb
    exact (real_F hP hA (by rw [abs_of_neg (by linarith)]; linarith)
      (by rw [abs_of_neg (by linarith)]; norm_num; linarith) (by nlinarith)).1
  norm_num at h1 h2
  have hYs := hY zs (by linarith) (by norm_num; linarith)
  have hY1 := hY (-1) le_rfl (by norm_num)
  have hy0 : 0 < uvY (V3.norm r1 + V3.norm r2) (signedA pro r1 r2) 0 :=
    Vallado.uvY_pos hR1 hR2 hG.A2_lt le_rfl (by positivity)
  have hs2A : |Real.sqrt 2 * signedA pro r1 r2| < V3.norm r1 + V3.norm r2 := by
    refine abs_lt_of_sq_lt_sq ?_ hP.le
    rw [mul_pow, Real.sq_sqrt (by norm_num)]
    nlinarith [hG.A2_lt, sq_nonneg (V3.norm r1 - V3.norm r2)]
  have hmono := uvT_strictMonoOn hmu hs2A
  have hfast : tof < parabolicTime mu r1 r2 pro := by
    rw [← Tpar_parabolicTime hmu hG, ← uvY_zero, ← uvT_zero hmu hy0.le, ← hT]
    exact hmono ⟨by nlinarith, hYs⟩ ⟨by positivity, hy0⟩ (by linarith)
  have hslow : uvT mu (V3.norm r1 + V3.norm r2) (signedA pro r1 r2) (-1) < tof := by
    rw [← hT]
    exact hmono ⟨by nlinarith, hY1⟩ ⟨by nlinarith, hYs⟩ (by linarith)
  have htof : 0 < tof := by
    have := ((uv_path hmu (by nlinarith : zs < 4 * Real.pi ^ 2) hYs).arc hmu hG).1
    rwa [hT] at this
  have hloop : hyperbolicLoop mu (V3.norm r1) (V3.norm r2) (signedA pro r1 r2) tof 64 (-1) = .ok (-1, true) := by
    have h8 : (1e-8 : ℝ) ≤ |(-1 : ℝ)| := by norm_num
    have hc2 : 0 < stumpffSeries 2 (-1) := series2_pos_of_lt (by nlinarith)
    rw [hyperbolicLoop, yAtZ_large_eq h8 hc2, ok_bind, Complex.ofReal_re, if_pos hY1, tofAtZ_large hmu h8 hc2 hY1.le, ok_bind,
      if_pos hslow]
  have hH := simplePole hmu hP hA (zs := zs) (by rw [abs_lt]; constructor <;> linarith)
    (by rw [abs_of_neg (by linarith)]; norm_num; linarith) hT
  have hr : refinementRadius zs (-1 * (1 - 5e-7)) 0 ≤ 0.5 * (0 - zs) ∧
      refinementRadius zs (-1 * (1 - 5e-7)) 0 < 1 + zs ∧ 0 < refinementRadius zs (-1 * (1 - 5e-7)) 0 := by
    rw [radius_hyp (by norm_num) (by norm_num; linarith) (by linarith)]
    refine ⟨max_le (min_le_right _ _) (by norm_num; linarith), max_lt ?_ (by norm_num; linarith), lt_max_of_lt_right (by norm_num)⟩
    refine lt_of_le_of_lt ((min_le_left _ _).trans (min_le_left _ _)) ?_
    norm_num; linarith
  obtain ⟨ra, rb, rc⟩ := hr
  generalize hrd : refinementRadius zs (-1 * (1 - 5e-7)) 0 = rad at ra rb rc
  have ball1 : ∀ z : ℂ, ‖z - ((-1 / 2 : ℝ) : ℂ)‖ ≤ - -1 / 2 * (1 - 1e-6) → ‖z‖ < 1 := by
    intro z hz
    have := norm_add_le (z - ((-1 / 2 : ℝ) : ℂ)) ((-1 / 2 : ℝ) : ℂ)
    rw [sub_add_cancel, Complex.norm_real, Real.norm_eq_abs] at this
    norm_num at this hz
    linarith
  have ball2 : ∀ z : ℂ, ‖z - zs‖ ≤ rad → ‖z‖ < 1 := by
    intro z hz
    have := norm_add_le (z - zs) zs
    rw [sub_add_cancel, Complex.norm_real, Real.norm_eq_abs, abs_of_neg (by linarith)] at this
    linarith
  refine negrete_hyperbolic_converges hmu htof hna hfast hloop (by norm_num; linarith) (by norm_num; linarith) hYs hT hH
    ?_ ?_ ?_ ?_ hat hrt hε
  · intro z hz
    exact mem_ball_zero_iff.2 (ball1 z (mem_closedBall_iff_norm.1 hz))
  · intro z hz
    have hz := mem_sphere_iff_norm.1 hz
    refine ⟨⟨mem_ball_zero_iff.2 (ball1 z hz.le), ?_⟩, ?_⟩
    · have := norm_sub_le z ((-1 / 2 : ℝ) : ℂ)
      have h3 := norm_sub_norm_le ((-1 / 2 : ℝ) : ℂ) (((-1 / 2 : ℝ) : ℂ) - z)
      rw [sub_sub_cancel, norm_sub_rev, hz, Complex.norm_real, Real.norm_eq_abs] at h3
      show (1e-8 : ℝ) < ‖z‖
      norm_num at h3 ⊢
      linarith
    · rintro rfl
      rw [← Complex.ofReal_sub, Complex.norm_real, Real.norm_eq_abs] at hz
      have : |zs - -1 / 2| < - -1 / 2 * (1 - 1e-6) := by rw [abs_lt]; norm_num; constructor <;> linarith
      linarith
  · rw [hrd]
    intro z hz
    exact mem_ball_zero_iff.2 (ball2 z (mem_closedBall_iff_norm.1 hz))
  · rw [hrd]
    intro z hz
    have hz := mem_sphere_iff_norm.1 hz
    refine ⟨⟨mem_ball_zero_iff.2 (ball2 z hz.le), ?_⟩, ?_⟩
    · have h3 := norm_sub_norm_le (zs : ℂ) (zs - z)
      rw [sub_sub_cancel, norm_sub_rev, hz, Complex.norm_real, Real.norm_eq_abs, abs_of_neg (by linarith)] at h3
      show (1e-8 : ℝ) < ‖z‖
      norm_num at h3 ra ⊢
      linarith
    · rintro rfl
      rw [sub_self, norm_zero] at hz
      linarith

/-- The hypotheses of `negrete_antipodal_converges` (so those of `negrete_hyperbolic_converges`
and of `negrete_kepler_transfer_partial`) are met: unit vectors 0.4 degrees from opposition,
and the hyperbola of the universal variable `-1/2`. -/
example : ∃ tof, ∃ N : ℕ, ∀ maxiter ≥ N, ∃ out T,
    negrete2024 1 ⟨1, 0, 0⟩ ⟨-89999 / 90001, 600 / 90001, 0⟩ tof 0 true true maxiter 1e-5 1e-7 false 0 = .ok out ∧
    LambertArc 1 ⟨1, 0, 0⟩ ⟨-89999 / 90001, 600 / 90001, 0⟩ out.v1 out.v2 T 0 ∧ 0 < out.v1.y ∧ |T - tof| < 1e-9 := by
  have n1 : len ⟨1, 0, 0⟩ = 1 := by simp [len]
  have n2 : len ⟨-89999 / 90001, 600 / 90001, 0⟩ = 1 := by
    unfold len; rw [Real.sqrt_eq_one]; norm_num
  obtain ⟨tof, htof⟩ : ∃ tof, uvT 1 (len ⟨1, 0, 0⟩ + len ⟨-89999 / 90001, 600 / 90001, 0⟩)
    (signedA true ⟨1, 0, 0⟩ ⟨-89999 / 90001, 600 / 90001, 0⟩) (-1 / 2) = tof := ⟨_, rfl⟩
  obtain ⟨N, hN⟩ := negrete_antipodal_converges (mu := 1) (r1 := ⟨1, 0, 0⟩) (r2 := ⟨-89999 / 90001, 600 / 90001, 0⟩)
    (pro := true) one_pos (by norm_num [NotAligned]) (by rw [n1, n2]; norm_num [V3.dot]) (zs := -1 / 2) (atol := 1e-5)
    (rtol := 1e-7) (by norm_num) (by norm_num) htof (by norm_num) (by norm_num) (ε := 1e-9) (by norm_num)
  refine ⟨tof, N, fun m hm => ?_⟩
  obtain ⟨out, T, h1, h2, h3, h4⟩ := hN m hm true false 0
  refine ⟨out, T, h1, h2, ?_, h4⟩
  have := h3 (by norm_num [NotPolar])
  simpa [Sense, angMomZ] using this

end Lamberthub
