import Verif.Props.NegreteMore

/-!
# The contour sums of `negrete2024` depend continuously on the contour, uniformly in the number of nodes
-/

set_option autoImplicit false

namespace Lamberthub
open Spec Set Filter Topology Negrete McElreath

namespace Negrete

/-- The point of the contour with parameter `t`. -/
noncomputable def pt (p : ℝ × ℝ) (t : ℝ) : ℂ := p.1 + p.2 * Complex.exp (2 * Complex.I * Real.pi * (t : ℂ))

theorem pt_continuous : Continuous fun q : (ℝ × ℝ) × ℝ => pt q.1 q.2 := by
  unfold pt; fun_prop

theorem sphere_pt {c R : ℝ} (hR : 0 < R) {z : ℂ} (hz : z ∈ Metric.sphere (c : ℂ) R) : ∃ t ∈ Icc (-1 : ℝ) 1, z = pt (c, R) t := by
  rw [mem_sphere_iff_norm] at hz
  have hpi := Real.pi_pos
  refine ⟨Complex.arg (z - c) / (2 * Real.pi), ?_, ?_⟩
  · have h1 := Complex.neg_pi_lt_arg (z - c)
    have h2 := Complex.arg_le_pi (z - c)
    constructor
    · rw [le_div_iff₀ (by positivity)]; linarith
    · rw [div_le_iff₀ (by positivity)]; linarith
  · unfold pt
    have e : 2 * Complex.I * Real.pi * ((Complex.arg (z - c) / (2 * Real.pi) : ℝ) : ℂ) = Complex.arg (z - c) * Complex.I := by
      have : (Real.pi : ℂ) ≠ 0 := by exact_mod_cast hpi.ne'
      push_cast
      field_simp
    have h3 := Complex.norm_mul_exp_arg_mul_I (z - c)
    rw [hz] at h3
    simp only
    rw [e, h3]; ring

theorem contourSum_near {g : ℂ → ℂ} {W : Set ℂ} (hW : IsOpen W) (hg : ContinuousOn g W) {c0 R0 : ℝ} (hR0 : 0 < R0)
    (hs : Metric.sphere (c0 : ℂ) R0 ⊆ W) {ε : ℝ} (hε : 0 < ε) :
    ∀ᶠ p in 𝓝 (c0, R0), Metric.sphere (p.1 : ℂ) p.2 ⊆ W ∧ ∀ n : ℕ, ‖contourSum g p.1 p.2 n - contourSum g c0 R0 n‖ ≤ ε := by
  obtain ⟨Ψ, hΨ⟩ : ∃ Ψ : ℝ × ℝ → ℝ → ℂ, Ψ = fun p t => g (pt p t) *
    (2 * Complex.I * Real.pi * p.2 * Complex.exp (2 * Complex.I * Real.pi * (t : ℂ))) := ⟨_, rfl⟩
  have hin : ∀ t, pt (c0, R0) t ∈ W := by
    intro t
    apply hs
    rw [mem_sphere_iff_norm, pt, add_sub_cancel_left, norm_mul, Complex.norm_real, Real.norm_of_nonneg hR0.le,
      show 2 * Complex.I * Real.pi * (t : ℂ) = ((2 * Real.pi * t : ℝ) : ℂ) * Complex.I by push_cast; ring,
      Complex.norm_exp_ofReal_mul_I, mul_one]
  have hc : ∀ t, ContinuousAt (fun q : (ℝ × ℝ) × ℝ => Ψ q.1 q.2) ((c0, R0), t) := by
    intro t
    rw [hΨ]
    refine ContinuousAt.mul ?_ (by fun_prop)
    exact ContinuousAt.comp (f := fun q : (ℝ × ℝ) × ℝ => pt q.1 q.2) (hg.continuousAt (hW.mem_nhds (hin t))) pt_continuous.continuousAt
  have key : ∀ᶠ p in 𝓝 (c0, R0), ∀ t ∈ Icc (-1 : ℝ) 1, pt p t ∈ W ∧ ‖Ψ p t - Ψ (c0, R0) t‖ ≤ ε := by
    refine isCompact_Icc.eventually_forall_of_forall_eventually fun t _ => ?_
    have h1 : ∀ᶠ q : (ℝ × ℝ) × ℝ in 𝓝 ((c0, R0), t), pt q.1 q.2 ∈ W :=
      pt_continuous.continuousAt.eventually (hW.mem_nhds (hin t))
    have h2 : ContinuousAt (fun q : (ℝ × ℝ) × ℝ => Ψ q.1 q.2 - Ψ (c0, R0) q.2) ((c0, R0), t) := by
      refine (hc t).sub ?_
      have hcc : ContinuousAt (fun q : (ℝ × ℝ) × ℝ => (((c0, R0), q.2) : (ℝ × ℝ) × ℝ)) ((c0, R0), t) :=
        (continuous_const.prodMk continuous_snd).continuousAt
      exact ContinuousAt.comp (x := ((c0, R0), t)) (g := fun q : (ℝ × ℝ) × ℝ => Ψ q.1 q.2)
        (f := fun q : (ℝ × ℝ) × ℝ => (((c0, R0), q.2) : (ℝ × ℝ) × ℝ)) (hc t) hcc
    have h3 : ∀ᶠ q : (ℝ × ℝ) × ℝ in 𝓝 ((c0, R0), t), ‖Ψ q.1 q.2 - Ψ (c0, R0) q.2‖ < ε := by
      have := h2.norm
      unfold ContinuousAt at this
      simp only [sub_self, norm_zero] at this
      exact this.eventually_lt_const hε
    filter_upwards [h1, h3] with q a b using ⟨a, b.le⟩
  have hpos : ∀ᶠ p : ℝ × ℝ in 𝓝 (c0, R0), 0 < p.2 := continuous_snd.continuousAt.eventually (lt_mem_nhds hR0)
  filter_upwards [key, hpos] with p hp hp0
  refine ⟨fun z hz => ?_, fun n => ?_⟩
  · obtain ⟨t, ht, rfl⟩ := sphere_pt hp0 hz
    exact (hp t ht).1
  · rcases Nat.eq_zero_or_pos n with rfl | hn
    · simp [contourSum, hε.le]
    have hn0 : (0 : ℝ) < n := by exact_mod_cast hn
    have e : ∀ q : ℝ × ℝ, contourSum g q.1 q.2 n = (∑ i ∈ Finset.range n, Ψ q (i / n : ℝ)) / n := by
      intro q
      rw [hΨ]; rfl
    have e0 := e (c0, R0)
    simp only at e0
    rw [e, e0, ← sub_div, ← Finset.sum_sub_distrib, norm_div, Complex.norm_natCast, div_le_iff₀ hn0]
    refine (norm_sum_le _ _).trans ?_
    have : ∀ i ∈ Finset.range n, ‖Ψ p (i / n : ℝ) - Ψ (c0, R0) (i / n : ℝ)‖ ≤ ε := by
      intro i hi
      have hi' : (i : ℝ) < n := by exact_mod_cast Finset.mem_range.1 hi
      refine (hp (i / n : ℝ) ⟨?_, ?_⟩).2
      · have : (0 : ℝ) ≤ i / n := by positivity
        linarith
      · rw [div_le_one hn0]; exact hi'.le
    calc _ ≤ ∑ i ∈ Finset.range n, ε := Finset.sum_le_sum this
      _ = ε * n := by rw [Finset.sum_const, Finset.card_range, nsmul_eq_mul, mul_comm]

/-- `negrete_contour_converges`, uniformly in the contour. -/
theorem singleRoot_near {f : ℂ → Py ℂ} {h : ℂ → ℂ} {W : Set ℂ} (hW : IsOpen W) {c R p atol rtol : ℝ}
    (hf : ∀ z ∈ W, f z = .ok (h z / (z - p))) (hpW : (p : ℂ) ∉ W) (hhW : ContinuousOn h W) (hs : Metric.sphere (c : ℂ) R ⊆ W)
    (hh : DiffContOnCl ℂ h (Metric.ball (c : ℂ) R)) (hp : |p - c| < R) (hp0 : h p ≠ 0)
    (hat : 0 < atol) (hrt : 0 ≤ rtol) {ε : ℝ} (hε : 0 < ε) :
    ∀ᶠ q in 𝓝 (c, R) ×ˢ atTop, ∃ z, singleRoot f q.1.1 q.1.2 q.2 atol rtol = .ok z ∧ |z - p| < ε := by
  have hR : 0 < R := lt_of_le_of_lt (abs_nonneg _) hp
  have hpb : (p : ℂ) ∈ Metric.ball (c : ℂ) R := by
    rw [mem_ball_iff_norm, ← Complex.ofReal_sub, Complex.norm_real]; exact hp
  have hcont : ContinuousOn (fun z => h z / (z - p)) W := by
    refine ContinuousOn.div hhW (by fun_prop) fun z hz h0 => hpW ?_
    rwa [← sub_eq_zero.1 h0]
  have hmom : ∀ k : ℕ, Tendsto (fun q : (ℝ × ℝ) × ℕ => contourSum (fun z => z ^ k * (h z / (z - p))) q.1.1 q.1.2 q.2)
      (𝓝 (c, R) ×ˢ atTop) (𝓝 (2 * Real.pi * Complex.I * ((p : ℂ) ^ k * h p))) := by
    intro k
    have hk : ContinuousOn (fun z => z ^ k * (h z / (z - p))) W := (continuousOn_id.pow k).mul hcont
    have h1 := contourSum_tendsto hR.le (hk.mono hs)
    rw [moment_integral k hh hpb] at h1
    rw [Metric.tendsto_nhds]
    intro e he
    have h2 := contourSum_near hW hk hR hs (half_pos he)
    have h3 := (Metric.tendsto_nhds.1 h1) (e / 2) (half_pos he)
    filter_upwards [h2.prod_mk h3] with q hq
    have := dist_triangle (contourSum (fun z => z ^ k * (h z / (z - p))) q.1.1 q.1.2 q.2)
      (contourSum (fun z => z ^ k * (h z / (z - p))) c R q.2) (2 * Real.pi * Complex.I * ((p : ℂ) ^ k * h p))
    have h4 := hq.1.2 q.2
    rw [← dist_eq_norm] at h4
    linarith [hq.2]
  have hne : 2 * Real.pi * Complex.I * ((p : ℂ) ^ 0 * h p) ≠ 0 := by
    rw [pow_zero, one_mul]
    exact mul_ne_zero Complex.two_pi_I_ne_zero hp0
  have hratio := (hmom 1).div (hmom 0) hne
  rw [show 2 * Real.pi * Complex.I * ((p : ℂ) ^ 1 * h p) / (2 * Real.pi * Complex.I * ((p : ℂ) ^ 0 * h p)) = p by
    rw [div_eq_iff hne]; ring] at hratio
  have h1 := (Metric.tendsto_nhds.1 hratio) (min ε atol) (lt_min hε hat)
  have h2 := (hmom 0).eventually_ne hne
  have h3 : ∀ᶠ q : (ℝ × ℝ) × ℕ in 𝓝 (c, R) ×ˢ atTop, 1 ≤ q.2 := tendsto_snd.eventually (eventually_ge_atTop 1)
  have h4 : ∀ᶠ q : (ℝ × ℝ) × ℕ in 𝓝 (c, R) ×ˢ atTop, Metric.sphere (q.1.1 : ℂ) q.1.2 ⊆ W ∧ 0 < q.1.2 := by
    refine tendsto_fst.eventually (p := fun p : ℝ × ℝ => Metric.sphere (p.1 : ℂ) p.2 ⊆ W ∧ 0 < p.2) ?_
    have hpos : ∀ᶠ p : ℝ × ℝ in 𝓝 (c, R), 0 < p.2 := continuous_snd.continuousAt.eventually (lt_mem_nhds hR)
    filter_upwards [contourSum_near hW hhW hR hs one_pos, hpos] with p a b using ⟨a.1, b⟩
  filter_upwards [h1, h2, h3, h4] with q hq h0 hn1 hsub
  obtain ⟨I, hI, hIk⟩ := contourIntegrals_eq hsub.2.le (fun z hz => hf z (hsub.1 hz)) 1 hn1
  simp only [Pi.div_apply] at hq
  rw [← hIk 0 zero_le_one, ← hIk 1 le_rfl, dist_eq_norm] at hq
  rw [← hIk 0 zero_le_one] at h0
  refine ⟨(I 1 / I 0).re, ?_, ?_⟩
  · rw [singleRoot, hI, ok_bind, cdiv_eq h0, ok_bind, realSolution, raiseIf_neg, ok_bind]
    have := Complex.abs_im_le_norm (I 1 / I 0 - p)
    rw [Complex.sub_im, Complex.ofReal_im, sub_zero] at this
    have h2 := mul_nonneg hrt (abs_nonneg (I 1 / I 0).re)
    rw [gt_iff_lt, not_lt]
    linarith [lt_of_lt_of_le hq (min_le_right _ _)]
  · have := Complex.abs_re_le_norm (I 1 / I 0 - p)
    rw [Complex.sub_re, Complex.ofReal_re] at this
    linarith [lt_of_lt_of_le hq (min_le_left _ _)]

end Negrete
end Lamberthub
