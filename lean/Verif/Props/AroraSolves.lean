import Verif.Proofs.AroraStart
import Verif.Props.Unique

/-! # C79: nearly parabolic, fast and slow transfers in `arora2013` -/

set_option autoImplicit false

namespace Lamberthub
open Filter Topology Spec LC Arora

namespace Arora

theorem guess_zero {minimize : Minimizer} {brentq : Brent} {tof tofP tau S d : ℝ} {low : Bool} {atol rtol : ℝ} :
    initialGuess minimize brentq tof tofP tau S d 0 low atol rtol =
      if tof ≤ tofP then guessHyperbolic tof tofP tau S d 0 else guessElliptic tof tofP tau S := by
  unfold initialGuess
  simp

/-- What is returned when the start passes the test of the first pass. -/
theorem run_first {mu : ℝ} (hmu : 0 < mu) {r1 r2 : V3} (hna : NotAligned r1 r2) {pro : Bool} {tof atol k W : ℝ} (htof : 0 < tof)
    (hg : (if tof / Tref mu r1 ≤ tofPOf pro r1 r2 then
      guessHyperbolic (tof / Tref mu r1) (tofPOf pro r1 r2) (tauOf pro r1 r2) (Shat r1 r2) (dsign pro r1 r2) 0
      else guessElliptic (tof / Tref mu r1) (tofPOf pro r1 r2) (tauOf pro r1 r2) (Shat r1 r2)) = .ok k)
    (hk : Real.sqrt 2 - epsilon < k) (hW : getW k 0 = .ok W) (hu : 0 < 1 - k * tauOf pro r1 r2) (ht : tauOf pro r1 r2 ≠ 0)
    (hle : |tof / Tref mu r1 - Shat r1 r2 * Real.sqrt (1 - k * tauOf pro r1 r2) *
      (tauOf pro r1 r2 + (1 - k * tauOf pro r1 r2) * W)| ≤ atol)
    (minimize : Minimizer) (brentq : Brent) (low : Bool) (m : ℕ) (rtol : ℝ) (fo : Bool) (clock : ℝ) :
    ∃ v1 v2 tpi T, arora2013 minimize brentq mu r1 r2 tof 0 pro low (m + 1) atol rtol fo clock = .ok (mkOutput fo v1 v2 1 tpi) ∧
      LambertArc mu r1 r2 v1 v2 T 0 ∧ (NotPolar r1 r2 → Sense pro r1 v1) ∧
      |T - tof| ≤ atol * Real.sqrt (len r1 ^ 3 / mu) + 1e-17 * Real.sqrt ((len r1 + len r2) ^ 3 / mu) := by
  have hP : 0 < V3.norm r1 + V3.norm r2 :=
    add_pos (norm_pos_of_notAligned_left hna) (norm_pos_of_notAligned_right hna)
  have hV0 : 0 < V3.norm r1 + V3.norm r2 - k * signedA pro r1 r2 := by
    have : V3.norm r1 + V3.norm r2 - k * signedA pro r1 r2 = (1 - k * tauOf pro r1 r2) * (V3.norm r1 + V3.norm r2) := by
      unfold tauOf; field_simp
    rw [this]; positivity
  obtain ⟨tpi, htpi⟩ := timePerIter_pos fo clock (le_refl 1)
  have hrun : ∀ (minimize : Minimizer) (brentq : Brent),
      arora2013 minimize brentq mu r1 r2 tof 0 pro low (m + 1) atol rtol fo clock =
        .ok (mkOutput fo (fgV1 mu r1 r2 (signedA pro r1 r2) (V3.norm r1 + V3.norm r2 - k * signedA pro r1 r2))
          (fgV2 mu r1 r2 (signedA pro r1 r2) (V3.norm r1 + V3.norm r2 - k * signedA pro r1 r2)) 1 tpi) := by
    intro minimize brentq
    rw [arora_eq hmu hna htof le_rfl, guess_zero, hg, ok_bind, iterate_first ht hk hW hu.le hle, ok_bind]
    simp only []
    rw [htpi, ok_bind, Arora.reconstruct_eq hmu hna rfl hV0, ok_bind]
  have h := arora_kepler_transfer_partial (minimize := fun _ _ _ _ => .error .undefined) (fun _ h => by cases h)
    exactBrent_spec (hrun _ _) (Or.inl rfl)
  rw [mkOutput_v1, mkOutput_v2] at h
  obtain ⟨⟨T, h1, h2⟩, h3⟩ := h
  rw [if_pos rfl] at h2
  exact ⟨_, _, tpi, T, hrun _ _, h1, h3, h2⟩

theorem tau_ne {r1 r2 : V3} (hna : NotAligned r1 r2) (pro : Bool) : tauOf pro r1 r2 ≠ 0 := by
  have hG := (getA_signedA (angle_of_eq hna (transferAngle_eq hna pro)) hna).2
  exact div_ne_zero hG.hA (add_pos hG.R1 hG.R2).ne'

/-- The sign of `tau`. -/
theorem tau_sign {r1 r2 : V3} (hna : NotAligned r1 r2) (pro : Bool) :
    (dsign pro r1 r2 = 1 ∧ 0 < tauOf pro r1 r2) ∨ (dsign pro r1 r2 = -1 ∧ tauOf pro r1 r2 < 0) := by
  have hG := (getA_signedA (angle_of_eq hna (transferAngle_eq hna pro)) hna).2
  have hP : 0 < V3.norm r1 + V3.norm r2 := add_pos hG.R1 hG.R2
  have hA : 0 < Real.sqrt (V3.norm r1 * V3.norm r2 + V3.dot r1 r2) := by
    rw [← hG.hA2]; exact Real.sqrt_pos.2 (by have := hG.hA; positivity)
  unfold dsign tauOf signedA
  by_cases h : ShortWay pro r1 r2
  · rw [if_pos h]
    exact Or.inl ⟨rfl, by rw [one_mul]; positivity⟩
  · rw [if_neg h]
    exact Or.inr ⟨rfl, div_neg_of_neg_of_pos (by linarith) hP⟩

/-- Hyperbolic transfers are faster than the parabola. -/
theorem hyp_lt_par {mu : ℝ} (hmu : 0 < mu) {r1 r2 : V3} (hna : NotAligned r1 r2) (pro : Bool) {k : ℝ} (hk : Real.sqrt 2 < k)
    (hu : 0 < 1 - k * tauOf pro r1 r2) :
    0 < Shat r1 r2 * Real.sqrt (1 - k * tauOf pro r1 r2) * (tauOf pro r1 r2 + (1 - k * tauOf pro r1 r2) * hypW k) ∧
    Shat r1 r2 * Real.sqrt (1 - k * tauOf pro r1 r2) * (tauOf pro r1 r2 + (1 - k * tauOf pro r1 r2) * hypW k) <
      tofPOf pro r1 r2 := by
  have hG := (getA_signedA (angle_of_eq hna (transferAngle_eq hna pro)) hna).2
  have hR1 := hG.R1
  have hP : 0 < V3.norm r1 + V3.norm r2 := add_pos hG.R1 hG.R2
  have hT : 0 < Tref mu r1 := by unfold Tref; positivity
  have hv : ∀ k, V3.norm r1 + V3.norm r2 - k * signedA pro r1 r2 = (1 - k * tauOf pro r1 r2) * (V3.norm r1 + V3.norm r2) := by
    intro k; unfold tauOf; field_simp
  have hV0 : 0 < V3.norm r1 + V3.norm r2 - k * signedA pro r1 r2 := by rw [hv]; positivity
  have htl := abs_lt.1 (tau_lt hna pro)
  have hVp : 0 < V3.norm r1 + V3.norm r2 - Real.sqrt 2 * signedA pro r1 r2 := by
    rw [hv]; exact mul_pos (by linarith [htl.2]) hP
  have p1 := path_hyp hmu hP hk rfl hV0
  have p2 := path_par hmu hP rfl hVp
  have hs1 := time_scaled (pro := pro) hmu hna k (hypW k)
  have hs2 := time_scaled (pro := pro) hmu hna (Real.sqrt 2) (Real.sqrt 2 / 3)
  have hlt := (Path.time_lt_iff hmu hG.hA (Vallado.bound hG) p1 p2).2 (by
    rw [sub_sub_cancel, sub_sub_cancel, mul_div_cancel_right₀ _ hG.hA, mul_div_cancel_right₀ _ hG.hA]; exact hk)
  have hpos := (p1.arc hmu hG).1
  have e : tofPOf pro r1 r2 = Shat r1 r2 * Real.sqrt (1 - Real.sqrt 2 * tauOf pro r1 r2) *
      (tauOf pro r1 r2 + (1 - Real.sqrt 2 * tauOf pro r1 r2) * (Real.sqrt 2 / 3)) := by
    have := sqrt2_sq
    unfold tofPOf
    linear_combination Shat r1 r2 * Real.sqrt (1 - Real.sqrt 2 * tauOf pro r1 r2) * tauOf pro r1 r2 / 3 * this
  rw [← hs1] at hpos
  rw [← hs1, ← hs2] at hlt
  rw [e]
  exact ⟨(mul_pos_iff_of_pos_left hT).1 hpos, lt_of_mul_lt_mul_left hlt hT.le⟩

end Arora

/-- **C79**, nearly parabolic transfers.  For every geometry and every tolerance there is a neighbourhood of the parabolic time,
this time included, in which `arora2013` solves every problem in one pass. -/
theorem arora_parabolic_solved {mu : ℝ} (hmu : 0 < mu) {r1 r2 : V3} (hnp : NotPolar r1 r2) (pro : Bool) {atol : ℝ} (ha : 0 < atol) :
    ∃ ε > 0, ∀ tof : ℝ, |tof - parabolicTime mu r1 r2 pro| < ε → ∀ (minimize : Minimizer) (brentq : Brent) (low : Bool) (maxiter : ℕ)
      (rtol : ℝ) (fo : Bool) (clock : ℝ), 1 ≤ maxiter →
      ∃ v1 v2 tpi T, arora2013 minimize brentq mu r1 r2 tof 0 pro low maxiter atol rtol fo clock = .ok (mkOutput fo v1 v2 1 tpi) ∧
        LambertArc mu r1 r2 v1 v2 T 0 ∧ Sense pro r1 v1 ∧
        |T - tof| ≤ atol * Real.sqrt (len r1 ^ 3 / mu) + 1e-17 * Real.sqrt ((len r1 + len r2) ^ 3 / mu) := by
  have hna : NotAligned r1 r2 := fun h => hnp h.2.2
  have hR1 := norm_pos_of_notAligned_left hna
  have hR2 := norm_pos_of_notAligned_right hna
  have hS : 0 < Shat r1 r2 := by unfold Shat; positivity
  have hT : 0 < Tref mu r1 := by unfold Tref; positivity
  have htl := tau_lt hna pro
  have htn := tau_ne hna pro
  have hsg := tau_sign hna pro
  have hl := lt_sqrt2
  have hep := eps_pos
  norm_num at hl
  obtain ⟨g, c1, c2, c3⟩ := near_hyp htl hS hsg (tofP := tofPOf pro r1 r2) rfl (fun h0 =>
    (hyp_lt_par hmu hna pro (by linarith [sqrt2_lt]) (by
      have : 0 < (2 * Real.sqrt 2 + 20) / 3 := by positivity
      nlinarith)).2)
  obtain ⟨f, d1, d2, d3⟩ := near_ell htl hS (tofP := tofPOf pro r1 r2) rfl
  have hup : 0 < 1 - Real.sqrt 2 * tauOf pro r1 r2 := by linarith [(abs_lt.1 htl).2]
  -- what is needed of the start
  have hgood : ∀ {g : ℝ → ℝ}, ContinuousAt g (tofPOf pro r1 r2) → g (tofPOf pro r1 r2) = Real.sqrt 2 →
      ∀ᶠ t in 𝓝 (tofPOf pro r1 r2), Real.sqrt 2 - epsilon < g t ∧ g t < Real.sqrt 2 + epsilon ∧ 0 < 1 - g t * tauOf pro r1 r2 ∧
        |t - Shat r1 r2 * Real.sqrt (1 - g t * tauOf pro r1 r2) * (tauOf pro r1 r2 + (1 - g t * tauOf pro r1 r2) * seriesW (g t))| < atol := by
    intro g hc he
    have hsc : ContinuousAt seriesW (g (tofPOf pro r1 r2)) := (hasDerivAt_seriesW _).continuousAt
    have hsg := hsc.comp hc
    have hu : ContinuousAt (fun t => 1 - g t * tauOf pro r1 r2) (tofPOf pro r1 r2) := by fun_prop
    have hr : ContinuousAt (fun t => |t - Shat r1 r2 * Real.sqrt (1 - g t * tauOf pro r1 r2) *
        (tauOf pro r1 r2 + (1 - g t * tauOf pro r1 r2) * seriesW (g t))|) (tofPOf pro r1 r2) :=
      (continuousAt_id.sub ((continuousAt_const.mul hu.sqrt).mul (continuousAt_const.add (hu.mul hsg)))).abs
    filter_upwards [hc.eventually (eventually_gt_nhds (by rw [he]; linarith : Real.sqrt 2 - epsilon < g (tofPOf pro r1 r2))),
      hc.eventually (eventually_lt_nhds (by rw [he]; linarith : g (tofPOf pro r1 r2) < Real.sqrt 2 + epsilon)),
      hu.eventually (eventually_gt_nhds (by simp only []; rw [he]; exact hup)),
      hr.eventually (eventually_lt_nhds (b := atol) (by
        simp only []
        rw [he]
        have : seriesW (Real.sqrt 2) = Real.sqrt 2 / 3 := by simp [seriesW]
        have h2 := sqrt2_sq
        rw [this, show tofPOf pro r1 r2 - Shat r1 r2 * Real.sqrt (1 - Real.sqrt 2 * tauOf pro r1 r2) *
          (tauOf pro r1 r2 + (1 - Real.sqrt 2 * tauOf pro r1 r2) * (Real.sqrt 2 / 3)) = 0 by
          unfold tofPOf
          linear_combination Shat r1 r2 * Real.sqrt (1 - Real.sqrt 2 * tauOf pro r1 r2) * tauOf pro r1 r2 / 3 * h2, abs_zero]
        exact ha))] with t e1 e2 e3 e4
    exact ⟨e1, e2, e3, e4⟩
  have hpos : 0 < tofPOf pro r1 r2 := by
    have : 0 < tauOf pro r1 r2 + Real.sqrt 2 := by
      have := (abs_lt.1 htl).1
      nlinarith [sqrt2_sq]
    unfold tofPOf; positivity
  obtain ⟨ε, hε, hball⟩ := Metric.eventually_nhds_iff.1 ((((hgood c1 c2).and (hgood d1 d2)).and (c3.and d3)).and (eventually_gt_nhds hpos))
  refine ⟨Tref mu r1 * ε, by positivity, fun tof htof minimize brentq low maxiter rtol fo clock hmx => ?_⟩
  obtain ⟨m, rfl⟩ : ∃ m, maxiter = m + 1 := ⟨maxiter - 1, by omega⟩
  obtain ⟨⟨⟨a, b⟩, ⟨c, d⟩⟩, e⟩ := hball (y := tof / Tref mu r1) (by
    rw [← tofP_eq hmu hna] at htof
    rw [Real.dist_eq, show tof / Tref mu r1 - tofPOf pro r1 r2 = (tof - Tref mu r1 * tofPOf pro r1 r2) / Tref mu r1 by field_simp,
      abs_div, abs_of_pos hT, div_lt_iff₀ hT]
    linarith)
  have htof0 : 0 < tof := (div_pos_iff_of_pos_right hT).1 e
  by_cases hle : tof / Tref mu r1 ≤ tofPOf pro r1 r2
  · obtain ⟨a1, a2, a3, a4⟩ := a
    obtain ⟨v1, v2, tpi, T, q1, q2, q3, q4⟩ := run_first hmu hna (pro := pro) htof0 (by rw [if_pos hle]; exact c) a1 (getW_near a1 a2) a3 htn a4.le
      minimize brentq low m rtol fo clock
    exact ⟨v1, v2, tpi, T, q1, q2, q3 hnp, q4⟩
  · obtain ⟨a1, a2, a3, a4⟩ := b
    obtain ⟨v1, v2, tpi, T, q1, q2, q3, q4⟩ := run_first hmu hna (pro := pro) htof0 (by rw [if_neg hle]; exact d) a1 (getW_near a1 a2) a3 htn a4.le
      minimize brentq low m rtol fo clock
    exact ⟨v1, v2, tpi, T, q1, q2, q3 hnp, q4⟩

/-- **C79**, fast transfers.  For every geometry and every tolerance, all fast enough problems are solved in one pass. -/
theorem arora_fast_solved {mu : ℝ} (hmu : 0 < mu) {r1 r2 : V3} (hnp : NotPolar r1 r2) (pro : Bool) {atol : ℝ} (ha : 0 < atol) :
    ∃ ε > 0, ∀ tof : ℝ, 0 < tof → tof < ε → ∀ (minimize : Minimizer) (brentq : Brent) (low : Bool) (maxiter : ℕ)
      (rtol : ℝ) (fo : Bool) (clock : ℝ), 1 ≤ maxiter →
      ∃ v1 v2 tpi T, arora2013 minimize brentq mu r1 r2 tof 0 pro low maxiter atol rtol fo clock = .ok (mkOutput fo v1 v2 1 tpi) ∧
        LambertArc mu r1 r2 v1 v2 T 0 ∧ Sense pro r1 v1 ∧
        |T - tof| ≤ atol * Real.sqrt (len r1 ^ 3 / mu) + 1e-17 * Real.sqrt ((len r1 + len r2) ^ 3 / mu) := by
  have hna : NotAligned r1 r2 := fun h => hnp h.2.2
  have hR1 := norm_pos_of_notAligned_left hna
  have hR2 := norm_pos_of_notAligned_right hna
  have hS : 0 < Shat r1 r2 := by unfold Shat; positivity
  have hT : 0 < Tref mu r1 := by unfold Tref; positivity
  have htl := tau_lt hna pro
  have htn := tau_ne hna pro
  have hp := sqrt2_pos
  have hep := eps_pos
  have hpos : 0 < tofPOf pro r1 r2 := by
    have : 0 < tauOf pro r1 r2 + Real.sqrt 2 := by
      have := (abs_lt.1 htl).1
      nlinarith [sqrt2_sq]
    have h2 : 0 < 1 - Real.sqrt 2 * tauOf pro r1 r2 := by linarith [(abs_lt.1 htl).2]
    unfold tofPOf; positivity
  -- what is needed of the start
  have key : ∀ᶠ t in 𝓝[>] (0 : ℝ), ∃ k W, guessHyperbolic t (tofPOf pro r1 r2) (tauOf pro r1 r2) (Shat r1 r2) (dsign pro r1 r2) 0 = .ok k ∧
      Real.sqrt 2 < k ∧ getW k 0 = .ok W ∧ 0 < 1 - k * tauOf pro r1 r2 ∧
      |t - Shat r1 r2 * Real.sqrt (1 - k * tauOf pro r1 r2) * (tauOf pro r1 r2 + (1 - k * tauOf pro r1 r2) * W)| ≤ atol := by
    rcases tau_sign hna pro with ⟨hd, ht⟩ | ⟨hd, ht⟩
    · rw [hd]
      obtain ⟨Fi, f1, f2, hg⟩ := short_guess htl hS ht (tofP := tofPOf pro r1 r2) rfl
      have hkm : Real.sqrt 2 < 1 / tauOf pro r1 r2 := by rw [lt_div_iff₀ ht]; exact (abs_lt.1 htl).2
      have hx : Tendsto (fun t => 1 / Real.sqrt 2 * Fi * (tofPOf pro r1 r2 - t) /
          (1 / Real.sqrt 2 * tofPOf pro r1 r2 * (Fi - t) + (tofPOf pro r1 r2 - Fi) * t)) (𝓝[>] 0) (𝓝 1) := by
        have hne : 1 / Real.sqrt 2 * tofPOf pro r1 r2 * (Fi - 0) + (tofPOf pro r1 r2 - Fi) * 0 ≠ 0 := by
          rw [sub_zero, mul_zero, add_zero]; positivity
        have hc : ContinuousAt (fun t => 1 / Real.sqrt 2 * Fi * (tofPOf pro r1 r2 - t) /
          (1 / Real.sqrt 2 * tofPOf pro r1 r2 * (Fi - t) + (tofPOf pro r1 r2 - Fi) * t)) 0 :=
          ContinuousAt.div (by fun_prop) (by fun_prop) hne
        have := hc.tendsto.mono_left (nhdsWithin_le_nhds (s := Set.Ioi 0))
        rwa [show 1 / Real.sqrt 2 * Fi * (tofPOf pro r1 r2 - 0) /
          (1 / Real.sqrt 2 * tofPOf pro r1 r2 * (Fi - 0) + (tofPOf pro r1 r2 - Fi) * 0) = 1 by
            rw [div_eq_one_iff_eq hne]; ring] at this
      have hB : Tendsto (fun t => t + Shat r1 r2 * Real.sqrt (1 - (Real.sqrt 2 + (1 / tauOf pro r1 r2 - Real.sqrt 2) *
          (1 / Real.sqrt 2 * Fi * (tofPOf pro r1 r2 - t) /
          (1 / Real.sqrt 2 * tofPOf pro r1 r2 * (Fi - t) + (tofPOf pro r1 r2 - Fi) * t)) ^ 2) * tauOf pro r1 r2) *
          (tauOf pro r1 r2 + 1)) (𝓝[>] 0) (𝓝 0) := by
        have ht0 : Tendsto (fun t : ℝ => t) (𝓝[>] 0) (𝓝 0) := nhdsWithin_le_nhds
        have h1 := ((((hx.pow 2).const_mul (1 / tauOf pro r1 r2 - Real.sqrt 2)).const_add (Real.sqrt 2)).mul_const (tauOf pro r1 r2)).const_sub 1
        have h2 := ht0.add (((Real.continuous_sqrt.tendsto _).comp h1 |>.const_mul (Shat r1 r2)).mul_const (tauOf pro r1 r2 + 1))
        have e : 1 - (Real.sqrt 2 + (1 / tauOf pro r1 r2 - Real.sqrt 2) * 1 ^ 2) * tauOf pro r1 r2 = 0 := by field_simp; ring
        rw [e, Real.sqrt_zero, mul_zero, zero_mul, add_zero] at h2
        exact h2
      filter_upwards [self_mem_nhdsWithin, nhdsWithin_le_nhds (eventually_lt_nhds hpos), hB.eventually (eventually_lt_nhds ha)] with t t0 t1 t2
      obtain ⟨x0, x1, hx2⟩ := hg t t0 t1
      generalize 1 / Real.sqrt 2 * Fi * (tofPOf pro r1 r2 - t) /
          (1 / Real.sqrt 2 * tofPOf pro r1 r2 * (Fi - t) + (tofPOf pro r1 r2 - Fi) * t) = x at *
      have hk : Real.sqrt 2 < Real.sqrt 2 + (1 / tauOf pro r1 r2 - Real.sqrt 2) * x ^ 2 := by
        have : 0 < (1 / tauOf pro r1 r2 - Real.sqrt 2) * x ^ 2 := mul_pos (by linarith) (by positivity)
        linarith
      have hu : 0 < 1 - (Real.sqrt 2 + (1 / tauOf pro r1 r2 - Real.sqrt 2) * x ^ 2) * tauOf pro r1 r2 := by
        have e : 1 - (Real.sqrt 2 + (1 / tauOf pro r1 r2 - Real.sqrt 2) * x ^ 2) * tauOf pro r1 r2 =
          (1 - Real.sqrt 2 * tauOf pro r1 r2) * (1 - x ^ 2) := by field_simp; ring
        rw [e]
        exact mul_pos (by linarith [(abs_lt.1 htl).2]) (by nlinarith)
      obtain ⟨W, w0, w1, w2⟩ := getW_gt hk
      refine ⟨_, W, hx2, hk, w0, hu, ?_⟩
      have hu1 : 1 - (Real.sqrt 2 + (1 / tauOf pro r1 r2 - Real.sqrt 2) * x ^ 2) * tauOf pro r1 r2 ≤ 1 := by
        have := mul_pos (hp.trans hk) ht
        linarith
      generalize 1 - (Real.sqrt 2 + (1 / tauOf pro r1 r2 - Real.sqrt 2) * x ^ 2) * tauOf pro r1 r2 = u at *
      have hW1 : W ≤ 1 := by have := sqrt2_lt; norm_num at this; linarith
      have q1 : u * W ≤ 1 := by nlinarith
      have q2 : 0 ≤ Shat r1 r2 * Real.sqrt u * (tauOf pro r1 r2 + u * W) := by positivity
      have q3 : Shat r1 r2 * Real.sqrt u * (tauOf pro r1 r2 + u * W) ≤ Shat r1 r2 * Real.sqrt u * (tauOf pro r1 r2 + 1) :=
        mul_le_mul_of_nonneg_left (by linarith) (by positivity)
      have t0' : 0 < t := t0
      rw [abs_le]
      constructor <;> linarith
    · rw [hd]
      obtain ⟨k, hk, hg⟩ := long_guess (tofP := tofPOf pro r1 r2) htl hS ht
      have ht1 : -1 < tauOf pro r1 r2 := by have := (tau_bounds htl).1; norm_num at this; linarith
      have hB : Tendsto (fun t => t + Shat r1 r2 * (4 * Real.sqrt 2 / Real.sqrt (k t))) (𝓝[>] 0) (𝓝 0) := by
        have ht0 : Tendsto (fun t : ℝ => t) (𝓝[>] 0) (𝓝 0) := nhdsWithin_le_nhds
        have := ht0.add ((tendsto_const_nhds (x := 4 * Real.sqrt 2)).div_atTop (Real.tendsto_sqrt_atTop.comp hk) |>.const_mul (Shat r1 r2))
        rw [mul_zero, add_zero] at this
        exact this
      filter_upwards [self_mem_nhdsWithin, hg, hk.eventually_ge_atTop 2, hB.eventually (eventually_lt_nhds ha)] with t t0 t1 t2 t3
      have hl := sqrt2_lt
      have he : epsilon = 2e-2 := rfl
      norm_num at hl he
      have hu : 0 < 1 - k t * tauOf pro r1 r2 := by nlinarith
      have b1 := long_time_le hS ht ht1 t2
      have b2 := (hyp_lt_par hmu hna pro (by linarith) hu).1
      refine ⟨k t, hypW (k t), t1, by linarith, getW_hyp (by rw [he]; linarith), hu, ?_⟩
      have t0' : 0 < t := t0
      rw [abs_le]
      constructor <;> linarith
  obtain ⟨ε, hε, hball⟩ := mem_nhdsGT_iff_exists_Ioo_subset.1 (key.and (nhdsWithin_le_nhds (eventually_lt_nhds hpos)))
  refine ⟨Tref mu r1 * ε, mul_pos hT hε, fun tof h0 h1 minimize brentq low maxiter rtol fo clock hmx => ?_⟩
  obtain ⟨m, rfl⟩ : ∃ m, maxiter = m + 1 := ⟨maxiter - 1, by omega⟩
  obtain ⟨⟨k, W, a1, a2, a3, a4, a5⟩, a6⟩ := hball (show tof / Tref mu r1 ∈ Set.Ioo 0 ε from
    ⟨by positivity, by rw [div_lt_iff₀ hT]; linarith⟩)
  obtain ⟨v1, v2, tpi, T, q1, q2, q3, q4⟩ := run_first hmu hna (pro := pro) h0 (by rw [if_pos (le_of_lt a6)]; exact a1) (by linarith) a3 a4 htn a5
    minimize brentq low m rtol fo clock
  exact ⟨v1, v2, tpi, T, q1, q2, q3 hnp, q4⟩

/-- **C79**, slow transfers.  For every geometry, all slow enough problems are refused with the message that belongs to a value
outside the domain of `W`, whatever the tolerances, although each of them has a solution: the constants of the last
region of the initial guess place the start of these problems below `-√2`. -/
theorem arora_slow_refused {mu : ℝ} (hmu : 0 < mu) {r1 r2 : V3} (hnp : NotPolar r1 r2) (pro : Bool) :
    ∀ᶠ tof in atTop, (∃ v1 v2, LambertArc mu r1 r2 v1 v2 tof 0 ∧ Sense pro r1 v1) ∧
      ∀ (minimize : Minimizer) (brentq : Brent) (low : Bool) (maxiter : ℕ) (atol rtol : ℝ) (fo : Bool) (clock : ℝ), 1 ≤ maxiter →
      arora2013 minimize brentq mu r1 r2 tof 0 pro low maxiter atol rtol fo clock =
        .error (.valueError "Did not found a suitable equaiton to find W!") := by
  have hna : NotAligned r1 r2 := fun h => hnp h.2.2
  have hR1 := norm_pos_of_notAligned_left hna
  have hR2 := norm_pos_of_notAligned_right hna
  have hS : 0 < Shat r1 r2 := by unfold Shat; positivity
  have hT : 0 < Tref mu r1 := by unfold Tref; positivity
  have hlin : Tendsto (fun tof : ℝ => tof / Tref mu r1) atTop atTop := tendsto_id.atTop_div_const hT
  filter_upwards [eventually_gt_atTop 0, hlin.eventually (slow_guess (tau_lt hna pro) hS (tofPOf pro r1 r2)),
    hlin.eventually_gt_atTop (tofPOf pro r1 r2)] with tof h0 h1 h2
  obtain ⟨k, g1, g2⟩ := h1
  refine ⟨?_, fun minimize brentq low maxiter atol rtol fo clock hmx => ?_⟩
  · obtain ⟨v, hv, -⟩ := zero_rev_exists_unique hmu h0 hnp pro
    exact ⟨v.1, v.2, hv⟩
  · obtain ⟨m, rfl⟩ : ∃ m, maxiter = m + 1 := ⟨maxiter - 1, by omega⟩
    rw [arora_eq hmu hna h0 le_rfl, guess_zero, if_neg (not_le.2 h2), g1, ok_bind, iterate_refused g2, error_bind]

/-- The hypotheses of the theorems of this file hold for two points a quarter of a turn apart. -/
example : NotPolar ⟨1, 0, 0⟩ ⟨0, 1, 0⟩ := by norm_num [NotPolar]

end Lamberthub
