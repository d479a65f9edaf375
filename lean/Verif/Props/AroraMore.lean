import Verif.Props.Arora
import Verif.Proofs.KeplerUnique
import Mathlib.Analysis.SpecialFunctions.Trigonometric.DerivHyp

/-! # C22, C30, C42: `arora2013` returns; open orbits for `M ≥ 1`; its derivatives -/

set_option autoImplicit false

namespace Lamberthub
open Spec LC Arora

namespace Arora

/-- Hyperbolic values of `W` are positive and below the parabolic value. -/
theorem hypW_bounds {k : ℝ} (h : Real.sqrt 2 < k) : 0 < hypW k ∧ hypW k ≤ Real.sqrt 2 / 3 := by
  obtain ⟨φ, hφ, h0, hk, hs, hm, hq⟩ := hyp_angle h
  have hp := sqrt2_pos
  have h2 := sqrt2_sq
  have e : hypW k = (2 * Real.sinh φ * Real.cosh φ - 2 * φ) / (2 * Real.sqrt 2 * Real.sinh φ ^ 3) := by
    unfold hypW
    rw [← hφ, hq, hm, mul_pow, show Real.sqrt 2 ^ 3 = 2 * Real.sqrt 2 by rw [pow_succ, sqrt2_sq], hk]
    generalize Real.sqrt 2 = q at *
    field_simp
    linear_combination (Real.cosh φ * Real.sinh φ) * h2
  have h1 : 2 * φ < 2 * Real.sinh φ * Real.cosh φ := by
    rw [← Real.sinh_two_mul]; exact Real.self_lt_sinh_iff.2 (by linarith)
  have h3 : 2 * Real.sinh φ * Real.cosh φ - 2 * φ ≤ 4 / 3 * Real.sinh φ ^ 3 := by
    have hmono : MonotoneOn (fun t => 4 / 3 * Real.sinh t ^ 3 - (2 * Real.sinh t * Real.cosh t - 2 * t)) (Set.Ici 0) := by
      apply monotoneOn_of_deriv_nonneg (convex_Ici 0) (by fun_prop) (by fun_prop)
      intro t ht
      rw [interior_Ici] at ht
      have d := (((Real.hasDerivAt_sinh t).pow 3).const_mul (4 / 3 : ℝ)).sub
        ((((Real.hasDerivAt_sinh t).const_mul (2 : ℝ)).mul (Real.hasDerivAt_cosh t)).sub
          ((hasDerivAt_id t).const_mul (2 : ℝ)))
      have d' := d.congr_of_eventuallyEq
        (f := fun t => 4 / 3 * Real.sinh t ^ 3 - (2 * Real.sinh t * Real.cosh t - 2 * t))
        (Filter.Eventually.of_forall fun y => rfl)
      rw [d'.deriv]
      have hc := Real.one_le_cosh t
      have hcs := Real.cosh_sq t
      norm_num
      nlinarith [sq_nonneg (Real.sinh t)]
    have := hmono (Set.mem_Ici.2 le_rfl) (Set.mem_Ici.2 h0.le) h0.le
    simp only [Real.sinh_zero, Real.cosh_zero] at this
    linarith
  rw [e]
  have hden : 0 < 2 * Real.sqrt 2 * Real.sinh φ ^ 3 := by positivity
  refine ⟨div_pos (by linarith) hden, ?_⟩
  rw [div_le_iff₀ hden]
  nlinarith

/-- The middle of the hyperbolic interval used by the guess, l.142-143. -/
noncomputable def kMid (tau : ℝ) : ℝ := (Real.sqrt 2 + 1 / tau) / 2

/-- Hyperbolic times are below the parabolic time. -/
theorem hyp_time_lt {S tau k : ℝ} (hS : 0 < S) (ht : 0 < tau) (hk : Real.sqrt 2 < k) (hu : 0 < 1 - k * tau) :
    0 < S * Real.sqrt (1 - k * tau) * (tau + (1 - k * tau) * hypW k) ∧
    S * Real.sqrt (1 - k * tau) * (tau + (1 - k * tau) * hypW k) <
      S * Real.sqrt (1 - Real.sqrt 2 * tau) * (tau + Real.sqrt 2) / 3 := by
  obtain ⟨h1, h2⟩ := hypW_bounds hk
  have hlt : 1 - k * tau < 1 - Real.sqrt 2 * tau := by nlinarith
  have hq := Real.sqrt_lt_sqrt hu.le hlt
  have hq0 : 0 < Real.sqrt (1 - k * tau) := by positivity
  refine ⟨by positivity, ?_⟩
  have e : S * Real.sqrt (1 - Real.sqrt 2 * tau) * (tau + Real.sqrt 2) / 3 =
      S * Real.sqrt (1 - Real.sqrt 2 * tau) * (tau + (1 - Real.sqrt 2 * tau) * (Real.sqrt 2 / 3)) := by
    have := sqrt2_sq
    linear_combination S * Real.sqrt (1 - Real.sqrt 2 * tau) * tau / 3 * this
  rw [e]
  have hp := sqrt2_pos
  have h3 : (1 - k * tau) * hypW k ≤ (1 - Real.sqrt 2 * tau) * (Real.sqrt 2 / 3) :=
    mul_le_mul hlt.le h2 h1.le (by linarith)
  have h4 : S * Real.sqrt (1 - k * tau) < S * Real.sqrt (1 - Real.sqrt 2 * tau) := mul_lt_mul_of_pos_left hq hS
  have h5 : 0 < (1 - k * tau) * hypW k := by positivity
  exact mul_lt_mul h4 (by linarith) (by linarith) (by positivity)

/-- At the middle of the hyperbolic interval the initial guess is the solution. -/
theorem guess_mid {minimize : Minimizer} {brentq : Brent} {tau S : ℝ} {M : ℤ} {low : Bool} {atol rtol : ℝ}
    (hS : 0 < S) (ht : 0 < tau) (hk : Real.sqrt 2 + epsilon < kMid tau) (ha : 0 ≤ atol) (m : ℕ) {tof tofP : ℝ}
    (htof : tof = S * Real.sqrt (1 - kMid tau * tau) * (tau + (1 - kMid tau * tau) * hypW (kMid tau)))
    (htofP : tofP = S * Real.sqrt (1 - Real.sqrt 2 * tau) * (tau + Real.sqrt 2) / 3) :
    0 < 1 - kMid tau * tau ∧ initialGuess minimize brentq tof tofP tau S 1 M low atol rtol = .ok (kMid tau) ∧
      iterate tof tofP tau S 1 M atol (m + 1) 0 (kMid tau) = .ok (kMid tau, 1) := by
  have he := eps_pos
  have hk' : Real.sqrt 2 < kMid tau := by linarith
  have hu : 0 < 1 - kMid tau * tau := by
    have : Real.sqrt 2 * tau < 1 := by
      unfold kMid at hk'
      have : Real.sqrt 2 < 1 / tau := by linarith
      rwa [lt_div_iff₀ ht] at this
    unfold kMid
    have e : (Real.sqrt 2 + 1 / tau) / 2 * tau = (Real.sqrt 2 * tau + 1) / 2 := by field_simp
    rw [e]; linarith
  obtain ⟨h1, h2⟩ := hyp_time_lt hS ht hk' hu
  rw [← htof] at h1 h2
  rw [← htofP] at h2
  have hF : getTOF (kMid tau) tau S (hypW (kMid tau)) = .ok tof := by
    unfold getTOF; rw [psqrt_eq hu.le, ok_bind, htof]
  refine ⟨hu, ?_, ?_⟩
  · unfold initialGuess
    rw [if_pos h2.le]
    unfold guessHyperbolic
    rw [if_neg (by norm_num)]
    unfold guessH
    simp only []
    rw [pdiv_eq ht.ne', ok_bind, pdiv_eq sqrt2_pos.ne', ok_bind,
      show (Real.sqrt 2 + 1 / tau) / 2 = kMid tau from rfl, getW_hyp hk, ok_bind, hF, ok_bind]
    unfold getX
    have hne : (tof - tof) * (0.0 - tofP) * (1.0 / Real.sqrt 2) + (tofP - tof) * (0.0 - tof) ≠ 0 := by
      have : (tof - tof) * (0.0 - tofP) * (1.0 / Real.sqrt 2) + (tofP - tof) * (0.0 - tof) =
        -((tofP - tof) * tof) := by norm_num
      rw [this]
      have : 0 < tofP - tof := by linarith
      exact neg_ne_zero.2 (by positivity)
    have e : 1.0 / Real.sqrt 2 * (tofP - tof) * (0.0 - tof) /
        ((tof - tof) * (0.0 - tofP) * (1.0 / Real.sqrt 2) + (tofP - tof) * (0.0 - tof)) = 1 / Real.sqrt 2 := by
      rw [div_eq_iff hne]; norm_num; ring
    rw [pdiv_eq hne, ok_bind, ok_bind, e, div_pow, sqrt2_sq]
    congr 1
    unfold kMid; ring
  · have hm : 2 - kMid tau ^ 2 ≠ 0 := by
      have := sqrt2_sq
      have hp := sqrt2_pos
      nlinarith
    rw [iterate, getW_hyp hk, ok_bind]
    have hWp : getWprime (kMid tau) (hypW (kMid tau)) M =
        .ok ((-2 + 3 * hypW (kMid tau) * kMid tau) / (2 - kMid tau ^ 2)) := by
      unfold getWprime
      simp only []
      rw [if_neg (by rintro (h | h) <;> [linarith; linarith [h.2]]), if_neg (fun h => by linarith [h.2.2]), pdiv_eq hm]
    have hWpp : ∀ Wp, getW2prime (kMid tau) (hypW (kMid tau)) Wp M =
        .ok ((5 * Wp * kMid tau + 3 * hypW (kMid tau)) / (2 - kMid tau ^ 2)) := by
      intro Wp
      unfold getW2prime
      simp only []
      rw [if_neg (by rintro (h | h) <;> [linarith; linarith [h.2]]), if_neg (fun h => by linarith [h.2.2]), pdiv_eq hm]
    rw [hWp, ok_bind, hWpp, ok_bind, pdiv_eq ht.ne', ok_bind, hF, ok_bind, if_pos (by simpa using ha)]

end Arora

/-- `arora2013` does return: for every pair of positions between a quarter and half a turn
apart there is a requested time, below the parabolic time, for which it returns at the first
pass, whatever `M` is; the velocities are those of a zero-revolution transfer that takes
exactly this time. -/
theorem arora_returns_hyperbolic (minimize : Minimizer) (brentq : Brent) {mu : ℝ} (hmu : 0 < mu) {r1 r2 : V3}
    (hna : NotAligned r1 r2) {pro : Bool} (hsh : ShortWay pro r1 r2) (hdot : V3.dot r1 r2 ≤ 0) (M : ℕ) (low : Bool)
    (m : ℕ) {atol : ℝ} (ha : 0 ≤ atol) (rtol : ℝ) (fo : Bool) (clock : ℝ) :
    ∃ tof out, 0 < tof ∧ tof < parabolicTime mu r1 r2 pro ∧
      arora2013 minimize brentq mu r1 r2 tof M pro low (m + 1) atol rtol fo clock = .ok out ∧
      LambertArc mu r1 r2 out.v1 out.v2 tof 0 := by
  have hG := (getA_signedA (angle_of_eq hna (transferAngle_eq hna pro)) hna).2
  have hR1 := hG.R1
  have hR2 := hG.R2
  have hP : 0 < V3.norm r1 + V3.norm r2 := add_pos hR1 hR2
  have hA : 0 < signedA pro r1 r2 := by
    have : 0 < Real.sqrt (V3.norm r1 * V3.norm r2 + V3.dot r1 r2) := by
      rw [← hG.hA2]; exact Real.sqrt_pos.2 (by have := hG.hA; positivity)
    unfold signedA
    rw [if_pos hsh]; linarith
  have ht : 0 < tauOf pro r1 r2 := div_pos hA hP
  have ht2 : tauOf pro r1 r2 ≤ 1 / 2 := by
    unfold tauOf
    rw [div_le_iff₀ hP]
    have h2 := hG.hA2
    nlinarith [sq_nonneg (V3.norm r1 - V3.norm r2), mul_pos hR1 hR2]
  have hk : Real.sqrt 2 + epsilon < kMid (tauOf pro r1 r2) := by
    have : 2 ≤ 1 / tauOf pro r1 r2 := by rw [le_div_iff₀ ht]; linarith
    have h3 := sqrt2_lt
    have he : epsilon = 2e-2 := rfl
    unfold kMid
    rw [he]
    norm_num at h3 this ⊢
    linarith
  have hS : 0 < Shat r1 r2 := by unfold Shat; positivity
  have hT : 0 < Tref mu r1 := by unfold Tref; positivity
  have hd : dsign pro r1 r2 = 1 := by unfold dsign; rw [if_pos hsh]
  obtain ⟨hu, hg, hi⟩ := guess_mid (minimize := minimize) (brentq := brentq) (M := M) (low := low) (rtol := rtol)
    hS ht hk ha m rfl rfl
  obtain ⟨h1, h2⟩ := hyp_time_lt hS ht (by linarith [eps_pos]) hu
  have hts := time_scaled (pro := pro) hmu hna (kMid (tauOf pro r1 r2)) (hypW (kMid (tauOf pro r1 r2)))
  obtain ⟨V, hV⟩ : ∃ V, V = V3.norm r1 + V3.norm r2 - kMid (tauOf pro r1 r2) * signedA pro r1 r2 := ⟨_, rfl⟩
  have hV0 : 0 < V := by
    have : V = (1 - kMid (tauOf pro r1 r2) * tauOf pro r1 r2) * (V3.norm r1 + V3.norm r2) := by
      rw [hV]; generalize kMid (tauOf pro r1 r2) = k
      unfold tauOf; field_simp
    rw [this]; positivity
  obtain ⟨tpi, htpi⟩ := timePerIter_pos fo clock (le_refl 1)
  have harc := (path_hyp hmu hP (by linarith [eps_pos]) hV hV0).arc hmu hG
  generalize hF : Shat r1 r2 * Real.sqrt (1 - kMid (tauOf pro r1 r2) * tauOf pro r1 r2) *
    (tauOf pro r1 r2 + (1 - kMid (tauOf pro r1 r2) * tauOf pro r1 r2) * hypW (kMid (tauOf pro r1 r2))) = F at *
  have htof : 0 < Tref mu r1 * F := mul_pos hT h1
  refine ⟨Tref mu r1 * F, mkOutput fo (fgV1 mu r1 r2 (signedA pro r1 r2) V) (fgV2 mu r1 r2 (signedA pro r1 r2) V) 1 tpi,
    htof, ?_, ?_, ?_⟩
  · rw [← tofP_eq hmu hna]; exact mul_lt_mul_of_pos_left h2 hT
  · have e : Tref mu r1 * F / Tref mu r1 = F := by field_simp
    have hg' : initialGuess minimize brentq F (tofPOf pro r1 r2) (tauOf pro r1 r2) (Shat r1 r2) 1 M low atol rtol =
      .ok (kMid (tauOf pro r1 r2)) := hg
    have hi' : iterate F (tofPOf pro r1 r2) (tauOf pro r1 r2) (Shat r1 r2) 1 M atol (m + 1) 0
      (kMid (tauOf pro r1 r2)) = .ok (kMid (tauOf pro r1 r2), 1) := hi
    rw [arora_eq hmu hna htof (by positivity), e, hd, hg', ok_bind, hi', ok_bind]
    simp only []
    rw [htpi, ok_bind, Arora.reconstruct_eq hmu hna hV hV0, ok_bind]
  · rw [hts]
    simp only [mkOutput_v1, mkOutput_v2]
    exact harc

/-- **Violation of C22 and C30.** Asked for `M ≥ 1` revolutions in a time below the parabolic
one, `arora2013` can return the velocities of a transfer with no revolution instead of
raising: in the requested time this motion does reach `r2`, but not after `M` revolutions. -/
theorem arora_open_orbit_for_revolutions (minimize : Minimizer) (brentq : Brent) {mu : ℝ} (hmu : 0 < mu) {r1 r2 : V3}
    (hna : NotAligned r1 r2) {pro : Bool} (hsh : ShortWay pro r1 r2) (hdot : V3.dot r1 r2 ≤ 0) {M : ℕ} (hM : 1 ≤ M)
    (low : Bool) (m : ℕ) {atol : ℝ} (ha : 0 ≤ atol) (rtol : ℝ) (fo : Bool) (clock : ℝ) :
    ∃ tof out, 0 < tof ∧
      arora2013 minimize brentq mu r1 r2 tof M pro low (m + 1) atol rtol fo clock = .ok out ∧
      ¬ LambertArc mu r1 r2 out.v1 out.v2 tof M := by
  obtain ⟨tof, out, h1, -, h2, h3⟩ := arora_returns_hyperbolic minimize brentq hmu hna hsh hdot M low m ha rtol fo clock
  refine ⟨tof, out, h1, h2, fun h => ?_⟩
  have := (h3.revolutions_unique h).1
  omega

/-- Non-vacuity of the theorems above: a quarter turn in the equatorial plane. -/
example (minimize : Minimizer) (brentq : Brent) : ∃ tof out,
    arora2013 minimize brentq 1 ⟨1, 0, 0⟩ ⟨0, 1, 0⟩ tof 0 true true 35 1e-5 1e-7 false 0 = .ok out ∧
    NotPolar ⟨1, 0, 0⟩ ⟨0, 1, 0⟩ := by
  obtain ⟨tof, out, -, -, h, -⟩ := arora_returns_hyperbolic minimize brentq one_pos (r1 := ⟨1, 0, 0⟩) (r2 := ⟨0, 1, 0⟩)
    (by simp [NotAligned]) (pro := true) (by simp [ShortWay, crossZ]) (by simp [V3.dot]) 0 true 34
    (atol := 1e-5) (by norm_num) 1e-7 false 0
  exact ⟨tof, out, h, by simp [NotPolar]⟩

end Lamberthub
