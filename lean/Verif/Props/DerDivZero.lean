import Verif.Proofs.ThirdDeriv
import Verif.Props.DerSolves

/-!
# C69, negation: for every pair of positions `der2011` divides by zero at some hyperbolic time of flight

The iteration starts at `x = 1.5`.  For the time of flight at which its first step goes to the clamp value `1 + ε`, the
finite differences of the second pass divide by `x - max(1 + ε, x - step) = 0`.
-/

set_option autoImplicit false

namespace Lamberthub
open Spec LC Thorne

/-- The quadratic through three points lies below a function of negative third derivative, to the left of them. -/
theorem interpolation_below {f f1 f2 f3 : ℝ → ℝ} {c a s : ℝ} (hs : 0 < s) (hc : c < a - s)
    (d0 : ∀ t, c ≤ t → HasDerivAt f (f1 t) t) (d1 : ∀ t, c ≤ t → HasDerivAt f1 (f2 t) t)
    (d2 : ∀ t, c ≤ t → HasDerivAt f2 (f3 t) t) (h3 : ∀ t, c ≤ t → f3 t < 0) {D1 D2 : ℝ}
    (hD1 : D1 * (2 * s) = f (a + s) - f (a - s)) (hD2 : D2 * s ^ 2 = f (a + s) - 2 * f a + f (a - s)) :
    f a + D1 * (c - a) + D2 / 2 * (c - a) ^ 2 < f c := by
  obtain ⟨P, hP⟩ : ∃ P : ℝ → ℝ, P = fun t => f a + D1 * (t - a) + D2 / 2 * (t - a) ^ 2 := ⟨_, rfl⟩
  obtain ⟨om, hom⟩ : ∃ om : ℝ → ℝ, om = fun t => (t - a) ^ 3 - s ^ 2 * (t - a) := ⟨_, rfl⟩
  have homc : om c < 0 := by
    have e : om c = (c - a + s) * (c - a) * (c - a - s) := by rw [hom]; ring
    have h1 : 0 < (c - a + s) * (c - a) := mul_pos_of_neg_of_neg (by linarith) (by linarith)
    rw [e]
    exact mul_neg_of_pos_of_neg h1 (by linarith)
  obtain ⟨K, hK⟩ : ∃ K, K * om c = f c - P c := ⟨(f c - P c) / om c, div_mul_cancel₀ _ homc.ne⟩
  have g0 : ∀ t, c ≤ t → HasDerivAt (fun t => f t - P t - K * om t)
      (f1 t - (D1 + D2 * (t - a)) - K * (3 * (t - a) ^ 2 - s ^ 2)) t := by
    intro t ht
    have e1 : HasDerivAt (fun t : ℝ => t - a) 1 t := (hasDerivAt_id t).sub_const a
    have hPd : HasDerivAt P (D1 + D2 * (t - a)) t := by
      rw [hP]
      refine (((e1.const_mul D1).const_add (f a)).add ((e1.pow 2).const_mul (D2 / 2))).congr_deriv ?_
      simp; ring
    have hod : HasDerivAt om (3 * (t - a) ^ 2 - s ^ 2) t := by
      rw [hom]
      refine ((e1.pow 3).sub (e1.const_mul (s ^ 2))).congr_deriv ?_
      simp
    exact ((d0 t ht).sub hPd).sub (hod.const_mul K)
  have g1 : ∀ t, c ≤ t → HasDerivAt (fun t => f1 t - (D1 + D2 * (t - a)) - K * (3 * (t - a) ^ 2 - s ^ 2))
      (f2 t - D2 - K * (6 * (t - a))) t := by
    intro t ht
    have e1 : HasDerivAt (fun t : ℝ => t - a) 1 t := (hasDerivAt_id t).sub_const a
    refine (((d1 t ht).sub ((e1.const_mul D2).const_add D1)).sub
      ((((e1.pow 2).const_mul 3).sub_const (s ^ 2)).const_mul K)).congr_deriv ?_
    norm_num; ring_nf; simp
  have g2 : ∀ t, c ≤ t → HasDerivAt (fun t => f2 t - D2 - K * (6 * (t - a))) (f3 t - K * 6) t := by
    intro t ht
    have e1 : HasDerivAt (fun t : ℝ => t - a) 1 t := (hasDerivAt_id t).sub_const a
    refine (((d2 t ht).sub_const D2).sub ((e1.const_mul 6).const_mul K)).congr_deriv ?_
    simp
  have rolle : ∀ {φ φ' : ℝ → ℝ} {p q : ℝ}, c ≤ p → p < q → (∀ t, c ≤ t → HasDerivAt φ (φ' t) t) → φ p = φ q →
      ∃ t, p < t ∧ t < q ∧ φ' t = 0 := by
    intro φ φ' p q hp hpq hd he
    obtain ⟨t, ht, e⟩ := exists_hasDerivAt_eq_zero hpq
      (fun z hz => (hd z (hp.trans hz.1)).continuousAt.continuousWithinAt) he fun z hz => hd z (hp.trans hz.1.le)
    exact ⟨t, ht.1, ht.2, e⟩
  have z1 : f c - P c - K * om c = 0 := by rw [hK]; ring
  have z2 : f (a - s) - P (a - s) - K * om (a - s) = 0 := by
    rw [hP, hom]; linear_combination (1 / 2) * hD1 - (1 / 2) * hD2
  have z3 : f a - P a - K * om a = 0 := by rw [hP, hom]; ring
  have z4 : f (a + s) - P (a + s) - K * om (a + s) = 0 := by
    rw [hP, hom]; linear_combination -(1 / 2) * hD1 - (1 / 2) * hD2
  obtain ⟨x1, a1, b1, c1⟩ := rolle (p := c) (q := a - s) le_rfl hc g0 (z1.trans z2.symm)
  obtain ⟨x2, a2, b2, c2⟩ := rolle (p := a - s) (q := a) hc.le (by linarith) g0 (z2.trans z3.symm)
  obtain ⟨x3, a3, b3, c3⟩ := rolle (p := a) (q := a + s) (by linarith) (by linarith) g0 (z3.trans z4.symm)
  obtain ⟨y1, a4, b4, c4⟩ := rolle (p := x1) (q := x2) a1.le (by linarith) g1 (c1.trans c2.symm)
  obtain ⟨y2, a5, b5, c5⟩ := rolle (p := x2) (q := x3) (by linarith) (by linarith) g1 (c2.trans c3.symm)
  obtain ⟨z, a6, b6, c6⟩ := rolle (p := y1) (q := y2) (by linarith) (by linarith) g2 (c4.trans c5.symm)
  have hKn : K < 0 := by have := h3 z (by linarith); linarith
  have := mul_pos_of_neg_of_neg hKn homc
  rw [hK, hP] at this
  linarith

/-- The Laguerre step of degree two goes to the root of the quadratic. -/
theorem Der.laguerreStep_quadratic {x f D1 D2 h : ℝ} (h1 : D1 < 0) (h2 : 0 ≤ D2) (hh : h ≤ 0)
    (hf : f = -(D1 * h + D2 / 2 * h ^ 2)) (hb : |x + h| < 1e300) : laguerreStep x f D1 D2 = x + h := by
  have hn : D1 + D2 * h < 0 := by nlinarith
  unfold laguerreStep
  rw [laguerreLoop]
  have e1 : (12 - ((10 : ℕ) : ℝ)) = 2 := by norm_num
  simp only [e1]
  have e2 : (2 - 1 : ℝ) ^ 2 * D1 ^ 2 - 2 * (2 - 1) * f * D2 = (D1 + D2 * h) ^ 2 := by rw [hf]; ring
  simp only [e2]
  rw [if_neg (not_lt.2 (sq_nonneg _)), Real.sqrt_sq_eq_abs, copysign, if_pos h1, abs_abs, abs_of_neg hn, neg_neg]
  have hd : D1 + (D1 + D2 * h) < 0 := by linarith
  rw [if_neg hd.ne]
  have e3 : x - 2 * f / (D1 + (D1 + D2 * h)) = x + h := by
    rw [hf, show 2 * -(D1 * h + D2 / 2 * h ^ 2) = -h * (D1 + (D1 + D2 * h)) by ring, mul_div_cancel_right₀ _ hd.ne, sub_neg_eq_add]
  rw [e3, if_pos (abs_lt.1 hb)]

open Der

/-- The run of the iteration that divides by zero. -/
theorem Der.hyperbolicLoop_undefined {σ : ℝ} (hl : σ ^ 2 < 1) (h0 : σ ≠ 0) :
    ∃ tau, lancT σ 1.5 (lancY σ 1.5) 0 < tau ∧ tau < lancT σ (1 + eps) (lancY σ (1 + eps)) 0 ∧
      ∀ atol rtol, atol + rtol * |tau| < |lancT σ 1.5 (lancY σ 1.5) 0 - tau| →
        atol + rtol * |tau| < |lancT σ (1 + eps) (lancY σ (1 + eps)) 0 - tau| →
        ∀ maxiter k n, hyperbolicLoop σ tau maxiter atol rtol (k + 2) n 1.5 = .error .undefined := by
  have he := eps_pos
  have hse := sqrtEps_pos
  have heps : eps < 1e-10 := by unfold eps; norm_num
  have hseps : sqrtEps < 1e-5 := by unfold sqrtEps; norm_num
  obtain ⟨T, hT⟩ : ∃ T : ℝ → ℝ, T = fun t => lancT σ t (lancY σ t) 0 := ⟨_, rfl⟩
  obtain ⟨T1, hT1⟩ : ∃ T1 : ℝ → ℝ, T1 = fun t => lancT1 σ t (lancY σ t) (lancT σ t (lancY σ t) 0) := ⟨_, rfl⟩
  obtain ⟨T2, hT2⟩ : ∃ T2 : ℝ → ℝ, T2 = fun t => lancT2 σ t (lancY σ t) (lancT σ t (lancY σ t) 0)
      (lancT1 σ t (lancY σ t) (lancT σ t (lancY σ t) 0)) := ⟨_, rfl⟩
  obtain ⟨T3, hT3⟩ : ∃ T3 : ℝ → ℝ, T3 = fun t => lancT3 σ t (lancY σ t) (lancT1 σ t (lancY σ t) (lancT σ t (lancY σ t) 0))
      (lancT2 σ t (lancY σ t) (lancT σ t (lancY σ t) 0) (lancT1 σ t (lancY σ t) (lancT σ t (lancY σ t) 0))) := ⟨_, rfl⟩
  have hn : ∀ t : ℝ, 1 < t → 1 - t ^ 2 ≠ 0 := fun t ht h => by nlinarith
  have d0 : ∀ t, 1 < t → HasDerivAt T (T1 t) t := fun t ht => by
    rw [hT, hT1]; exact lancT_hasDerivAt hl (by linarith) ht.ne' 0
  have d1 : ∀ t, 1 < t → HasDerivAt T1 (T2 t) t := fun t ht => by
    rw [hT1, hT2]; exact lancT1_hasDerivAt hl (hn t ht) (lancT_hasDerivAt hl (by linarith) ht.ne' 0)
  have d2 : ∀ t, 1 < t → HasDerivAt T2 (T3 t) t := fun t ht => by
    rw [hT2, hT3]
    exact lancT2_hasDerivAt hl (hn t ht) (T1 := fun t => lancT1 σ t (lancY σ t) (lancT σ t (lancY σ t) 0))
      (lancT_hasDerivAt hl (by linarith) ht.ne' 0)
      (lancT1_hasDerivAt hl (hn t ht) (lancT_hasDerivAt hl (by linarith) ht.ne' 0))
  have n1 : ∀ t, 1 < t → T1 t < 0 := fun t ht => by rw [hT1]; exact lancT1_hyp_neg hl h0 ht
  have n2 : ∀ t, 1 < t → 0 < T2 t := fun t ht => by rw [hT2]; exact lancT2_hyp_pos hl h0 ht
  have n3 : ∀ t, 1 < t → T3 t < 0 := fun t ht => by rw [hT3]; exact lancT3_neg hl h0 ht
  obtain ⟨s, hs⟩ : ∃ s, s = sqrtEps * max 1.0 |(1.5 : ℝ)| := ⟨_, rfl⟩
  have hse2 : s = sqrtEps * 1.5 := by
    rw [hs, abs_of_pos (by norm_num), max_eq_right (by norm_num)]
  have hs0 : 0 < s := by rw [hse2]; positivity
  have hs1 : s < 1 / 10 := by rw [hse2]; norm_num at hseps ⊢; linarith
  have heps' : eps < 1 / 10 := by norm_num at heps ⊢; linarith
  have slope : ∀ p q, 1 < p → p < q → ∃ t, p < t ∧ t < q ∧ T1 t = (T q - T p) / (q - p) := by
    intro p q hp hpq
    obtain ⟨t, ht, e⟩ := exists_hasDerivAt_eq_slope T T1 hpq
      (fun z hz => (d0 z (by linarith [hz.1])).continuousAt.continuousWithinAt) fun z hz => d0 z (by linarith [hz.1])
    exact ⟨t, ht.1, ht.2, e⟩
  have hmono : StrictMonoOn T1 (Set.Ioi 1) := by
    refine strictMonoOn_of_deriv_pos (convex_Ioi 1) (fun t ht => (d1 t ht).continuousAt.continuousWithinAt) fun t ht => ?_
    rw [interior_Ioi] at ht
    rw [(d1 t ht).deriv]; exact n2 t ht
  obtain ⟨a, ha⟩ : ∃ a : ℝ, a = 1.5 := ⟨_, rfl⟩
  have ha' : a = 3 / 2 := by rw [ha]; norm_num
  obtain ⟨D1, hD1⟩ : ∃ D1, D1 = (T (a + s) - T (a - s)) / (a + s - (a - s)) := ⟨_, rfl⟩
  obtain ⟨D2, hD2⟩ : ∃ D2, D2 = 2 * ((T (a + s) - T a) / (a + s - a) - (T a - T (a - s)) / (a - (a - s))) / (a + s - (a - s)) :=
    ⟨_, rfl⟩
  have hD1n : D1 < 0 := by
    obtain ⟨t, h1, h2, e⟩ := slope (a - s) (a + s) (by linarith) (by linarith)
    rw [hD1, ← e]; exact n1 t (by linarith)
  have hD2p : 0 ≤ D2 := by
    obtain ⟨t, h1, h2, e⟩ := slope (a - s) a (by linarith) (by linarith)
    obtain ⟨t', h3, h4, e'⟩ := slope a (a + s) (by linarith) (by linarith)
    have := hmono (show 1 < t by linarith) (show 1 < t' by linarith) (by linarith)
    rw [e, e'] at this
    rw [hD2]
    exact div_nonneg (by linarith) (by linarith)
  obtain ⟨h, hh⟩ : ∃ h, h = 1 + eps - a := ⟨_, rfl⟩
  have hh0 : h < 0 := by linarith
  obtain ⟨tau, htau⟩ : ∃ tau, tau = T a + D1 * h + D2 / 2 * h ^ 2 := ⟨_, rfl⟩
  have hlt : tau < T (1 + eps) := by
    rw [htau, hh]
    refine interpolation_below (s := s) hs0 (by linarith) (fun t ht => d0 t (by linarith)) (fun t ht => d1 t (by linarith))
      (fun t ht => d2 t (by linarith)) (fun t ht => n3 t (by linarith)) ?_ ?_
    · rw [hD1, show a + s - (a - s) = 2 * s by ring, div_mul_cancel₀ _ (by linarith)]
    · rw [hD2, show a + s - (a - s) = 2 * s by ring, show a + s - a = s by ring, show a - (a - s) = s by ring]
      field_simp
      ring
  have hgt : T a < tau := by
    have h1 : 0 < D1 * h := mul_pos_of_neg_of_neg hD1n hh0
    have h2 : 0 ≤ D2 / 2 * h ^ 2 := by positivity
    rw [htau]; linarith
  have t1 : ∀ t, lancT σ t (lancY σ t) 0 = T t := fun t => by rw [hT]
  refine ⟨tau, ?_, ?_, ?_⟩
  · rw [t1, ← ha]; exact hgt
  · rw [t1]; exact hlt
  intro atol rtol k1 k2 maxiter k n
  rw [t1, ← ha] at k1
  rw [t1] at k2
  rw [← ha, hyperbolicLoop]
  simp only []
  rw [tofHyperbolic_eq hl h0 (show 1 < a by linarith), ok_bind, t1, if_neg (not_le.2 k1)]
  have hm : max (1.0 + eps) (a - sqrtEps * max 1.0 |a|) = a - s := by
    rw [ha, ← hs, ← ha]
    apply max_eq_right
    norm_num; linarith
  have hp : a + sqrtEps * max 1.0 |a| = a + s := by rw [ha, ← hs]
  have hder : hyperbolicNumericalDerivatives σ a (computeY σ a) = .ok (D1, D2) := by
    unfold hyperbolicNumericalDerivatives
    simp only []
    rw [hm, hp, tofHyperbolic_eq hl h0 (by linarith), ok_bind, tofHyperbolic_eq hl h0 (by linarith), ok_bind,
      tofHyperbolic_eq hl h0 (by linarith), ok_bind, t1, t1, t1, pdiv_eq (by linarith), ok_bind, pdiv_eq (by linarith), ok_bind,
      pdiv_eq (by linarith), ok_bind, pdiv_eq (by linarith), ok_bind, ← hD1, ← hD2]
  rw [hder, ok_bind]
  simp only []
  have hstep : laguerreStep a (T a - tau) D1 D2 = 1 + eps := by
    rw [laguerreStep_quadratic hD1n hD2p hh0.le (by rw [htau]; ring) (by
      rw [hh, show a + (1 + eps - a) = 1 + eps by ring, abs_of_pos (by linarith)]
      linarith [show (2 : ℝ) < 1e300 by norm_num]), hh]
    ring
  rw [hstep, if_neg (by norm_num; exact he), show (1.0 : ℝ) = 1 by norm_num, max_self, hyperbolicLoop]
  simp only []
  rw [tofHyperbolic_eq hl h0 (by linarith), ok_bind, t1, if_neg (not_le.2 k2)]
  have hm2 : max (1 + eps) (1 + eps - sqrtEps * max 1.0 |1 + eps|) = 1 + eps := by
    apply max_eq_left
    have : 0 ≤ sqrtEps * max 1.0 |1 + eps| := mul_nonneg hse.le (le_max_of_le_right (abs_nonneg _))
    linarith
  have hst : 0 < sqrtEps * max 1.0 |1 + eps| := mul_pos hse (lt_max_of_lt_left (by norm_num))
  have hder2 : hyperbolicNumericalDerivatives σ (1 + eps) (computeY σ (1 + eps)) = .error .undefined := by
    unfold hyperbolicNumericalDerivatives
    simp only []
    rw [show (1.0 : ℝ) = 1 by norm_num] at *
    rw [hm2, tofHyperbolic_eq hl h0 (by linarith), ok_bind, tofHyperbolic_eq hl h0 (by linarith), ok_bind]
    rw [ok_bind, pdiv_eq (by linarith), ok_bind, ok_bind, pdiv,
      if_pos (sub_self _)]
    rfl
  rw [hder2]
  rfl

/-- **C69, negation.**  For every pair of positions and each sense there is a time of flight, of a hyperbolic transfer, at
which `der2011` stops with a division by zero, for all small enough tolerances and every iteration budget of at least two. -/
theorem der_divides_by_zero (b : Brent) {mu : ℝ} (hmu : 0 < mu) {r1 r2 : V3} (hnp : NotPolar r1 r2) (pro : Bool) :
    ∃ tof w1 w2, LambertArc mu r1 r2 w1 w2 tof 0 ∧ Sense pro r1 w1 ∧ 0 < energyOf mu r1 w1 ∧
      ∃ δ > 0, ∀ atol rtol : ℝ, |atol| < δ → |rtol| < δ → ∀ low N full clock, 2 ≤ N →
        der2011 b mu r1 r2 tof 0 pro low N atol rtol full clock = .error .undefined := by
  have hna : NotAligned r1 r2 := fun h => hnp h.2.2
  have hψ := transferAngle_eq hna pro
  obtain ⟨s, σ, hG, hS, h0, hsg, hcs, hnt⟩ := geo hna (angle_of_eq hna hψ)
  have hl := hS.lam_lt
  have hs0 := hS.spos
  have he := Der.eps_pos
  obtain ⟨tau, t1, t2, hrun⟩ := hyperbolicLoop_undefined hl h0
  have hP0 : lancT σ (1 + Der.eps) (lancY σ (1 + Der.eps)) 0 < computeParabolicTime σ := by
    rw [← parabolic_time]
    exact lancT_strictAnti hl h0 (show (1 : ℝ) ∈ Set.Ioi (-1) by norm_num) (show -1 < 1 + Der.eps by linarith) (by linarith)
  have hpos : 0 < tau := (lancT_hyp_pos hl h0 (x := 1.5) (by norm_num)).trans t1
  have hU : 0 < Real.sqrt (s ^ 3 / (2 * mu)) := by positivity
  obtain ⟨x, hx, hxT⟩ := timeOf_surj hmu hs0 hl h0 (tof := Real.sqrt (s ^ 3 / (2 * mu)) * tau) (by positivity)
  have hxT : Real.sqrt (s ^ 3 / (2 * mu)) * lancT σ x (lancY σ x) 0 = Real.sqrt (s ^ 3 / (2 * mu)) * tau := hxT
  have hxt := mul_left_cancel₀ hU.ne' hxT
  have hL := lanc_lancY hl x
  have harc := lancArc hmu hG hS hL hx (M := 0) (.inl rfl)
  rw [hxt] at harc
  have hx1 : 1 < x := by
    by_contra hn
    have := (lancT_strictAnti hl h0).antitoneOn (show x ∈ Set.Ioi (-1 : ℝ) from hx) (show (1 : ℝ) ∈ Set.Ioi (-1) by norm_num)
      (not_lt.1 hn)
    rw [hxt, parabolic_time] at this
    linarith
  refine ⟨_, _, _, harc, sense hmu hG hs0 hL hsg hnp, ?_, ?_⟩
  · rw [energyOf, hL.energy hmu hs0 hG hS.sum]
    have : 0 < x ^ 2 - 1 := by nlinarith
    rw [show -mu * (1 - x ^ 2) / s = (x ^ 2 - 1) * mu / s by ring]
    positivity
  · obtain ⟨g, hg⟩ : ∃ g, g = min (tau - lancT σ 1.5 (lancY σ 1.5) 0) (lancT σ (1 + Der.eps) (lancY σ (1 + Der.eps)) 0 - tau) := ⟨_, rfl⟩
    have hg0 : 0 < g := by rw [hg]; exact lt_min (by linarith) (by linarith)
    have hg1 : g ≤ tau - lancT σ 1.5 (lancY σ 1.5) 0 := by rw [hg]; exact min_le_left _ _
    have hg2 : g ≤ lancT σ (1 + Der.eps) (lancY σ (1 + Der.eps)) 0 - tau := by rw [hg]; exact min_le_right _ _
    generalize hP : computeParabolicTime σ = P at *
    have hPp : 0 < P := by linarith
    refine ⟨g / (1 + P), by positivity, fun atol rtol ha hr low N full clock hN => ?_⟩
    rw [lt_div_iff₀ (by linarith)] at ha hr
    have hsmall : ∀ z, 0 ≤ z → z ≤ P → atol + rtol * z < g := by
      intro z hz0 hz
      have h1 : rtol * z ≤ |rtol| * P :=
        (mul_le_mul_of_nonneg_right (le_abs_self _) hz0).trans (mul_le_mul_of_nonneg_left hz (abs_nonneg _))
      have h2 := le_abs_self atol
      by_cases h3 : |rtol| ≤ |atol|
      · nlinarith [abs_nonneg atol]
      · nlinarith [abs_nonneg rtol]
    have htau : Real.sqrt (s ^ 3 / (2 * mu)) * tau / Real.sqrt (s ^ 3 / (2 * mu)) = tau := by
      rw [mul_comm, mul_div_assoc, div_self hU.ne', mul_one]
    refine run_undefined hmu hna harc.1 hψ hcs (hnt mu _ hmu) ?_
    rw [htau, hP]
    unfold findPathParameter startX
    have hcl : ¬ |tau - P| ≤ atol + rtol * |P| := by
      rw [abs_of_pos hPp, abs_of_neg (by linarith)]
      have := hsmall P hPp.le le_rfl
      linarith
    rw [if_neg (fun h => hcl h.2), if_pos rfl, if_neg (by linarith), ok_bind,
      if_neg (by rintro (h | h); · exact lt_irrefl _ h
                 · linarith)]
    unfold solveHyperbolic solveHyperbolicJit
    obtain ⟨k, rfl⟩ : ∃ k, N = k + 2 := ⟨N - 2, by omega⟩
    have hlim := hsmall tau hpos.le (by linarith)
    rw [show max (1.1 : ℝ) (0.5 + 1.0) = 1.5 by norm_num, hrun atol rtol (by
      rw [abs_of_pos hpos, abs_of_neg (by linarith)]; linarith) (by
      rw [abs_of_pos hpos, abs_of_pos (by linarith)]; linarith)]
    rfl

/-- The theorem at a quarter turn of the unit circle. -/
example : ∃ tof, ∃ δ > 0, ∀ atol rtol : ℝ, |atol| < δ → |rtol| < δ → ∀ low N full clock, 2 ≤ N →
    der2011 exactBrent 1 ⟨1, 0, 0⟩ ⟨0, 1, 0⟩ tof 0 true low N atol rtol full clock = .error .undefined := by
  obtain ⟨tof, -, -, -, -, -, h⟩ := der_divides_by_zero exactBrent one_pos (r1 := ⟨1, 0, 0⟩) (r2 := ⟨0, 1, 0⟩)
    (by simp [NotPolar]) true
  exact ⟨tof, h⟩

end Lamberthub
