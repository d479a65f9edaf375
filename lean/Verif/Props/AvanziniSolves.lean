import Verif.Props.AvanziniMore
import Verif.Proofs.PathTime

/-! # C83: `avanzini2008` solves the problems whose time is close to that of the fundamental ellipse -/

set_option autoImplicit false

namespace Lamberthub
open Spec LC

/-- The time of a zero-revolution path is continuous in its parameter. -/
theorem LC.Path.time_cont {μ P A V0 T0 : ℝ} (hμ : 0 < μ) (hA : A ≠ 0) (hP : |Real.sqrt 2 * A| < P)
    (h0 : Path μ P A 0 V0 T0) (hT0 : 0 < T0) {ε : ℝ} (hε : 0 < ε) :
    ∃ δ > 0, ∀ V T, Path μ P A 0 V T → |V - V0| < δ → |T - T0| < ε := by
  obtain ⟨e, he, hee, heT⟩ : ∃ e > 0, e ≤ ε ∧ e < T0 :=
    ⟨min ε (T0 / 2), by positivity, min_le_left _ _, by linarith [min_le_right ε (T0 / 2)]⟩
  obtain ⟨Va, ha⟩ := Path.exists (P := P) hμ hA hP (T := T0 - e) (by linarith)
  obtain ⟨Vb, hb⟩ := Path.exists (P := P) hμ hA hP (T := T0 + e) (by linarith)
  have k1 := (ha.time_lt_iff hμ hA hP h0).1 (by linarith)
  have k2 := (h0.time_lt_iff hμ hA hP hb).1 (by linarith)
  refine ⟨min ((P - Va) / A - (P - V0) / A) ((P - V0) / A - (P - Vb) / A) * |A|,
    mul_pos (lt_min (by linarith) (by linarith)) (abs_pos.2 hA), fun V T h hV => ?_⟩
  have hd : |(P - V) / A - (P - V0) / A| < min ((P - Va) / A - (P - V0) / A) ((P - V0) / A - (P - Vb) / A) := by
    rw [show (P - V) / A - (P - V0) / A = -(V - V0) / A by ring, abs_div, abs_neg, div_lt_iff₀ (abs_pos.2 hA)]
    exact hV
  obtain ⟨d1, d2⟩ := abs_lt.1 hd
  have m1 := min_le_left ((P - Va) / A - (P - V0) / A) ((P - V0) / A - (P - Vb) / A)
  have m2 := min_le_right ((P - Va) / A - (P - V0) / A) ((P - V0) / A - (P - Vb) / A)
  have t1 := (ha.time_lt_iff hμ hA hP h).2 (by linarith)
  have t2 := (h.time_lt_iff hμ hA hP hb).2 (by linarith)
  exact abs_lt.2 ⟨by linarith, by linarith⟩

namespace Avanzini

variable {pro : Bool} {r1 r2 : V3} {g : Geometry}

theorem Good.sin_ne (hG : Good pro r1 r2 g) : Real.sin g.dtheta ≠ 0 := by
  intro h
  have := Pan.sin_cross hG.angle hG.hna
  have hW := cross_norm_pos hG.hna
  rw [h, mul_zero] at this
  split at this <;> linarith

theorem Good.eF_lt (hG : Good pro r1 r2 g) : ((g.r1Norm - g.r2Norm) / g.cNorm) ^ 2 < 1 := by
  have hc := hG.c
  rw [div_pow, div_lt_one (by positivity), hG.csq]
  nlinarith [mul_pos (mul_pos hG.R1 hG.R2) (sub_pos.2 hG.angle.cos_lt_one)]

/-- The semi-latus rectum is an affine function of `eccT`. -/
theorem eap_eq (hG : Good pro r1 r2 g) {e : ℝ} (he : ((g.r1Norm - g.r2Norm) / g.cNorm) ^ 2 + e ^ 2 < 1) :
    ∃ ecc a, eapFromEccT e g = .ok (ecc, a, (g.r1Norm + g.r2Norm) / 2 * (1 - ((g.r1Norm - g.r2Norm) / g.cNorm) ^ 2) -
      e * g.r1Norm * g.r2Norm * Real.sin g.dtheta / g.cNorm) ∧ ecc < 1 := by
  have hc := hG.c
  have hd : 1 - ((g.r1Norm - g.r2Norm) / g.cNorm) ^ 2 - e ^ 2 ≠ 0 := by linarith
  unfold eapFromEccT eccAtEccT pAtEccT aAtEccT
  rw [fundamental_eq hc.ne', ok_bind]
  simp only []
  rw [psqrt_eq (by positivity), ok_bind, pdiv_eq hc.ne', ok_bind, ok_bind, pdiv_eq hd, ok_bind]
  refine ⟨_, _, rfl, ?_⟩
  rw [Real.sqrt_lt' one_pos]
  linarith

theorem cos_half_of_sin {x : ℝ} (h : Real.sin x ≠ 0) : Real.cos (x / 2) ≠ 0 := by
  intro h0
  apply h
  rw [show x = 2 * (x / 2) by ring, Real.sin_two_mul, h0, mul_zero]

/-- Neither position is at the apocentre of an orbit close to the fundamental ellipse. -/
theorem anomalies_near (hG : Good pro r1 r2 g) :
    ∃ δ > 0, ∀ e : ℝ, |e| < δ → ((g.r1Norm - g.r2Norm) / g.cNorm) ^ 2 + e ^ 2 < 1 →
      Real.cos (-wAtEccT e ((g.r1Norm - g.r2Norm) / g.cNorm) g.wC / 2) ≠ 0 ∧
      Real.cos ((-wAtEccT e ((g.r1Norm - g.r2Norm) / g.cNorm) g.wC + g.dtheta) / 2) ≠ 0 := by
  have hc := hG.c
  have hR1 := hG.R1
  have hR2 := hG.R2
  have hsin := hG.sin_ne
  have hcos1 := hG.angle.cos_lt_one
  have hcw := hG.cosw
  have hsw := hG.sinw
  have tθ := Real.sin_sq_add_cos_sq g.dtheta
  -- the eccentricity vector at both positions
  have hE : ∀ e : ℝ, ((g.r1Norm - g.r2Norm) / g.cNorm) ^ 2 + e ^ 2 < 1 → ∃ ecc : ℝ,
      ecc * Real.sin (-wAtEccT e ((g.r1Norm - g.r2Norm) / g.cNorm) g.wC) =
        -((g.r1Norm - g.r2Norm) / g.cNorm * Real.sin g.wC + e * Real.cos g.wC) ∧
      ecc * Real.sin (-wAtEccT e ((g.r1Norm - g.r2Norm) / g.cNorm) g.wC + g.dtheta) =
        (g.r1Norm - g.r2Norm) / g.cNorm * Real.sin (g.dtheta - g.wC) - e * Real.cos (g.dtheta - g.wC) := by
    intro e he
    obtain ⟨ecc, a, heap, -⟩ := eap_eq hG he
    have hC := eap_conic hG heap
    have hx := hC.ex
    have hy := hC.ey
    unfold exOf at hx
    unfold eyOf at hy
    refine ⟨ecc, ?_, ?_⟩
    · rw [Real.sin_neg]; linear_combination hy
    · rw [Real.sin_add, Real.sin_neg, Real.cos_neg, Real.sin_sub, Real.cos_sub]
      linear_combination -Real.sin g.dtheta * hx + Real.cos g.dtheta * hy
  have s1 : g.cNorm * Real.sin (g.dtheta - g.wC) = -(g.r1Norm * Real.sin g.dtheta) := by
    rw [Real.sin_sub]
    linear_combination Real.sin g.dtheta * hcw - Real.cos g.dtheta * hsw
  have c1 : g.cNorm * Real.cos (g.dtheta - g.wC) = g.r2Norm - g.r1Norm * Real.cos g.dtheta := by
    rw [Real.cos_sub]
    linear_combination Real.cos g.dtheta * hcw + Real.sin g.dtheta * hsw + g.r2Norm * tθ
  have s0 : Real.sin g.wC ≠ 0 := by
    intro h; rw [h, mul_zero] at hsw; exact (mul_ne_zero hR2.ne' hsin) hsw.symm
  have s2 : Real.sin (g.dtheta - g.wC) ≠ 0 := by
    intro h; rw [h, mul_zero] at s1; exact (neg_ne_zero.2 (mul_ne_zero hR1.ne' hsin)) s1.symm
  by_cases hR : g.r1Norm = g.r2Norm
  · have heF : (g.r1Norm - g.r2Norm) / g.cNorm = 0 := by rw [hR]; simp
    refine ⟨1, one_pos, fun e _ he => ?_⟩
    obtain ⟨ecc, h1, h2⟩ := hE e he
    rw [heF] at h1 h2 ⊢
    rcases eq_or_ne e 0 with rfl | hne
    · have hw0 : wAtEccT 0 0 g.wC = 0 := by
        unfold wAtEccT arctan2
        have : Complex.arg ⟨0, 0⟩ = 0 := Complex.arg_zero
        simpa using this
      rw [hw0, neg_zero, zero_add]
      exact ⟨by simp, cos_half_ne hG⟩
    · have hcw0 : Real.cos g.wC ≠ 0 := by
        intro h
        rw [h, mul_zero] at hcw
        nlinarith [mul_pos hR1 (sub_pos.2 hcos1)]
      have hcw2 : Real.cos (g.dtheta - g.wC) ≠ 0 := by
        intro h
        rw [h, mul_zero] at c1
        nlinarith [mul_pos hR1 (sub_pos.2 hcos1)]
      refine ⟨cos_half_of_sin fun h => ?_, cos_half_of_sin fun h => ?_⟩
      · rw [h, mul_zero, zero_mul, zero_add] at h1
        exact (neg_ne_zero.2 (mul_ne_zero hne hcw0)) h1.symm
      · rw [h, mul_zero, zero_mul, zero_sub] at h2
        exact (neg_ne_zero.2 (mul_ne_zero hne hcw2)) h2.symm
  · have heF : (g.r1Norm - g.r2Norm) / g.cNorm ≠ 0 := div_ne_zero (sub_ne_zero.2 hR) hc.ne'
    have p1 := abs_pos.2 (mul_ne_zero heF s0)
    have p2 := abs_pos.2 (mul_ne_zero heF s2)
    refine ⟨min |(g.r1Norm - g.r2Norm) / g.cNorm * Real.sin g.wC|
      |(g.r1Norm - g.r2Norm) / g.cNorm * Real.sin (g.dtheta - g.wC)|, lt_min p1 p2, fun e hd he => ?_⟩
    obtain ⟨ecc, h1, h2⟩ := hE e he
    have l1 := hd.trans_le (min_le_left _ _)
    have l2 := hd.trans_le (min_le_right _ _)
    have key : ∀ x, |e * Real.cos x| ≤ |e| := fun x => by
      rw [abs_mul]; exact mul_le_of_le_one_right (abs_nonneg _) (Real.abs_cos_le_one x)
    refine ⟨cos_half_of_sin fun h => ?_, cos_half_of_sin fun h => ?_⟩
    · rw [h, mul_zero] at h1
      have : (g.r1Norm - g.r2Norm) / g.cNorm * Real.sin g.wC = -(e * Real.cos g.wC) := by linarith
      have k := key g.wC
      rw [this, abs_neg] at l1
      linarith
    · rw [h, mul_zero] at h2
      have : (g.r1Norm - g.r2Norm) / g.cNorm * Real.sin (g.dtheta - g.wC) = e * Real.cos (g.dtheta - g.wC) := by linarith
      have k := key (g.dtheta - g.wC)
      rw [this] at l2
      linarith

/-- The time of flight is defined there. -/
theorem tof_defined (hG : Good pro r1 r2 g) {mu e : ℝ} (hmu : 0 < mu)
    (he : ((g.r1Norm - g.r2Norm) / g.cNorm) ^ 2 + e ^ 2 < 1)
    (n1 : Real.cos (-wAtEccT e ((g.r1Norm - g.r2Norm) / g.cNorm) g.wC / 2) ≠ 0)
    (n2 : Real.cos ((-wAtEccT e ((g.r1Norm - g.r2Norm) / g.cNorm) g.wC + g.dtheta) / 2) ≠ 0) :
    ∃ T, keplerTofAtEccT e mu g = .ok T := by
  have hc := hG.c
  obtain ⟨ecc, a, heap, h1⟩ := eap_eq hG he
  have hC := eap_conic hG heap
  have h0 := hC.e0
  have hcase : (0 : ℝ) ≤ ecc ∧ ecc < 1 := ⟨h0, h1⟩
  have hq : (0 : ℝ) ≤ (1 - ecc) / (1 + ecc) := div_nonneg (by linarith) (by linarith)
  have ha : 0 < a := by
    rw [hC.a_eq, ← hC.at1]
    have d1 : 0 < 1 - ecc ^ 2 := by nlinarith
    have d2 : 0 < 1 + ecc * Real.cos (wAtEccT e ((g.r1Norm - g.r2Norm) / g.cNorm) g.wC) := by
      nlinarith [Real.neg_one_le_cos (wAtEccT e ((g.r1Norm - g.r2Norm) / g.cNorm) g.wC)]
    have := hG.R1
    positivity
  unfold keplerTofAtEccT
  rw [heap, ok_bind]
  simp only []
  rw [fundamental_eq hc.ne', ok_bind]
  simp only [getTrueAnomalies]
  unfold keplerFromNu nuToE
  rw [if_neg (not_lt.2 h0), if_pos hcase, if_neg (not_lt.2 h0), if_pos hcase]
  rw [pdiv_eq (by linarith : (1 : ℝ) + ecc ≠ 0), ok_bind, psqrt_eq hq, ok_bind, ptan_ok.2 ⟨n1, rfl⟩, ok_bind,
    ok_bind, ok_bind]
  rw [ok_bind, psqrt_eq hq, ok_bind, ptan_ok.2 ⟨n2, rfl⟩, ok_bind, ok_bind, ok_bind]
  unfold tofFromDeltaM
  rw [if_pos hcase, pdiv_eq hmu.ne', ok_bind, psqrt_eq (by positivity), ok_bind]
  split <;> exact ⟨_, rfl⟩

theorem lt_root_of_ell (hG : Good pro r1 r2 g) {e : ℝ} (he : ((g.r1Norm - g.r2Norm) / g.cNorm) ^ 2 + e ^ 2 < 1) :
    e < Real.sqrt (1 - ((g.r1Norm - g.r2Norm) / g.cNorm) ^ 2) := by
  have := Real.lt_sqrt_of_sq_lt (x := |e|) (y := 1 - ((g.r1Norm - g.r2Norm) / g.cNorm) ^ 2)
    (by rw [sq_abs]; linarith)
  exact (le_abs_self e).trans_lt this

theorem halfA_facts (hG : Good pro r1 r2 g) : halfA g.r1Norm g.r2Norm g.dtheta ≠ 0 ∧
    |Real.sqrt 2 * halfA g.r1Norm g.r2Norm g.dtheta| < g.r1Norm + g.r2Norm := by
  obtain ⟨hGeo, -⟩ := hG.angle.halfGeo hG.hna
  rw [← hG.n1, ← hG.n2] at hGeo
  refine ⟨hGeo.hA, ?_⟩
  obtain ⟨s, lam, hS, hA⟩ := hGeo.semi
  rw [hA]
  have h := lanc_geo (lam := lam) hS.lam_lt hS.spos
  rw [hG.n1, hG.n2, hS.sum]
  exact h

/-- The time of flight near the fundamental ellipse. -/
theorem tof_near (hG : Good pro r1 r2 g) {mu : ℝ} (hmu : 0 < mu) :
    ∃ TF, 0 < TF ∧ keplerTofAtEccT 0 mu g = .ok TF ∧
      (∀ ε > 0, ∃ δ > 0, ∀ e, |e| < δ → ∃ T, 0 < T ∧ keplerTofAtEccT e mu g = .ok T ∧ |T - TF| < ε) ∧
      ∀ e T, ((g.r1Norm - g.r2Norm) / g.cNorm) ^ 2 + e ^ 2 < 1 → keplerTofAtEccT e mu g = .ok T → 0 < T ∧ (T = TF → e = 0) := by
  have hc := hG.c
  have hR1 := hG.R1
  have hR2 := hG.R2
  have hF := hG.eF_lt
  have hcos1 := hG.angle.cos_lt_one
  obtain ⟨hA, hP⟩ := halfA_facts hG
  obtain ⟨δ0, hδ0, hn⟩ := anomalies_near hG
  have hpath : ∀ e T, ((g.r1Norm - g.r2Norm) / g.cNorm) ^ 2 + e ^ 2 < 1 → keplerTofAtEccT e mu g = .ok T →
      0 < T ∧ 0 < (g.r1Norm + g.r2Norm) / 2 * (1 - ((g.r1Norm - g.r2Norm) / g.cNorm) ^ 2) -
        e * g.r1Norm * g.r2Norm * Real.sin g.dtheta / g.cNorm ∧
      Path mu (g.r1Norm + g.r2Norm) (halfA g.r1Norm g.r2Norm g.dtheta) 0 (conicV
        ((g.r1Norm + g.r2Norm) / 2 * (1 - ((g.r1Norm - g.r2Norm) / g.cNorm) ^ 2) -
          e * g.r1Norm * g.r2Norm * Real.sin g.dtheta / g.cNorm) g.r1Norm g.r2Norm g.dtheta) T := by
    intro e T he hT
    obtain ⟨ecc, a, p, heap, hp, hpath⟩ := avanzini_path hmu hG (lt_root_of_ell hG he) (by linarith) hT
    obtain ⟨_, _, heap', -⟩ := eap_eq hG he
    rw [heap'] at heap
    simp only [Except.ok.injEq, Prod.mk.injEq] at heap
    obtain ⟨-, -, rfl⟩ := heap
    refine ⟨?_, hp, hpath⟩
    rw [hG.n1, hG.n2] at hpath
    exact (Path.arc hmu (Angle.halfGeo hG.angle hG.hna).1 hpath).1
  obtain ⟨TF, hTF⟩ := tof_defined hG hmu (e := 0) (by linarith) (hn 0 (by simpa using hδ0) (by linarith)).1
    (hn 0 (by simpa using hδ0) (by linarith)).2
  obtain ⟨hT0, hp0, hpath0⟩ := hpath 0 TF (by linarith) hTF
  refine ⟨TF, hT0, hTF, fun ε hε => ?_, fun e T he hT => ⟨(hpath e T he hT).1, ?_⟩⟩
  · obtain ⟨δ1, hδ1, hcont⟩ := hpath0.time_cont hmu hA hP hT0 hε
    -- the parameter of the path is continuous in `e`
    obtain ⟨δ2, hδ2, hV⟩ : ∃ δ2 > 0, ∀ e : ℝ, |e| < δ2 → |conicV
        ((g.r1Norm + g.r2Norm) / 2 * (1 - ((g.r1Norm - g.r2Norm) / g.cNorm) ^ 2) -
          e * g.r1Norm * g.r2Norm * Real.sin g.dtheta / g.cNorm) g.r1Norm g.r2Norm g.dtheta - conicV
        ((g.r1Norm + g.r2Norm) / 2 * (1 - ((g.r1Norm - g.r2Norm) / g.cNorm) ^ 2) -
          0 * g.r1Norm * g.r2Norm * Real.sin g.dtheta / g.cNorm) g.r1Norm g.r2Norm g.dtheta| < δ1 := by
      have hcv : ContinuousAt (fun e : ℝ => conicV
        ((g.r1Norm + g.r2Norm) / 2 * (1 - ((g.r1Norm - g.r2Norm) / g.cNorm) ^ 2) -
          e * g.r1Norm * g.r2Norm * Real.sin g.dtheta / g.cNorm) g.r1Norm g.r2Norm g.dtheta) 0 := by
        unfold conicV
        exact ContinuousAt.div (by fun_prop) (by fun_prop) hp0.ne'
      obtain ⟨d, hd, h⟩ := Metric.continuousAt_iff.1 hcv δ1 hδ1
      exact ⟨d, hd, fun e he => by simpa [Real.dist_eq] using h (by simpa [Real.dist_eq] using he)⟩
    obtain ⟨δ3, hδ3, hsq⟩ : ∃ δ3 > 0, ∀ e : ℝ, |e| < δ3 → ((g.r1Norm - g.r2Norm) / g.cNorm) ^ 2 + e ^ 2 < 1 := by
      refine ⟨Real.sqrt (1 - ((g.r1Norm - g.r2Norm) / g.cNorm) ^ 2), Real.sqrt_pos.2 (by linarith), fun e he => ?_⟩
      have := pow_lt_pow_left₀ he (abs_nonneg e) two_ne_zero
      rw [sq_abs, Real.sq_sqrt (by linarith)] at this
      linarith
    refine ⟨min δ0 (min δ2 δ3), by positivity, fun e he => ?_⟩
    have he0 := he.trans_le (min_le_left _ _)
    have he2 := he.trans_le ((min_le_right _ _).trans (min_le_left _ _))
    have he3 := he.trans_le ((min_le_right _ _).trans (min_le_right _ _))
    have hs := hsq e he3
    obtain ⟨T, hT⟩ := tof_defined hG hmu hs (hn e he0 hs).1 (hn e he0 hs).2
    obtain ⟨hTp, -, hp⟩ := hpath e T hs hT
    exact ⟨T, hTp, hT, hcont _ _ hp (hV e he2)⟩
  · rintro rfl
    obtain ⟨-, hp, hpth⟩ := hpath e T he hT
    have := hpth.unique hmu hP hpath0
    unfold conicV at this
    rw [div_eq_div_iff hp.ne' hp0.ne'] at this
    have hne : g.r1Norm * g.r2Norm * (1 - Real.cos g.dtheta) ≠ 0 := by
      have := sub_pos.2 hcos1
      positivity
    have h2 := mul_left_cancel₀ hne this
    have h3 : e * g.r1Norm * g.r2Norm * Real.sin g.dtheta / g.cNorm = 0 := by
      rw [zero_mul, zero_mul, zero_mul, zero_div] at h2; linarith
    have h4 := (div_eq_zero_iff.1 h3).resolve_right hc.ne'
    have h5 := (mul_eq_zero.1 h4).resolve_right hG.sin_ne
    have h6 := (mul_eq_zero.1 h5).resolve_right hR2.ne'
    exact (mul_eq_zero.1 h6).resolve_right hR1.ne'

/-- The elements and velocities are defined on every ellipse. -/
theorem velocities_defined (hg : getGeometry r1 r2 pro = .ok g) (hG : Good pro r1 r2 g) {mu e : ℝ} (hmu : 0 < mu)
    (he : ((g.r1Norm - g.r2Norm) / g.cNorm) ^ 2 + e ^ 2 < 1) :
    ∃ el v1 v2, coeAtEccT e r1 r2 pro = .ok el ∧ velocities mu el = .ok (v1, v2) ∧
      el.ecc ^ 2 = e ^ 2 + ((g.r1Norm - g.r2Norm) / g.cNorm) ^ 2 := by
  obtain ⟨ecc, a, heap, h1⟩ := eap_eq hG he
  have hC := eap_conic hG heap
  have hc := hG.c
  have h0 := hC.e0
  obtain ⟨n, θ, hn, -, hu, -⟩ := orbitNormal_spec hG.hna pro
  rw [len_eq_norm] at hu
  have hir : ∃ ir, getOrbitIncAndRaan r1 r2 pro = .ok ir := by
    unfold getOrbitIncAndRaan
    rw [hn, ok_bind]
    split
    · exact ⟨_, rfl⟩
    · have h2 := norm_sq n
      rw [hu] at h2
      rw [hu, pdiv_eq one_ne_zero, ok_bind, div_one,
        pacos_eq (by nlinarith [sq_nonneg n.x, sq_nonneg n.y]) (by nlinarith [sq_nonneg n.x, sq_nonneg n.y]), ok_bind]
      exact ⟨_, rfl⟩
  obtain ⟨⟨inc, raan⟩, hir⟩ := hir
  have hp : 0 < (g.r1Norm + g.r2Norm) / 2 * (1 - ((g.r1Norm - g.r2Norm) / g.cNorm) ^ 2) -
      e * g.r1Norm * g.r2Norm * Real.sin g.dtheta / g.cNorm := by
    rw [← hC.at1]
    have := hG.R1
    have d2 : 0 < 1 + ecc * Real.cos (wAtEccT e ((g.r1Norm - g.r2Norm) / g.cNorm) g.wC) := by
      nlinarith [Real.neg_one_le_cos (wAtEccT e ((g.r1Norm - g.r2Norm) / g.cNorm) g.wC)]
    positivity
  have hesq := hC.esq
  generalize (g.r1Norm + g.r2Norm) / 2 * (1 - ((g.r1Norm - g.r2Norm) / g.cNorm) ^ 2) -
      e * g.r1Norm * g.r2Norm * Real.sin g.dtheta / g.cNorm = p at *
  have hel : ∃ el, coeAtEccT e r1 r2 pro = .ok el ∧ el.p = p ∧ el.ecc = ecc := by
    unfold coeAtEccT
    rw [hg, ok_bind, heap, ok_bind]
    simp only []
    rw [fundamental_eq hc.ne', ok_bind]
    simp only []
    rw [vdiv_eq hG.R1.ne', ok_bind,
      vdiv_eq hG.R2.ne', ok_bind, hn, ok_bind, hir, ok_bind, hu, pdiv_eq one_ne_zero, ok_bind]
    exact ⟨_, rfl, rfl, rfl⟩
  obtain ⟨el, hel, rfl, rfl⟩ := hel
  have hden : ∀ x, 0 < 1 + el.ecc * Real.cos x := by
    intro x
    nlinarith [Real.neg_one_le_cos x]
  have hv : ∃ v1 v2, velocities mu el = .ok (v1, v2) := by
    unfold velocities
    rw [coe2rv_eq hmu hp (hden _), ok_bind, coe2rv_eq hmu hp (hden _), ok_bind]
    exact ⟨_, _, rfl⟩
  obtain ⟨v1, v2, hv⟩ := hv
  exact ⟨el, v1, v2, hel, hv, hesq⟩

/-- The function of `x` near zero. -/
theorem eccTAtX_near (hG : Good pro r1 r2 g) :
    ∃ F, getEccTAtX g = .ok F ∧ F 0 = .ok 0 ∧
      (∀ x, 0 < x → ∃ e, F x = .ok e ∧ 0 < e ∧ ((g.r1Norm - g.r2Norm) / g.cNorm) ^ 2 + e ^ 2 < 1) ∧
      ∀ ε > 0, ∃ δ > 0, ∀ x, |x| < δ → ∃ e, F x = .ok e ∧ |e| < ε := by
  have hc := hG.c
  have hcos := cos_half_ne hG
  have hlt := hG.eF_lt
  have hM : 1 ≤ (-1 / Real.cos (g.dtheta / 2)) ^ 2 := by
    rw [div_pow, neg_one_sq, le_div_iff₀ (by positivity), one_mul]
    exact Real.cos_sq_le_one _
  have hP : 0 < Real.sqrt (1 - ((g.r1Norm - g.r2Norm) / g.cNorm) ^ 2) := Real.sqrt_pos.2 (by linarith)
  have hPsq : Real.sqrt (1 - ((g.r1Norm - g.r2Norm) / g.cNorm) ^ 2) ^ 2 = 1 - ((g.r1Norm - g.r2Norm) / g.cNorm) ^ 2 :=
    Real.sq_sqrt (by linarith)
  have hF : ∃ F, getEccTAtX g = .ok F ∧
      ((∃ eH, 0 < eH ∧ F = eccTAbove eH (Real.sqrt (1 - ((g.r1Norm - g.r2Norm) / g.cNorm) ^ 2))) ∨
        F = eccTBelow (Real.sqrt (1 - ((g.r1Norm - g.r2Norm) / g.cNorm) ^ 2))) := by
    unfold getEccTAtX getEccTLimits eccHLimit
    rw [fundamental_eq hc.ne', ok_bind]
    simp only []
    rw [pdiv_eq hcos, ok_bind]
    split
    · rw [psqrt_eq (by linarith), ok_bind, ok_bind, psqrt_eq (by linarith), ok_bind, ok_bind]
      exact ⟨_, rfl, .inl ⟨Real.sqrt ((-1 / Real.cos (g.dtheta / 2)) ^ 2 - ((g.r1Norm - g.r2Norm) / g.cNorm) ^ 2),
        Real.sqrt_pos.2 (by linarith), rfl⟩⟩
    · rw [ok_bind, psqrt_eq (by linarith), ok_bind, ok_bind]
      exact ⟨_, rfl, .inr rfl⟩
  obtain ⟨F, hF, hcase⟩ := hF
  generalize Real.sqrt (1 - ((g.r1Norm - g.r2Norm) / g.cNorm) ^ 2) = eP at *
  have hG : ∃ G : ℝ → ℝ, (∀ x, F x = .ok (G x)) ∧ Continuous G ∧ G 0 = 0 ∧ ∀ x, 0 < x → 0 < G x ∧ G x < eP := by
    rcases hcase with ⟨eH, hH, rfl⟩ | rfl
    · refine ⟨fun x => eP * eH * (Real.exp ((1 / eH + 1 / eP) * x) - 1) / (eP + eH * Real.exp ((1 / eH + 1 / eP) * x)),
        fun x => ?_, ?_, by simp, fun x hx => ?_⟩
      · unfold eccTAbove
        rw [pdiv_eq hH.ne', ok_bind, pdiv_eq hP.ne', ok_bind, pdiv_eq (by positivity)]
      · exact Continuous.div (by fun_prop) (by fun_prop) fun x => by positivity
      · have h1 : 1 < Real.exp ((1 / eH + 1 / eP) * x) := Real.one_lt_exp_iff.2 (by positivity)
        simp only []
        generalize Real.exp ((1 / eH + 1 / eP) * x) = X at *
        have h2 : 0 < X - 1 := by linarith
        have h3 : 0 < eP + eH * X := by positivity
        refine ⟨by positivity, ?_⟩
        rw [div_lt_iff₀ h3]
        nlinarith [mul_pos hP hH, mul_pos hP hP]
    · refine ⟨fun x => eP * (1 - Real.exp (-x / eP)), fun x => ?_, by fun_prop, by simp, fun x hx => ?_⟩
      · unfold eccTBelow
        rw [pdiv_eq hP.ne', ok_bind]
      · have h1 : Real.exp (-x / eP) < 1 := Real.exp_lt_one_iff.2 (by rw [neg_div]; exact neg_neg_of_pos (by positivity))
        have h2 := Real.exp_pos (-x / eP)
        constructor
        · exact mul_pos hP (by linarith)
        · nlinarith
  obtain ⟨G, hFG, hcont, hG0, hGpos⟩ := hG
  refine ⟨F, hF, by rw [hFG, hG0], fun x hx => ⟨G x, hFG x, (hGpos x hx).1, ?_⟩, fun ε hε => ?_⟩
  · obtain ⟨a, b⟩ := hGpos x hx
    nlinarith
  · obtain ⟨d, hd, h⟩ := Metric.continuousAt_iff.1 (hcont.continuousAt (x := 0)) ε hε
    exact ⟨d, hd, fun x hx => ⟨G x, hFG x, by
      simpa [Real.dist_eq, hG0] using h (x := x) (by simpa [Real.dist_eq] using hx)⟩⟩

/-- The secant method from `0` and `1e-4` when the value at `0` is small. -/
theorem secant_near {f : ℝ → Py ℝ} {u L η κ atol rtol : ℝ} (h0 : f 0 = .ok u) (h1 : f 1e-4 = .ok (u + L))
    (hL : L ≠ 0) (hf : ∀ x, |x| < η → ∃ w, f x = .ok (u + w) ∧ |w| ≤ κ) (hκ : κ ≤ |L| / 2) (hu : |u| ≤ κ)
    (hη : |u| / |L| < η) (htol : κ / |L| ≤ atol) (hr : 0 ≤ rtol) (k : ℕ) :
    ∃ x n, secant f 0.0 (k + 2) atol rtol = .ok (x, n) ∧ 1 ≤ n ∧ |x| ≤ 2 * (κ / |L|) := by
  have hLp := abs_pos.2 hL
  have hκ0 : 0 ≤ κ := (abs_nonneg u).trans hu
  have hq0 : 0 ≤ κ / |L| := by positivity
  have hq1 : κ / |L| ≤ 1 / 2 := by rw [div_le_iff₀ hLp]; linarith
  have huL : |u / L| ≤ κ / |L| := by rw [abs_div]; exact div_le_div_of_nonneg_right hu hLp.le
  unfold secant
  rw [show (0.0 : ℝ) = 0 by norm_num, h0, ok_bind, if_pos (le_refl (0 : ℝ))]
  simp only [zero_add]
  rw [h1, ok_bind, secantLoop, if_neg (by simpa using hL), pdiv_eq (by simpa using hL), ok_bind]
  have hx : (1e-4 : ℝ) - (u + L) * (1e-4 - 0) / (u + L - u) = -(u / L * 1e-4) := by
    rw [show u + L - u = L by ring]; field_simp; ring
  simp only [hx]
  have hxb : |(-(u / L * 1e-4) : ℝ)| ≤ κ / |L| * 1e-4 := by
    rw [abs_neg, abs_mul, abs_of_pos (by norm_num : (0 : ℝ) < 1e-4)]
    exact mul_le_mul_of_nonneg_right huL (by norm_num)
  have hxη : |(-(u / L * 1e-4) : ℝ)| < η := by
    rw [abs_neg, abs_mul, abs_of_pos (by norm_num : (0 : ℝ) < 1e-4), abs_div]
    have : 0 ≤ |u| / |L| := by positivity
    linarith
  generalize (-(u / L * 1e-4) : ℝ) = z at *
  split
  · exact ⟨_, _, rfl, le_rfl, by linarith⟩
  · obtain ⟨w, hw, hwκ⟩ := hf z hxη
    have hwL : |L| / 2 ≤ |w - L| := by
      have := abs_sub_abs_le_abs_sub L w
      rw [abs_sub_comm] at this
      linarith
    have hwne : w - L ≠ 0 := by
      intro h; rw [h, abs_zero] at hwL; linarith
    rw [hw, ok_bind, secantLoop, if_neg (fun h => hwne (by linarith)), pdiv_eq (fun h => hwne (by linarith)), ok_bind]
    have hq : |(u + w) * (z - 1e-4) / (u + w - (u + L))| ≤ κ / |L| := by
      rw [show u + w - (u + L) = w - L by ring, abs_div, abs_mul, div_le_div_iff₀ (abs_pos.2 hwne) hLp]
      have a1 : |u + w| ≤ 2 * κ := (abs_add_le u w).trans (by linarith)
      have a2 : |z - 1e-4| ≤ 1 / 4 := by
        obtain ⟨b1, b2⟩ := abs_le.1 hxb
        rw [abs_le]; constructor <;> linarith
      calc |u + w| * |z - 1e-4| * |L| ≤ (2 * κ) * (1 / 4) * |L| := by gcongr
        _ = κ * (|L| / 2) := by ring
        _ ≤ κ * |w - L| := by gcongr
    simp only []
    rw [show z - (u + w) * (z - 1e-4) / (u + w - (u + L)) - z = -((u + w) * (z - 1e-4) / (u + w - (u + L))) by ring, abs_neg,
      if_pos (by
        have : 0 ≤ rtol * |z - (u + w) * (z - 1e-4) / (u + w - (u + L))| := by positivity
        linarith)]
    refine ⟨_, _, rfl, by norm_num, ?_⟩
    refine (abs_sub _ _).trans ?_
    linarith

end Avanzini

/-- The square of the eccentricity. -/
theorem eccVec_sq {mu : ℝ} (hmu : mu ≠ 0) {r v : V3} (hr : r ≠ 0) :
    len (eccVec mu r v) ^ 2 = 1 + (Spec.inner v v - 2 * mu / len r) *
      (Spec.inner r r * Spec.inner v v - Spec.inner r v ^ 2) / mu ^ 2 := by
  have hl := (len_pos hr).ne'
  have h2 := len_sq r
  rw [len_sq]
  unfold eccVec
  generalize len r = R at *
  simp only [outer, Spec.inner, V3.sub_x, V3.sub_y, V3.sub_z, V3.smul_x, V3.smul_y, V3.smul_z]
  field_simp
  linear_combination -mu ^ 2 * h2

/-- The component of the eccentricity vector along the chord is fixed by the positions. -/
theorem eccVec_chord {mu T : ℝ} {r1 r2 v1 v2 : V3} {M : ℕ} (hmu : mu ≠ 0) (h : LambertArc mu r1 r2 v1 v2 T M) :
    Spec.inner (eccVec mu r1 v1) (r2 - r1) = len r1 - len r2 := by
  obtain ⟨-, pos, vel, hk, rfl, rfl, rfl, rfl, -⟩ := h
  have he := eccVec_const hmu hk T 0
  have hh := angMom_const hk T 0
  have key : ∀ t, Spec.inner (eccVec mu (pos t) (vel t)) (pos t) =
      (1 / mu) * Spec.inner (outer (pos t) (vel t)) (outer (pos t) (vel t)) - len (pos t) := by
    intro t
    have hl := (len_pos (hk.no_collision t)).ne'
    have h2 := len_sq (pos t)
    unfold eccVec
    generalize len (pos t) = R at *
    simp only [outer, Spec.inner, V3.sub_x, V3.sub_y, V3.sub_z, V3.smul_x, V3.smul_y, V3.smul_z]
    field_simp
    linear_combination mu * h2
  have k1 := key 0
  have k2 := key T
  rw [he, hh] at k2
  have : Spec.inner (eccVec mu (pos 0) (vel 0)) (pos T - pos 0) =
      Spec.inner (eccVec mu (pos 0) (vel 0)) (pos T) - Spec.inner (eccVec mu (pos 0) (vel 0)) (pos 0) := by
    simp only [Spec.inner, V3.sub_x, V3.sub_y, V3.sub_z]; ring
  rw [this, k1, k2]; ring

/-- No orbit through both positions is rounder than the fundamental ellipse. -/
theorem eccVec_ge {mu T : ℝ} {r1 r2 v1 v2 : V3} {M : ℕ} (hmu : mu ≠ 0) (h : LambertArc mu r1 r2 v1 v2 T M) :
    |len r1 - len r2| ≤ len (eccVec mu r1 v1) * len (r2 - r1) := by
  rw [← eccVec_chord hmu h]
  have hnn : 0 ≤ len (eccVec mu r1 v1) * len (r2 - r1) := mul_nonneg (Real.sqrt_nonneg _) (Real.sqrt_nonneg _)
  apply abs_le_of_sq_le_sq _ hnn
  rw [mul_pow, len_sq, len_sq]
  generalize eccVec mu r1 v1 = e
  generalize r2 - r1 = c
  unfold Spec.inner
  nlinarith [sq_nonneg (e.x * c.y - e.y * c.x), sq_nonneg (e.y * c.z - e.z * c.y), sq_nonneg (e.z * c.x - e.x * c.z)]

namespace Avanzini

/-- The eccentricity of the orbit that the code returns. -/
theorem velocities_ecc {pro : Bool} {r1 r2 v1 v2 : V3} {g : Geometry} {mu eccT : ℝ} {el : Elements} (hmu : 0 < mu)
    (hg : getGeometry r1 r2 pro = .ok g) (hpi : g.dtheta ≠ Real.pi)
    (hel : coeAtEccT eccT r1 r2 pro = .ok el) (hv : velocities mu el = .ok (v1, v2))
    (hplane : ¬ (r1.z = 0 ∧ r2.z = 0)) :
    len (eccVec mu r1 v1) ^ 2 = eccT ^ 2 + ((g.r1Norm - g.r2Norm) / g.cNorm) ^ 2 := by
  have hG := geometry_good hg hpi
  obtain ⟨a, w, ix, iy, hp, hC, hv1, -, -, hinc⟩ := velocities_ok hmu hg hpi hel hv
  obtain ⟨p1, p2⟩ := hinc hplane
  have hR1 := norm_pos_of_notAligned_left hG.hna
  have hR2 := norm_pos_of_notAligned_right hG.hna
  have hr1 : r1 ≠ 0 := by
    rintro rfl
    have := hG.hna
    simp [NotAligned] at this
  have hs := hG.sin_ne
  have t := Real.sin_sq_add_cos_sq g.dtheta
  have tw := Real.sin_sq_add_cos_sq w
  -- the frame is orthonormal
  have e1 : V3.norm r1 ^ 2 = V3.norm r1 ^ 2 * Spec.inner ix ix := by
    conv_lhs => rw [sq, norm_mul_self, p1]
    simp only [V3.dot, Spec.inner, V3.smul_x, V3.smul_y, V3.smul_z]; ring
  have o1 : Spec.inner ix ix = 1 := by
    have : V3.norm r1 ^ 2 * Spec.inner ix ix = V3.norm r1 ^ 2 * 1 := by linarith
    exact mul_left_cancel₀ (by positivity) this
  have e2 : V3.norm r1 * V3.norm r2 * Real.cos g.dtheta = V3.norm r1 * V3.norm r2 *
      (Real.cos g.dtheta * Spec.inner ix ix + Real.sin g.dtheta * Spec.inner ix iy) := by
    rw [hG.angle.cos_eq]
    conv_lhs => rw [p1, p2]
    simp only [V3.dot, Spec.inner, V3.smul_x, V3.smul_y, V3.smul_z, V3.add_x, V3.add_y, V3.add_z]; ring
  have o3 : Spec.inner ix iy = 0 := by
    have h := mul_left_cancel₀ (by positivity) e2
    rw [o1] at h
    have : Real.sin g.dtheta * Spec.inner ix iy = 0 := by linarith
    exact (mul_eq_zero.1 this).resolve_left hs
  have e3 : V3.norm r2 ^ 2 = V3.norm r2 ^ 2 * (Real.cos g.dtheta ^ 2 * Spec.inner ix ix +
      2 * Real.cos g.dtheta * Real.sin g.dtheta * Spec.inner ix iy + Real.sin g.dtheta ^ 2 * Spec.inner iy iy) := by
    conv_lhs => rw [sq, norm_mul_self, p2]
    simp only [V3.dot, Spec.inner, V3.smul_x, V3.smul_y, V3.smul_z, V3.add_x, V3.add_y, V3.add_z]; ring
  have o2 : Spec.inner iy iy = 1 := by
    rw [o1, o3] at e3
    have h := mul_left_cancel₀ (a := V3.norm r2 ^ 2) (by positivity) ((mul_one _).trans e3)
    have : Real.sin g.dtheta ^ 2 * Spec.inner iy iy = Real.sin g.dtheta ^ 2 * 1 := by linarith
    exact mul_left_cancel₀ (by positivity) this
  have hs2 : Real.sqrt (mu / el.p) ^ 2 = mu / el.p := Real.sq_sqrt (by positivity)
  have at1 := hC.at1
  rw [hG.n1] at at1
  rw [← hC.esq, eccVec_sq hmu.ne' hr1, len_eq_norm]
  generalize Real.sqrt (mu / el.p) = s at *
  generalize el.ecc = e at *
  generalize el.p = p at *
  generalize Real.cos w = c at *
  generalize Real.sin w = d at *
  have i1 : Spec.inner v1 v1 = s ^ 2 * ((e * d) ^ 2 + (1 + e * c) ^ 2) := by
    have : Spec.inner v1 v1 = s ^ 2 * ((e * d) ^ 2 * Spec.inner ix ix + (1 + e * c) ^ 2 * Spec.inner iy iy -
        2 * (e * d) * (1 + e * c) * Spec.inner ix iy) := by
      rw [hv1]; simp only [Spec.inner, V3.add_x, V3.add_y, V3.add_z, V3.smul_x, V3.smul_y, V3.smul_z]; ring
    rw [this, o1, o2, o3]; ring
  have i2 : Spec.inner r1 v1 = -(V3.norm r1 * s * (e * d)) := by
    have : Spec.inner r1 v1 = V3.norm r1 * s * (-(e * d) * Spec.inner ix ix + (1 + e * c) * Spec.inner ix iy) := by
      conv_lhs => rw [hv1, p1]
      simp only [Spec.inner, V3.add_x, V3.add_y, V3.add_z, V3.smul_x, V3.smul_y, V3.smul_z]; ring
    rw [this, o1, o3]; ring
  have i3 : Spec.inner r1 r1 = V3.norm r1 ^ 2 := by
    rw [sq, norm_mul_self]; rfl
  rw [i1, i2, i3, neg_sq]
  rw [show V3.norm r1 ^ 2 * (s ^ 2 * ((e * d) ^ 2 + (1 + e * c) ^ 2)) - (V3.norm r1 * s * (e * d)) ^ 2 =
    s ^ 2 * (V3.norm r1 * (1 + e * c)) ^ 2 by ring, at1, hs2]
  have hc0 : V3.norm r1 = p / (1 + e * c) := by
    have : 1 + e * c ≠ 0 := by
      intro h; rw [h, mul_zero] at at1; linarith
    rw [eq_div_iff this]; exact at1
  have hne : 1 + e * c ≠ 0 := by
    intro h; rw [h, mul_zero] at at1; linarith
  rw [hc0]
  have hp' := hp.ne'
  have hmu' := hmu.ne'
  field_simp
  linear_combination e ^ 2 * tw

end Avanzini

open Avanzini

/-- **C83.** `avanzini2008` solves every problem whose time of flight is close enough to that
of the fundamental ellipse, the orbit of least eccentricity through both positions.  For
positions that are not aligned and not both in the equatorial plane, and provided that the
solver returns for at least one time of flight (so that its second starting point is
admissible), there is a transfer from `r1` to `r2` in a time `TF`, without revolutions and in
the requested sense, no rounder orbit goes from `r1` to `r2` at all, and for all tolerances
(`0 < atol`, `0 ≤ rtol`), every `maxiter ≥ 2` and every `ε > 0` the solver returns, for all `tof`
close enough to `TF`, the velocities of a transfer without revolutions in the requested sense whose
time differs from `tof` by less than `ε`. -/
theorem avanzini_solves_near_fundamental {mu : ℝ} {r1 r2 : V3} {pro : Bool} (hna : NotAligned r1 r2)
    (hplane : ¬ (r1.z = 0 ∧ r2.z = 0)) {tof0 atol0 rtol0 clock0 : ℝ} {M0 : ℤ} {low0 full0 : Bool} {maxiter0 : ℕ}
    {out0 : Output}
    (hrun : avanzini2008 mu r1 r2 tof0 M0 pro low0 maxiter0 atol0 rtol0 full0 clock0 = .ok out0) :
    ∃ TF w1 w2, LambertArc mu r1 r2 w1 w2 TF 0 ∧ (NotPolar r1 r2 → Sense pro r1 w1) ∧
      (∀ u1 u2 T M, LambertArc mu r1 r2 u1 u2 T M → len (eccVec mu r1 w1) ≤ len (eccVec mu r1 u1)) ∧
      ∀ atol rtol ε : ℝ, 0 < atol → 0 ≤ rtol → 0 < ε → ∃ δ > 0, ∀ tof, |tof - TF| < δ →
        ∀ (k : ℕ) (low full : Bool) (clock : ℝ), ∃ out T,
          avanzini2008 mu r1 r2 tof 0 pro low (k + 2) atol rtol full clock = .ok out ∧
          LambertArc mu r1 r2 out.v1 out.v2 T 0 ∧ (NotPolar r1 r2 → Sense pro r1 out.v1) ∧ |T - tof| < ε := by
  obtain ⟨-, hmu, g, F, x0, n0, e0, el0, hg, hF, hsec0, -, -, -⟩ := ok_split hrun
  obtain ⟨g', hg', hG⟩ := geometry_exists hna pro
  rw [hg] at hg'
  obtain rfl := Except.ok.inj hg'
  have hpi := hG.angle.ne_pi
  obtain ⟨F', hF', hF0, hFpos, hFnear⟩ := eccTAtX_near hG
  rw [hF] at hF'
  obtain rfl := Except.ok.inj hF'
  obtain ⟨TF, hTF, hTF0, hTnear, hTne⟩ := tof_near hG hmu
  have hlt := hG.eF_lt
  -- the fundamental ellipse
  obtain ⟨el, w1, w2, hel, hv, -⟩ := velocities_defined hg hG hmu (e := 0) (by linarith)
  obtain ⟨hArc, hSense⟩ := avanzini_time_of_flight hmu hg hF hF0 hTF0 hel hv hplane
  have hecc := velocities_ecc hmu hg hpi hel hv hplane
  refine ⟨TF, w1, w2, hArc, hSense, ?_, ?_⟩
  · intro u1 u2 T M hu
    have h := eccVec_ge hmu.ne' hu
    have hc : len (r2 - r1) = g.cNorm := by
      rw [len_eq_norm]
      unfold getGeometry at hg
      simp only [bind_ok] at hg
      obtain ⟨_, -, _, -, _, -, hg⟩ := hg
      rw [← Except.ok.inj hg]
    rw [hc, len_eq_norm r1, len_eq_norm r2, ← hG.n1, ← hG.n2] at h
    have hnn : 0 ≤ len (eccVec mu r1 u1) := Real.sqrt_nonneg _
    refine (le_abs_self _).trans (abs_le_of_sq_le_sq ?_ hnn)
    have hcp := hG.c
    rw [hecc, div_pow]
    have h2 := pow_le_pow_left₀ (abs_nonneg _) h 2
    rw [sq_abs, mul_pow] at h2
    have : (g.r1Norm - g.r2Norm) ^ 2 / g.cNorm ^ 2 ≤ len (eccVec mu r1 u1) ^ 2 := by
      rw [div_le_iff₀ (by positivity)]; exact h2
    linarith
  · intro atol rtol ε ha hr hε
    -- the second starting point
    obtain ⟨e1, he1, he1p, he1q⟩ := hFpos 1e-4 (by norm_num)
    have hT1 : ∃ T1, keplerTofAtEccT e1 mu g = .ok T1 := by
      unfold secant at hsec0
      simp only [bind_ok] at hsec0
      obtain ⟨_, -, f1, hf1, -⟩ := hsec0
      rw [if_pos (by norm_num), show (0.0 : ℝ) + 1e-4 = 1e-4 by norm_num] at hf1
      unfold f at hf1
      rw [he1, ok_bind] at hf1
      simp only [bind_ok] at hf1
      obtain ⟨T1, hT1, -⟩ := hf1
      exact ⟨T1, hT1⟩
    obtain ⟨T1, hT1⟩ := hT1
    obtain ⟨hT1p, hT1ne⟩ := hTne e1 T1 he1q hT1
    have hT1F : T1 ≠ TF := fun h => he1p.ne' (hT1ne h)
    obtain ⟨L, hLdef⟩ : ∃ L, L = Real.log T1 - Real.log TF := ⟨_, rfl⟩
    have hL : L ≠ 0 := by
      rw [hLdef, sub_ne_zero]
      exact fun h => hT1F (Real.log_injOn_pos hT1p hTF h)
    have hLp := abs_pos.2 hL
    -- where the velocities and the time are good
    obtain ⟨δ1, hδ1, hnear1⟩ := hTnear (ε / 2) (by positivity)
    have hrt : 0 < Real.sqrt (1 - ((g.r1Norm - g.r2Norm) / g.cNorm) ^ 2) := Real.sqrt_pos.2 (by linarith)
    obtain ⟨ρ, hρ, hFρ⟩ := hFnear (min δ1 (Real.sqrt (1 - ((g.r1Norm - g.r2Norm) / g.cNorm) ^ 2))) (lt_min hδ1 hrt)
    -- the tolerance for the logarithm
    obtain ⟨κ, hκ, hκ1, hκ2, hκ3⟩ : ∃ κ > 0, κ ≤ |L| / 2 ∧ κ / |L| ≤ atol ∧ 2 * (κ / |L|) < ρ := by
      refine ⟨min (|L| / 2) (min (atol * |L|) (ρ / 4 * |L|)), by positivity, min_le_left _ _, ?_, ?_⟩
      · rw [div_le_iff₀ hLp]; exact (min_le_right _ _).trans (min_le_left _ _)
      · have : min (|L| / 2) (min (atol * |L|) (ρ / 4 * |L|)) / |L| ≤ ρ / 4 := by
          rw [div_le_iff₀ hLp]; exact (min_le_right _ _).trans (min_le_right _ _)
        linarith
    have hlog : ContinuousAt Real.log TF := Real.continuousAt_log hTF.ne'
    obtain ⟨d, hd, hdl⟩ := Metric.continuousAt_iff.1 hlog κ hκ
    have hdl' : ∀ t, |t - TF| < d → |Real.log t - Real.log TF| < κ := fun t ht => by
      have := hdl (x := t) (by rw [Real.dist_eq]; exact ht)
      rwa [Real.dist_eq] at this
    obtain ⟨δ2, hδ2, hnear2⟩ := hTnear d hd
    obtain ⟨η0, hη0, hFη⟩ := hFnear δ2 hδ2
    -- the quotient must also be below `η0`
    obtain ⟨d', hd', hdl2⟩ := Metric.continuousAt_iff.1 hlog (min κ (η0 / 2 * |L|)) (by positivity)
    refine ⟨min (min d' (ε / 2)) TF, by positivity, fun tof htof k low full clock => ?_⟩
    have ht1 := htof.trans_le ((min_le_left _ _).trans (min_le_left _ _))
    have ht2 := htof.trans_le ((min_le_left _ _).trans (min_le_right _ _))
    have ht3 := htof.trans_le (min_le_right _ _)
    have htof0 : 0 < tof := by linarith [(abs_lt.1 ht3).1]
    have hu := hdl2 (x := tof) (by rw [Real.dist_eq]; exact ht1)
    rw [Real.dist_eq] at hu
    have hu1 := hu.trans_le (min_le_left _ _)
    have hu2 := hu.trans_le (min_le_right _ _)
    have hR1 := hG.R1
    have hs : 0 < Real.sqrt (g.r1Norm ^ 3 / mu) := by positivity
    have hf : ∀ x e T, F x = .ok e → keplerTofAtEccT e mu g = .ok T → 0 < T →
        f F mu g tof x = .ok ((Real.log TF - Real.log tof) + (Real.log T - Real.log TF)) := by
      intro x e T he hT hTp
      unfold f
      rw [he, ok_bind, hT, ok_bind, pdiv_eq hmu.ne', ok_bind, psqrt_eq (by positivity), ok_bind, pdiv_eq hs.ne', ok_bind,
        pdiv_eq hs.ne', ok_bind, plog_ok.2 ⟨by positivity, rfl⟩, ok_bind, plog_ok.2 ⟨by positivity, rfl⟩, ok_bind,
        Real.log_div hTp.ne' hs.ne', Real.log_div htof0.ne' hs.ne']
      congr 1; ring
    have hf0 : f F mu g tof 0 = .ok (Real.log TF - Real.log tof) := by
      rw [hf 0 0 TF hF0 hTF0 hTF, sub_self, add_zero]
    have hf1 : f F mu g tof 1e-4 = .ok ((Real.log TF - Real.log tof) + L) := by
      rw [hf _ e1 T1 he1 hT1 hT1p, hLdef]
    rw [abs_sub_comm] at hu1 hu2
    obtain ⟨x, n, hsec, hn, hx⟩ := secant_near (atol := atol) (rtol := rtol) (η := η0) hf0 hf1 hL (fun x hx => by
      obtain ⟨e, he, hee⟩ := hFη x hx
      obtain ⟨T, hTp, hT, hTd⟩ := hnear2 e hee
      exact ⟨_, hf x e T he hT hTp, (hdl' T hTd).le⟩) hκ1 hu1.le (by
        rw [div_lt_iff₀ hLp]
        nlinarith) hκ2 hr k
    obtain ⟨e, he, hee⟩ := hFρ x (hx.trans_lt hκ3)
    obtain ⟨T, hTp, hT, hTd⟩ := hnear1 e (hee.trans_le (min_le_left _ _))
    have hell : ((g.r1Norm - g.r2Norm) / g.cNorm) ^ 2 + e ^ 2 < 1 := by
      have := pow_lt_pow_left₀ (hee.trans_le (min_le_right _ _)) (abs_nonneg e) two_ne_zero
      rw [sq_abs, Real.sq_sqrt (by linarith)] at this
      linarith
    obtain ⟨el, v1, v2, hel, hv, -⟩ := velocities_defined hg hG hmu hell
    obtain ⟨hA, hS⟩ := avanzini_time_of_flight hmu hg hF he hT hel hv hplane
    obtain ⟨tpi, htpi⟩ := timePerIter_pos full clock hn
    refine ⟨mkOutput full v1 v2 n tpi, T, ?_, by simpa using hA, by simpa using hS, ?_⟩
    · unfold avanzini2008
      rw [raiseIf_neg _ (by norm_num), ok_bind, assertParameters_eq hmu (by rintro rfl; simp [NotAligned] at hna)
        (by rintro rfl; simp [NotAligned, mul_comm] at hna) htof0 le_rfl, ok_bind, hg, ok_bind, hF, ok_bind, hsec, ok_bind]
      simp only []
      rw [htpi, ok_bind, he, ok_bind, hel, ok_bind, hv, ok_bind]
    · have := abs_sub_le T TF tof
      rw [abs_sub_comm TF] at this
      linarith

/-- The hypotheses of `avanzini_solves_near_fundamental` are met: a quarter of an inclined
circle, which is then the fundamental ellipse. -/
example : NotAligned ⟨1, 0, 0⟩ ⟨0, 3 / 5, 4 / 5⟩ ∧ ¬ ((⟨1, 0, 0⟩ : V3).z = 0 ∧ (⟨0, 3 / 5, 4 / 5⟩ : V3).z = 0) ∧
    ∃ tof out, avanzini2008 1 ⟨1, 0, 0⟩ ⟨0, 3 / 5, 4 / 5⟩ tof 0 true true 35 1e-5 1e-7 false 0 = .ok out := by
  have hna : NotAligned ⟨1, 0, 0⟩ ⟨0, 3 / 5, 4 / 5⟩ := by
    simp [NotAligned]
  obtain ⟨out, h⟩ := avanzini_returns one_pos hna (by simp [len]; norm_num) (transferAngle_eq hna true) true 33
    (by norm_num : (0 : ℝ) ≤ 1e-5) (rtol := 1e-7) false 0
  exact ⟨hna, by norm_num, _, out, h⟩

end Lamberthub
