import Verif.Props.LowPath

/-!
# C54: `delatorre2018` with complete revolutions refuses the infeasible problems and solves the
feasible ones
-/

set_option autoImplicit false

namespace Lamberthub
open Spec LC Set Delatorre

namespace Delatorre

/-- The code's time function is a valley. -/
theorem unimodal {mu s lam : ℝ} {M : ℕ} (hmu : 0 < mu) (hs : 0 < s) (hl : lam ^ 2 < 1) (hl0 : lam ≠ 0) (hM : 1 ≤ M)
    {lo hi : ℝ} (h0 : 0 < lo) (hlh : lo ≤ hi) (h1 : hi < Real.pi ^ 2) :
    ∃ g m, Unimodal (fun z => tofEquation (s * (1 + lam ^ 2)) (Real.sqrt 2 * (Real.sqrt 2 * s * lam)) mu z M) g lo hi m := by
  obtain ⟨X, hX, hXa, hXs⟩ := param (M := M) hmu hs hl hl0 hM
  obtain ⟨m, hm⟩ := exists_fastest hl hM
  obtain ⟨hm0, hm1, hanti, hmono⟩ := hm.valley hl hM
  obtain ⟨zs, hzs, hXz⟩ := hXs m hm.mem
  have hκ0 : 0 < Real.sqrt (s ^ 3 / (2 * mu)) := by positivity
  have hin : ∀ {z : ℝ}, lo ≤ z → z ≤ hi → z ∈ Ioo 0 (Real.pi ^ 2) := fun a b => ⟨h0.trans_le a, b.trans_lt h1⟩
  refine ⟨fun z => Real.sqrt (s ^ 3 / (2 * mu)) * revT lam M (X z), max lo (min hi zs),
    ⟨le_max_left _ _, max_le hlh (min_le_left _ _)⟩, fun z hz => (hX z (hin hz.1 hz.2)).2.2, ?_, ?_⟩
  · intro a ha b hb hab
    have hb2 : b ≤ hi := hb.2.trans (max_le hlh (min_le_left _ _))
    have hbz : b ≤ zs := by
      rcases le_max_iff.1 hb.2 with h | h
      · have := ha.1; linarith
      · exact h.trans (min_le_right _ _)
    have hai := hin ha.1 (hab.le.trans hb2)
    have hbi := hin (ha.1.trans hab.le) hb2
    have h2 := hXa hai hbi hab
    have h3 := hXa.antitoneOn hbi hzs hbz
    rw [hXz] at h3
    exact mul_lt_mul_of_pos_left (hmono ⟨h3, (hX b hbi).1.2⟩ ⟨h3.trans h2.le, (hX a hai).1.2⟩ h2) hκ0
  · intro a ha b hb hab
    have ha1 : lo ≤ a := (le_max_left _ _).trans ha.1
    have haz : zs ≤ a := by
      have h := (le_max_right _ _).trans ha.1
      rcases min_le_iff.1 h with h | h
      · have := hb.2; linarith
      · exact h
    have hai := hin ha1 (hab.le.trans hb.2)
    have hbi := hin (ha1.trans hab.le) hb.2
    have h2 := hXa hai hbi hab
    have h3 := hXa.antitoneOn hzs hai haz
    rw [hXz] at h3
    exact mul_lt_mul_of_pos_left (hanti ⟨(hX b hbi).1.1, h2.le.trans h3⟩ ⟨(hX a hai).1.1, h3⟩ h2) hκ0

/-- The code's time function is continuous. -/
theorem time_continuous {P A mu : ℝ} {M : ℤ} (hmu : 0 < mu) (hP : |Real.sqrt 2 * A| < P) {lo hi : ℝ} (h0 : 0 < lo)
    (h1 : hi < Real.pi ^ 2) {g : ℝ → ℝ} (hg : ∀ z ∈ Icc lo hi, tofEquation P (Real.sqrt 2 * A) mu z M = .ok (g z)) :
    ContinuousOn g (Icc lo hi) := by
  have hc : ContinuousOn (fun z => uvT mu P A (4 * z) +
      (if M = 0 then 0 else M * Real.pi * Real.sqrt ((P - Real.sqrt 2 * A * Real.cos (Real.sqrt z)) ^ 3 / (2 * mu * z ^ 3)) /
        (Real.sin (Real.sqrt z) / Real.sqrt z) ^ 3)) (Icc lo hi) := by
    intro z hz
    have hz0 : 0 < z := h0.trans_le hz.1
    have hz1 : z < Real.pi ^ 2 := hz.2.trans_lt h1
    have hsz := Real.sqrt_pos.2 hz0
    have hsin : 0 < Real.sin (Real.sqrt z) := Real.sin_pos_of_pos_of_lt_pi hsz
      ((Real.sqrt_lt' Real.pi_pos).2 hz1)
    have h1 : ContinuousAt (uvT mu P A) (4 * z) := uvT_continuousAt (by linarith)
    have h2 : ContinuousAt (fun z => uvT mu P A (4 * z)) z := ContinuousAt.comp (f := fun z : ℝ => 4 * z) h1 (by fun_prop)
    refine (h2.add ?_).continuousWithinAt
    split
    · exact continuousAt_const
    · refine ContinuousAt.div ?_ ?_ (by positivity)
      · refine continuousAt_const.mul (Real.continuous_sqrt.continuousAt.comp ?_)
        exact ContinuousAt.div (by fun_prop) (by fun_prop) (by positivity)
      · exact (ContinuousAt.div (by fun_prop) (by fun_prop) hsz.ne').pow 3
  refine hc.congr fun z hz => ?_
  have hz0 : 0 < z := h0.trans_le hz.1
  have hz1 : z < Real.pi ^ 2 := hz.2.trans_lt h1
  have h := (tofEquation_ok hmu (hg z hz)).2.2
  rw [h, (T0_uvT hmu hz1 (VofZ_pos hP hz0).le).2]
  congr 1
  split
  · rfl
  · unfold T1
    have hs := Real.sqrt_pos.2 hz0
    have e : z = Real.sqrt z ^ 2 := (Real.sq_sqrt hz0.le).symm
    have e1 : VofZ P (Real.sqrt 2 * A) z = P - Real.sqrt 2 * A * Real.cos (Real.sqrt z) := by
      conv_lhs => rw [e, VofZ_sq]
    have e2 : stumpffSeries 1 z = Real.sin (Real.sqrt z) / Real.sqrt z := by
      conv_lhs => rw [e, series1_sq hs.ne']
    rw [e1, e2]

/-- The time with `M` revolutions exceeds `M` periods. -/
theorem time_lower {P A mu z t c : ℝ} {M : ℕ} (hM : 1 ≤ M) (hmu : 0 < mu) (hP : |Real.sqrt 2 * A| < P)
    (hT0 : 0 ≤ T0 P (Real.sqrt 2 * A) mu z) (h0 : 0 < z) (h1 : z < Real.pi ^ 2)
    (hc : Real.sin (Real.sqrt z) ≤ c) (ht : tofEquation P (Real.sqrt 2 * A) mu z M = .ok t) :
    M * Real.pi * Real.sqrt ((P - |Real.sqrt 2 * A|) ^ 3 / (2 * mu)) / c ^ 3 ≤ t := by
  have hsz := Real.sqrt_pos.2 h0
  have hsin : 0 < Real.sin (Real.sqrt z) := Real.sin_pos_of_pos_of_lt_pi hsz ((Real.sqrt_lt' Real.pi_pos).2 h1)
  have hc0 : 0 < c := hsin.trans_le hc
  have h := (tofEquation_ok hmu ht).2.2
  rw [if_neg (by omega)] at h
  rw [h]
  have e : z = Real.sqrt z ^ 2 := (Real.sq_sqrt h0.le).symm
  have e1 : VofZ P (Real.sqrt 2 * A) z = P - Real.sqrt 2 * A * Real.cos (Real.sqrt z) := by
    conv_lhs => rw [e, VofZ_sq]
  have e2 : stumpffSeries 1 z = Real.sin (Real.sqrt z) / Real.sqrt z := by
    conv_lhs => rw [e, series1_sq hsz.ne']
  have hV : P - |Real.sqrt 2 * A| ≤ VofZ P (Real.sqrt 2 * A) z := by
    rw [e1]
    have : |Real.sqrt 2 * A * Real.cos (Real.sqrt z)| ≤ |Real.sqrt 2 * A| := by
      rw [abs_mul]; exact mul_le_of_le_one_right (abs_nonneg _) (Real.abs_cos_le_one _)
    have := le_abs_self (Real.sqrt 2 * A * Real.cos (Real.sqrt z))
    linarith
  have hD : 0 < P - |Real.sqrt 2 * A| := by linarith
  have e3 : T1 P (Real.sqrt 2 * A) mu z M =
      M * Real.pi * Real.sqrt (VofZ P (Real.sqrt 2 * A) z ^ 3 / (2 * mu)) / Real.sin (Real.sqrt z) ^ 3 := by
    unfold T1
    have hV0 := hD.trans_le hV
    have e4 : Real.sqrt (VofZ P (Real.sqrt 2 * A) z ^ 3 / (2 * mu * z ^ 3)) =
        Real.sqrt (VofZ P (Real.sqrt 2 * A) z ^ 3 / (2 * mu)) / Real.sqrt z ^ 3 := by
      rw [← div_div, Real.sqrt_div (by positivity)]
      congr 1
      conv_lhs => rw [e, ← pow_mul, mul_comm, pow_mul, Real.sqrt_sq (by positivity)]
    rw [e2, e4, Int.cast_natCast]
    field_simp
  rw [e3]
  have : M * Real.pi * Real.sqrt ((P - |Real.sqrt 2 * A|) ^ 3 / (2 * mu)) / c ^ 3 ≤
      M * Real.pi * Real.sqrt (VofZ P (Real.sqrt 2 * A) z ^ 3 / (2 * mu)) / Real.sin (Real.sqrt z) ^ 3 := by
    have hpi := Real.pi_pos
    gcongr
  linarith

end Delatorre

/-- **C54.**  `delatorre2018` with `M ≥ 1` revolutions, any geometry, both senses and both paths:
the golden-section search succeeds; below the least time it found the solver raises its
infeasibility error; from there on up to an astronomical bound it returns once the budget of
iterations is large enough. -/
theorem delatorre_multi_returns {mu : ℝ} (hmu : 0 < mu) {r1 r2 : V3} (hna : NotAligned r1 r2) {pro : Bool} {M : ℕ} (hM : 1 ≤ M)
    {tof : ℝ} (htof : 0 < tof) {atol rtol : ℝ} (htol : 0 < atol + rtol * tof) {θ : ℝ} (hθ : getTransferAngle r1 r2 pro = .ok θ)
    {Q D : ℝ} (hQ : Q = Real.sqrt (2 * (V3.norm r1 * V3.norm r2 + V3.dot r1 r2))) (hD : D = V3.norm r1 + V3.norm r2 - Q) :
    ∃ zMin tMin, findMinimumTime (fun z => tofEquation (V3.norm r1 + V3.norm r2)
        (2 * Real.sqrt (V3.norm r1 * V3.norm r2) * Real.cos (θ / 2)) mu z M) atol rtol = .ok (zMin, tMin) ∧
      (∃ v1 v2, LambertArc mu r1 r2 v1 v2 tMin M ∧ (NotPolar r1 r2 → Sense pro r1 v1)) ∧
      (tof < tMin → ∀ (low full : Bool) (N : ℕ) (clock : ℝ), delatorre2018 mu r1 r2 tof M pro low N atol rtol full clock =
        .error (.valueError "No feasible solution, try lower M!")) ∧
      (tMin ≤ tof → tof ≤ 1e18 * M * Real.pi * Real.sqrt (D ^ 3 / (2 * mu)) →
        ∃ N0 : ℕ, ∀ N ≥ N0, ∀ (low full : Bool) (clock : ℝ),
          ∃ out, delatorre2018 mu r1 r2 tof M pro low N atol rtol full clock = .ok out) := by
  have hpi := Real.pi_gt_three
  have hpi2 : 9 < Real.pi ^ 2 := by nlinarith
  have hM0 : ¬ ((M : ℤ) = 0) := by omega
  have h1 : r1 ≠ 0 := by rintro rfl; simp [NotAligned] at hna
  have h12 : r1 ≠ r2 := by rintro rfl; simp [NotAligned, mul_comm] at hna
  have hP := geo_lt hna hθ
  obtain ⟨hG, hsh⟩ := (angle_of_eq hna hθ).halfGeo hna
  have hr2 : Real.sqrt 2 ^ 2 = 2 := Real.sq_sqrt (by norm_num)
  have hQe : 2 * Real.sqrt (V3.norm r1 * V3.norm r2) * Real.cos (θ / 2) =
      Real.sqrt 2 * halfA (V3.norm r1) (V3.norm r2) θ := by
    unfold halfA
    linear_combination (-(Real.sqrt (V3.norm r1 * V3.norm r2) * Real.cos (θ / 2))) * hr2
  obtain ⟨A, hA⟩ : ∃ A, A = halfA (V3.norm r1) (V3.norm r2) θ := ⟨_, rfl⟩
  have hG0 := hG
  rw [← hA] at hG hQe hP hsh
  rw [hQe]
  have hQA : |Real.sqrt 2 * A| = Q := by
    rw [hQ, ← hG.hA2, ← Real.sqrt_sq_eq_abs, mul_pow, Real.sq_sqrt (by norm_num)]
  obtain ⟨P, hPe⟩ : ∃ P, P = V3.norm r1 + V3.norm r2 := ⟨_, rfl⟩
  rw [← hPe] at hP hD ⊢
  have hlo : (1e-12 : ℝ) ∈ Ioo 0 (Real.pi ^ 2) := ⟨by norm_num, by norm_num; linarith⟩
  have hhi : Real.pi ^ 2 - 1e-12 ∈ Ioo 0 (Real.pi ^ 2) := ⟨by norm_num; linarith, by norm_num⟩
  have hlh : (1e-12 : ℝ) ≤ Real.pi ^ 2 - 1e-12 := by norm_num; linarith
  -- the search
  obtain ⟨g, m, hu⟩ : ∃ g m, Unimodal (fun z => tofEquation P (Real.sqrt 2 * A) mu z M) g 1e-12 (Real.pi ^ 2 - 1e-12) m := by
    obtain ⟨s, lam, hS, hAe⟩ := hG.semi
    have hl0 : lam ≠ 0 := fun h => hG.hA (by rw [hAe, h, mul_zero])
    rw [hPe, hAe, hS.sum]
    exact unimodal hmu hS.spos hS.lam_lt hl0 hM hlo.1 hlh hhi.2
  obtain ⟨zMin, tMin, k, hsearch, hzm, htm, -⟩ := golden_section hu atol rtol 100
  have hin : ∀ {z : ℝ}, z ∈ Icc (1e-12) (Real.pi ^ 2 - 1e-12) → z ∈ Ioo 0 (Real.pi ^ 2) := fun hz =>
    ⟨hlo.1.trans_le hz.1, hz.2.trans_lt hhi.2⟩
  have harc : ∀ {z : ℝ}, z ∈ Icc (1e-12) (Real.pi ^ 2 - 1e-12) → Path mu P A M (VofZ P (Real.sqrt 2 * A) z) (g z) := by
    intro z hz
    have h := path_multi (M := M) hmu (hin hz).1 (hin hz).2 (VofZ_pos hP (hin hz).1)
    have e := (tofEquation_ok hmu (hu.defined z hz)).2.2
    rw [if_neg hM0] at e
    rw [e]; exact h
  refine ⟨zMin, tMin, hsearch, ?_, ?_, ?_⟩
  · rw [htm]
    have h := harc hzm
    rw [hPe] at h
    exact ⟨_, _, h.arc hmu hG, fun hnp => sense_of_sign hmu h.V_pos hG.hA hnp hsh⟩
  · intro hlt low full N clock
    have hR : 0 ≤ V3.norm r1 * V3.norm r2 := mul_nonneg (Real.sqrt_nonneg _) (Real.sqrt_nonneg _)
    unfold delatorre2018
    rw [assertParameters_eq hmu h1 h12 htof (by omega), ok_bind]
    simp only []
    rw [hθ, ok_bind, psqrt_eq hR, ok_bind, hQe, ← hPe]
    unfold findZ chooseBracket
    rw [if_neg hM0]
    unfold findMinimumTime
    rw [hsearch, ok_bind]
    simp only []
    rw [raiseIf_pos _ hlt]
    rfl
  · intro hge hup
    have hcont := time_continuous (M := M) hmu hP hlo.1 hhi.2 hu.defined
    have hD0 : 0 < D := by rw [hD, ← hQA]; linarith
    have hT0 : ∀ {z : ℝ}, z ∈ Ioo 0 (Real.pi ^ 2) → 0 ≤ T0 P (Real.sqrt 2 * A) mu z := by
      intro z hz
      have h := path_zero (mu := mu) hz.2 (VofZ_pos hP hz.1)
      rw [hPe] at h ⊢
      exact (h.arc hmu hG).1.le
    have hc0 : 0 ≤ M * Real.pi * Real.sqrt (D ^ 3 / (2 * mu)) := by positivity
    have hlow : tof ≤ g 1e-12 := by
      refine hup.trans ?_
      have hs : Real.sin (Real.sqrt 1e-12) ≤ 1e-6 := by
        refine (Real.sin_le (Real.sqrt_nonneg _)).trans (Real.sqrt_le_iff.2 ⟨by norm_num, by norm_num⟩)
      have := time_lower hM hmu hP (hT0 hlo) hlo.1 hlo.2 hs (hu.defined _ ⟨le_rfl, hlh⟩)
      rw [hQA, ← hD] at this
      refine le_trans (le_of_eq ?_) this
      rw [show (1e-6 : ℝ) ^ 3 = 1 / 1e18 by norm_num, div_div_eq_mul_div, div_one]
      ring
    have hhigh : tof ≤ g (Real.pi ^ 2 - 1e-12) := by
      refine hup.trans ?_
      have hs : Real.sin (Real.sqrt (Real.pi ^ 2 - 1e-12)) ≤ 1e-6 := by
        obtain ⟨φ, hφ, hφe⟩ := pos_sq hhi.1
        rw [hφe, Real.sqrt_sq hφ.le, ← Real.sin_pi_sub]
        have hφ2 : φ < Real.pi := lt_of_pow_lt_pow_left₀ 2 (by linarith) (by rw [← hφe]; exact hhi.2)
        have h1 : Real.sin (Real.pi - φ) ≤ Real.pi - φ := Real.sin_le (by linarith)
        have h2 : (Real.pi - φ) * (Real.pi + φ) = 1e-12 := by linear_combination hφe
        nlinarith
      have := time_lower hM hmu hP (hT0 hhi) hhi.1 hhi.2 hs (hu.defined _ ⟨hlh, le_rfl⟩)
      rw [hQA, ← hD] at this
      refine le_trans (le_of_eq ?_) this
      rw [show (1e-6 : ℝ) ^ 3 = 1 / 1e18 by norm_num, div_div_eq_mul_div, div_one]
      ring
    rw [htm] at hge
    have hcc : ∀ {a b : ℝ}, Seg (Icc a b) := fun {a b} u hu v hv t h0 h1 => by
      constructor <;> nlinarith [hu.1, hu.2, hv.1, hv.2]
    obtain ⟨N1, hN1⟩ := delatorre_bracket_returns (F := fun z => tofEquation P (Real.sqrt 2 * A) mu z M) (g := g)
      (tof := tof) (atol := atol) (rtol := rtol) hzm.1 (fun z hz => hu.defined z ⟨hz.1, hz.2.trans hzm.2⟩)
      (hcont.mono (Icc_subset_Icc le_rfl hzm.2)) (mul_nonpos_of_nonneg_of_nonpos (by linarith) (by linarith)) htol
    obtain ⟨N2, hN2⟩ := delatorre_bracket_returns (F := fun z => tofEquation P (Real.sqrt 2 * A) mu z M) (g := g)
      (tof := tof) (atol := atol) (rtol := rtol) hzm.2 (fun z hz => hu.defined z ⟨hzm.1.trans hz.1, hz.2⟩)
      (hcont.mono (Icc_subset_Icc hzm.1 le_rfl)) (mul_nonpos_of_nonpos_of_nonneg (by linarith) (by linarith)) htol
    refine ⟨max N1 N2, fun N hN low full clock => ?_⟩
    obtain ⟨z, k, hz, hzi, hk⟩ : ∃ z k, findZ P (Real.sqrt 2 * A) mu tof M low N atol rtol = .ok (z, k) ∧
        z ∈ Icc (1e-12) (Real.pi ^ 2 - 1e-12) ∧ 1 ≤ k := by
      unfold findZ chooseBracket
      rw [if_neg hM0]
      unfold findMinimumTime
      rw [hsearch, ok_bind]
      simp only []
      rw [raiseIf_neg _ (by rw [htm]; linarith), ok_bind]
      cases low
      · obtain ⟨z, k, hs⟩ := hN2 N ((le_max_right _ _).trans hN)
        obtain ⟨ha, -, hk, -⟩ := solveBracketed_ok hcc ⟨le_rfl, hzm.2⟩ ⟨hzm.2, le_rfl⟩ hs
        refine ⟨z, k, ?_, ⟨hzm.1.trans ha.1, ha.2⟩, hk⟩
        rw [if_neg (by simp), ok_bind]; exact hs
      · obtain ⟨z, k, hs⟩ := hN1 N ((le_max_left _ _).trans hN)
        obtain ⟨ha, -, hk, -⟩ := solveBracketed_ok hcc ⟨le_rfl, hzm.1⟩ ⟨hzm.1, le_rfl⟩ hs
        refine ⟨z, k, ?_, ⟨ha.1, ha.2.trans hzm.2⟩, hk⟩
        rw [if_pos rfl, ok_bind]; exact hs
    rw [hPe, hA] at hz
    refine finish_exists hmu hna htof (by positivity) hk hθ hz ?_ full clock
    rw [← hA]
    rw [hPe] at hP
    exact VofZ_pos hP (hin hzi).1

/-- An infeasible problem is always refused: when every transfer with `M` revolutions takes longer
than the time of flight, `delatorre2018` raises its infeasibility error. -/
theorem delatorre_refuses_infeasible {mu : ℝ} (hmu : 0 < mu) {r1 r2 : V3} (hnp : NotPolar r1 r2) {pro : Bool} {M : ℕ}
    (hM : 1 ≤ M) {tof : ℝ} (htof : 0 < tof) {atol rtol : ℝ} (htol : 0 < atol + rtol * tof)
    (hno : ∀ T v1 v2, LambertArc mu r1 r2 v1 v2 T M → Sense pro r1 v1 → tof < T) (low full : Bool) (N : ℕ) (clock : ℝ) :
    delatorre2018 mu r1 r2 tof M pro low N atol rtol full clock =
      .error (.valueError "No feasible solution, try lower M!") := by
  have hna : NotAligned r1 r2 := fun h => hnp h.2.2
  obtain ⟨_, tMin, -, ⟨v1, v2, ha, hs⟩, h, -⟩ := delatorre_multi_returns hmu hna hM htof htol (transferAngle_eq hna pro) rfl rfl
  exact h (hno tMin v1 v2 ha (hs hnp)) low full N clock

/-- A time of flight below the least one of C53: the quarter turn of the unit circle with ten
revolutions. -/
example : ∃ tof, 0 < tof ∧ ∀ low full N clock, delatorre2018 1 ⟨1, 0, 0⟩ ⟨0, 1, 0⟩ tof 10 true low N 1e-5 1e-7 full clock =
    .error (.valueError "No feasible solution, try lower M!") := by
  have hnp : NotPolar ⟨1, 0, 0⟩ ⟨0, 1, 0⟩ := by simp [NotPolar]
  obtain ⟨Tmin, h0, h1, -, -⟩ := multi_rev_count one_pos hnp true (by norm_num : 1 ≤ 10)
  refine ⟨Tmin / 2, by positivity, fun low full N clock => ?_⟩
  refine delatorre_refuses_infeasible one_pos hnp (by norm_num : 1 ≤ 10) (by positivity) (by positivity) ?_ low full N clock
  intro T v1 v2 ha hs
  have := h1 T v1 v2 ha hs
  linarith

end Lamberthub
