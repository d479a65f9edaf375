import Verif.Props.Delatorre
import Verif.Proofs.PathTime

/-! # C17: problems for which `delatorre2018` returns -/

set_option autoImplicit false

namespace Lamberthub
open Spec LC
namespace Delatorre

theorem VofZ_pos {P Q z : ℝ} (hPQ : |Q| < P) (hz : 0 < z) : 0 < VofZ P Q z := by
  obtain ⟨φ, hφ, rfl⟩ := pos_sq hz
  rw [VofZ_sq]
  have h1 : |Q * Real.cos φ| ≤ |Q| := by
    rw [abs_mul]; exact mul_le_of_le_one_right (abs_nonneg _) (Real.abs_cos_le_one φ)
  have := (abs_le.1 (h1.trans le_rfl)).2
  linarith

theorem tofEquation_exists {P Q mu z : ℝ} (hmu : 0 < mu) (hV : 0 ≤ VofZ P Q z) (h1 : stumpffSeries 1 z ≠ 0)
    (M : ℤ) (hM : M = 0 ∨ 0 < z) : ∃ t, tofEquation P Q mu z M = .ok t := by
  unfold tofEquation
  simp only [stumpff0_eq, stumpff1_eq, stumpff2_eq, stumpff3_eq, ok_bind]
  unfold VofZ at hV
  rw [pdiv_eq hmu.ne', ok_bind, psqrt_eq (by positivity), ok_bind, pdiv_eq (pow_ne_zero _ h1), ok_bind]
  split
  · exact ⟨_, rfl⟩
  · rename_i hM0
    have hz : 0 < z := hM.resolve_left hM0
    rw [pdiv_eq (by positivity), ok_bind, psqrt_eq (by positivity), ok_bind, pdiv_eq (pow_ne_zero _ h1), ok_bind]
    exact ⟨_, rfl⟩

theorem series1_ne {z : ℝ} (hz0 : 0 < z) (hz : z < Real.pi ^ 2) : stumpffSeries 1 z ≠ 0 := by
  obtain ⟨φ, hφ, rfl⟩ := pos_sq hz0
  have hφ2 : φ < Real.pi := lt_of_pow_lt_pow_left₀ 2 Real.pi_pos.le hz
  have hs := Real.sin_pos_of_pos_of_lt_pi hφ hφ2
  rw [series1_sq hφ.ne']
  positivity

theorem goldenLoop_exists {S : Set ℝ} (hS : Seg S) {F : ℝ → Py ℝ} (hF : ∀ z ∈ S, ∃ t, F z = .ok t) (atol rtol : ℝ) :
    ∀ (n : ℕ) (s : Golden), s.zLow ∈ S → s.zHigh ∈ S → s.z1 ∈ S → s.z2 ∈ S →
      ∃ s', goldenLoop F atol rtol n s = .ok s' := by
  intro n
  induction n with
  | zero => intro s _ _ _ _; exact ⟨s, rfl⟩
  | succ n ih =>
    intro s h1 h2 h3 h4
    have hstep : ∃ s', goldenStep F s = .ok s' := by
      have hg := gr_mem
      unfold goldenStep
      split
      · obtain ⟨t, ht⟩ := hF _ (hS _ h3 _ h2 _ hg.1.le hg.2.le)
        exact ⟨_, by simp only [ht, ok_bind]; rfl⟩
      · have := hS _ h4 _ h1 _ hg.1.le hg.2.le
        rw [show s.z2 + gr * (s.zLow - s.z2) = s.z2 - gr * (s.z2 - s.zLow) by ring] at this
        obtain ⟨t, ht⟩ := hF _ this
        exact ⟨_, by simp only [ht, ok_bind]; rfl⟩
    obtain ⟨s', hs'⟩ := hstep
    obtain ⟨i1, i2, i3, i4⟩ := goldenStep_mem hS hs' h1 h2 h3 h4
    unfold goldenLoop
    rw [hs', ok_bind]
    split
    · exact ⟨_, rfl⟩
    · exact ih s' i1 i2 i3 i4

theorem goldenSearch_exists {S : Set ℝ} (hS : Seg S) {F : ℝ → Py ℝ} (hF : ∀ z ∈ S, ∃ t, F z = .ok t)
    (atol rtol : ℝ) {zl zh : ℝ} (n : ℕ) (hl : zl ∈ S) (hh : zh ∈ S) :
    ∃ zm t, goldenSearch F atol rtol zl zh n = .ok (zm, t) := by
  have hg := gr_mem
  have m1 := hS _ hh _ hl _ hg.1.le hg.2.le
  rw [show zh + gr * (zl - zh) = zh - gr * (zh - zl) by ring] at m1
  have m2 := hS _ hl _ hh _ hg.1.le hg.2.le
  obtain ⟨t1, h1⟩ := hF _ m1
  obtain ⟨t2, h2⟩ := hF _ m2
  obtain ⟨s, hs⟩ := goldenLoop_exists hS hF atol rtol n ⟨zl, zh, _, _, t1, t2⟩ hl hh m1 m2
  obtain ⟨i1, i2⟩ := goldenLoop_mem hS hs hl hh m1 m2
  obtain ⟨t, ht⟩ := hF _ (hS.mid i1 i2)
  refine ⟨0.5 * (s.zLow + s.zHigh), t, ?_⟩
  unfold goldenSearch
  simp only [h1, h2, ok_bind, hs, ht]

/-- With the time of the minimum, `_find_z` returns an exact root. -/
theorem findZ_multi_exists {P Q mu : ℝ} (hmu : 0 < mu) (hPQ : |Q| < P) {M : ℤ} (hM : M ≠ 0) (low : Bool)
    (n : ℕ) (atol rtol : ℝ) : ∃ tof z, 0 < z ∧ z < Real.pi ^ 2 ∧ tofEquation P Q mu z M = .ok tof ∧
      findZ P Q mu tof M low n atol rtol = .ok (z, 1) := by
  have hpi := Real.pi_gt_three
  have hpi2 : 9 < Real.pi ^ 2 := by nlinarith
  have hlo : (1e-12 : ℝ) ∈ Set.Ioo 0 (Real.pi ^ 2) := ⟨by norm_num, by norm_num; linarith⟩
  have hhi : Real.pi ^ 2 - 1e-12 ∈ Set.Ioo 0 (Real.pi ^ 2) := ⟨by norm_num; linarith, by norm_num⟩
  have hF : ∀ z ∈ Set.Ioo 0 (Real.pi ^ 2), ∃ t, tofEquation P Q mu z M = .ok t := fun z hz =>
    tofEquation_exists hmu (VofZ_pos hPQ hz.1).le (series1_ne hz.1 hz.2) M (.inr hz.1)
  obtain ⟨zm, tm, hg⟩ := goldenSearch_exists (seg_Ioo 0 (Real.pi ^ 2)) hF atol rtol 100 hlo hhi
  obtain ⟨hzm, htm⟩ := goldenSearch_mem (seg_Ioo 0 (Real.pi ^ 2)) hg hlo hhi
  obtain ⟨tl, htl⟩ := hF _ hlo
  obtain ⟨th, hth⟩ := hF _ hhi
  have key : ∀ (zl zh : ℝ) (a b : ℝ), tofEquation P Q mu zl M = .ok a → tofEquation P Q mu zh M = .ok b →
      0 < zl → zl < Real.pi ^ 2 → 0 < zh → zh < Real.pi ^ 2 → (a = tm ∨ b = tm) →
      ∃ z, 0 < z ∧ z < Real.pi ^ 2 ∧ tofEquation P Q mu z M = .ok tm ∧
        solveBracketed (fun z => tofEquation P Q mu z M) tm zl zh n atol rtol = .ok (z, 1) := by
    intro zl zh a b ha hb l1 l2 l3 l4 hab
    by_cases h0 : a = tm
    · exact ⟨zl, l1, l2, by rw [ha, h0], by
        unfold solveBracketed; simp only [ha, hb, ok_bind]; rw [if_pos (by linarith)]⟩
    · have hb' := hab.resolve_left h0
      exact ⟨zh, l3, l4, by rw [hb, hb'], by
        unfold solveBracketed; simp only [ha, hb, ok_bind]
        rw [if_neg (fun h => h0 (by linarith)), if_pos (by linarith)]⟩
  have hch : ∀ zl zh, (if low = true then (Except.ok (1e-12, zm) : Py (ℝ × ℝ)) else .ok (zm, Real.pi ^ 2 - 1e-12)) =
      .ok (zl, zh) → chooseBracket P Q mu tm M low atol rtol = .ok (zl, zh) := by
    intro zl zh h
    unfold chooseBracket findMinimumTime
    rw [if_neg hM, hg, ok_bind]
    simp only []
    rw [raiseIf_neg _ (lt_irrefl _), ok_bind]
    exact h
  cases low
  · obtain ⟨z, h1, h2, h3, h4⟩ := key zm (Real.pi ^ 2 - 1e-12) tm th htm hth hzm.1 hzm.2 hhi.1 hhi.2 (.inl rfl)
    refine ⟨tm, z, h1, h2, h3, ?_⟩
    unfold findZ
    rw [hch zm (Real.pi ^ 2 - 1e-12) rfl, ok_bind]
    exact h4
  · obtain ⟨z, h1, h2, h3, h4⟩ := key 1e-12 zm tl tm htl htm hlo.1 hlo.2 hzm.1 hzm.2 (.inr rfl)
    refine ⟨tm, z, h1, h2, h3, ?_⟩
    unfold findZ
    rw [hch 1e-12 zm rfl, ok_bind]
    exact h4

/-- Without revolutions and with `Q < 0`: at the time of the first lower end of the bracket
`_find_z` returns that end. -/
theorem findZ_zero_exists {P A mu : ℝ} (hmu : 0 < mu) (hPQ : |Real.sqrt 2 * A| < P) (hA : A < 0) (low : Bool)
    (n : ℕ) (atol rtol : ℝ) : ∃ tof, 0 < VofZ P (Real.sqrt 2 * A) (-1) ∧
      tofEquation P (Real.sqrt 2 * A) mu (-1) 0 = .ok tof ∧
      findZ P (Real.sqrt 2 * A) mu tof 0 low n atol rtol = .ok (-1, 1) := by
  have hpi := Real.pi_gt_three
  have hpi2 : 9 < Real.pi ^ 2 := by nlinarith
  have hs2 : 0 < Real.sqrt 2 := by positivity
  have hQ : Real.sqrt 2 * A < 0 := mul_neg_of_pos_of_neg hs2 hA
  have hm1 : (-1 : ℝ) = -1 ^ 2 := by norm_num
  have hP : 0 < P := (abs_nonneg _).trans_lt hPQ
  have hV : 0 < VofZ P (Real.sqrt 2 * A) (-1) := by
    unfold VofZ
    rw [hm1, series0_neg_sq]
    have := Real.cosh_pos 1
    nlinarith
  have hs1 : stumpffSeries 1 (-1) ≠ 0 := by
    rw [hm1, series1_neg_sq one_ne_zero, div_one]
    exact (Real.sinh_pos_iff.2 one_pos).ne'
  have hz : 0 < Real.pi ^ 2 - 1e-12 := by norm_num; linarith
  have hz' : Real.pi ^ 2 - 1e-12 < Real.pi ^ 2 := by norm_num
  obtain ⟨t, ht⟩ := tofEquation_exists hmu hV.le hs1 0 (.inl rfl)
  obtain ⟨th, hth⟩ := tofEquation_exists hmu (VofZ_pos hPQ hz).le (series1_ne hz hz') 0 (.inl rfl)
  have e1 := (tofEquation_ok hmu ht).2.2
  have e2 := (tofEquation_ok hmu hth).2.2
  simp only [if_true, add_zero] at e1 e2
  have p1 := path_zero (mu := mu) (z := -1) (by linarith) hV
  have p2 := path_zero (mu := mu) hz' (VofZ_pos hPQ hz)
  rw [← e1] at p1
  rw [← e2] at p2
  have hlt : t < th := by
    rw [p1.time_lt_iff hmu hA.ne hPQ p2]
    obtain ⟨φ, hφ, hφe⟩ := pos_sq hz
    unfold VofZ
    rw [hφe, series0_sq, hm1, series0_neg_sq]
    have h1 := Real.cos_le_one φ
    have h2 : 1 < Real.cosh 1 := Real.one_lt_cosh.2 one_ne_zero
    rw [div_lt_div_right_of_neg hA]
    nlinarith
  refine ⟨t, hV, ht, ?_⟩
  have hl : lowerZ (fun z => tofEquation P (Real.sqrt 2 * A) mu z 0) t (-1.0) = .ok (-1) := by
    unfold lowerZ
    rw [show (-1.0 : ℝ) = -1 by norm_num]
    simp only [ht, ok_bind]
    rw [whileLoop_false]
    · rfl
    · exact lt_irrefl t
  have hb : chooseBracket P (Real.sqrt 2 * A) mu t 0 low atol rtol = .ok (-1, Real.pi ^ 2 - 1e-12) := by
    unfold chooseBracket initialBracket startZ
    rw [if_pos rfl, if_neg (not_lt.2 hQ.le), ok_bind, hl, ok_bind, hth, ok_bind, raiseIf_neg _ (not_lt.2 hlt.le)]
    rfl
  unfold findZ
  rw [hb, ok_bind]
  unfold solveBracketed
  simp only [ht, hth, ok_bind]
  rw [if_pos (by linarith)]

/-- After `_find_z` the solver returns. -/
theorem finish_exists {mu : ℝ} (hmu : 0 < mu) {r1 r2 : V3} (hna : NotAligned r1 r2) {tof : ℝ} (htof : 0 < tof) {M : ℤ}
    (hM : 0 ≤ M) {pro low : Bool} {maxiter : ℕ} {atol rtol θ z : ℝ} {k : ℕ} (hk : 1 ≤ k)
    (hθ : getTransferAngle r1 r2 pro = .ok θ)
    (hz : findZ (V3.norm r1 + V3.norm r2) (Real.sqrt 2 * halfA (V3.norm r1) (V3.norm r2) θ) mu tof M low maxiter
      atol rtol = .ok (z, k))
    (hV : 0 < VofZ (V3.norm r1 + V3.norm r2) (Real.sqrt 2 * halfA (V3.norm r1) (V3.norm r2) θ) z)
    (full : Bool) (clock : ℝ) :
    ∃ out, delatorre2018 mu r1 r2 tof M pro low maxiter atol rtol full clock = .ok out := by
  have h1 : r1 ≠ 0 := by rintro rfl; simp [NotAligned] at hna
  have h12 : r1 ≠ r2 := by rintro rfl; simp [NotAligned, mul_comm] at hna
  have hang := angle_of_eq hna hθ
  have hR1 := norm_pos_of_notAligned_left hna
  have hR2 := norm_pos_of_notAligned_right hna
  obtain ⟨hG, -⟩ := hang.halfGeo hna
  have hr2 : Real.sqrt 2 ^ 2 = 2 := Real.sq_sqrt (by norm_num)
  have hQ : 2 * Real.sqrt (V3.norm r1 * V3.norm r2) * Real.cos (θ / 2) =
      Real.sqrt 2 * halfA (V3.norm r1) (V3.norm r2) θ := by
    unfold halfA
    linear_combination (-(Real.sqrt (V3.norm r1 * V3.norm r2) * Real.cos (θ / 2))) * hr2
  have hc := hang.cos_lt_one
  have hV' := hV
  unfold VofZ at hV'
  obtain ⟨p, hp⟩ : ∃ p, p = V3.norm r1 * V3.norm r2 * (1 - Real.cos θ) /
    (V3.norm r1 + V3.norm r2 - Real.sqrt 2 * halfA (V3.norm r1) (V3.norm r2) θ * stumpffSeries 0 z) := ⟨_, rfl⟩
  have hp0 : 0 < p := by rw [hp]; positivity
  have hg := g_pform hang hna hmu hV' hp
  have hg0 : V3.norm r1 * V3.norm r2 * Real.sin θ / Real.sqrt (mu * p) ≠ 0 := by
    rw [hg]
    exact mul_ne_zero hG.hA (Real.sqrt_pos.2 (by positivity)).ne'
  have hk0 : (k : ℝ) ≠ 0 := by positivity
  unfold delatorre2018
  rw [assertParameters_eq hmu h1 h12 htof hM, ok_bind]
  simp only []
  rw [hθ, ok_bind, psqrt_eq (by positivity), ok_bind, hQ, hz, ok_bind]
  simp only []
  rw [stumpff0_eq, ok_bind, pdiv_eq hV'.ne', ok_bind, ← hp, pdiv_eq hp0.ne', ok_bind, psqrt_eq (by positivity), ok_bind,
    pdiv_eq (Real.sqrt_pos.2 (by positivity)).ne', ok_bind, pdiv_eq hp0.ne', ok_bind, vdiv_eq hg0, ok_bind, vdiv_eq hg0,
    ok_bind, pdiv_eq hk0, ok_bind]
  exact ⟨_, rfl⟩

theorem geo_lt {pro : Bool} {r1 r2 : V3} (hna : NotAligned r1 r2) {θ : ℝ} (hθ : getTransferAngle r1 r2 pro = .ok θ) :
    |Real.sqrt 2 * halfA (V3.norm r1) (V3.norm r2) θ| < V3.norm r1 + V3.norm r2 := by
  obtain ⟨hG, -⟩ := (angle_of_eq hna hθ).halfGeo hna
  have hr2 : Real.sqrt 2 ^ 2 = 2 := Real.sq_sqrt (by norm_num)
  have := hG.R1
  have := hG.R2
  apply abs_lt_of_sq_lt_sq _ (by positivity)
  rw [mul_pow, hr2]
  nlinarith [hG.A2_lt, sq_nonneg (V3.norm r1 - V3.norm r2)]

end Delatorre
open Delatorre

/-- `delatorre2018` returns for some time of flight with any number `M ≥ 1` of revolutions,
whatever the tolerances and the number of iterations; the transfer then takes exactly that
time (the hypotheses of `delatorre_kepler_transfer` can be met for every geometry). -/
theorem delatorre_returns {mu : ℝ} (hmu : 0 < mu) {r1 r2 : V3} (hna : NotAligned r1 r2) {M : ℕ} (hM : 1 ≤ M)
    (pro low : Bool) (maxiter : ℕ) {atol rtol : ℝ} (full : Bool) (clock : ℝ) :
    ∃ tof out, 0 < tof ∧ delatorre2018 mu r1 r2 tof M pro low maxiter atol rtol full clock = .ok out := by
  have hθ := transferAngle_eq hna pro
  generalize (if ShortWay pro r1 r2 then _ else _ : ℝ) = θ at hθ
  have hM0 : (M : ℤ) ≠ 0 := by exact_mod_cast (by omega : M ≠ 0)
  have hPQ := geo_lt hna hθ
  obtain ⟨tof, z, h1, h2, h3, h4⟩ := findZ_multi_exists hmu hPQ hM0 low maxiter atol rtol
  obtain ⟨hG, -⟩ := (angle_of_eq hna hθ).halfGeo hna
  have hV := VofZ_pos hPQ h1
  have htof : 0 < tof := by
    have e := (tofEquation_ok hmu h3).2.2
    rw [if_neg hM0] at e
    rw [e]
    exact ((path_multi (M := M) hmu h1 h2 hV).arc hmu hG).1
  obtain ⟨out, ho⟩ := finish_exists hmu hna htof (by positivity) le_rfl hθ h4 hV full clock
  exact ⟨tof, out, htof, ho⟩

/-- The same without revolutions, for the long way. -/
theorem delatorre_returns_zero {mu : ℝ} (hmu : 0 < mu) {r1 r2 : V3} (hna : NotAligned r1 r2) {pro : Bool}
    (hl : ¬ ShortWay pro r1 r2) (low : Bool) (maxiter : ℕ) {atol rtol : ℝ} (full : Bool) (clock : ℝ) :
    ∃ tof out, 0 < tof ∧ delatorre2018 mu r1 r2 tof 0 pro low maxiter atol rtol full clock = .ok out := by
  have hθ := transferAngle_eq hna pro
  generalize (if ShortWay pro r1 r2 then _ else _ : ℝ) = θ at hθ
  have hPQ := geo_lt hna hθ
  obtain ⟨hG, hsh⟩ := (angle_of_eq hna hθ).halfGeo hna
  have hA : halfA (V3.norm r1) (V3.norm r2) θ < 0 := by
    rcases lt_or_gt_of_ne hG.hA with h | h
    · exact h
    · exact absurd (hsh.1 h) hl
  obtain ⟨tof, hV, h3, h4⟩ := findZ_zero_exists hmu hPQ hA low maxiter atol rtol
  have htof : 0 < tof := by
    have e := (tofEquation_ok hmu h3).2.2
    simp only [if_true, add_zero] at e
    rw [e]
    exact ((path_zero (by have := Real.pi_pos; nlinarith) hV).arc hmu hG).1
  obtain ⟨out, ho⟩ := finish_exists hmu hna htof le_rfl le_rfl hθ h4 hV full clock
  exact ⟨tof, out, htof, ho⟩

/-- Two revolutions of a quarter turn. -/
example : ∃ tof out T, delatorre2018 1 ⟨1, 0, 0⟩ ⟨0, 1, 0⟩ tof 2 true true 35 0 1e-7 true 0.5 = .ok out ∧
    LambertArc 1 ⟨1, 0, 0⟩ ⟨0, 1, 0⟩ out.v1 out.v2 T 2 ∧ |T - tof| ≤ 1e-7 * tof := by
  obtain ⟨tof, out, h0, h⟩ := delatorre_returns (mu := 1) one_pos (r1 := ⟨1, 0, 0⟩) (r2 := ⟨0, 1, 0⟩)
    (by simp [NotAligned]) (M := 2) (by norm_num) true true 35 (atol := 0) (rtol := 1e-7) true 0.5
  obtain ⟨-, ⟨T, hT, hd⟩, -⟩ := delatorre_kepler_transfer h (by norm_num; linarith)
  refine ⟨tof, out, T, h, hT, ?_⟩
  rcases hd with rfl | hd
  · simp only [sub_self, abs_zero]; positivity
  · linarith

end Lamberthub
