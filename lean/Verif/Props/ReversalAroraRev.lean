import Verif.Props.ReversalAroraFalse
import Verif.Props.AroraMultiSolves
import Verif.Props.ReversalMore

/-! # C59: with revolutions `arora2013` may solve a problem and refuse the reversed one -/

set_option autoImplicit false

namespace Lamberthub
open Spec LC Arora Set

/-- A bounded minimizer that succeeds for every continuous function, with a point where the function is least. -/
def MinimizerExact (m : Minimizer) : Prop :=
  ∀ {f : ℝ → Py ℝ} {F : ℝ → ℝ} {lo hi : ℝ} (xatol : ℝ), lo ≤ hi → (∀ x ∈ Icc lo hi, f x = .ok (F x)) → ContinuousOn F (Icc lo hi) →
    ∃ k ∈ Icc lo hi, m f lo hi xatol = .ok (k, F k, true) ∧ ∀ x ∈ Icc lo hi, F k ≤ F x

open Classical in
/-- Such a minimizer. -/
noncomputable def exactMinimizer : Minimizer := fun f lo hi _ =>
  if h : ∃ q : ℝ × ℝ, q.1 ∈ Icc lo hi ∧ f q.1 = .ok q.2 ∧ ∀ x ∈ Icc lo hi, ∃ y, f x = .ok y ∧ q.2 ≤ y then
    .ok (h.choose.1, h.choose.2, true)
  else .error .undefined

theorem exactMinimizer_exact : MinimizerExact exactMinimizer := by
  intro f F lo hi xatol hle hf hF
  have h : ∃ q : ℝ × ℝ, q.1 ∈ Icc lo hi ∧ f q.1 = .ok q.2 ∧ ∀ x ∈ Icc lo hi, ∃ y, f x = .ok y ∧ q.2 ≤ y := by
    obtain ⟨k, hk, hmin⟩ := isCompact_Icc.exists_isMinOn (nonempty_Icc.2 hle) hF
    exact ⟨(k, F k), hk, hf k hk, fun x hx => ⟨F x, hf x hx, hmin hx⟩⟩
  obtain ⟨c1, c2, c3⟩ := h.choose_spec
  have e : F h.choose.1 = h.choose.2 := Except.ok.inj ((hf _ c1).symm.trans c2)
  refine ⟨h.choose.1, c1, ?_, fun x hx => ?_⟩
  · unfold exactMinimizer
    rw [dif_pos h, e]
  · obtain ⟨y, hy, hle⟩ := c3 x hx
    rw [e, Except.ok.inj ((hf x hx).symm.trans hy)]
    exact hle

theorem signedA_reversed (pro : Bool) (r1 r2 : V3) : signedA (!pro) r2 r1 = signedA pro r1 r2 := by
  have hz : crossZ r2 r1 = -crossZ r1 r2 := by unfold crossZ; ring
  have hsw : ShortWay (!pro) r2 r1 ↔ ShortWay pro r1 r2 := by
    unfold ShortWay
    rw [hz]
    cases pro <;> simp
  unfold signedA
  simp only [hsw]
  rw [V3.dot_swap, mul_comm (V3.norm r2)]

namespace Arora

/-- The range in which the code looks for the fastest transfer. -/
abbrev searchRange : Set ℝ := Icc (-Real.sqrt 2 + 1e-8) (Real.sqrt 2 - 1e-8)

theorem searchRange_sub {k : ℝ} (hk : k ∈ searchRange) : k ∈ Ioo (-Real.sqrt 2) (Real.sqrt 2) := by
  obtain ⟨a, b⟩ := hk
  norm_num at a b
  exact ⟨by linarith, by linarith⟩

theorem searchRange_le : -Real.sqrt 2 + 1e-8 ≤ Real.sqrt 2 - 1e-8 := by
  have := lt_sqrt2
  norm_num at this ⊢
  linarith

theorem u_pos {r1 r2 : V3} (hna : NotAligned r1 r2) (pro : Bool) {k : ℝ} (hk : k ∈ Ioo (-Real.sqrt 2) (Real.sqrt 2)) :
    0 < 1 - k * tauOf pro r1 r2 := by
  have h := tau_lt hna pro
  have h1 : |k * tauOf pro r1 r2| ≤ |Real.sqrt 2 * tauOf pro r1 r2| := by
    rw [abs_mul, abs_mul, abs_of_pos sqrt2_pos]
    exact mul_le_mul_of_nonneg_right (abs_le.2 ⟨hk.1.le, hk.2.le⟩) (abs_nonneg _)
  linarith [(abs_le.1 (h1.trans h.le)).2, (abs_lt.1 (lt_of_le_of_lt h1 h)).2]

/-- The time of the transfers with revolutions, as the code computes it. -/
theorem tofAt_timeW {mu : ℝ} (hmu : 0 < mu) {r1 r2 : V3} (hna : NotAligned r1 r2) (pro : Bool) {M : ℕ} (hM : 1 ≤ M) {k : ℝ}
    (hk : k ∈ Ioo (-Real.sqrt 2) (Real.sqrt 2)) :
    tofAt (tauOf pro r1 r2) (Shat r1 r2) M k =
      .ok (timeW mu (V3.norm r1 + V3.norm r2) (signedA pro r1 r2) k (ellW k M) / Tref mu r1) := by
  have hR1 := norm_pos_of_notAligned_left hna
  have hT : 0 < Tref mu r1 := by unfold Tref; positivity
  unfold tofAt
  rw [getW_ell hk.1 hk.2 (.inr hM), ok_bind, getTOF_eq (u_pos hna pro hk).le, ← time_scaled hmu hna,
    mul_div_cancel_left₀ _ hT.ne']

theorem timeW_continuous {mu P A : ℝ} (M : ℕ) :
    ContinuousOn (fun k => timeW mu P A k (ellW k M)) searchRange := by
  have hW : ContinuousOn (fun k => ellW k M) searchRange := fun k hk =>
    (hasDerivAt_ellW M (searchRange_sub hk).1 (searchRange_sub hk).2).continuousAt.continuousWithinAt
  unfold timeW
  fun_prop

/-- Every transfer with revolutions takes more than the parabola. -/
theorem par_lt_rev {mu : ℝ} (hmu : 0 < mu) {r1 r2 : V3} (hna : NotAligned r1 r2) (pro : Bool) {M : ℕ} (hM : 1 ≤ M) {k : ℝ}
    (hk : k ∈ Ioo (-Real.sqrt 2) (Real.sqrt 2)) :
    Tref mu r1 * tofPOf pro r1 r2 < timeW mu (V3.norm r1 + V3.norm r2) (signedA pro r1 r2) k (ellW k M) := by
  have hG := (getA_signedA (angle_of_eq hna (transferAngle_eq hna pro)) hna).2
  have hR1 := hG.R1
  have hP : 0 < V3.norm r1 + V3.norm r2 := add_pos hG.R1 hG.R2
  have hT : 0 < Tref mu r1 := by unfold Tref; positivity
  have hS : 0 < Shat r1 r2 := by have := hG.R2; unfold Shat; positivity
  have hv : ∀ k, V3.norm r1 + V3.norm r2 - k * signedA pro r1 r2 = (1 - k * tauOf pro r1 r2) * (V3.norm r1 + V3.norm r2) := by
    intro k; unfold tauOf; field_simp
  have hu := u_pos hna pro hk
  have hV0 : 0 < V3.norm r1 + V3.norm r2 - k * signedA pro r1 r2 := by rw [hv]; positivity
  have htl := abs_lt.1 (tau_lt hna pro)
  have hVp : 0 < V3.norm r1 + V3.norm r2 - Real.sqrt 2 * signedA pro r1 r2 := by
    rw [hv]; exact mul_pos (by linarith [htl.2]) hP
  have p1 := path_par hmu hP rfl hVp
  have p2 := path_ell (M := 0) hmu hP hk.1 hk.2 rfl hV0
  have hlt := (Path.time_lt_iff hmu hG.hA (Vallado.bound hG) p1 p2).2 (by
    rw [sub_sub_cancel, sub_sub_cancel, mul_div_cancel_right₀ _ hG.hA, mul_div_cancel_right₀ _ hG.hA]; exact hk.2)
  have e : tofPOf pro r1 r2 = Shat r1 r2 * Real.sqrt (1 - Real.sqrt 2 * tauOf pro r1 r2) *
      (tauOf pro r1 r2 + (1 - Real.sqrt 2 * tauOf pro r1 r2) * (Real.sqrt 2 / 3)) := by
    have := sqrt2_sq
    unfold tofPOf
    linear_combination Shat r1 r2 * Real.sqrt (1 - Real.sqrt 2 * tauOf pro r1 r2) * tauOf pro r1 r2 / 3 * this
  rw [e, time_scaled hmu hna]
  refine hlt.trans_le ?_
  rw [← time_scaled hmu hna, ← time_scaled hmu hna]
  have hW : ellW k 0 ≤ ellW k M := by
    unfold ellW
    have h2 : 0 < 2 - k ^ 2 := by nlinarith [sqrt2_sq, hk.1, hk.2]
    have hpi := Real.pi_pos
    gcongr
    omega
  gcongr

/-- The two outcomes of a problem whose time is less than the least one by `D`. -/
theorem below_least {mz : Minimizer} (hmz : MinimizerExact mz) {mu : ℝ} (hmu : 0 < mu) {r1 r2 : V3} (hna : NotAligned r1 r2)
    (pro : Bool) {M : ℕ} (hM : 1 ≤ M) {m D : ℝ}
    (hm : IsLeast ((fun k => timeW mu (V3.norm r1 + V3.norm r2) (signedA pro r1 r2) k (ellW k M)) '' searchRange) m) (hD : 0 < D)
    (hpar : Tref mu r1 * tofPOf pro r1 r2 < m - D) (h0 : 0 < m - D) (b : Brent) (low : Bool) (N : ℕ) (atol rtol : ℝ) (full : Bool)
    (clock : ℝ) :
    (D / Tref mu r1 ≤ atol → 1 ≤ N → ∃ out, arora2013 mz b mu r1 r2 (m - D) M pro low N atol rtol full clock = .ok out) ∧
    (atol < D / Tref mu r1 → arora2013 mz b mu r1 r2 (m - D) M pro low N atol rtol full clock =
      .error (.valueError "No feasible solution, try lower M!")) := by
  have hG := (getA_signedA (angle_of_eq hna (transferAngle_eq hna pro)) hna).2
  have hR1 := hG.R1
  have hT : 0 < Tref mu r1 := by unfold Tref; positivity
  have hP : 0 < V3.norm r1 + V3.norm r2 := add_pos hG.R1 hG.R2
  obtain ⟨k, hk, hrun, hmin⟩ := hmz (max atol 1e-13) searchRange_le
    (fun x hx => tofAt_timeW hmu hna pro hM (searchRange_sub hx)) ((timeW_continuous M).div_const _)
  have hval : timeW mu (V3.norm r1 + V3.norm r2) (signedA pro r1 r2) k (ellW k M) = m := by
    refine le_antisymm ?_ (hm.2 ⟨k, hk, rfl⟩)
    obtain ⟨x, hx, hxm⟩ := hm.1
    rw [← hxm]
    exact (div_le_div_iff_of_pos_right hT).1 (hmin x hx)
  rw [hval] at hrun
  have hki := searchRange_sub hk
  have htp : tofPOf pro r1 r2 < (m - D) / Tref mu r1 := by rw [lt_div_iff₀' hT]; exact hpar
  have hgu : ∀ atol', initialGuess mz b ((m - D) / Tref mu r1) (tofPOf pro r1 r2) (tauOf pro r1 r2) (Shat r1 r2) (dsign pro r1 r2) M low
      atol' rtol = getMultirevKGuess mz b ((m - D) / Tref mu r1) (tauOf pro r1 r2) (Shat r1 r2) M low atol' rtol := by
    intro atol'
    unfold initialGuess
    rw [if_neg (not_le.2 htp), if_neg (by exact_mod_cast (by omega : M ≠ 0))]
  have hdiff : (m - D) / Tref mu r1 - m / Tref mu r1 = -(D / Tref mu r1) := by ring
  have hDT : 0 < D / Tref mu r1 := by positivity
  constructor
  · intro ha hN
    obtain ⟨n, rfl⟩ : ∃ n, N = n + 1 := ⟨N - 1, by omega⟩
    have hab : |(m - D) / Tref mu r1 - m / Tref mu r1| ≤ atol := by rw [hdiff, abs_neg, abs_of_pos hDT]; exact ha
    have hg : initialGuess mz b ((m - D) / Tref mu r1) (tofPOf pro r1 r2) (tauOf pro r1 r2) (Shat r1 r2) (dsign pro r1 r2) M low
        atol rtol = .ok k := by
      rw [hgu]
      unfold getMultirevKGuess
      simp only []
      rw [hrun, ok_bind]
      simp only []
      rw [raiseIf_neg _ (by simp), ok_bind, raiseIf_neg _ (by push Not; linarith), ok_bind, if_pos hab]
    have htau := tau_ne hna pro
    have hu := u_pos hna pro hki
    obtain ⟨W, Wp, Wpp, c, tofc, tp, tpp, g1, g2, g3, g4, g5, -⟩ := inner_values (S := Shat r1 r2) hM hki htau hu
    have hte : tofc = m / Tref mu r1 := by
      have h1 := tofAt_timeW hmu hna pro hM hki
      unfold tofAt at h1
      rw [g1, ok_bind, g5, hval] at h1
      exact Except.ok.inj h1
    have hi : iterate ((m - D) / Tref mu r1) (tofPOf pro r1 r2) (tauOf pro r1 r2) (Shat r1 r2) (dsign pro r1 r2) M atol (n + 1) 0 k =
        .ok (k, 1) := by
      rw [iterate, g1, ok_bind, g2, ok_bind, g3, ok_bind, g4, ok_bind, g5, ok_bind, if_pos (by rw [hte]; exact hab)]
    obtain ⟨out, ho, -⟩ := Arora.run hmu hna h0 full clock hg hi le_rfl (by
      have : V3.norm r1 + V3.norm r2 - k * signedA pro r1 r2 = (1 - k * tauOf pro r1 r2) * (V3.norm r1 + V3.norm r2) := by
        unfold tauOf; field_simp
      rw [this]; positivity)
    exact ⟨out, ho⟩
  · intro ha
    rw [arora_eq hmu hna h0 (by positivity), hgu]
    unfold getMultirevKGuess
    simp only []
    rw [hrun, ok_bind]
    simp only []
    have hr : (m - D) / Tref mu r1 < m / Tref mu r1 - atol := by linarith
    rw [raiseIf_neg _ (by simp), ok_bind]
    unfold raiseIf
    rw [if_pos hr]
    rfl

end Arora

/-- **C59 for `arora2013` with revolutions: the property does not hold.**  For all positions the first of which is farther
and every number of revolutions there are a time of flight and a tolerance for which the code, with a minimizer that
finds the least time, returns velocities for one problem and answers that the reversed one has no solution.  Exchanging
the names of the positions covers those the first of which is nearer. -/
theorem arora_revolutions_not_reversible {mu : ℝ} (hmu : 0 < mu) {r1 r2 : V3} (hna : NotAligned r1 r2) (hlt : len r2 < len r1)
    (pro : Bool) {M : ℕ} (hM : 1 ≤ M) :
    ∃ tof atol, 0 < tof ∧ 0 < atol ∧
      ∀ (mz : Minimizer), MinimizerExact mz → ∀ (b : Brent) (low : Bool) (N : ℕ) (rtol : ℝ) (full : Bool) (clock : ℝ), 1 ≤ N →
        (∃ out, arora2013 mz b mu r1 r2 tof M pro low N atol rtol full clock = .ok out) ∧
        arora2013 mz b mu r2 r1 tof M (!pro) low N atol rtol full clock =
          .error (.valueError "No feasible solution, try lower M!") := by
  have hR1 := norm_pos_of_notAligned_left hna
  have hR2 := norm_pos_of_notAligned_right hna
  have hna' : NotAligned r2 r1 := NotAligned.symm hna
  have hA : signedA (!pro) r2 r1 = signedA pro r1 r2 := signedA_reversed pro r1 r2
  have hT1 : 0 < Tref mu r1 := by unfold Tref; positivity
  have hT2 : 0 < Tref mu r2 := by unfold Tref; positivity
  have hTT : Tref mu r2 < Tref mu r1 := by
    rw [len_eq_norm, len_eq_norm] at hlt
    unfold Tref
    exact Real.sqrt_lt_sqrt (by positivity) (by gcongr)
  obtain ⟨m, hm⟩ : ∃ m, IsLeast ((fun k => timeW mu (V3.norm r1 + V3.norm r2) (signedA pro r1 r2) k (ellW k M)) '' searchRange) m :=
    (isCompact_Icc.image_of_continuousOn (timeW_continuous M)).exists_isLeast ((nonempty_Icc.2 searchRange_le).image _)
  obtain ⟨k, hk, hkm⟩ := hm.1
  have hkm : timeW mu (V3.norm r1 + V3.norm r2) (signedA pro r1 r2) k (ellW k M) = m := hkm
  have q1 := par_lt_rev hmu hna pro hM (searchRange_sub hk)
  have q2 := par_lt_rev hmu hna' (!pro) hM (searchRange_sub hk)
  rw [hA, add_comm (V3.norm r2), hkm] at q2
  rw [hkm] at q1
  have hpp : 0 < Tref mu r1 * tofPOf pro r1 r2 := mul_pos hT1 (sampled_order (tau_lt hna pro) (by unfold Shat; positivity)).1
  obtain ⟨D, hD, h1, h2⟩ : ∃ D > 0, Tref mu r1 * tofPOf pro r1 r2 < m - D ∧ Tref mu r2 * tofPOf (!pro) r2 r1 < m - D := by
    refine ⟨min (m - Tref mu r1 * tofPOf pro r1 r2) (m - Tref mu r2 * tofPOf (!pro) r2 r1) / 2, ?_, ?_, ?_⟩
    · exact half_pos (lt_min (by linarith) (by linarith))
    · have := min_le_left (m - Tref mu r1 * tofPOf pro r1 r2) (m - Tref mu r2 * tofPOf (!pro) r2 r1)
      linarith
    · have := min_le_right (m - Tref mu r1 * tofPOf pro r1 r2) (m - Tref mu r2 * tofPOf (!pro) r2 r1)
      linarith
  have h0 : 0 < m - D := hpp.trans h1
  refine ⟨m - D, D / Tref mu r1, h0, by positivity, fun mz hmz b low N rtol full clock hN => ⟨?_, ?_⟩⟩
  · exact (below_least hmz hmu hna pro hM hm hD h1 h0 b low N _ rtol full clock).1 le_rfl hN
  · refine (below_least hmz hmu hna' (!pro) hM ?_ hD h2 h0 b low N _ rtol full clock).2 ?_
    · rw [hA, add_comm (V3.norm r2)]; exact hm
    · exact div_lt_div_of_pos_left hD hT2 hTT

/-- The hypotheses are satisfiable: from `(0, 2, 0)` to `(1, 0, 0)` with one revolution. -/
example : ∃ tof atol : ℝ, 0 < tof ∧ 0 < atol ∧ ∀ b : Brent,
    (∃ out, arora2013 exactMinimizer b 1 ⟨0, 2, 0⟩ ⟨1, 0, 0⟩ tof 1 true true 35 atol 1e-7 false 0 = .ok out) ∧
    arora2013 exactMinimizer b 1 ⟨1, 0, 0⟩ ⟨0, 2, 0⟩ tof 1 false true 35 atol 1e-7 false 0 =
      .error (.valueError "No feasible solution, try lower M!") := by
  obtain ⟨tof, atol, h1, h2, h3⟩ := arora_revolutions_not_reversible (mu := 1) one_pos (r1 := ⟨0, 2, 0⟩) (r2 := ⟨1, 0, 0⟩)
    (by simp [NotAligned]) (by
      rw [len_eq_norm, len_eq_norm]
      norm_num [V3.norm, V3.dot]
      rw [show (4 : ℝ) = 2 ^ 2 by norm_num, Real.sqrt_sq (by norm_num)]
      norm_num) true (M := 1) le_rfl
  exact ⟨tof, atol, h1, h2, fun b => by
    have := h3 exactMinimizer exactMinimizer_exact b true 35 1e-7 false 0 (by norm_num)
    simpa using this⟩

end Lamberthub
