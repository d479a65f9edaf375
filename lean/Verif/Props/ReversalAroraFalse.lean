import Verif.Props.ReversalArora
import Verif.Props.AroraGuess

/-! # C59: `arora2013` does not reverse its transfers when the tolerance stays the same -/

set_option autoImplicit false

namespace Lamberthub
open Spec LC Arora

namespace Arora

/-- The value of `W` at `k = 0`. -/
noncomputable def W0 : ℝ := Real.pi / Real.sqrt 8

theorem getW_zero : getW 0 0 = .ok W0 := by
  have hp := sqrt2_pos
  have hl := lt_sqrt2
  have he : epsilon = 2e-2 := rfl
  norm_num at hl he
  unfold getW
  simp only []
  rw [if_pos (Or.inl ⟨by linarith, by rw [he]; linarith⟩)]
  have e1 : (1 : ℝ) - (2 - 0 ^ 2) = -1 := by norm_num
  have e2 : ((2 : ℝ) - 0 ^ 2) ^ 3 = 8 := by norm_num
  have e3 : (2 : ℝ) - 0 ^ 2 = 2 := by norm_num
  have h8 : Real.sqrt 8 ≠ 0 := by positivity
  rw [e1, e2, e3, pacos_eq (by norm_num) (by norm_num), ok_bind, psqrt_eq (by norm_num), ok_bind, pdiv_eq h8, ok_bind,
    pdiv_eq (by norm_num), ok_bind, Real.arccos_neg_one]
  have hs : sign 0 = 0 := by simp [sign]
  rw [hs, W0]
  simp

/-- The code tabulates `1.110720735`, which is not the value of `W`. -/
theorem W0_lt : W0 < 1.110720735 := by
  unfold W0
  have h8 : 0 < Real.sqrt 8 := by positivity
  have h := Real.pi_lt_d20
  rw [div_lt_iff₀ h8]
  have : (2.8284271247 : ℝ) ≤ Real.sqrt 8 := Real.le_sqrt_of_sq_le (by norm_num)
  norm_num at h this ⊢
  linarith

/-- The start for the time tabulated at `k = 0` is `0`. -/
theorem start_zero {tau S tofP : ℝ} (htau : |Real.sqrt 2 * tau| < 1) (hS : 0 < S)
    (htofP : tofP = S * Real.sqrt (1 - Real.sqrt 2 * tau) * (tau + Real.sqrt 2) / 3) :
    tofP < S * (tau + 1.110720735) ∧ guessElliptic (S * (tau + 1.110720735)) tofP tau S = .ok 0 := by
  have hp := sqrt2_pos
  have hs := sqrt2_sq
  obtain ⟨o0, o1, o2, o3, o4, o5, o6⟩ := sampled_order htau hS
  have ht := abs_lt.1 htau
  have hl := lt_sqrt2
  have hu := sqrt2_lt
  norm_num at hl hu
  have e0 : S * Real.sqrt (1 - 0 * tau) * (tau + (1 - 0 * tau) * 1.110720735) = S * (tau + 1.110720735) := by
    rw [zero_mul, sub_zero, Real.sqrt_one]; ring
  have hb : ∀ k : ℝ, |k| ≤ Real.sqrt 2 → 0 ≤ 1 - k * tau := by
    intro k hk
    have : |k * tau| ≤ |Real.sqrt 2 * tau| := by
      rw [abs_mul, abs_mul, abs_of_pos hp]; exact mul_le_mul_of_nonneg_right hk (abs_nonneg _)
    linarith [(abs_le.1 (this.trans htau.le)).2]
  rw [e0] at o2
  rw [← htofP] at o1
  refine ⟨o1.trans o2, ?_⟩
  unfold guessElliptic
  have k1 : |1 / Real.sqrt 2| ≤ Real.sqrt 2 := by
    rw [abs_of_pos (by positivity), div_le_iff₀ hp]; nlinarith
  rw [pdiv_eq hp.ne', ok_bind, getTOF_eq (hb _ (by rw [abs_le]; constructor <;> norm_num <;> linarith)), ok_bind,
    getTOF_eq (hb _ (by rw [abs_le]; constructor <;> norm_num <;> linarith)), ok_bind,
    getTOF_eq (hb _ (by rw [abs_le]; constructor <;> norm_num <;> linarith)), ok_bind,
    getTOF_eq (hb _ (by rw [abs_le]; constructor <;> norm_num <;> linarith)), ok_bind,
    getTOF_eq (hb _ (by rw [abs_zero]; exact hp.le)), ok_bind, getTOF_eq (hb _ k1), ok_bind, e0, if_pos le_rfl]
  generalize S * Real.sqrt (1 - 1 / Real.sqrt 2 * tau) * (tau + (1 - 1 / Real.sqrt 2 * tau) * 0.6686397730) = Fi at *
  generalize S * (tau + 1.110720735) = F0 at *
  unfold getX
  have hd : (Fi - F0) * (tofP - F0) * (1 / 2) + (F0 - Fi) * (tofP - F0) ≠ 0 := by
    have : 0 < (F0 - Fi) * (F0 - tofP) := mul_pos (by linarith) (by linarith)
    intro h0
    nlinarith
  rw [pdiv_eq hd, ok_bind]
  simp

theorem iterate_zero {tof tofP tau S d atol : ℝ} (ht : tau ≠ 0) (hle : |tof - S * (tau + W0)| ≤ atol) (m : ℕ) :
    iterate tof tofP tau S d 0 atol (m + 1) 0 0 = .ok (0, 1) := by
  have hl := lt_sqrt2
  have he : epsilon = 2e-2 := rfl
  norm_num at hl he
  have h0 : (0 : ℝ) < Real.sqrt 2 - epsilon := by rw [he]; linarith
  have e1 : getWprime 0 W0 0 = .ok ((-2 + 3 * W0 * 0) / (2 - 0 ^ 2)) := by
    unfold getWprime
    simp only []
    rw [if_pos (Or.inl h0), pdiv_eq (by norm_num)]
  have e2 : ∀ Wp, getW2prime 0 W0 Wp 0 = .ok ((5 * Wp * 0 + 3 * W0) / (2 - 0 ^ 2)) := by
    intro Wp
    unfold getW2prime
    simp only []
    rw [if_pos (Or.inl h0), pdiv_eq (by norm_num)]
  rw [iterate, getW_zero, ok_bind, e1, ok_bind, e2, ok_bind, pdiv_eq ht, ok_bind, getTOF_eq (by simp), ok_bind, if_pos]
  rw [zero_mul, sub_zero, Real.sqrt_one, mul_one, one_mul]
  exact hle

end Arora

theorem fgV1_inj {μ : ℝ} (hμ : 0 < μ) {r1 r2 : V3} {A V V' : ℝ} (hG : Geo r1 r2 A) (hV : 0 < V) (hV' : 0 < V')
    (h : fgV1 μ r1 r2 A V = fgV1 μ r1 r2 A V') : V = V' := by
  have h1 := congrArg (outer r1) h
  rw [outer_fgV1, outer_fgV1] at h1
  have h2 := congrArg (Spec.inner (outer r1 r2)) h1
  have e : ∀ c : ℝ, Spec.inner (outer r1 r2) (c • outer r1 r2) = c * Spec.inner (outer r1 r2) (outer r1 r2) := by
    intro c; unfold Spec.inner; simp; ring
  rw [e, e] at h2
  have h3 := mul_right_cancel₀ (outer_sq_pos hG.hna).ne' h2
  have h4 := mul_left_cancel₀ hG.hA (inv_injective h3)
  have h5 := (Real.sqrt_inj (by positivity) (by positivity)).1 h4
  exact (div_left_inj' hμ.ne').1 h5

/-- The two outcomes of a problem with the time of flight tabulated at `k = 0`. -/
theorem Arora.table_run {mu : ℝ} (hmu : 0 < mu) {r1 r2 : V3} (hna : NotAligned r1 r2) (pro : Bool) :
    ∃ tof E v, 0 < tof ∧ 0 < E ∧
      (∀ (mz : Minimizer) (b : Brent) (low : Bool) (m : ℕ) (atol rtol : ℝ) (full : Bool) (clock : ℝ), E ≤ atol →
        ∃ out, arora2013 mz b mu r1 r2 tof 0 pro low (m + 1) atol rtol full clock = .ok out ∧ out.v1 = v) ∧
      (∀ (mz : Minimizer) (b : Brent) (low : Bool) (N : ℕ) (atol rtol : ℝ) (full : Bool) (clock : ℝ) (out : Output), atol < E →
        arora2013 mz b mu r1 r2 tof 0 pro low N atol rtol full clock = .ok out → out.v1 ≠ v) := by
  have hG := (getA_signedA (angle_of_eq hna (transferAngle_eq hna pro)) hna).2
  have hR1 := hG.R1
  have hR2 := hG.R2
  have hS : 0 < Shat r1 r2 := by unfold Shat; positivity
  have hT : 0 < Tref mu r1 := by unfold Tref; positivity
  have hP : 0 < V3.norm r1 + V3.norm r2 := add_pos hR1 hR2
  have htl := tau_lt hna pro
  have htn := tau_ne hna pro
  have hW := W0_lt
  obtain ⟨s1, s2⟩ := start_zero (tofP := tofPOf pro r1 r2) htl hS rfl
  have hpos : 0 < tofPOf pro r1 r2 := (sampled_order htl hS).1
  have htof : 0 < Tref mu r1 * (Shat r1 r2 * (tauOf pro r1 r2 + 1.110720735)) := mul_pos hT (hpos.trans s1)
  have hdiv : Tref mu r1 * (Shat r1 r2 * (tauOf pro r1 r2 + 1.110720735)) / Tref mu r1 =
      Shat r1 r2 * (tauOf pro r1 r2 + 1.110720735) := mul_div_cancel_left₀ _ hT.ne'
  have hE : |Shat r1 r2 * (tauOf pro r1 r2 + 1.110720735) - Shat r1 r2 * (tauOf pro r1 r2 + W0)| =
      Shat r1 r2 * (1.110720735 - W0) := by
    rw [show Shat r1 r2 * (tauOf pro r1 r2 + 1.110720735) - Shat r1 r2 * (tauOf pro r1 r2 + W0) =
      Shat r1 r2 * (1.110720735 - W0) by ring, abs_of_pos (mul_pos hS (by linarith))]
  refine ⟨_, Shat r1 r2 * (1.110720735 - W0), fgV1 mu r1 r2 (signedA pro r1 r2) (V3.norm r1 + V3.norm r2), htof,
    mul_pos hS (by linarith), fun mz b low m atol rtol full clock ha => ?_, fun mz b low N atol rtol full clock out ha h hv => ?_⟩
  · obtain ⟨tpi, htpi⟩ := timePerIter_pos full clock (le_refl 1)
    rw [arora_eq hmu hna htof le_rfl, guess_zero, hdiv, if_neg (not_le.2 s1), s2, ok_bind,
      iterate_zero htn (by rw [hE]; exact ha), ok_bind]
    simp only []
    rw [htpi, ok_bind, Arora.reconstruct_eq hmu hna (V := V3.norm r1 + V3.norm r2) (by ring) hP, ok_bind]
    exact ⟨_, rfl, mkOutput_v1 ..⟩
  · rw [arora_eq hmu hna htof le_rfl, hdiv] at h
    simp only [bind_ok] at h
    obtain ⟨k0, hk0, ⟨k, n⟩, hit, tpi, -, ⟨v1, v2⟩, hrec, h⟩ := h
    obtain rfl := (Except.ok.inj h).symm
    obtain ⟨-, -, ⟨W, hW', hu0, hle⟩, -⟩ := iterate_ok hit
    have hu : 1 - k * tauOf pro r1 r2 =
        (V3.norm r1 + V3.norm r2 - k * signedA pro r1 r2) / (V3.norm r1 + V3.norm r2) := by
      unfold tauOf; field_simp
    have hV0 : 0 < V3.norm r1 + V3.norm r2 - k * signedA pro r1 r2 := by
      rcases hu0.lt_or_eq with h1 | h1
      · rw [hu] at h1; exact (div_pos_iff_of_pos_right hP).1 h1
      · exfalso
        unfold Arora.reconstruct at hrec
        simp only [bind_ok, vdiv_ok, psqrt_ok, ← h1] at hrec
        obtain ⟨_, -, _, ⟨_, rfl⟩, _, -, _, ⟨hg, -⟩, -⟩ := hrec
        apply hg; simp
    rw [Arora.reconstruct_eq hmu hna rfl hV0] at hrec
    obtain ⟨rfl, rfl⟩ := Prod.mk.inj (Except.ok.inj hrec)
    rw [mkOutput_v1] at hv
    have hk := fgV1_inj hmu hG hV0 hP hv
    obtain rfl : k = 0 := by
      have : k * signedA pro r1 r2 = 0 := by linarith
      exact (mul_eq_zero.1 this).resolve_right hG.hA
    rw [show ((0 : ℤ)) = 0 from rfl, getW_zero] at hW'
    obtain rfl := Except.ok.inj hW'
    rw [zero_mul, sub_zero, Real.sqrt_one, mul_one, one_mul, hE] at hle
    linarith

/-- **C59 for `arora2013`: the property does not hold** with the same tolerance on both sides.  For all positions at
different distances there are a time of flight and a tolerance for which one of the two problems is solved at the
first pass and the other one, if it is solved, by another orbit. -/
theorem arora_not_reversible {mu : ℝ} (hmu : 0 < mu) {r1 r2 : V3} (hna : NotAligned r1 r2) (hne : len r1 ≠ len r2) (pro : Bool) :
    ∃ tof atol, 0 < tof ∧ 0 < atol ∧
      ∀ (mz : Minimizer) (b : Brent) (low : Bool) (N : ℕ) (rtol : ℝ) (full : Bool) (clock : ℝ), 1 ≤ N →
        ((∃ out, arora2013 mz b mu r1 r2 tof 0 pro low N atol rtol full clock = .ok out) ∨
          (∃ out', arora2013 mz b mu r2 r1 tof 0 (!pro) low N atol rtol full clock = .ok out')) ∧
        ∀ out out', arora2013 mz b mu r1 r2 tof 0 pro low N atol rtol full clock = .ok out →
          arora2013 mz b mu r2 r1 tof 0 (!pro) low N atol rtol full clock = .ok out' → out'.v2 ≠ -out.v1 := by
  obtain ⟨tof, E, v, htof, hE, hok, hno⟩ := Arora.table_run hmu hna pro
  have hR1 := norm_pos_of_notAligned_left hna
  have hR2 := norm_pos_of_notAligned_right hna
  rw [len_eq_norm, len_eq_norm] at hne
  have hrev : ∀ (mz : Minimizer) (b : Brent) (low : Bool) (N : ℕ) (α rtol : ℝ) (full : Bool) (clock : ℝ),
      arora2013 mz b mu r2 r1 tof 0 (!pro) low N (Real.sqrt ((V3.norm r1 / V3.norm r2) ^ 3) * α) rtol full clock =
      (arora2013 mz b mu r1 r2 tof 0 pro low N α rtol full clock).map Output.reversed := fun mz b low N α rtol full clock =>
    arora_reversal_partial (norm_pos_iff.1 hR1) (norm_pos_iff.1 hR2) mz b mu tof pro low N α rtol full clock
  have hq : 0 < V3.norm r1 / V3.norm r2 := by positivity
  have hc : 0 < Real.sqrt ((V3.norm r1 / V3.norm r2) ^ 3) := by positivity
  have hneg : ∀ x y : V3, -x = -y → x = y := by
    intro x y h
    have hx := congrArg V3.x h
    have hy := congrArg V3.y h
    have hz := congrArg V3.z h
    simp only [V3.neg_x, V3.neg_y, V3.neg_z, neg_inj] at hx hy hz
    exact V3.ext hx hy hz
  have hr2 : ∀ o : Output, o.reversed.v2 = -o.v1 := by intro o; cases o <;> rfl
  have hmap : ∀ {x : Py Output} {out' : Output}, x.map Output.reversed = .ok out' → ∃ o, x = .ok o ∧ out' = o.reversed := by
    intro x out' h
    cases x with
    | ok o => exact ⟨o, rfl, (Except.ok.inj h).symm⟩
    | error e => cases h
  rcases lt_or_gt_of_ne hne with hlt | hlt
  · have hc1 : Real.sqrt ((V3.norm r1 / V3.norm r2) ^ 3) < 1 := by
      rw [Real.sqrt_lt' one_pos, one_pow]
      exact pow_lt_one₀ hq.le ((div_lt_one hR2).2 hlt) (by norm_num)
    refine ⟨tof, Real.sqrt ((V3.norm r1 / V3.norm r2) ^ 3) * E, htof, by positivity,
      fun mz b low N rtol full clock hN => ?_⟩
    obtain ⟨m, rfl⟩ : ∃ m, N = m + 1 := ⟨N - 1, by omega⟩
    obtain ⟨o, ho, hv⟩ := hok mz b low m E rtol full clock le_rfl
    rw [hrev, ho]
    refine ⟨.inr ⟨_, rfl⟩, fun out out' h h' hcon => ?_⟩
    obtain rfl := (Except.ok.inj h').symm
    refine hno mz b low (m + 1) _ rtol full clock out (by nlinarith) h ?_
    rw [← hv]
    exact (hneg _ _ ((hr2 o).symm.trans hcon)).symm
  · have hc1 : 1 < Real.sqrt ((V3.norm r1 / V3.norm r2) ^ 3) := by
      rw [Real.lt_sqrt zero_le_one, one_pow]
      exact one_lt_pow₀ ((one_lt_div hR2).2 hlt) (by norm_num)
    refine ⟨tof, E, htof, hE, fun mz b low N rtol full clock hN => ?_⟩
    obtain ⟨m, rfl⟩ : ∃ m, N = m + 1 := ⟨N - 1, by omega⟩
    obtain ⟨o, ho, hv⟩ := hok mz b low m E rtol full clock le_rfl
    refine ⟨.inl ⟨o, ho⟩, fun out out' h h' hcon => ?_⟩
    rw [ho] at h
    obtain rfl := Except.ok.inj h
    rw [show E = Real.sqrt ((V3.norm r1 / V3.norm r2) ^ 3) * (E / Real.sqrt ((V3.norm r1 / V3.norm r2) ^ 3)) by
      field_simp, hrev] at h'
    obtain ⟨o', ho', rfl⟩ := hmap h'
    refine hno mz b low (m + 1) _ rtol full clock o' ?_ ho' ?_
    · rw [div_lt_iff₀ hc]; nlinarith
    · rw [← hv]
      exact hneg _ _ ((hr2 o').symm.trans hcon)

/-- The hypotheses are satisfiable: from `(1, 0, 0)` to `(0, 2, 0)`. -/
example : ∃ tof atol : ℝ, 0 < tof ∧ 0 < atol ∧ ∀ (mz : Minimizer) (b : Brent) (out out' : Output),
    arora2013 mz b 1 ⟨1, 0, 0⟩ ⟨0, 2, 0⟩ tof 0 true true 35 atol 1e-7 false 0 = .ok out →
    arora2013 mz b 1 ⟨0, 2, 0⟩ ⟨1, 0, 0⟩ tof 0 false true 35 atol 1e-7 false 0 = .ok out' → out'.v2 ≠ -out.v1 := by
  obtain ⟨tof, atol, h1, h2, h3⟩ := arora_not_reversible (mu := 1) one_pos (r1 := ⟨1, 0, 0⟩) (r2 := ⟨0, 2, 0⟩)
    (by simp [NotAligned]) (by
      rw [len_eq_norm, len_eq_norm]
      norm_num [V3.norm, V3.dot]
      rw [show (4 : ℝ) = 2 ^ 2 by norm_num, Real.sqrt_sq (by norm_num)]
      norm_num) true
  exact ⟨tof, atol, h1, h2, fun mz b out out' ho ho' => (h3 mz b true 35 1e-7 false 0 (by norm_num)).2 out out' ho ho'⟩

end Lamberthub
