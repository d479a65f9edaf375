import Verif.Proofs.DelatorreLemmas

/-! # C17: what `delatorre2018` returns is a true Kepler transfer -/

set_option autoImplicit false

namespace Lamberthub
open Spec LC Delatorre

namespace Delatorre

theorem series1_pi : stumpffSeries 1 (Real.pi ^ 2) = 0 := by
  rw [series1_sq Real.pi_pos.ne', Real.sin_pi, zero_div]

/-- The doubling loop never carries `z_low` beyond `4π²`. -/
theorem lowerZ_lt {P A mu tof z0 zl : ℝ} (hmu : 0 < mu) (htof : 0 < tof)
    (hPQ : |Real.sqrt 2 * A| ≤ P) (h0 : z0 < 4 * Real.pi ^ 2)
    (h : lowerZ (fun z => tofEquation P (Real.sqrt 2 * A) mu z 0) tof z0 = .ok zl) :
    zl < 4 * Real.pi ^ 2 := by
  unfold lowerZ at h
  simp only [bind_ok] at h
  obtain ⟨t0, ht0, s, hs, h⟩ := h
  have := (whileLoop_inv (fun s : ℝ × ℝ => s.1 < 4 * Real.pi ^ 2 ∧
    tofEquation P (Real.sqrt 2 * A) mu s.1 0 = .ok s.2) hs ⟨h0, ht0⟩ ?_).1.1
  · rw [← Except.ok.inj h]; exact this
  · rintro ⟨z, t⟩ ⟨z', t'⟩ ⟨i1, i2⟩ hc hb
    simp only [bind_ok] at hb
    obtain ⟨t'', ht'', hb⟩ := hb
    obtain ⟨rfl, rfl⟩ : z * 2 = z' ∧ t'' = t' := by simpa using hb
    refine ⟨?_, ht''⟩
    obtain ⟨_, hc1, ht⟩ := tofEquation_ok hmu i2
    simp only [if_true, add_zero] at ht
    simp only at i1 i2 hc ht hc1 ⊢
    have hpi := Real.pi_pos
    rcases lt_trichotomy z (Real.pi ^ 2) with h1 | h1 | h1
    · nlinarith
    · rw [h1, series1_pi] at hc1; exact absurd rfl hc1
    · have := T0_nonpos (mu := mu) hPQ h1 i1
      rw [← ht] at this
      exfalso; linarith

theorem initialBracket_ok {P A mu tof zl zh : ℝ} (hmu : 0 < mu) (htof : 0 < tof)
    (hPQ : |Real.sqrt 2 * A| ≤ P)
    (h : initialBracket P (Real.sqrt 2 * A) mu tof = .ok (zl, zh)) :
    zl < 4 * Real.pi ^ 2 ∧ zh < 4 * Real.pi ^ 2 := by
  unfold initialBracket at h
  simp only [bind_ok, raiseIf_ok] at h
  obtain ⟨z0, hz0, zl', hzl, th, _, _, _, h⟩ := h
  obtain ⟨rfl, rfl⟩ : zl' = zl ∧ Real.pi ^ 2 - 1e-12 = zh := by simpa using h
  have hpi := Real.pi_gt_three
  have hpi2 : 9 < Real.pi ^ 2 := by nlinarith
  refine ⟨lowerZ_lt hmu htof hPQ ?_ hzl, by norm_num; linarith⟩
  unfold startZ at hz0
  split at hz0
  · simp only [bind_ok, pdiv_ok, pacosh_ok] at hz0
    obtain ⟨_, ⟨_, rfl⟩, a, ⟨_, rfl⟩, hz0⟩ := hz0
    rw [← Except.ok.inj hz0]
    generalize Real.arcosh (P / (Real.sqrt 2 * A)) = a
    have : max (1e-12 : ℝ) (|-(a ^ 2)| * 1e-12) ≤ 1e-12 + a ^ 2 := by
      apply max_le
      · nlinarith [sq_nonneg a]
      · rw [abs_neg, abs_of_nonneg (sq_nonneg a)]; norm_num; nlinarith [sq_nonneg a]
    have e : (1e-12 : ℝ) < 1 := by norm_num
    linarith
  · rw [← Except.ok.inj hz0]; norm_num; linarith

/-- The point returned by `_find_z` lies in the domain of the requested number of
revolutions and satisfies the time equation up to the tolerance. -/
theorem findZ_ok {P A mu tof : ℝ} {M : ℤ} {low : Bool} {n : ℕ} {atol rtol z : ℝ} {k : ℕ}
    (hmu : 0 < mu) (htof : 0 < tof) (hM : 0 ≤ M) (hPQ : |Real.sqrt 2 * A| ≤ P)
    (htol : atol + rtol * tof < tof)
    (h : findZ P (Real.sqrt 2 * A) mu tof M low n atol rtol = .ok (z, k)) :
    z < Real.pi ^ 2 ∧ (M ≠ 0 → 0 < z) ∧ 1 ≤ k ∧ k ≤ max 1 n ∧
      ∃ t, tofEquation P (Real.sqrt 2 * A) mu z M = .ok t ∧
        (t = tof ∨ |t - tof| ≤ atol + rtol * tof) := by
  unfold findZ at h
  simp only [bind_ok] at h
  obtain ⟨⟨zl, zh⟩, hb, h⟩ := h
  simp only at h
  unfold chooseBracket at hb
  split at hb
  · rename_i hM0
    subst hM0
    obtain ⟨h1, h2⟩ := initialBracket_ok hmu htof hPQ hb
    obtain ⟨a, ⟨t, ht, hc⟩, c, d⟩ := solveBracketed_ok (seg_Iio (4 * Real.pi ^ 2)) h1 h2 h
    refine ⟨?_, fun h => absurd rfl h, c, d, t, ht, hc⟩
    have htpos : 0 < t := by
      rcases hc with rfl | hc
      · exact htof
      · have := (abs_le.1 hc).1; linarith
    obtain ⟨_, hc1, hteq⟩ := tofEquation_ok hmu ht
    simp only [if_true, add_zero] at hteq
    rcases lt_trichotomy z (Real.pi ^ 2) with h1 | h1 | h1
    · exact h1
    · rw [h1, series1_pi] at hc1; exact absurd rfl hc1
    · have := T0_nonpos (mu := mu) hPQ h1 a
      rw [← hteq] at this
      exfalso; linarith
  · rename_i hM0
    simp only [bind_ok, raiseIf_ok] at hb
    obtain ⟨⟨zm, tm⟩, hg, _, _, hb⟩ := hb
    have hpi := Real.pi_gt_three
    have hpi2 : 9 < Real.pi ^ 2 := by nlinarith
    have hlo : (1e-12 : ℝ) ∈ Set.Ioo 0 (Real.pi ^ 2) := ⟨by norm_num, by norm_num; linarith⟩
    have hhi : Real.pi ^ 2 - 1e-12 ∈ Set.Ioo 0 (Real.pi ^ 2) :=
      ⟨by norm_num; linarith, by norm_num⟩
    obtain ⟨hzm, _⟩ := goldenSearch_mem (seg_Ioo 0 (Real.pi ^ 2)) hg hlo hhi
    have hmem : zl ∈ Set.Ioo 0 (Real.pi ^ 2) ∧ zh ∈ Set.Ioo 0 (Real.pi ^ 2) := by
      cases low
      · simp only [Bool.false_eq_true, if_false] at hb
        obtain ⟨rfl, rfl⟩ : zm = zl ∧ Real.pi ^ 2 - 1e-12 = zh := by simpa using hb
        exact ⟨hzm, hhi⟩
      · simp only [if_true] at hb
        obtain ⟨rfl, rfl⟩ : 1e-12 = zl ∧ zm = zh := by
          have := Except.ok.inj hb; exact ⟨congrArg Prod.fst this, congrArg Prod.snd this⟩
        exact ⟨hlo, hzm⟩
    obtain ⟨a, ⟨t, ht, hc⟩, c, d⟩ := solveBracketed_ok (seg_Ioo 0 (Real.pi ^ 2)) hmem.1 hmem.2 h
    exact ⟨a.2, fun _ => a.1, c, d, t, ht, hc⟩

end Delatorre

/-- **C17.** Whenever `delatorre2018` returns (with a tolerance smaller than the time of
flight itself), the positions are not aligned with the centre and the velocities belong to
one Kepler orbit that goes from `r1` to `r2` with exactly `M` complete revolutions; the
time it takes is the requested one up to `atol + rtol tof`; and the motion turns in the
requested sense. -/
theorem delatorre_kepler_transfer {mu : ℝ} {r1 r2 : V3} {tof : ℝ} {M : ℤ} {pro low : Bool}
    {maxiter : ℕ} {atol rtol : ℝ} {fo : Bool} {clock : ℝ} {out : Output}
    (h : delatorre2018 mu r1 r2 tof M pro low maxiter atol rtol fo clock = .ok out)
    (htol : atol + rtol * tof < tof) :
    NotAligned r1 r2 ∧
    (∃ T, LambertArc mu r1 r2 out.v1 out.v2 T M.toNat ∧
      (T = tof ∨ |T - tof| ≤ atol + rtol * tof)) ∧
      (NotPolar r1 r2 → Sense pro r1 out.v1) := by
  unfold delatorre2018 at h
  simp only [bind_ok, psqrt_ok, stumpff0_eq, pdiv_ok, vdiv_ok] at h
  obtain ⟨_, ha, θ, hθ, _, ⟨_, rfl⟩, ⟨z, k⟩, hz, _, hc0, p, ⟨hV0, hp⟩, _, ⟨hp0, rfl⟩, _, ⟨_, rfl⟩,
    g, ⟨_, hg⟩, _, ⟨_, rfl⟩, v1, ⟨hg0, rfl⟩, v2, ⟨_, rfl⟩, _, _, h⟩ := h
  have hc0 := (Except.ok.inj hc0).symm
  subst hc0
  obtain ⟨hmu, -, -, htof, hM⟩ := assertParameters_ok ha
  have hsin : Real.sin θ ≠ 0 := by
    intro h0; apply hg0; rw [hg, h0]; simp
  have hna := notAligned_of_sin hθ hsin
  have hang := angle_of_eq hna hθ
  have hR1 := norm_pos_of_notAligned_left hna
  have hR2 := norm_pos_of_notAligned_right hna
  obtain ⟨hG, hshort⟩ := hang.halfGeo hna
  have hr2 : Real.sqrt 2 ^ 2 = 2 := Real.sq_sqrt (by norm_num)
  have hQ : 2 * Real.sqrt (V3.norm r1 * V3.norm r2) * Real.cos (θ / 2) =
      Real.sqrt 2 * halfA (V3.norm r1) (V3.norm r2) θ := by
    unfold halfA
    linear_combination (-(Real.sqrt (V3.norm r1 * V3.norm r2) * Real.cos (θ / 2))) * hr2
  have hPQ : |Real.sqrt 2 * halfA (V3.norm r1) (V3.norm r2) θ| ≤ V3.norm r1 + V3.norm r2 := by
    apply abs_le_of_sq_le_sq _ (by positivity)
    rw [mul_pow, hr2]
    nlinarith [hG.A2_lt, sq_nonneg (V3.norm r1 - V3.norm r2)]
  rw [hQ] at hz
  simp only at hV0 hp h
  rw [hQ] at hV0 hp
  obtain ⟨hzlt, hzpos, _, _, t, ht, htt⟩ := findZ_ok hmu htof hM hPQ htol hz
  obtain ⟨hVn, _, hteq⟩ := tofEquation_ok hmu ht
  have hV : 0 < VofZ (V3.norm r1 + V3.norm r2)
      (Real.sqrt 2 * halfA (V3.norm r1) (V3.norm r2) θ) z :=
    lt_of_le_of_ne hVn (Ne.symm hV0)
  obtain ⟨V, hVd⟩ : ∃ V, V = VofZ (V3.norm r1 + V3.norm r2)
      (Real.sqrt 2 * halfA (V3.norm r1) (V3.norm r2) θ) z := ⟨_, rfl⟩
  have hp' : p = V3.norm r1 * V3.norm r2 * (1 - Real.cos θ) / V := by rw [hVd]; exact hp
  rw [← hVd] at hV
  have hgA := g_pform hang hna hmu hV hp'
  rw [← hg] at hgA
  have hout := (Except.ok.inj h).symm
  subst hout
  have hv1 : g⁻¹ • (r2 - (1 - V3.norm r2 * (1 - Real.cos θ) / p) • r1) =
      fgV1 mu r1 r2 (halfA (V3.norm r1) (V3.norm r2) θ) V := by
    rw [f_pform hR1 hR2 hang.cos_lt_one.ne' hV hp', hgA]; rfl
  have hv2 : g⁻¹ • ((1 - V3.norm r1 * (1 - Real.cos θ) / p) • r2 - r1) =
      fgV2 mu r1 r2 (halfA (V3.norm r1) (V3.norm r2) θ) V := by
    rw [gdot_pform hR1 hR2 hang.cos_lt_one.ne' hV hp', hgA]; rfl
  simp only [mkOutput_v1, mkOutput_v2]
  rw [hv1, hv2]
  refine ⟨hna, ⟨t, ?_, htt⟩, fun hnp => sense_of_sign hmu hV hG.hA hnp hshort⟩
  obtain ⟨m, rfl⟩ := Int.eq_ofNat_of_zero_le hM
  simp only [Int.toNat_natCast]
  apply Path.arc hmu hG
  by_cases hm : m = 0
  · subst hm
    simp only [Nat.cast_zero, if_true, add_zero] at hteq
    rw [hteq, hVd]
    exact path_zero hzlt (by rw [← hVd]; exact hV)
  · have hm' : (m : ℤ) ≠ 0 := by exact_mod_cast hm
    rw [if_neg hm'] at hteq
    rw [hteq, hVd]
    exact path_multi hmu (hzpos hm') hzlt (by rw [← hVd]; exact hV)

end Lamberthub
