import Verif.Props.Pan
import Verif.Props.ValladoMore

/-! # C68: where `pan2016` is `vallado2013` under another name -/

set_option autoImplicit false

namespace Lamberthub
open Spec LC Pan

namespace Pan

/-- What `pan2016` does with a valid problem. -/
theorem entry {mu : ℝ} (hmu : 0 < mu) {r1 r2 : V3} (hna : NotAligned r1 r2) (pro : Bool) :
    ∃ g θ, Angle pro r1 r2 θ ∧ Plane r1 r2 θ g ∧ ∀ tof, 0 < tof → ∀ (b : Brent) (low : Bool) (N : ℕ) (atol rtol : ℝ)
      (full : Bool) (clock : ℝ), pan2016 b mu r1 r2 tof 0 pro low N atol rtol full clock =
      if |V3.norm r1 - V3.norm r2| ≤ atol + 1e-8 * |V3.norm r2| then
        vallado2013 mu r1 r2 tof 0 pro low N atol rtol full clock
      else match findArgumentOfPeriapsis b mu g tof N atol rtol with
        | .ok (omega, numiter) => finish mu g full clock omega numiter
        | .error (.valueError _) => vallado2013 mu r1 r2 tof 0 pro low N atol rtol full clock
        | .error e => .error e := by
  have hA := angle_of_eq hna (transferAngle_eq hna pro)
  have h1 : r1 ≠ 0 := by rintro rfl; simp [NotAligned] at hna
  have h12 : r1 ≠ r2 := by rintro rfl; simp [NotAligned, mul_comm] at hna
  obtain ⟨g, hg, hP⟩ := planarGeometry_eq hA hna
  refine ⟨g, _, hA, hP, fun tof htof b low N atol rtol full clock => ?_⟩
  unfold pan2016
  rw [raiseIf_neg _ (by norm_num), ok_bind, assertParameters_eq hmu h1 h12 htof le_rfl, ok_bind,
    transferAngle_eq hna pro, ok_bind]
  simp only [assertTransferAngleNotZero, assertTransferAngleNotPi]
  rw [raiseIf_neg _ hA.pos.ne', ok_bind, raiseIf_neg _ hA.ne_pi, ok_bind, hg, ok_bind]
  generalize vallado2013 mu r1 r2 tof 0 pro low N atol rtol full clock = v
  generalize findArgumentOfPeriapsis b mu g tof N atol rtol = x
  refine if_congr Iff.rfl rfl ?_
  rcases x with e | ⟨w, n⟩
  · cases e <;> rfl
  · rfl

/-- Without a change of sign between two samples, the search fails. -/
theorem find_none {b : Brent} {mu : ℝ} {g : Geometry} {tof : ℝ} {N : ℕ} {atol rtol : ℝ}
    (h : ∀ idx < 720, bracketAt mu g tof idx = none) :
    findArgumentOfPeriapsis b mu g tof N atol rtol = .error (.valueError "No feasible solution, try lower M!") := by
  have : getOmegaBrackets mu g tof = [] := by
    unfold getOmegaBrackets
    rw [List.filterMap_eq_nil_iff]
    intro idx hidx
    exact h idx (List.mem_range.1 hidx)
  unfold findArgumentOfPeriapsis
  rw [this]

/-- The sampled flight times have a common upper bound. -/
theorem samples_bounded (mu : ℝ) (g : Geometry) (n : ℕ) :
    ∃ t2, ∀ idx < n, ∀ T, tofAtOmega mu g (sample idx) = .ok T → T ≤ t2 := by
  induction n with
  | zero => exact ⟨0, fun idx h => absurd h (Nat.not_lt_zero _)⟩
  | succ n ih =>
    obtain ⟨t2, h⟩ := ih
    rcases hT : tofAtOmega mu g (sample n) with e | T
    · refine ⟨t2, fun idx hi T' hT' => ?_⟩
      rcases Nat.lt_succ_iff_lt_or_eq.1 hi with hi | rfl
      · exact h idx hi T' hT'
      · rw [hT] at hT'; cases hT'
    · refine ⟨max t2 T, fun idx hi T' hT' => ?_⟩
      rcases Nat.lt_succ_iff_lt_or_eq.1 hi with hi | rfl
      · exact (h idx hi T' hT').trans (le_max_left _ _)
      · rw [hT] at hT'
        obtain rfl := Except.ok.inj hT'
        exact le_max_right _ _

theorem safeResidual_some {mu : ℝ} {g : Geometry} {tof omega v : ℝ} (h : safeResidual mu g tof omega = some v) :
    tofAtOmega mu g omega = .ok (v + tof) := by
  unfold safeResidual residual at h
  rcases hT : tofAtOmega mu g omega with e | T
  · rw [hT] at h; cases h
  · rw [hT] at h
    have : T - tof = v := by simpa [Bind.bind, Except.bind] using h
    rw [← this, sub_add_cancel]

theorem bracketAt_slow {mu : ℝ} {g : Geometry} {tof t2 : ℝ} {idx : ℕ}
    (h : ∀ j < 721, ∀ T, tofAtOmega mu g (sample j) = .ok T → T ≤ t2) (ht : t2 < tof) (hi : idx < 720) :
    bracketAt mu g tof idx = none := by
  unfold bracketAt
  split
  · rename_i l r hl hr
    have h1 := h idx (by omega) _ (safeResidual_some hl)
    have h2 := h (idx + 1) (by omega) _ (safeResidual_some hr)
    rw [if_neg (by linarith), if_neg (by nlinarith)]
  · rfl

theorem chord_sq {pro : Bool} {r1 r2 : V3} {θ : ℝ} {g : Geometry} (hA : Angle pro r1 r2 θ) (hP : Plane r1 r2 θ g) :
    g.xc ^ 2 + g.yc ^ 2 = V3.norm (r2 - r1) ^ 2 := by
  have hc := hA.cos_eq
  have := Real.sin_sq_add_cos_sq θ
  rw [hP.xc, hP.yc]
  have e : V3.norm (r2 - r1) ^ 2 = V3.norm r1 ^ 2 + V3.norm r2 ^ 2 - 2 * V3.dot r1 r2 := by
    simp only [norm_sq]
    simp [V3.dot]; ring
  rw [e]
  linear_combination V3.norm r2 ^ 2 * this - 2 * hc

/-- With a chord of at most `1e-4`, no sampled apse line passes the absolute tests of
`_elements_at_omega`. -/
theorem elements_small {pro : Bool} {r1 r2 : V3} {θ : ℝ} {g : Geometry} (hA : Angle pro r1 r2 θ)
    (hP : Plane r1 r2 θ g) (hc : V3.norm (r2 - r1) ≤ 1e-4) (omega : ℝ) :
    ∃ e, elementsAtOmega g omega = .error e := by
  have h1 := chord_sq hA hP
  have h0 : 0 ≤ V3.norm (r2 - r1) := Real.sqrt_nonneg _
  have hcc : V3.norm (r2 - r1) ^ 2 ≤ 1e-8 := by nlinarith
  have hsc := Real.sin_sq_add_cos_sq omega
  unfold elementsAtOmega
  simp only []
  set c := g.xc * Real.cos omega + g.yc * Real.sin omega with hcd
  have hc2 : c ^ 2 ≤ 1e-8 := by
    have : c ^ 2 + (g.xc * Real.sin omega - g.yc * Real.cos omega) ^ 2 = g.xc ^ 2 + g.yc ^ 2 := by
      rw [hcd]; linear_combination (g.xc ^ 2 + g.yc ^ 2) * hsc
    nlinarith [sq_nonneg (g.xc * Real.sin omega - g.yc * Real.cos omega)]
  have hd2 : (g.r1Norm - g.r2Norm) ^ 2 ≤ 1e-8 := by
    have hR1 : 0 ≤ V3.norm r1 := Real.sqrt_nonneg _
    have hR2 : 0 ≤ V3.norm r2 := Real.sqrt_nonneg _
    rw [hP.xc, hP.yc] at h1
    rw [hP.n1, hP.n2]
    have := Real.sin_sq_add_cos_sq θ
    have e : V3.norm (r2 - r1) ^ 2 = (V3.norm r1 - V3.norm r2) ^ 2 + 2 * (V3.norm r1 * V3.norm r2 * (1 - Real.cos θ)) := by
      rw [← h1]; linear_combination V3.norm r2 ^ 2 * this
    have : 0 ≤ V3.norm r1 * V3.norm r2 * (1 - Real.cos θ) :=
      mul_nonneg (mul_nonneg hR1 hR2) (by linarith [Real.cos_le_one θ])
    linarith
  by_cases hp : |c| ≤ 1e-8
  · rw [raiseIf_pos _ hp]; exact ⟨_, rfl⟩
  · have hc0 : c ≠ 0 := by rintro h; rw [h] at hp; norm_num at hp
    rw [raiseIf_neg _ hp, ok_bind, pdiv_eq hc0, ok_bind, raiseIf_pos _ (abs_le.2 ⟨by nlinarith [sq_nonneg (g.r1Norm - g.r2Norm)],
      by nlinarith [sq_nonneg c]⟩)]
    exact ⟨_, rfl⟩

end Pan

/-- **C68.** The tests `np.isclose(x, 0.0)` of `_elements_at_omega` are absolute: when the two
positions are closer than `1e-4` units of length (15000 km in astronomical units), Pan's
method is never tried and `pan2016` is `vallado2013`, for every time of flight and all
tolerances. -/
theorem pan_short_chord_is_vallado (b : Brent) {mu : ℝ} (hmu : 0 < mu) {r1 r2 : V3} (hna : NotAligned r1 r2)
    (hc : V3.norm (r2 - r1) ≤ 1e-4) {tof : ℝ} (htof : 0 < tof) (pro low : Bool) (N : ℕ) (atol rtol : ℝ) (full : Bool)
    (clock : ℝ) :
    pan2016 b mu r1 r2 tof 0 pro low N atol rtol full clock =
      vallado2013 mu r1 r2 tof 0 pro low N atol rtol full clock := by
  obtain ⟨g, θ, hA, hP, h⟩ := Pan.entry hmu hna pro
  rw [h tof htof, find_none]
  · simp
  · intro idx _
    have : ∀ ω, safeResidual mu g tof ω = none := fun ω => by
      obtain ⟨e, he⟩ := elements_small hA hP hc ω
      unfold safeResidual Pan.residual tofAtOmega
      rw [he]; rfl
    unfold bracketAt
    rw [this]

/-- **C68.** In every geometry, `pan2016` is `vallado2013` for all sufficiently long times of
flight: the 721 sampled ellipses have a longest flight time, beyond which no sign changes. -/
theorem pan_slow_is_vallado {mu : ℝ} (hmu : 0 < mu) {r1 r2 : V3} (hna : NotAligned r1 r2) (pro : Bool) :
    ∃ t2, ∀ tof > t2, ∀ (b : Brent) (low : Bool) (N : ℕ) (atol rtol : ℝ) (full : Bool) (clock : ℝ),
      pan2016 b mu r1 r2 tof 0 pro low N atol rtol full clock =
        vallado2013 mu r1 r2 tof 0 pro low N atol rtol full clock := by
  obtain ⟨g, θ, hA, hP, h⟩ := Pan.entry hmu hna pro
  obtain ⟨t2, ht2⟩ := samples_bounded mu g 721
  refine ⟨max t2 0, fun tof htof b low N atol rtol full clock => ?_⟩
  rw [h tof ((le_max_right _ _).trans_lt htof), find_none fun idx hi =>
    bracketAt_slow ht2 ((le_max_left _ _).trans_lt htof) hi]
  simp

/-- **C68.** Hence the slow problems are solved, with enough iterations. -/
theorem pan_slow_solved {mu : ℝ} (hmu : 0 < mu) {r1 r2 : V3} (hna : NotAligned r1 r2) (pro : Bool) {rtol : ℝ}
    (hr : 0 < rtol) :
    ∃ t2, ∀ tof > t2, ∃ N0 : ℕ, ∀ N ≥ N0, ∀ (b : Brent) (low : Bool) (atol : ℝ) (full : Bool) (clock : ℝ),
      ∃ out, pan2016 b mu r1 r2 tof 0 pro low N atol rtol full clock = .ok out ∧
        ∃ T, LambertArc mu r1 r2 out.v1 out.v2 T 0 ∧ |T - tof| ≤ rtol * tof ∧ (NotPolar r1 r2 → Sense pro r1 out.v1) := by
  obtain ⟨t2, h⟩ := pan_slow_is_vallado hmu hna pro
  refine ⟨max t2 (max 0 (parabolicTime mu r1 r2 pro)), fun tof ht => ?_⟩
  have ht0 : 0 < tof := ((le_max_left _ _).trans (le_max_right _ _)).trans_lt ht
  have htp : parabolicTime mu r1 r2 pro < tof := ((le_max_right _ _).trans (le_max_right _ _)).trans_lt ht
  obtain ⟨N0, hN⟩ := vallado_returns_elliptic hmu hna pro ht0 htp.le hr
  refine ⟨N0, fun N hNN b low atol full clock => ?_⟩
  obtain ⟨out, ho⟩ := hN N hNN 0 le_rfl low atol full clock
  obtain ⟨⟨T, hT, hc⟩, hs⟩ := vallado_kepler_transfer ho hna
  refine ⟨out, by rw [h tof ((le_max_left _ _).trans_lt ht)]; exact ho, T, hT, ?_, hs⟩
  exact hc.le

/-- **C68.** `pan2016` never stops on the positions at equal distance of the family of
`vallado_diverges`, for every hyperbolic time of flight. -/
theorem pan_diverges {mu : ℝ} (hmu : 0 < mu) {r1 r2 : V3} (hna : NotAligned r1 r2) {pro : Bool}
    (hsw : ShortWay pro r1 r2) {A : ℝ} (hA : A = Real.sqrt (V3.norm r1 * V3.norm r2 + V3.dot r1 r2))
    (hK1 : 7 / 2 * A ≤ V3.norm r1 * V3.norm r2) (hK2 : V3.norm r1 * V3.norm r2 ≤ 8 * A)
    (hP : V3.norm r1 + V3.norm r2 ≤ 2.18 * A) {tof atol rtol : ℝ} (htof : 0 < tof) (hr : 0 ≤ rtol)
    (hT : tof * (1 + rtol) ≤ parabolicTime mu r1 r2 pro) (hT' : tof < parabolicTime mu r1 r2 pro)
    (hd : |V3.norm r1 - V3.norm r2| ≤ atol) {N : ℕ} (hN : 2 ≤ N) (b : Brent) (low full : Bool) (clock : ℝ) :
    pan2016 b mu r1 r2 tof 0 pro low N atol rtol full clock = .error .diverges := by
  obtain ⟨g, θ, -, -, h⟩ := Pan.entry hmu hna pro
  rw [h tof htof, if_pos (by have := abs_nonneg (V3.norm r2); linarith)]
  exact vallado_diverges hmu hna hsw hA hK1 hK2 hP htof hr hT hT' le_rfl hN low atol full clock

/-- The hypotheses of `pan_short_chord_is_vallado`, `pan_slow_solved` and `pan_diverges`: a
transfer of half a chord limit, and a quarter turn at distance 5. -/
example : (NotAligned ⟨4e-5, 0, 0⟩ ⟨0, 6e-5, 0⟩ ∧ V3.norm (⟨0, 6e-5, 0⟩ - ⟨4e-5, 0, 0⟩) ≤ 1e-4) ∧
    (∃ tof N out, pan2016 exactBrent 1 ⟨4e-5, 0, 0⟩ ⟨0, 6e-5, 0⟩ tof 0 true true N 1e-5 1e-7 false 0 = .ok out) ∧
    ∃ tof, pan2016 exactBrent 1 ⟨5, 0, 0⟩ ⟨0, 5, 0⟩ tof 0 true true 35 1e-5 1e-7 false 0 = .error .diverges := by
  have hna' : NotAligned ⟨4e-5, 0, 0⟩ ⟨0, 6e-5, 0⟩ := by simp [NotAligned]; norm_num
  refine ⟨⟨hna', ?_⟩, ?_, ?_⟩
  · unfold V3.norm
    rw [Real.sqrt_le_left (by norm_num)]
    norm_num [V3.dot]
  · obtain ⟨t2, h⟩ := pan_slow_solved one_pos hna' true (rtol := 1e-7) (by norm_num)
    obtain ⟨N0, hN⟩ := h (t2 + 1) (by linarith)
    obtain ⟨out, ho, -⟩ := hN N0 le_rfl exactBrent true 1e-5 false 0
    exact ⟨_, _, out, ho⟩
  · have hna : NotAligned ⟨5, 0, 0⟩ ⟨0, 5, 0⟩ := by simp [NotAligned]
    have n1 : V3.norm ⟨5, 0, 0⟩ = 5 := by simp [V3.norm, V3.dot]
    have n2 : V3.norm ⟨0, 5, 0⟩ = 5 := by simp [V3.norm, V3.dot]
    have hd : V3.dot ⟨5, 0, 0⟩ ⟨0, 5, 0⟩ = 0 := by simp [V3.dot]
    have hs : Real.sqrt (5 * 5 + 0) = 5 := by rw [add_zero]; exact Real.sqrt_mul_self (by norm_num)
    have hpt := (vallado_returns_parabolic one_pos hna true true 0 0 one_pos false 0).1
    rw [(Vallado.parabolic one_pos hna true).2] at hpt
    refine ⟨parabolicTime 1 ⟨5, 0, 0⟩ ⟨0, 5, 0⟩ true / 2, pan_diverges one_pos hna (by simp [ShortWay, crossZ])
      (A := 5) (by rw [n1, n2, hd, hs]) (by rw [n1, n2]; norm_num) (by rw [n1, n2]; norm_num)
      (by rw [n1, n2]; norm_num) (by linarith) (by norm_num) (by linarith) (by linarith) (by rw [n1, n2]; norm_num)
      (by norm_num) _ _ _ _⟩

end Lamberthub
