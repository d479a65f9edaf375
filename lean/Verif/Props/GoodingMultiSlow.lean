import Verif.Proofs.GoodingMultiSlow
import Verif.Props.GoodingMultiSolves
import Verif.Props.JiangFast

/-!
# C81: `gooding1990` answers long problems with many revolutions by transfers that are far too fast

The specification is `Spec.LambertArc` and `Spec.Sense`.
-/

set_option autoImplicit false

namespace Lamberthub
open Filter Topology Spec LC

namespace Gooding

/-- `xlamb` with revolutions for long times: one pass on either side, and the times belonging to the two values
returned are negligible compared with the requested one. -/
theorem xlamb_multi_slow {q : ℝ} {M : ℕ} (hq : q ^ 2 < 1) (hM : 1 ≤ M) {atol rtol : ℝ} (ha : 0 < atol) (hr : 0 < rtol)
    {x0 xm y : ℝ} {num maxiter : ℕ} (hmax : 1 ≤ maxiter) (hx0 : xmStart M (arctan2 (1 - q ^ 2) (2.0 * q) / Real.pi) = .ok x0)
    (hl : tminLoop M q (1 - q ^ 2) atol rtol maxiter 1 x0 = .ok (xm, 2 * revT q M y, 2 * rev2 q M y, num))
    (hne : num + 1 ≠ maxiter) (hy : 0 < rev2 q M y) (hxm : xm < 1) (full : Bool) (clock : ℝ) :
    ∃ v w : ℝ → ℝ, Tendsto v atTop (𝓝[>] 0) ∧ Tendsto w atTop (𝓝[>] 0) ∧
      Tendsto (fun τ => revT q M (-1 * (1 - v τ)) / τ) atTop (𝓝 0) ∧ Tendsto (fun τ => revT q M (1 * (1 - w τ)) / τ) atTop (𝓝 0) ∧
      ∀ᶠ τ in atTop, ∃ tpi, xlamb M q (1 - q ^ 2) (2 * τ) maxiter atol rtol full clock =
        .ok (.five 2 (-1 * (1 - v τ)) (1 * (1 - w τ)) 1 tpi) := by
  obtain ⟨t0, t1⟩ := thr2_mem hq
  generalize hthr : arctan2 (1 - q ^ 2) (2.0 * q) / Real.pi = thr2 at t0 t1 hx0
  obtain ⟨uf, lf, ⟨cf, cf0, hcf⟩, hf⟩ := firstStart_long (M := M) (tmin := 2 * revT q M y) t0 t1 hxm
    (show 0 < 2 * rev2 q M y by linarith)
  obtain ⟨us, ls, ⟨cs, cs0, hcs⟩, hs⟩ := secondStart_long (M := M) hq hM t0 t1
  obtain ⟨w, lw, lw', hw⟩ := iter_slow_rev hq (.inl rfl) hM lf cf0 hcf ha hr
  obtain ⟨v, lv, lv', hv⟩ := iter_slow_rev hq (.inr rfl) hM ls cs0 hcs ha hr
  refine ⟨v, w, lv, lw, lv', lw', ?_⟩
  obtain ⟨k, rfl⟩ := Nat.exists_eq_add_of_le' hmax
  filter_upwards [hf, hs, hw, hv, (tendsto_nhdsWithin_iff.1 lf).2, eventually_gt_atTop (revT q M y)]
    with τ h1 h2 h3 h4 h5 h6
  have h5' : 0 < uf τ := h5
  obtain ⟨tpi, htpi⟩ : ∃ tpi, finish M q (1 - q ^ 2) (2 * τ) (k + 1) atol rtol full clock 2 (-1 * (1 - us τ)) (1 * (1 - w τ)) =
      .ok (.five 2 (-1 * (1 - v τ)) (1 * (1 - w τ)) 1 tpi) := by
    rw [finish, h4, ok_bind]
    cases full
    · exact ⟨0.0, rfl⟩
    · refine ⟨clock / ((1 : ℕ) : ℝ), ?_⟩
      simp only [if_true]
      rw [pdiv_eq (by norm_num), ok_bind]
  refine ⟨tpi, ?_⟩
  have hm0 : (M : ℤ) ≠ 0 := by omega
  unfold xlamb xlambMulti
  simp only []
  rw [if_neg hm0, hthr, hx0, ok_bind, hl, ok_bind]
  simp only []
  rw [raiseIf_neg _ hne, ok_bind, raiseIf_neg _ (by linarith), ok_bind, if_neg (by linarith),
    if_neg (by linarith : ¬ 2 * rev2 q M y = 0), h1, ok_bind, if_neg (by norm_num; linarith), h3, ok_bind]
  simp only []
  rw [h2, ok_bind]
  exact htpi

end Gooding

/-- The initial velocity and the number of revolutions determine the time of a transfer. -/
theorem arc_time_unique_rev {mu : ℝ} (hmu : 0 < mu) {r1 r2 v1 v2 w2 : V3} {T T' : ℝ} {pro : Bool} (hnp : NotPolar r1 r2)
    (hsn : Sense pro r1 v1) {M : ℕ} (hM : 1 ≤ M) (h : LambertArc mu r1 r2 v1 v2 T M) (h' : LambertArc mu r1 r2 v1 w2 T' M) :
    T = T' := by
  have hna : NotAligned r1 r2 := fun h => hnp h.2.2
  obtain ⟨s, q, hS, hq0, hqs, hG, harc⟩ := rev_arcs hmu hnp pro
  have hs := hS.spos
  obtain ⟨x, -, -, rfl, e1⟩ := (harc hM T (v1, v2)).1 ⟨h, hsn⟩
  obtain ⟨x', -, -, rfl, e2⟩ := (harc hM T' (v1, w2)).1 ⟨h', hsn⟩
  have e3 : fgV1 mu r1 r2 (Real.sqrt 2 * s * q) (s * (lancY q x - q * x) ^ 2) =
      fgV1 mu r1 r2 (Real.sqrt 2 * s * q) (s * (lancY q x' - q * x') ^ 2) :=
    (congrArg Prod.fst e1).symm.trans (congrArg Prod.fst e2)
  have he := congrArg (energy mu r1) e3
  rw [rev_energy hmu hq0 hG hS, rev_energy hmu hq0 hG hS] at he
  have hx2 : x ^ 2 = x' ^ 2 := by
    have h0 : -(mu / s) ≠ 0 := neg_ne_zero.2 (by positivity)
    have := mul_left_cancel₀ h0 he
    linarith
  have hη := (lanc_lancY hS.lam_lt x).eta_pos
  have hη' := (lanc_lancY hS.lam_lt x').eta_pos
  have hy : lancY q x = lancY q x' := by unfold lancY; rw [hx2]
  have hsq := outer_sq_pos hna
  have e4 := congrArg (fun v => Spec.inner (outer r1 v) (outer r1 r2)) e3
  simp only [outer_fgV1] at e4
  have e5 : ∀ k : ℝ, Spec.inner (k • outer r1 r2) (outer r1 r2) = k * Spec.inner (outer r1 r2) (outer r1 r2) := by
    intro k; unfold Spec.inner; simp; ring
  rw [e5, e5] at e4
  have e6 := mul_left_cancel₀ hG.hA (inv_injective (mul_right_cancel₀ hsq.ne' e4))
  rw [Real.sqrt_inj (by positivity) (by positivity)] at e6
  have e7 : (lancY q x - q * x) ^ 2 = (lancY q x' - q * x') ^ 2 := by
    field_simp at e6
    exact e6
  have e8 := (pow_left_inj₀ hη.le hη'.le two_ne_zero).1 e7
  rw [hy] at e8
  have : x = x' := mul_left_cancel₀ hq0 (by linarith)
  rw [this]

open Gooding in
/-- **C81.**  For every geometry there is a number of revolutions from which on, on both paths, `gooding1990` answers
every long enough request after a single counted pass, with a transfer that has the number of revolutions and
the sense asked for but whose time of flight is a vanishing part of the requested one. -/
theorem gooding_multi_slow_ratio {mu : ℝ} (hmu : 0 < mu) {r1 r2 : V3} (hnp : NotPolar r1 r2) (pro : Bool) :
    ∃ M0 : ℕ, 1 ≤ M0 ∧ ∀ M : ℕ, M0 ≤ M → ∀ atol rtol : ℝ, 0 < atol → 0 < rtol → ∀ n maxiter : ℕ, 1 ≤ atol * 2 ^ n → n + 3 ≤ maxiter →
      ∀ (low full : Bool) (clock : ℝ), ∃ T' : ℝ → ℝ, Tendsto (fun tof => T' tof / tof) atTop (𝓝 0) ∧
      ∀ᶠ tof in atTop, ∃ v1 v2 tpi,
        gooding1990 mu r1 r2 tof M pro low maxiter atol rtol full clock = .ok (mkOutput full v1 v2 1 tpi) ∧
        LambertArc mu r1 r2 v1 v2 (T' tof) M ∧ Sense pro r1 v1 := by
  have hna : NotAligned r1 r2 := fun h => hnp h.2.2
  obtain ⟨s, q, hS, hq0, hqs, hG, harc⟩ := rev_arcs hmu hnp pro
  have hs := hS.spos
  have hq := hS.lam_lt
  have hU : 0 < Real.sqrt (s ^ 3 / (2 * mu)) := by positivity
  have hinv : Real.sqrt (2 * mu / s ^ 3) = (Real.sqrt (s ^ 3 / (2 * mu)))⁻¹ := by rw [← Real.sqrt_inv, inv_div]
  have h8 : Real.sqrt (8 * mu / s ^ 3) = 2 * (Real.sqrt (s ^ 3 / (2 * mu)))⁻¹ := by
    rw [show 8 * mu / s ^ 3 = 2 ^ 2 * (2 * mu / s ^ 3) by ring, Real.sqrt_mul (by norm_num), Real.sqrt_sq (by norm_num), hinv]
  generalize hUe : Real.sqrt (s ^ 3 / (2 * mu)) = U at *
  obtain ⟨M0, hM0, hsearch⟩ := search_many hq
  refine ⟨M0, hM0, fun M hM atol rtol hat hrt n maxiter hn hmax low full clock => ?_⟩
  have hM' : 1 ≤ M := hM0.trans hM
  obtain ⟨m, hm⟩ := exists_fastest hq hM'
  obtain ⟨-, -, -, hsr⟩ := hsearch M hM m hm
  obtain ⟨x0, xm, y, num, hx0, hl, hne, hsr⟩ := hsr atol rtol hat hrt.le n maxiter hn hmax
  have hy2 : 0 < rev2 q M y := hsr.2.2.2.2.1
  have hxm1 : xm < 1 := hsr.2.2.2.2.2
  obtain ⟨v, w, lv, lw, lv', lw', hx⟩ := xlamb_multi_slow hq hM' hat hrt (by omega) hx0 hl hne hy2 hxm1 full clock
  have hτ : Tendsto (fun tof : ℝ => tof / U) atTop atTop := tendsto_id.atTop_div_const hU
  obtain ⟨X, hX⟩ : ∃ X : ℝ → ℝ, X = fun τ => if low = true then 1 * (1 - w τ) else -1 * (1 - v τ) := ⟨_, rfl⟩
  have lX : Tendsto (fun τ => revT q M (X τ) / τ) atTop (𝓝 0) := by
    rw [hX]
    cases low
    · simpa using lv'
    · simpa using lw'
  refine ⟨fun tof => U * revT q M (X (tof / U)), ?_, ?_⟩
  · refine (lX.comp hτ).congr' ?_
    filter_upwards [eventually_gt_atTop 0] with tof h0
    simp only [Function.comp]
    field_simp
  · obtain ⟨v0, vp⟩ := tendsto_nhdsWithin_iff.1 lv
    obtain ⟨w0, wp⟩ := tendsto_nhdsWithin_iff.1 lw
    filter_upwards [hτ.eventually hx, eventually_gt_atTop 0, hτ.eventually vp, hτ.eventually wp,
      hτ.eventually (v0.eventually (gt_mem_nhds one_pos)), hτ.eventually (w0.eventually (gt_mem_nhds one_pos))]
      with tof ⟨tpi, hx⟩ h0 h1 h2 h3 h4
    have h1' : 0 < v (tof / U) := h1
    have h2' : 0 < w (tof / U) := h2
    obtain ⟨s', q', hS', hG', hqs', heq⟩ := gooding_eq (M := M) pro low maxiter atol rtol clock full hna hmu h0
    obtain ⟨e1, e2⟩ := semi_unique hS hS' hq0 (hqs.trans hqs'.symm)
    rw [e1, e2, h8, show 2 * U⁻¹ * tof = 2 * (tof / U) by ring, hx, ok_bind] at heq
    simp only [] at heq
    have hsel : selectRoot low 2 (-1 * (1 - v (tof / U))) (1 * (1 - w (tof / U))) = X (tof / U) := by
      rw [hX, selectRoot, if_pos (by norm_num)]
      simp only []
      cases low
      · rw [if_neg (by norm_num), if_neg (by norm_num), min_eq_left (by linarith)]
      · rw [if_pos rfl, if_pos rfl, max_eq_right (by linarith)]
    rw [hsel] at heq
    have hXd : -1 < X (tof / U) ∧ X (tof / U) < 1 := by
      rw [hX]
      simp only []
      split_ifs <;> constructor <;> linarith
    obtain ⟨hA, hSn⟩ := (harc hM' (U * revT q M (X (tof / U))) (revV mu r1 r2 s q (X (tof / U)))).2
      ⟨X (tof / U), hXd.1, hXd.2, rfl, rfl⟩
    exact ⟨_, _, tpi, heq, hA, hSn⟩

/-- **Finding (C81).**  In words: from some number of revolutions on and for every factor `c`, all long enough requests
are answered by an orbit that is more than `c` times too fast. -/
theorem gooding_multi_slow_wrong {mu : ℝ} (hmu : 0 < mu) {r1 r2 : V3} (hnp : NotPolar r1 r2) (pro : Bool) :
    ∃ M0 : ℕ, 1 ≤ M0 ∧ ∀ M : ℕ, M0 ≤ M → ∀ atol rtol : ℝ, 0 < atol → 0 < rtol → ∀ n maxiter : ℕ, 1 ≤ atol * 2 ^ n → n + 3 ≤ maxiter →
      ∀ (low full : Bool) (clock c : ℝ), 1 ≤ c → ∀ᶠ tof in atTop, ∃ v1 v2 tpi T',
        gooding1990 mu r1 r2 tof M pro low maxiter atol rtol full clock = .ok (mkOutput full v1 v2 1 tpi) ∧
        LambertArc mu r1 r2 v1 v2 T' M ∧ Sense pro r1 v1 ∧ c * T' < tof ∧ ¬ LambertArc mu r1 r2 v1 v2 tof M := by
  obtain ⟨M0, hM0, h⟩ := gooding_multi_slow_ratio hmu hnp pro
  refine ⟨M0, hM0, fun M hM atol rtol hat hrt n maxiter hn hmax low full clock c hc => ?_⟩
  obtain ⟨T', hl, hev⟩ := h M hM atol rtol hat hrt n maxiter hn hmax low full clock
  have hcp : 0 < 1 / c := by positivity
  filter_upwards [hev, hl.eventually (gt_mem_nhds hcp), eventually_gt_atTop 0] with tof ⟨v1, v2, tpi, e, harc, hs⟩ h1 h0
  have h2 : c * T' tof < tof := by
    rw [div_lt_div_iff₀ h0 (by linarith)] at h1
    linarith
  refine ⟨v1, v2, tpi, _, e, harc, hs, h2, fun h => ?_⟩
  have h3 := arc_time_unique_rev hmu hnp hs (hM0.trans hM) harc h
  rw [h3] at h2
  nlinarith

/-- A quarter turn, the default tolerances and limit: more than a thousand times too fast. -/
example : ∃ M0 : ℕ, ∀ M : ℕ, M0 ≤ M → ∀ᶠ tof in atTop, ∃ v1 v2 tpi T',
    gooding1990 1 ⟨1, 0, 0⟩ ⟨0, 1, 0⟩ tof M true true 35 1e-5 1e-7 false 1 = .ok (mkOutput false v1 v2 1 tpi) ∧
    LambertArc 1 ⟨1, 0, 0⟩ ⟨0, 1, 0⟩ v1 v2 T' M ∧ Sense true ⟨1, 0, 0⟩ v1 ∧ 1000 * T' < tof ∧
    ¬ LambertArc 1 ⟨1, 0, 0⟩ ⟨0, 1, 0⟩ v1 v2 tof M := by
  obtain ⟨M0, -, h⟩ := gooding_multi_slow_wrong one_pos (r1 := ⟨1, 0, 0⟩) (r2 := ⟨0, 1, 0⟩) (by simp [NotPolar]) true
  exact ⟨M0, fun M hM => h M hM _ _ (by norm_num) (by norm_num) 17 35 (by norm_num) (by norm_num) true false 1 1000 (by norm_num)⟩

end Lamberthub
