import Verif.Proofs.IzzoRun
import Verif.Props.Order

/-! # `gooding1990` without revolutions, in terms of its starting value and iteration -/

set_option autoImplicit false

namespace Lamberthub
open Filter Topology Spec LC

namespace Gooding
open Izzo (tm tm1 tm2)

/-- What `tlamb` computes for the iteration: the time and its first two derivatives. -/
theorem tlamb_two {q x : ℝ} (hq : q ^ 2 < 1) (h1 : -1 < x) (h2 : x ≠ 1) :
    ∃ d, tlamb 0 q (1 - q ^ 2) x 2 = .ok (2 * tm q x, 2 * tm1 q x, 2 * tm2 q x, d) := by
  obtain ⟨T, T1, T2, T3, hD⟩ := gooding_derivatives hq 0
  have hT : ∀ t, -1 < t → T t = 2 * tm q t := fun t ht => gooding_time hq ht (.inl rfl) (hD t ht (.inl rfl)).1
  have hT1 : ∀ t, -1 < t → t ≠ 1 → T1 t = 2 * tm1 q t := by
    intro t a b
    refine (hD t a (.inl rfl)).2.2.2.1.unique (((lancT_hasDerivAt hq a b 0).const_mul 2).congr_of_eventuallyEq ?_)
    filter_upwards [eventually_gt_nhds a] with s hs using hT s hs
  have hT2 : T2 x = 2 * tm2 q x := by
    have d1 := lancT_hasDerivAt hq h1 h2 0
    refine (hD x h1 (.inl rfl)).2.2.2.2.1.unique
      (((lancT1_hasDerivAt hq (one_sub_sq_ne h1 h2) d1).const_mul 2).congr_of_eventuallyEq ?_)
    filter_upwards [eventually_gt_nhds h1, eventually_ne_nhds h2] with s hs hs' using hT1 s hs hs'
  obtain ⟨d, hd⟩ := (hD x h1 (.inl rfl)).2.1
  rw [hT x h1, hT1 x h1 h2, hT2, Nat.cast_zero] at hd
  exact ⟨d, hd⟩

/-- The point to which one pass of the iteration moves. -/
noncomputable def nextX (q τ x : ℝ) : ℝ := x + (τ - tm q x) * tm1 q x / (tm1 q x ^ 2 + (τ - tm q x) * tm2 q x / 2)

/-- One pass of `_xlamb_iter`. -/
theorem iter_succ {q τ x : ℝ} (hq : q ^ 2 < 1) (h1 : -1 < x) (h2 : x ≠ 1) (h3 : x ≠ 0) (hd : tm1 q x ≠ 0)
    (hn : tm1 q x ^ 2 + (τ - tm q x) * tm2 q x / 2 ≠ 0) (atol rtol : ℝ) (maxiter k n : ℕ) (xold : ℝ) :
    xlambIter 0 q (1 - q ^ 2) (2 * τ) atol rtol maxiter (k + 1) n x xold =
      if |nextX q τ x - x| ≤ atol ∧ |nextX q τ x / x - 1| ≤ rtol then .ok (nextX q τ x, n)
      else xlambIter 0 q (1 - q ^ 2) (2 * τ) atol rtol maxiter k (n + 1) (nextX q τ x) x := by
  obtain ⟨d, htl⟩ := tlamb_two hq h1 h2
  have hn' : 2 * tm1 q x * (2 * tm1 q x) + (2 * τ - 2 * tm q x) * (2 * tm2 q x) / 2.0 ≠ 0 := by
    intro h; apply hn; norm_num at h; linarith
  have e : x + (2 * τ - 2 * tm q x) * (2 * tm1 q x) /
      (2 * tm1 q x * (2 * tm1 q x) + (2 * τ - 2 * tm q x) * (2 * tm2 q x) / 2.0) = nextX q τ x := by
    rw [nextX]
    congr 1
    rw [show 2 * tm1 q x * (2 * tm1 q x) + (2 * τ - 2 * tm q x) * (2 * tm2 q x) / 2.0 =
      4 * (tm1 q x ^ 2 + (τ - tm q x) * tm2 q x / 2) by norm_num; ring,
      show (2 * τ - 2 * tm q x) * (2 * tm1 q x) = 4 * ((τ - tm q x) * tm1 q x) by ring,
      mul_div_mul_left _ _ (by norm_num)]
  rw [xlambIter, htl, ok_bind]
  simp only []
  rw [halleyStep, if_pos (mul_ne_zero two_ne_zero hd), pdiv_eq hn', ok_bind, ok_bind]
  simp only [e]
  rw [pdiv_eq h3, ok_bind]

theorem thr2_mem {q : ℝ} (hq : q ^ 2 < 1) :
    0 < arctan2 (1 - q ^ 2) (2.0 * q) / Real.pi ∧ arctan2 (1 - q ^ 2) (2.0 * q) / Real.pi < 1 := by
  have h : 0 < (1 - q ^ 2 : ℝ) := by linarith
  have h0 : 0 ≤ arctan2 (1 - q ^ 2) (2.0 * q) := Complex.arg_nonneg_iff.2 h.le
  have h1 : arctan2 (1 - q ^ 2) (2.0 * q) ≠ 0 := by
    intro h'
    have := (Complex.arg_eq_zero_iff.1 h').2
    simp only [] at this
    linarith
  have h2 : arctan2 (1 - q ^ 2) (2.0 * q) ≠ Real.pi := by
    intro h'
    have := (Complex.arg_eq_pi_iff.1 h').2
    simp only [] at this
    linarith
  have h3 : arctan2 (1 - q ^ 2) (2.0 * q) ≤ Real.pi := Complex.arg_le_pi _
  refine ⟨div_pos (lt_of_le_of_ne h0 (Ne.symm h1)) Real.pi_pos, ?_⟩
  rw [div_lt_one Real.pi_pos]
  exact lt_of_le_of_ne h3 h2

/-- `gooding1990` without revolutions: what it returns is given by its starting value and iteration. -/
theorem run_zero {mu : ℝ} (hmu : 0 < mu) {r1 r2 : V3} (hna : NotAligned r1 r2) (pro : Bool) :
    ∃ U q thr2 : ℝ, 0 < U ∧ U = timeUnit mu r1 r2 ∧ q ^ 2 < 1 ∧ q ≠ 0 ∧ 0 < thr2 ∧ thr2 < 1 ∧
      (0 < q ↔ ShortWay pro r1 r2) ∧ leastEnergyTime mu r1 r2 pro 0 = U * tm q 0 ∧
      ∀ (tof : ℝ), 0 < tof → ∀ (low : Bool) (n : ℕ) (atol rtol : ℝ) (full : Bool) (clock x0 x : ℝ) (k : ℕ),
        singleStart q (1 - q ^ 2) (2 * (tof / U)) thr2 = .ok x0 →
        xlambIter 0 q (1 - q ^ 2) (2 * (tof / U)) atol rtol n n 1 x0 x0 = .ok (x, k) → k ≠ 0 →
        ∃ tpi v1 v2, gooding1990 mu r1 r2 tof 0 pro low n atol rtol full clock = .ok (mkOutput full v1 v2 k tpi) ∧
          energyOf mu r1 v1 = -(1 - x ^ 2) * mu / semiPerimeter r1 r2 ∧
          (NotPolar r1 r2 → Sense pro r1 v1) ∧ (-1 < x → LambertArc mu r1 r2 v1 v2 (U * tm q x) 0) := by
  obtain ⟨s, q, hS, hG, hqs, -⟩ := gooding_eq (tof := 1) (M := 0) pro true 1 1 1 1 true hna hmu one_pos
  have hs := hS.spos
  have hl := hS.lam_lt
  have hq0 : q ≠ 0 := by rintro rfl; exact hG.hA (by ring)
  have hU : 0 < Real.sqrt (s ^ 3 / (2 * mu)) := by positivity
  have hqU : Real.sqrt (8 * mu / s ^ 3) = 2 * (Real.sqrt (s ^ 3 / (2 * mu)))⁻¹ := by
    rw [← Real.sqrt_inv, inv_div, show 8 * mu / s ^ 3 = 2 ^ 2 * (2 * mu / s ^ 3) by ring, Real.sqrt_mul (by norm_num),
      Real.sqrt_sq (by norm_num)]
  obtain ⟨t0, t1⟩ := thr2_mem hl
  refine ⟨_, q, _, hU, (Der.unit_eq hS).symm, hl, hq0, t0, t1, hqs, ?_, ?_⟩
  · rw [Times.leastEnergyTime_eq hS hq0 hqs, tm]
  intro tof htof low n atol rtol full clock x0 x k hst hit hk
  obtain ⟨s', q', hS', hG', hqs', heq⟩ := gooding_eq (M := 0) pro low n atol rtol clock full hna hmu htof
  have hss : s' = s := by rw [hS.hs, hS'.hs]
  subst hss
  have hqq : q' = q := by
    have h1 : q' ^ 2 = q ^ 2 := by
      have e : s' * (1 - q' ^ 2) = s' * (1 - q ^ 2) := by rw [← hS.chord, ← hS'.chord]
      have := mul_left_cancel₀ hs.ne' e
      linarith
    rcases sq_eq_sq_iff_eq_or_eq_neg.1 h1 with h | h
    · exact h
    · exfalso
      have h2 := hqs'.trans hqs.symm
      rw [h] at h2
      rcases lt_or_gt_of_ne hq0 with h3 | h3
      · exact absurd (h2.1 (by linarith)) (by linarith)
      · exact absurd (h2.2 h3) (by linarith)
  subst hqq
  have htin : Real.sqrt (8 * mu / s' ^ 3) * tof = 2 * (tof / Real.sqrt (s' ^ 3 / (2 * mu))) := by
    rw [hqU]; ring
  obtain ⟨tpi, htpi⟩ : ∃ tpi : ℝ, finish 0 q' (1 - q' ^ 2) (2 * (tof / Real.sqrt (s' ^ 3 / (2 * mu)))) n atol rtol full
      clock 1 x0 0 = .ok (.five 1 x 0 k tpi) := by
    rw [finish, hit, ok_bind]
    cases full
    · exact ⟨0.0, rfl⟩
    · refine ⟨clock / k, ?_⟩
      simp only [if_true]
      rw [pdiv_eq (by exact_mod_cast hk), ok_bind]
  rw [Nat.cast_zero, htin, xlamb, if_pos rfl, hst, ok_bind, htpi, ok_bind] at heq
  simp only [] at heq
  rw [show selectRoot low 1 x 0 = x by rw [selectRoot, if_neg (by norm_num)]] at heq
  have hL := lanc_lancY hl x
  have hV : 0 < s' * (lancY q' x - q' * x) ^ 2 := by have := hL.eta_pos; positivity
  refine ⟨tpi, _, _, heq, ?_, ?_, ?_⟩
  · rw [energyOf, hL.energy hmu hs hG hS.sum, semiPerimeter_eq, ← hS.hs]; ring
  · intro hnp
    refine sense_of_sign hmu hV hG.hA hnp ?_
    rw [← hqs]
    have hr2p : 0 < Real.sqrt 2 := by positivity
    exact ⟨fun h => pos_of_mul_pos_right h (by positivity), fun h => by positivity⟩
  · intro hx
    obtain ⟨T, hpath, hT⟩ := hL.path hmu hs (M := 0) hx (.inl rfl)
    rw [← hS.sum] at hpath
    have e : Real.sqrt (s' ^ 3 / (2 * mu)) * tm q' x = T := by
      rw [tm, ← hT, show (2 * mu / s' ^ 3) = (s' ^ 3 / (2 * mu))⁻¹ by rw [inv_div], Real.sqrt_inv]; field_simp
    rw [e]
    exact hpath.arc hmu hG

end Gooding
end Lamberthub
