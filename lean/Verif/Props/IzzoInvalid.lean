import Verif.Props.Izzo
import Verif.Props.IzzoFeasible
import Mathlib.Topology.Order.IntermediateValue

/-! # C57: what `izzo2015`, which validates nothing, does with invalid scalars -/

set_option autoImplicit false

namespace Lamberthub
open Spec LC Izzo

/-- **C57, what holds.** A run of `izzo2015` never returns velocities for a non-positive
gravitational parameter, for a non-positive time of flight and a non-negative number of
revolutions, nor for a non-negative time and a negative number of revolutions.
Missing: a negative time together with a negative number of revolutions, see
`izzo_invalid_accepted`. -/
theorem izzo_invalid_partial {mu : ℝ} {r1 r2 : V3} {tof : ℝ} {M : ℤ}
    (h : mu ≤ 0 ∨ (tof ≤ 0 ∧ 0 ≤ M) ∨ (0 ≤ tof ∧ M < 0))
    (pro low : Bool) (maxiter : ℕ) (atol rtol : ℝ) (v : V3 × V3) :
    izzo2015 mu r1 r2 tof M pro low maxiter atol rtol ≠ .ok v := by
  intro hv
  unfold izzo2015 at hv
  simp only [bind_ok] at hv
  obtain ⟨⟨s, ll, it1, it2⟩, hgeo, hv⟩ := hv
  obtain ⟨ε, hε, hG, hS, hεl, -, -, -⟩ := geometry_ok hgeo
  have hs := hS.spos
  have hl := hS.lam_lt
  have hl' := abs_lt.1 ((sq_lt_one_iff_abs_lt_one _).1 hl)
  simp only [bind_ok, pdiv_ok, psqrt_ok] at hv
  obtain ⟨ts, ⟨-, rfl⟩, tq, ⟨hmu, rfl⟩, xy, hxy, -⟩ := hv
  have hmu0 : 0 ≤ mu := by
    by_contra hneg
    have : 2 * mu / s ^ 3 < 0 := div_neg_of_neg_of_pos (by linarith) (by positivity)
    linarith
  obtain ⟨κ, hκ⟩ : ∃ κ, κ = Real.sqrt (2 * mu / s ^ 3) := ⟨_, rfl⟩
  have hκ0 : 0 ≤ κ := by rw [hκ]; exact Real.sqrt_nonneg _
  rw [← hκ] at hxy
  obtain ⟨T, hT⟩ : ∃ T, T = κ * tof := ⟨_, rfl⟩
  rw [← hT] at hxy
  have hcase : (T ≤ 0 ∧ 0 ≤ M) ∨ (0 ≤ T ∧ M < 0) := by
    rcases h with h | ⟨h1, h2⟩ | ⟨h1, h2⟩
    · have hm : mu = 0 := le_antisymm h hmu0
      have : T = 0 := by rw [hT, hκ, hm]; simp
      rcases le_or_gt 0 M with h | h
      · exact .inl ⟨this.le, h⟩
      · exact .inr ⟨this.ge, h⟩
    · exact .inl ⟨by rw [hT]; exact mul_nonpos_of_nonneg_of_nonpos hκ0 h1, h2⟩
    · exact .inr ⟨by rw [hT]; exact mul_nonneg hκ0 h1, h2⟩
  unfold findXY at hxy
  simp only [bind_ok, raiseIf_ok, pacos_ok, psqrt_ok] at hxy
  obtain ⟨-, -, _, ⟨-, rfl⟩, _, ⟨-, rfl⟩, mMax, hm, -, hM, x0, hx0, -⟩ := hxy
  have hpi := Real.pi_pos
  rcases hcase with ⟨hT0, hM0⟩ | ⟨hT0, hM0⟩
  · have hfl : ⌊T / Real.pi⌋ ≤ 0 := by
      have : T / Real.pi ≤ 0 := div_nonpos_of_nonpos_of_nonneg hT0 hpi.le
      exact Int.floor_le_iff.2 (by push_cast; linarith)
    unfold refineMMax at hm
    rw [if_neg (fun h => by have := h.2; omega)] at hm
    have hm' : ⌊T / Real.pi⌋ = mMax := by simpa using hm
    have hM1 : M = 0 := by omega
    have hz : T = 0 := by
      have h0 : (0 : ℤ) ≤ ⌊T / Real.pi⌋ := by omega
      have := Int.le_floor.1 h0
      push_cast at this
      have := (div_nonneg_iff.1 this)
      rcases this with h | h
      · linarith [h.1]
      · linarith [h.2]
    subst hM1
    unfold initialGuess initialGuess0 at hx0
    rw [if_pos rfl] at hx0
    simp only [bind_ok, pacos_ok, psqrt_ok] at hx0
    obtain ⟨_, ⟨-, rfl⟩, _, ⟨-, rfl⟩, hx0⟩ := hx0
    have hT00 := (T00_bounds hl).1
    have hl3 : ll ^ 3 < 1 := by nlinarith [sq_nonneg ll, sq_nonneg (1 + ll)]
    rw [if_neg (by rw [hz]; push_cast; linarith), if_pos (by rw [hz]; linarith), hz] at hx0
    simp only [bind_ok, pdiv_ok] at hx0
    obtain ⟨_, ⟨h, -⟩, -⟩ := hx0
    exact h rfl
  · unfold initialGuess at hx0
    rw [if_neg hM0.ne] at hx0
    simp only [bind_ok, guessRatio, pdiv_ok, prpow_ok] at hx0
    obtain ⟨_, ⟨_, ⟨h8, rfl⟩, _, ⟨-, rfl⟩, -, rfl⟩, _, ⟨_, ⟨-, rfl⟩, _, ⟨h, rfl⟩, -, rfl⟩, -⟩ := hx0
    have hTp : 0 < T := hT0.lt_of_ne (fun h => h8 (by rw [← h, mul_zero]))
    have hMr : (M : ℝ) < 0 := by exact_mod_cast hM0
    have hneg : 8 * T / (M * Real.pi) < 0 :=
      div_neg_of_pos_of_neg (by linarith) (mul_neg_of_neg_of_pos hMr hpi)
    rcases h with h | ⟨h, -⟩ <;> linarith

/-- Non-vacuity: the model does return for a quarter turn and the time of the minimum-energy
transfer, so that the conclusion is not true of all runs. -/
example : ∃ tof v, 0 < tof ∧ izzo2015 1 ⟨1, 0, 0⟩ ⟨0, 1, 0⟩ tof 0 true true 35 1e-5 1e-7 = .ok v := by
  obtain ⟨tof, v1, v2, h0, h⟩ := izzo_returns_minimum_energy one_pos
    (r1 := ⟨1, 0, 0⟩) (r2 := ⟨0, 1, 0⟩) (by simp [NotAligned]) true true 34 (atol := 1e-5) (by norm_num) 1e-7
  exact ⟨tof, _, h0, h⟩

/-- **Negation of the full claim.** `izzo2015` accepts a negative time of flight together with
`M = -1` and returns velocities. -/
theorem izzo_invalid_accepted : ∃ (r1 r2 : V3) (tof : ℝ) (v : V3 × V3), tof < 0 ∧
    izzo2015 1 r1 r2 tof (-1) false true 35 1e-5 1e-7 = .ok v := by
  have hpi := Real.pi_pos
  -- the value of `λ` for which the starting point `x = 0` is the root
  obtain ⟨lam, hlam, hg⟩ : ∃ lam ∈ Set.Icc (-1 : ℝ) 0,
      Real.arccos lam + lam * Real.sqrt (1 - lam ^ 2) = 7 * Real.pi / 8 := by
    have hc : ContinuousOn (fun l : ℝ => Real.arccos l + l * Real.sqrt (1 - l ^ 2)) (Set.Icc (-1) 0) := by
      apply Continuous.continuousOn
      have := Real.continuous_arccos
      fun_prop
    have h := intermediate_value_Icc' (by norm_num) hc
    have hm : 7 * Real.pi / 8 ∈ Set.Icc (Real.arccos 0 + 0 * Real.sqrt (1 - 0 ^ 2))
        (Real.arccos (-1) + -1 * Real.sqrt (1 - (-1) ^ 2)) := by
      rw [Real.arccos_zero, Real.arccos_neg_one]
      norm_num
      constructor <;> linarith
    obtain ⟨l, h1, h2⟩ := h hm
    exact ⟨l, h1, h2⟩
  have hl0 : lam ≠ 0 := by
    rintro rfl
    rw [Real.arccos_zero] at hg; linarith
  have hl1 : lam ≠ -1 := by
    rintro rfl
    rw [Real.arccos_neg_one] at hg
    norm_num at hg
    linarith
  have hlneg : lam < 0 := lt_of_le_of_ne hlam.2 hl0
  have hlm : -1 < lam := lt_of_le_of_ne hlam.1 (Ne.symm hl1)
  have hlsq : lam ^ 2 < 1 := by nlinarith
  have hlsq0 : 0 < lam ^ 2 := by positivity
  -- an isosceles triangle with this `λ`
  obtain ⟨q, hq⟩ : ∃ q, q = (1 - lam ^ 2) / (1 + lam ^ 2) := ⟨_, rfl⟩
  have hq0 : 0 < q := by rw [hq]; exact div_pos (by linarith) (by linarith)
  have hq1 : q < 1 := by rw [hq, div_lt_one (by linarith)]; linarith
  have hS0 : 0 < 1 - (1 - 2 * q ^ 2) ^ 2 := by
    have : 1 - (1 - 2 * q ^ 2) ^ 2 = 4 * q ^ 2 * (1 - q ^ 2) := by ring
    rw [this]
    have : 0 < 1 - q ^ 2 := by nlinarith
    positivity
  obtain ⟨S, hS⟩ : ∃ S, S = Real.sqrt (1 - (1 - 2 * q ^ 2) ^ 2) := ⟨_, rfl⟩
  have hSp : 0 < S := by rw [hS]; exact Real.sqrt_pos.2 hS0
  have hSS : S * S = 1 - (1 - 2 * q ^ 2) ^ 2 := by rw [hS]; exact Real.mul_self_sqrt hS0.le
  obtain ⟨r2, hr2⟩ : ∃ r2 : V3, r2 = ⟨1 - 2 * q ^ 2, S, 0⟩ := ⟨_, rfl⟩
  have hnp : NotPolar ⟨1, 0, 0⟩ r2 := by rw [hr2]; simp [NotPolar, hSp.ne']
  have n1 : V3.norm ⟨1, 0, 0⟩ = 1 := by simp [V3.norm, V3.dot]
  have n2 : V3.norm r2 = 1 := by
    rw [hr2, V3.norm, Real.sqrt_eq_one]
    simp only [V3.dot]; nlinarith
  have n3 : V3.norm (r2 - ⟨1, 0, 0⟩) = 2 * q := by
    rw [hr2, V3.norm, show V3.dot _ _ = (2 * q) ^ 2 by simp [V3.dot]; nlinarith, Real.sqrt_sq (by linarith)]
  obtain ⟨s, ll, it1, it2, hgeo⟩ := geometry_eq (fun h => hnp h.2.2) false
  obtain ⟨ε, hε, hG, hSm, hεl, -, -, hsw⟩ := geometry_ok hgeo
  have hnSW : ¬ ShortWay false ⟨1, 0, 0⟩ r2 := by rw [hr2]; simp [ShortWay, crossZ, hSp.le]
  have hε0 : ε < 0 := by
    have h1 : ¬ 0 < ε := fun h => hnSW ((hsw hnp).1 h)
    have h2 : ε ≠ 0 := by rintro rfl; norm_num at hε
    exact lt_of_le_of_ne (not_lt.1 h1) h2
  have hlln : ll < 0 := by
    by_contra h
    have := mul_nonpos_of_nonpos_of_nonneg hε0.le (not_lt.1 h)
    linarith
  have hss : s = 1 + q := by have := hSm.hs; rw [n1, n2, n3] at this; rw [this]; ring
  have hll : ll = lam := by
    have h1 := hSm.sum
    rw [n1, n2, hss, hq] at h1
    have h3 : (1 : ℝ) + lam ^ 2 ≠ 0 := by linarith
    field_simp at h1
    have h2 : ll ^ 2 = lam ^ 2 := by linarith
    rcases sq_eq_sq_iff_eq_or_eq_neg.1 h2 with h | h
    · exact h
    · linarith
  subst hll
  have hs := hSm.spos
  obtain ⟨y, hy, hL⟩ := computeY_eq (x := 0) hlsq
  have hyv : y = Real.sqrt (1 - ll ^ 2) := by
    have := (psqrt_ok.1 hy).2; rw [this]; norm_num
  have hy0 := hL.y_pos
  obtain ⟨T, hT⟩ : ∃ T, T = -(Real.pi / 8) := ⟨_, rfl⟩
  have htof : tofEquationY 0 y T ll (-1) = .ok 0 := by
    unfold tofEquationY computePsi
    rw [if_neg (fun h => by simp at h), if_pos (by norm_num), pacos, if_pos (by
      constructor <;> norm_num <;> linarith), ok_bind, psqrt_eq (abs_nonneg _), ok_bind,
      pdiv_eq (by norm_num), ok_bind, pdiv_eq (by norm_num), ok_bind]
    congr 1
    have e : (0 : ℝ) * y + ll * (1 - 0 ^ 2) = ll := by ring
    rw [e, hT, hyv]
    norm_num
    linarith
  have hstep : householderStep 0 T ll (-1) = .ok 0 := by
    unfold householderStep
    rw [hy, ok_bind, htof, ok_bind]
    simp only [tofP, tofP2, tofP3]
    rw [pdiv_eq hy0.ne', ok_bind, pdiv_eq (by norm_num), ok_bind, pdiv_eq (by positivity), ok_bind,
      pdiv_eq (by norm_num), ok_bind, pdiv_eq (by positivity), ok_bind, pdiv_eq (by norm_num), ok_bind,
      pdiv_eq (by norm_num), ok_bind]
    norm_num
  have hhh : householder T ll (-1) 1e-5 1e-7 35 0 = .ok 0 := by
    unfold householder
    rw [hstep, ok_bind, if_pos]
    norm_num
  have hfl : ⌊T / Real.pi⌋ = -1 := by
    rw [Int.floor_eq_iff, hT]
    have : -(Real.pi / 8) / Real.pi = -(1 / 8) := by field_simp
    rw [this]; norm_num
  have hgue : initialGuess T ll (-1) true = .ok 0 := by
    have e1 : (((-1 : ℤ) : ℝ) * Real.pi + Real.pi) / (8 * T) = 0 := by push_cast; ring_nf
    have e2 : 8 * T / (((-1 : ℤ) : ℝ) * Real.pi) = 1 := by rw [hT]; push_cast; field_simp
    have hT0 : 8 * T ≠ 0 := by rw [hT]; linarith
    have hp0 : prpow 0 (2 / 3) = .ok 0 :=
      prpow_ok.2 ⟨.inr ⟨rfl, by norm_num⟩, (Real.zero_rpow (by norm_num)).symm⟩
    have hp1 : prpow 1 (2 / 3) = .ok 1 := prpow_ok.2 ⟨.inl one_pos, (Real.one_rpow _).symm⟩
    unfold initialGuess guessRatio
    rw [if_neg (by norm_num), pdiv_eq hT0, ok_bind, e1, hp0, ok_bind, pdiv_eq (by norm_num), ok_bind,
      pdiv_eq (by push_cast; linarith), ok_bind, e2, hp1, ok_bind, pdiv_eq (by norm_num), ok_bind]
    norm_num
  have hfind : findXY ll T (-1) 35 1e-5 1e-7 true = .ok (0, y) := by
    unfold findXY
    rw [raiseIf_neg _ (not_not.2 (abs_lt.2 ⟨hlm, by linarith⟩)), ok_bind, pacos,
      if_pos ⟨hlm.le, by linarith⟩, ok_bind, psqrt_eq (by linarith), ok_bind]
    simp only [refineMMax, hfl]
    rw [if_neg (by simp), ok_bind, raiseIf_neg _ (by simp), ok_bind, hgue, ok_bind, hhh, ok_bind, hy]
    rfl
  have hc := hSm.cpos
  have hrho : 0 ≤ 1 - ((V3.norm ⟨1, 0, 0⟩ - V3.norm r2) / V3.norm (r2 - ⟨1, 0, 0⟩)) ^ 2 := by
    rw [n1, n2]; norm_num
  have hκ : 0 < Real.sqrt (2 * 1 / s ^ 3) := by positivity
  have e : Real.sqrt (2 * 1 / s ^ 3) * (T / Real.sqrt (2 * 1 / s ^ 3)) = T := by field_simp
  have hbody : ∃ v, izzo2015 1 ⟨1, 0, 0⟩ r2 (T / Real.sqrt (2 * 1 / s ^ 3)) (-1) false true 35 1e-5 1e-7 =
      .ok v := by
    unfold izzo2015
    rw [hgeo]
    simp only [ok_bind]
    rw [pdiv_eq (by positivity), ok_bind, psqrt_eq (by positivity), ok_bind, e, hfind, ok_bind,
      psqrt_eq (by positivity), ok_bind, pdiv_eq hc.ne', ok_bind, psqrt_eq hrho, ok_bind]
    simp only [reconstruct]
    rw [pdiv_eq hG.R1.ne', ok_bind, pdiv_eq hG.R2.ne', ok_bind, pdiv_eq hG.R1.ne', ok_bind,
      pdiv_eq hG.R2.ne', ok_bind, ok_bind]
    simp only [vdiv, if_neg hG.R1.ne', if_neg hG.R2.ne', ok_bind]
    exact ⟨_, rfl⟩
  obtain ⟨v, hv⟩ := hbody
  exact ⟨_, r2, _, v, div_neg_of_neg_of_pos (by rw [hT]; linarith) hκ, hv⟩

end Lamberthub
