import Verif.Props.Negrete
import Verif.Proofs.UVTime
import Mathlib.Analysis.Real.Pi.Bounds
import Mathlib.Analysis.Complex.ExponentialBounds

/-! # C37 and C45: termination and convergence of `vallado2013` -/

set_option autoImplicit false

namespace Lamberthub
open Spec LC Vallado

namespace Vallado

/-! ## One pass -/

theorem readjust_nonneg {R1 R2 A : ℝ} {s : Adj} (h : 0 ≤ s.y) : readjust R1 R2 A s = .ok s := by
  unfold readjust
  split
  · exact whileLoop_false (not_lt.2 h)
  · rfl

theorem readjust_neg {R1 R2 A : ℝ} {s : Adj} (h : A ≤ 0) : readjust R1 R2 A s = .ok s := by
  unfold readjust
  rw [if_neg (not_lt.2 h)]

/-- A pass of the bisection at a value where `y` is not negative. -/
theorem loop_step {mu R1 R2 A tof rtol : ℝ} (hmu : 0 < mu) (htof : 0 < tof) {psi : ℝ} (h1 : psi < 4 * Real.pi ^ 2)
    (hy : 0 ≤ uvY (R1 + R2) A psi) (r n : ℕ) (lo up : ℝ) :
    loop mu R1 R2 A tof rtol (r + 1) n psi lo up =
      if |(uvT mu (R1 + R2) A psi - tof) / tof| < rtol then .ok (uvY (R1 + R2) A psi, psi, n)
      else if uvT mu (R1 + R2) A psi ≤ tof then loop mu R1 R2 A tof rtol r (n + 1) ((up + psi) / 2) psi up
      else loop mu R1 R2 A tof rtol r (n + 1) ((psi + lo) / 2) lo psi := by
  have hc2 := c2_pos h1
  have hm := Real.sqrt_pos.2 hmu
  conv_lhs => unfold loop
  rw [yAtPsi_eq hc2, ok_bind, readjust_nonneg hy, ok_bind]
  simp only [xAtPsi, c2_eq, tofVallado, c3_eq, ok_bind]
  rw [pdiv_eq hc2.ne', ok_bind, psqrt_eq (div_nonneg hy hc2.le), ok_bind, psqrt_eq hy, ok_bind, psqrt_eq hmu.le,
    ok_bind, pdiv_eq hm.ne', ok_bind]
  have : (Real.sqrt (uvY (R1 + R2) A psi / stumpffSeries 2 psi) ^ 3 * stumpffSeries 3 psi +
      A * Real.sqrt (uvY (R1 + R2) A psi)) / Real.sqrt mu = uvT mu (R1 + R2) A psi := rfl
  rw [this, pdiv_eq htof.ne', ok_bind]
  split
  · rfl
  · split <;> rfl

theorem bound {r1 r2 : V3} {A : ℝ} (hG : Geo r1 r2 A) : |Real.sqrt 2 * A| < V3.norm r1 + V3.norm r2 := by
  have h1 := hG.R1
  have h2 := hG.R2
  apply abs_lt_of_sq_lt_sq _ (by positivity)
  rw [mul_pow, Real.sq_sqrt (by norm_num)]
  have := hG.A2_lt
  nlinarith [sq_nonneg (V3.norm r1 - V3.norm r2)]

/-- Beyond a value of the domain the bisection reaches every time of flight. -/
theorem loop_returns {mu R1 R2 A tof rtol L p : ℝ} (hmu : 0 < mu) (htof : 0 < tof) (hr : 0 < rtol)
    (hP : |Real.sqrt 2 * A| < R1 + R2) (hL : ∀ psi, L ≤ psi → psi < 4 * Real.pi ^ 2 → psi ∈ uvDom (R1 + R2) A)
    (hp : p < 4 * Real.pi ^ 2) (hpT : uvT mu (R1 + R2) A p = tof) :
    ∃ δ > 0, ∀ (r n : ℕ) (lo up : ℝ), L ≤ lo → lo ≤ p → p ≤ up → up ≤ 4 * Real.pi ^ 2 → up - lo ≤ δ * 2 ^ r →
      ∃ y q k, loop mu R1 R2 A tof rtol (r + 1) n ((up + lo) / 2) lo up = .ok (y, q, k) ∧ 0 < y := by
  have hc := uvT_continuousAt (μ := mu) (P := R1 + R2) (A := A) hp
  obtain ⟨δ, hδ, hcl⟩ := Metric.continuousAt_iff.1 hc (rtol * tof) (by positivity)
  have hcl' : ∀ psi, |psi - p| < δ → |(uvT mu (R1 + R2) A psi - tof) / tof| < rtol := by
    intro psi h
    have := hcl (x := psi) (by rw [Real.dist_eq]; exact h)
    rw [Real.dist_eq, hpT] at this
    rwa [abs_div, abs_of_pos htof, div_lt_iff₀ htof]
  have hmono := uvT_strictMonoOn (μ := mu) hmu hP
  refine ⟨δ, hδ, fun r => ?_⟩
  induction r with
  | zero =>
    intro n lo up h1 h2 h3 h4 h5
    have hd := hL ((up + lo) / 2) (by linarith) (by linarith)
    rw [loop_step hmu htof hd.1 hd.2.le, if_pos (hcl' _ (by rw [abs_lt]; constructor <;> linarith))]
    exact ⟨_, _, _, rfl, hd.2⟩
  | succ r ih =>
    intro n lo up h1 h2 h3 h4 h5
    have hd := hL ((up + lo) / 2) (by linarith) (by linarith)
    have hpd := hL p (by linarith) hp
    rw [pow_succ] at h5
    rw [loop_step hmu htof hd.1 hd.2.le]
    split
    · exact ⟨_, _, _, rfl, hd.2⟩
    · split
      · rename_i h
        rw [← hpT, hmono.le_iff_le hd hpd] at h
        exact ih (n + 1) ((up + lo) / 2) up (by linarith) h h3 h4 (by linarith)
      · rename_i h
        rw [← hpT, hmono.le_iff_le hd hpd, not_le] at h
        exact ih (n + 1) lo ((up + lo) / 2) h1 h2 h.le (by linarith) (by linarith)

/-- What precedes and follows the loop. -/
theorem entry {mu : ℝ} (hmu : 0 < mu) {r1 r2 : V3} (hna : NotAligned r1 r2) {tof : ℝ} (htof : 0 < tof) {M : ℤ}
    (hM : 0 ≤ M) (pro low : Bool) (N : ℕ) (atol rtol : ℝ) (fo : Bool) (clock : ℝ) :
    (∀ y q k, loop mu (V3.norm r1) (V3.norm r2) (signedA pro r1 r2) tof rtol N 1 0 (-4 * Real.pi ^ 2)
        (4 * Real.pi ^ 2) = .ok (y, q, k) → 0 < y →
      ∃ out, vallado2013 mu r1 r2 tof M pro low N atol rtol fo clock = .ok out) ∧
    (∀ e, loop mu (V3.norm r1) (V3.norm r2) (signedA pro r1 r2) tof rtol N 1 0 (-4 * Real.pi ^ 2)
        (4 * Real.pi ^ 2) = .error e →
      vallado2013 mu r1 r2 tof M pro low N atol rtol fo clock = .error e) := by
  have hang := angle_of_eq hna (transferAngle_eq hna pro)
  obtain ⟨hA, hG⟩ := getA_signedA hang hna
  have h12 : r1 ≠ r2 := by rintro rfl; simp [NotAligned, mul_comm] at hna
  have z : (0.0 : ℝ) = 0 := by norm_num
  unfold vallado2013
  simp only [assertParameters_eq hmu (norm_pos_iff.1 hG.R1) h12 htof hM, ok_bind, transferAngle_eq hna pro, hA]
  rw [raiseIf_neg _ (by norm_num; exact hG.hA), ok_bind, z]
  constructor
  · intro y q k hl hy
    rw [hl, ok_bind]
    simp only []
    rw [pdiv_eq hG.R1.ne', ok_bind, pdiv_eq hmu.ne', ok_bind, psqrt_eq (by positivity), ok_bind, pdiv_eq hG.R2.ne',
      ok_bind]
    have hg : signedA pro r1 r2 * Real.sqrt (y / mu) ≠ 0 := mul_ne_zero hG.hA (by positivity)
    rw [vdiv_eq hg, ok_bind, vdiv_eq hg, ok_bind]
    exact ⟨_, rfl⟩
  · intro e hl
    rw [hl]; rfl

theorem parabolic {mu : ℝ} (hmu : 0 < mu) {r1 r2 : V3} (hna : NotAligned r1 r2) (pro : Bool) :
    0 < uvY (V3.norm r1 + V3.norm r2) (signedA pro r1 r2) 0 ∧
      uvT mu (V3.norm r1 + V3.norm r2) (signedA pro r1 r2) 0 = parabolicTime mu r1 r2 pro := by
  obtain ⟨hA, hG⟩ := getA_signedA (angle_of_eq hna (transferAngle_eq hna pro)) hna
  have hpi := Real.pi_pos
  have hy : 0 < uvY (V3.norm r1 + V3.norm r2) (signedA pro r1 r2) 0 :=
    uvY_pos hG.R1 hG.R2 hG.A2_lt le_rfl (by positivity)
  refine ⟨hy, ?_⟩
  rw [uvT_zero hmu hy.le, uvY_zero, Tpar_parabolicTime hmu hG]

end Vallado

/-- **C45.** For non-aligned positions, either sense and every time of flight above the
parabolic one (the elliptic transfers) there is an iteration budget from which on
`vallado2013` returns, for every positive relative tolerance. -/
theorem vallado_returns_elliptic {mu : ℝ} (hmu : 0 < mu) {r1 r2 : V3} (hna : NotAligned r1 r2) (pro : Bool) {tof : ℝ}
    (h0 : 0 < tof) (htof : parabolicTime mu r1 r2 pro ≤ tof) {rtol : ℝ} (hr : 0 < rtol) :
    ∃ N0 : ℕ, ∀ N ≥ N0, ∀ (M : ℤ), 0 ≤ M → ∀ (low : Bool) (atol : ℝ) (fo : Bool) (clock : ℝ),
      ∃ out, vallado2013 mu r1 r2 tof M pro low N atol rtol fo clock = .ok out := by
  obtain ⟨hA, hG⟩ := getA_signedA (angle_of_eq hna (transferAngle_eq hna pro)) hna
  obtain ⟨hy0, hT0⟩ := parabolic hmu hna pro
  have hpi := Real.pi_pos
  have hP := bound hG
  set R1 := V3.norm r1
  set R2 := V3.norm r2
  set A := signedA pro r1 r2
  have hL : ∀ psi, 0 ≤ psi → psi < 4 * Real.pi ^ 2 → psi ∈ uvDom (R1 + R2) A := fun psi h1 h2 =>
    ⟨h2, uvY_pos hG.R1 hG.R2 hG.A2_lt h1 h2⟩
  obtain ⟨p, ⟨hpd, hpT⟩, -⟩ := uvT_exists_unique hmu hG.hA hP h0
  have h00 := hL 0 le_rfl (by positivity)
  have hp0 : 0 ≤ p := by
    rw [← (uvT_strictMonoOn (μ := mu) hmu hP).le_iff_le h00 hpd, hpT, hT0]; exact htof
  obtain ⟨δ, hδ, hret⟩ := loop_returns hmu h0 hr hP hL hpd.1 hpT
  obtain ⟨k, hk⟩ := pow_unbounded_of_one_lt (4 * Real.pi ^ 2 / δ) one_lt_two
  refine ⟨k + 2, fun N hN M hM low atol fo clock => ?_⟩
  obtain ⟨j, rfl⟩ := Nat.exists_eq_add_of_le hN
  have hkj : 4 * Real.pi ^ 2 - 0 ≤ δ * 2 ^ (k + j) := by
    rw [div_lt_iff₀ hδ] at hk
    have : (2 : ℝ) ^ k ≤ 2 ^ (k + j) := pow_le_pow_right₀ (by norm_num) (by omega)
    nlinarith
  have key : ∃ y q n, loop mu R1 R2 A tof rtol (k + 2 + j) 1 0 (-4 * Real.pi ^ 2) (4 * Real.pi ^ 2) = .ok (y, q, n) ∧
      0 < y := by
    rw [show k + 2 + j = (k + j + 1) + 1 by ring, loop_step hmu h0 h00.1 h00.2.le]
    split
    · exact ⟨_, _, _, rfl, h00.2⟩
    · rw [if_pos (by rw [hT0]; exact htof)]
      exact hret (k + j) 2 0 (4 * Real.pi ^ 2) le_rfl hp0 hpd.1.le le_rfl hkj
  obtain ⟨y, q, n, hl, hy⟩ := key
  exact (entry hmu hna h0 hM pro low (k + 2 + j) atol rtol fo clock).1 y q n hl hy

/-- The hypotheses of C45 at the quarter turn: the parabolic time is positive and can be
exceeded. -/
example : NotAligned ⟨1, 0, 0⟩ ⟨0, 1, 0⟩ ∧ ∃ tof, 0 < tof ∧ parabolicTime 1 ⟨1, 0, 0⟩ ⟨0, 1, 0⟩ true < tof := by
  refine ⟨by simp [NotAligned], _, lt_of_lt_of_le one_pos (le_max_left 1 _), lt_of_lt_of_le (lt_add_one _) (le_max_right _ _)⟩

/-! ## The readjustment -/

namespace Vallado

theorem nonneg_of_deriv {f f' : ℝ → ℝ} {b : ℝ} (hd : ∀ x, HasDerivAt f (f' x) x) (h0 : f 0 = 0)
    (hf : ∀ x, 0 ≤ x → x ≤ b → 0 ≤ f' x) : ∀ x, 0 ≤ x → x ≤ b → 0 ≤ f x := by
  intro x hx hb
  have hm : MonotoneOn f (Set.Icc 0 b) := by
    apply monotoneOn_of_deriv_nonneg (convex_Icc 0 b)
    · exact fun y _ => (hd y).continuousAt.continuousWithinAt
    · exact fun y _ => (hd y).differentiableAt.differentiableWithinAt
    · intro y hy
      rw [interior_Icc] at hy
      rw [(hd y).deriv]
      exact hf y hy.1.le hy.2.le
  rw [← h0]
  exact hm ⟨le_rfl, by linarith⟩ ⟨hx, hb⟩ hx

/-- Polynomial bounds of the hyperbolic functions. -/
theorem sinh_ge {x : ℝ} (hx : 0 ≤ x) : x + x ^ 3 / 6 ≤ Real.sinh x ∧ 1 + x ^ 2 / 2 + x ^ 4 / 24 ≤ Real.cosh x := by
  have h0 : ∀ y : ℝ, 0 ≤ y → y ≤ x → 0 ≤ Real.sinh y - y := fun y hy _ => sub_nonneg.2 (Real.self_le_sinh_iff.2 hy)
  have h1 : ∀ y : ℝ, 0 ≤ y → y ≤ x → 0 ≤ Real.cosh y - 1 - y ^ 2 / 2 :=
    nonneg_of_deriv (f' := fun y => Real.sinh y - y) (fun y => by
      have := ((Real.hasDerivAt_cosh y).sub_const 1).sub ((hasDerivAt_pow 2 y).div_const 2)
      exact this.congr_deriv (by norm_num)) (by simp) h0
  have h2 : ∀ y : ℝ, 0 ≤ y → y ≤ x → 0 ≤ Real.sinh y - y - y ^ 3 / 6 :=
    nonneg_of_deriv (f' := fun y => Real.cosh y - 1 - y ^ 2 / 2) (fun y => by
      have := ((Real.hasDerivAt_sinh y).sub (hasDerivAt_id y)).sub ((hasDerivAt_pow 3 y).div_const 6)
      exact this.congr_deriv (by norm_num; ring)) (by simp) h1
  have h3 : ∀ y : ℝ, 0 ≤ y → y ≤ x → 0 ≤ Real.cosh y - 1 - y ^ 2 / 2 - y ^ 4 / 24 :=
    nonneg_of_deriv (f' := fun y => Real.sinh y - y - y ^ 3 / 6) (fun y => by
      have := (((Real.hasDerivAt_cosh y).sub_const 1).sub ((hasDerivAt_pow 2 y).div_const 2)).sub
        ((hasDerivAt_pow 4 y).div_const 24)
      exact this.congr_deriv (by norm_num; ring)) (by simp) h2
  exact ⟨by linarith [h2 x hx le_rfl], by linarith [h3 x hx le_rfl]⟩

theorem cosh_le {x : ℝ} (hx : 0 ≤ x) (hx' : x ≤ 5 / 2) : Real.cosh x ≤ 1 + x ^ 2 / 2 + x ^ 4 / 8 := by
  have he : Real.sinh (5 / 2) ≤ 15 / 2 := by
    have h1 : Real.exp (5 / 2) ≤ 15 := by
      have h2 : Real.exp (5 / 2) ^ 2 = Real.exp 1 ^ 5 := by
        rw [← Real.exp_nat_mul, ← Real.exp_nat_mul]; norm_num
      have h3 := Real.exp_one_lt_d9
      have h4 : Real.exp 1 ^ 5 ≤ 2.7182818286 ^ 5 := by
        gcongr
      have : Real.exp (5 / 2) ^ 2 ≤ 15 ^ 2 := by rw [h2]; exact h4.trans (by norm_num)
      exact (sq_le_sq₀ (Real.exp_pos _).le (by norm_num)).1 this
    rw [Real.sinh_eq]
    have := Real.exp_pos (-(5 / 2))
    linarith
  have h0 : ∀ y : ℝ, 0 ≤ y → y ≤ 5 / 2 → 0 ≤ 3 * y - Real.sinh y := by
    intro y hy hb
    have hcv : ConvexOn ℝ (Set.Ici 0) Real.sinh := by
      apply MonotoneOn.convexOn_of_deriv (convex_Ici 0) Real.continuous_sinh.continuousOn
        Real.differentiable_sinh.differentiableOn
      intro a ha b hb' hab
      rw [interior_Ici] at ha hb'
      rw [Real.deriv_sinh]
      exact Real.cosh_le_cosh.2 (by rw [abs_of_pos ha, abs_of_pos hb']; exact hab)
    have := hcv.2 (show (0 : ℝ) ∈ Set.Ici 0 by simp) (show (5 / 2 : ℝ) ∈ Set.Ici 0 by norm_num [Set.mem_Ici])
      (show 0 ≤ 1 - y / (5 / 2) by linarith) (show 0 ≤ y / (5 / 2) by positivity) (by ring)
    simp only [smul_eq_mul, mul_zero, zero_add, Real.sinh_zero] at this
    rw [show y / (5 / 2) * (5 / 2) = y by ring] at this
    nlinarith
  have h1 : ∀ y : ℝ, 0 ≤ y → y ≤ 5 / 2 → 0 ≤ 1 + 3 / 2 * y ^ 2 - Real.cosh y := by
    have := nonneg_of_deriv (f := fun y => 3 / 2 * y ^ 2 - (Real.cosh y - 1)) (f' := fun y => 3 * y - Real.sinh y) (b := 5 / 2)
      (fun y => by
      have := ((hasDerivAt_pow 2 y).const_mul (3 / 2)).sub ((Real.hasDerivAt_cosh y).sub_const 1)
      exact this.congr_deriv (by norm_num; ring)) (by simp) h0
    intro y h1 h2
    have := this y h1 h2
    linarith
  have h2 : ∀ y : ℝ, 0 ≤ y → y ≤ 5 / 2 → 0 ≤ y + y ^ 3 / 2 - Real.sinh y :=
    nonneg_of_deriv (f' := fun y => 1 + 3 / 2 * y ^ 2 - Real.cosh y) (fun y => by
      have := ((hasDerivAt_id y).add ((hasDerivAt_pow 3 y).div_const 2)).sub (Real.hasDerivAt_sinh y)
      exact this.congr_deriv (by norm_num; ring)) (by simp) h1
  have h3 := nonneg_of_deriv (f := fun y => y ^ 2 / 2 + y ^ 4 / 8 - (Real.cosh y - 1)) (f' := fun y => y + y ^ 3 / 2 - Real.sinh y)
    (b := 5 / 2) (fun y => by
      have := (((hasDerivAt_pow 2 y).div_const 2).add ((hasDerivAt_pow 4 y).div_const 8)).sub
        ((Real.hasDerivAt_cosh y).sub_const 1)
      exact this.congr_deriv (by norm_num; ring)) (by simp) h2
  have := h3 x hx hx'
  linarith

/-- The readjusted value at `psi = -(2h)²`. -/
theorem readjustBody_eq {R1 R2 A h : ℝ} (hA : A ≠ 0) (hh : 0 < h) (lo y : ℝ)
    (h2 : 0 < stumpffSeries 2 (0.8 * ((2 * h) ^ 3 / (Real.sinh (2 * h) - 2 * h)) *
      (1 - R1 * R2 * (Real.sinh h / (Real.sqrt 2 * h)) / A))) :
    readjustBody R1 R2 A ⟨lo, -(2 * h) ^ 2, y⟩ =
      .ok ⟨-(2 * h) ^ 2, 0.8 * ((2 * h) ^ 3 / (Real.sinh (2 * h) - 2 * h)) *
          (1 - R1 * R2 * (Real.sinh h / (Real.sqrt 2 * h)) / A),
        uvY (R1 + R2) A (0.8 * ((2 * h) ^ 3 / (Real.sinh (2 * h) - 2 * h)) *
          (1 - R1 * R2 * (Real.sinh h / (Real.sqrt 2 * h)) / A))⟩ := by
  have hs : 0 < Real.sinh (2 * h) - 2 * h := by
    have := Real.self_lt_sinh_iff.2 (show 0 < 2 * h by linarith)
    linarith
  unfold readjustBody
  simp only [c3_eq, c2_eq, ok_bind]
  rw [series3_neg_sq (by positivity), pdiv_eq (by positivity), ok_bind, psqrt_eq (series2_nonneg _), ok_bind,
    sqrt_c2_neg_sq hh, pdiv_eq hA, ok_bind]
  have e : 0.8 * (1.0 / ((Real.sinh (2 * h) - 2 * h) / (2 * h) ^ 3)) *
      (1.0 - R1 * R2 * (Real.sinh h / (Real.sqrt 2 * h)) / A) =
      0.8 * ((2 * h) ^ 3 / (Real.sinh (2 * h) - 2 * h)) * (1 - R1 * R2 * (Real.sinh h / (Real.sqrt 2 * h)) / A) := by
    rw [show (1.0 : ℝ) = 1 by norm_num, one_div_div]
  simp only [e]
  rw [yAtPsi_eq h2, ok_bind]

/-- In these units the readjustment never leaves an interval where `y` is negative. -/
theorem readjust_range {K A h : ℝ} (hA : 0 < A) (hK1 : 7 / 2 * A ≤ K) (hK2 : K ≤ 8 * A) (h1 : 1 ≤ h) (h2 : h ≤ 5 / 2) :
    4 ≤ -(0.8 * ((2 * h) ^ 3 / (Real.sinh (2 * h) - 2 * h)) * (1 - K * (Real.sinh h / (Real.sqrt 2 * h)) / A)) ∧
      -(0.8 * ((2 * h) ^ 3 / (Real.sinh (2 * h) - 2 * h)) * (1 - K * (Real.sinh h / (Real.sqrt 2 * h)) / A)) ≤ 25 := by
  have hs : 0 < Real.sinh (2 * h) - 2 * h := by
    have := Real.self_lt_sinh_iff.2 (show 0 < 2 * h by linarith)
    linarith
  have hh : 0 < h := by linarith
  have hr2 : Real.sqrt 2 ^ 2 = 2 := Real.sq_sqrt (by norm_num)
  have hr2p : 0 < Real.sqrt 2 := by positivity
  obtain ⟨g, hg⟩ : ∃ g, g = K / (A * Real.sqrt 2) := ⟨_, rfl⟩
  have e : -(0.8 * ((2 * h) ^ 3 / (Real.sinh (2 * h) - 2 * h)) * (1 - K * (Real.sinh h / (Real.sqrt 2 * h)) / A)) =
      32 / 5 * h ^ 2 * (g * Real.sinh h - h) / (Real.sinh (2 * h) - 2 * h) := by
    rw [hg, show (0.8 : ℝ) = 4 / 5 by norm_num]
    field_simp
    ring
  have hg1 : 2.47 ≤ g := by
    rw [hg, le_div_iff₀ (by positivity)]
    have : Real.sqrt 2 ≤ 1.4143 := Real.sqrt_le_iff.2 ⟨by norm_num, by norm_num⟩
    nlinarith
  have hg2 : g ≤ 5.66 := by
    rw [hg, div_le_iff₀ (by positivity)]
    have : 1.4142 ≤ Real.sqrt 2 := Real.le_sqrt_of_sq_le (by norm_num)
    nlinarith
  obtain ⟨hS, hC⟩ := sinh_ge hh.le
  have hC' := cosh_le hh.le h2
  rw [e, Real.sinh_two_mul] at *
  set S := Real.sinh h
  set C := Real.cosh h
  obtain ⟨t, ht⟩ : ∃ t, t = h ^ 2 := ⟨_, rfl⟩
  have ht1 : 1 ≤ t := by rw [ht]; nlinarith
  have ht2 : t ≤ 25 / 4 := by rw [ht]; nlinarith
  have hS' : h * (1 + t / 6) ≤ S := by rw [ht]; linarith
  have hCu : C ≤ 1 + t / 2 + t ^ 2 / 8 := by rw [ht]; linarith
  have hCl : 1 + t / 2 + t ^ 2 / 24 ≤ C := by rw [ht]; linarith
  have hS0 : 0 < S := lt_of_lt_of_le (by positivity) hS'
  constructor
  · rw [le_div_iff₀ hs]
    have h3 : 0 ≤ 15.8 * t - 8 * C := by nlinarith
    have h4 : h * (1 + t / 6) * (15.8 * t - 8 * C) ≤ S * (15.8 * t - 8 * C) := mul_le_mul_of_nonneg_right hS' h3
    have h5 : (1 + t / 6) * (11.8 * t - 8 - t ^ 2) ≤ (1 + t / 6) * (15.8 * t - 8 * C) :=
      mul_le_mul_of_nonneg_left (by linarith) (by positivity)
    have h6 : 6.4 * t - 8 ≤ (1 + t / 6) * (11.8 * t - 8 - t ^ 2) := by
      nlinarith [mul_nonneg (sub_nonneg.2 ht1) (sub_nonneg.2 ht2), mul_nonneg (mul_nonneg (sub_nonneg.2 ht1) (sub_nonneg.2 ht2)) (by linarith : (0:ℝ) ≤ t)]
    have h7 : h * (6.4 * t - 8) ≤ S * (15.8 * t - 8 * C) := by
      refine le_trans ?_ h4
      rw [mul_assoc]
      exact mul_le_mul_of_nonneg_left (h6.trans h5) hh.le
    have h8 : 32 / 5 * t * (2.47 * S) ≤ 32 / 5 * t * (g * S) := by
      apply mul_le_mul_of_nonneg_left _ (by positivity)
      exact mul_le_mul_of_nonneg_right hg1 hS0.le
    rw [← ht]
    nlinarith [mul_pos (show 0 < t by linarith) hS0]
  · rw [div_le_iff₀ hs]
    have h5 : 50 - 6.4 * t ≤ (1 + t / 6) * (50 * C - 36.3 * t) := by
      have : (1 + t / 6) * (50 - 11.3 * t + 50 / 24 * t ^ 2) ≤ (1 + t / 6) * (50 * C - 36.3 * t) :=
        mul_le_mul_of_nonneg_left (by linarith) (by positivity)
      refine le_trans ?_ this
      nlinarith [pow_pos (show 0 < t by linarith) 3, pow_pos (show 0 < t by linarith) 2]
    have h3 : 0 ≤ 50 * C - 36.3 * t := by nlinarith [sq_nonneg (t - 2.7)]
    have h7 : h * (50 - 6.4 * t) ≤ S * (50 * C - 36.3 * t) := by
      refine le_trans ?_ (mul_le_mul_of_nonneg_right hS' h3)
      rw [mul_assoc]
      exact mul_le_mul_of_nonneg_left h5 hh.le
    have h8 : 32 / 5 * t * (g * S) ≤ 32 / 5 * t * (5.66 * S) := by
      apply mul_le_mul_of_nonneg_left _ (by positivity)
      exact mul_le_mul_of_nonneg_right hg2 hS0.le
    rw [← ht]
    nlinarith [mul_pos (show 0 < t by linarith) hS0]

theorem readjust_diverges {R1 R2 A h lo : ℝ} (hA : 0 < A) (hK1 : 7 / 2 * A ≤ R1 * R2) (hK2 : R1 * R2 ≤ 8 * A)
    (hP : R1 + R2 ≤ 2.18 * A) (h1 : 1 ≤ h) (h2 : h ≤ 5 / 2) :
    readjust R1 R2 A ⟨lo, -(2 * h) ^ 2, uvY (R1 + R2) A (-(2 * h) ^ 2)⟩ = .error .diverges := by
  unfold readjust
  rw [if_pos hA]
  apply whileLoop_diverges (I := fun s : Adj => ∃ h, 1 ≤ h ∧ h ≤ 5 / 2 ∧ s.psi = -(2 * h) ^ 2 ∧
    s.y = uvY (R1 + R2) A s.psi) ⟨h, h1, h2, rfl, rfl⟩
  rintro ⟨lo, psi, y⟩ ⟨h, h1, h2, hpsi, hy⟩
  simp only at hpsi hy
  subst hpsi
  subst hy
  have hh : 0 < h := by linarith
  refine ⟨?_, ?_⟩
  · simp only
    rw [uvY_neg_sq hh]
    have h3 := (sinh_ge hh.le).2
    have h4 : 1.4142 ≤ Real.sqrt 2 := Real.le_sqrt_of_sq_le (by norm_num)
    have h5 : 1.5416 ≤ Real.cosh h := by nlinarith [sq_nonneg (h ^ 2 - 1)]
    have h6 : (1.4142 : ℝ) * 1.5416 ≤ Real.sqrt 2 * Real.cosh h := by gcongr
    nlinarith
  · obtain ⟨q1, q2⟩ := readjust_range hA hK1 hK2 h1 h2
    have hpi := Real.pi_pos
    refine ⟨_, readjustBody_eq hA.ne' hh _ _ (c2_pos (by nlinarith)), ?_⟩
    simp only
    obtain ⟨q, hq⟩ : ∃ q, q = -(0.8 * ((2 * h) ^ 3 / (Real.sinh (2 * h) - 2 * h)) *
      (1 - R1 * R2 * (Real.sinh h / (Real.sqrt 2 * h)) / A)) := ⟨_, rfl⟩
    rw [← hq] at q1 q2
    refine ⟨Real.sqrt q / 2, ?_, ?_, ?_, trivial⟩
    · have : 2 ≤ Real.sqrt q := Real.le_sqrt_of_sq_le (by linarith)
      linarith
    · have : Real.sqrt q ≤ 5 := Real.sqrt_le_iff.2 ⟨by norm_num, by linarith⟩
      linarith
    · rw [show 2 * (Real.sqrt q / 2) = Real.sqrt q by ring, Real.sq_sqrt (by linarith), hq, neg_neg]

end Vallado

/-- **C37 is false**: `vallado2013` never stops, for all the positions of the following
family (nearly equal distances, less than about 98 degrees apart, in units of length for
which `3.5 ≤ |r1||r2| / A ≤ 8`) and *every* hyperbolic time of flight.  The readjustment
l.113-117 multiplies the distances where the method adds them, so it depends on the
units. -/
theorem vallado_diverges {mu : ℝ} (hmu : 0 < mu) {r1 r2 : V3} (hna : NotAligned r1 r2) {pro : Bool}
    (hsw : ShortWay pro r1 r2) {A : ℝ} (hA : A = Real.sqrt (V3.norm r1 * V3.norm r2 + V3.dot r1 r2))
    (hK1 : 7 / 2 * A ≤ V3.norm r1 * V3.norm r2) (hK2 : V3.norm r1 * V3.norm r2 ≤ 8 * A)
    (hP : V3.norm r1 + V3.norm r2 ≤ 2.18 * A) {tof rtol : ℝ} (htof : 0 < tof) (hr : 0 ≤ rtol)
    (hT : tof * (1 + rtol) ≤ parabolicTime mu r1 r2 pro) (hT' : tof < parabolicTime mu r1 r2 pro) {M : ℤ} (hM : 0 ≤ M)
    {N : ℕ} (hN : 2 ≤ N) (low : Bool) (atol : ℝ) (fo : Bool) (clock : ℝ) :
    vallado2013 mu r1 r2 tof M pro low N atol rtol fo clock = .error .diverges := by
  apply (entry hmu hna htof hM pro low N atol rtol fo clock).2
  obtain ⟨-, hG⟩ := getA_signedA (angle_of_eq hna (transferAngle_eq hna pro)) hna
  obtain ⟨hy0, hT0⟩ := parabolic hmu hna pro
  have hAe : signedA pro r1 r2 = A := by unfold signedA; rw [if_pos hsw, one_mul, hA]
  rw [hAe] at hG hy0 hT0 ⊢
  have hA0 : 0 < A := lt_of_le_of_ne (by rw [hA]; positivity) (Ne.symm hG.hA)
  have hpi := Real.pi_pos
  obtain ⟨N, rfl⟩ := Nat.exists_eq_add_of_le hN
  rw [show 2 + N = (N + 1) + 1 by ring, loop_step hmu htof (by positivity) hy0.le, hT0]
  rw [if_neg (by
    rw [not_lt]
    refine le_trans ?_ (le_abs_self _)
    rw [le_div_iff₀ htof]; linarith), if_neg (not_le.2 hT')]
  have hψ : (0 + -4 * Real.pi ^ 2) / 2 = -(2 * (Real.pi / Real.sqrt 2)) ^ 2 := by
    rw [mul_pow, div_pow, Real.sq_sqrt (by norm_num)]; ring
  have h2 : Real.sqrt 2 ^ 2 = 2 := Real.sq_sqrt (by norm_num)
  have hr2p : 0 < Real.sqrt 2 := by positivity
  have h1 : 1 ≤ Real.pi / Real.sqrt 2 := by
    rw [le_div_iff₀ hr2p]
    have := Real.pi_gt_three
    nlinarith
  have h3 : Real.pi / Real.sqrt 2 ≤ 5 / 2 := by
    rw [div_le_iff₀ hr2p]
    have := Real.pi_lt_d2
    have : 1.4 ≤ Real.sqrt 2 := Real.le_sqrt_of_sq_le (by norm_num)
    linarith
  rw [hψ]
  unfold loop
  rw [yAtPsi_eq (c2_pos (by nlinarith [sq_nonneg (2 * (Real.pi / Real.sqrt 2))])), ok_bind,
    readjust_diverges hA0 hK1 hK2 hP h1 h3]
  rfl

/-- The hypotheses of `vallado_diverges`: a quarter turn at distance 5. -/
example : NotAligned ⟨5, 0, 0⟩ ⟨0, 5, 0⟩ ∧ ShortWay true ⟨5, 0, 0⟩ ⟨0, 5, 0⟩ ∧
    ∃ A, A = Real.sqrt (V3.norm ⟨5, 0, 0⟩ * V3.norm ⟨0, 5, 0⟩ + V3.dot ⟨5, 0, 0⟩ ⟨0, 5, 0⟩) ∧
      7 / 2 * A ≤ V3.norm ⟨5, 0, 0⟩ * V3.norm ⟨0, 5, 0⟩ ∧ V3.norm ⟨5, 0, 0⟩ * V3.norm ⟨0, 5, 0⟩ ≤ 8 * A ∧
      V3.norm ⟨5, 0, 0⟩ + V3.norm ⟨0, 5, 0⟩ ≤ 2.18 * A ∧
      ∃ tof, 0 < tof ∧ tof * (1 + 1e-7) ≤ parabolicTime 1 ⟨5, 0, 0⟩ ⟨0, 5, 0⟩ true ∧
        tof < parabolicTime 1 ⟨5, 0, 0⟩ ⟨0, 5, 0⟩ true := by
  have hna : NotAligned ⟨5, 0, 0⟩ ⟨0, 5, 0⟩ := by simp [NotAligned]
  have n1 : V3.norm ⟨5, 0, 0⟩ = 5 := by simp [V3.norm, V3.dot]
  have n2 : V3.norm ⟨0, 5, 0⟩ = 5 := by simp [V3.norm, V3.dot]
  have hd : V3.dot ⟨5, 0, 0⟩ ⟨0, 5, 0⟩ = 0 := by simp [V3.dot]
  have hs : Real.sqrt (5 * 5 + 0) = 5 := by rw [add_zero]; exact Real.sqrt_mul_self (by norm_num)
  have hpt := (vallado_returns_parabolic one_pos hna true true 0 0 one_pos false 0).1
  rw [(parabolic one_pos hna true).2] at hpt
  refine ⟨hna, by simp [ShortWay, crossZ], 5, by rw [n1, n2, hd, hs], by rw [n1, n2]; norm_num,
    by rw [n1, n2]; norm_num, by rw [n1, n2]; norm_num,
    parabolicTime 1 ⟨5, 0, 0⟩ ⟨0, 5, 0⟩ true / 2, by linarith, by linarith, by linarith⟩

/-! ## Termination -/

/-- The run ends, with a value or an exception. -/
def Halts {α : Type} (x : Py α) : Prop := x ≠ .error .diverges

theorem Halts.bind {α β : Type} {x : Py α} {f : α → Py β} (hx : Halts x) (hf : ∀ a, x = .ok a → Halts (f a)) :
    Halts (x >>= f) := by
  rcases x with e | a
  · intro h
    exact hx (by simpa [Bind.bind, Except.bind] using h)
  · exact hf a rfl

namespace Vallado

theorem halts_pdiv (a b : ℝ) : Halts (pdiv a b) := by unfold pdiv Halts; split <;> simp

theorem halts_psqrt (a : ℝ) : Halts (psqrt a) := by unfold psqrt Halts; split <;> simp

theorem halts_ok {α : Type} (a : α) : Halts (.ok a : Py α) := by simp [Halts]

theorem halts_c2 (a : ℝ) : Halts (c2 a) := by rw [c2_eq]; exact halts_ok _

theorem halts_c3 (a : ℝ) : Halts (c3 a) := by rw [c3_eq]; exact halts_ok _

theorem halts_xAtPsi (a b : ℝ) : Halts (xAtPsi a b) :=
  (halts_c2 _).bind fun _ _ => (halts_pdiv _ _).bind fun _ _ => halts_psqrt _

theorem halts_tof (a b c d e : ℝ) : Halts (tofVallado a b c d e) :=
  (halts_c3 _).bind fun _ _ => (halts_psqrt _).bind fun _ _ => (halts_psqrt _).bind fun _ _ => halts_pdiv _ _

theorem halts_y (a b c d : ℝ) : Halts (yAtPsi a b c d) :=
  (halts_c3 _).bind fun _ _ => (halts_c2 _).bind fun _ _ => (halts_psqrt _).bind fun _ _ =>
    (halts_pdiv _ _).bind fun _ _ => halts_ok _

/-- The bisection ends as long as, on the set of states it visits, the readjustment does. -/
theorem halts_loop {mu R1 R2 A tof rtol : ℝ} (I : ℝ → ℝ → ℝ → Prop)
    (hI : ∀ psi lo up y, I psi lo up → yAtPsi psi R1 R2 A = .ok y →
      Halts (readjust R1 R2 A ⟨lo, psi, y⟩) ∧
      ∀ s, readjust R1 R2 A ⟨lo, psi, y⟩ = .ok s → I ((up + s.psi) / 2) s.psi up ∧ I ((s.psi + s.psiLow) / 2) s.psiLow s.psi) :
    ∀ (r n : ℕ) (psi lo up : ℝ), I psi lo up → Halts (loop mu R1 R2 A tof rtol r n psi lo up) := by
  intro r
  induction r with
  | zero => intro n psi lo up _; simp [loop, Halts]
  | succ r ih =>
    intro n psi lo up h
    unfold loop
    refine (halts_y _ _ _ _).bind fun y hy => ?_
    obtain ⟨h1, h2⟩ := hI psi lo up y h hy
    refine h1.bind fun s hs => ?_
    obtain ⟨h3, h4⟩ := h2 s hs
    refine (halts_xAtPsi _ _).bind fun X _ => (halts_tof _ _ _ _ _).bind fun t _ => (halts_pdiv _ _).bind fun e _ => ?_
    split
    · exact halts_ok _
    · split
      · exact ih _ _ _ _ h3
      · exact ih _ _ _ _ h4

theorem sinh_div_le {h b : ℝ} (hh : 0 < h) (hb : h ≤ b) : Real.sinh h / h ≤ Real.sinh b / b := by
  have hb0 : 0 < b := by linarith
  have hcv : ConvexOn ℝ (Set.Ici 0) Real.sinh := by
    apply MonotoneOn.convexOn_of_deriv (convex_Ici 0) Real.continuous_sinh.continuousOn
      Real.differentiable_sinh.differentiableOn
    intro a ha b hb' hab
    rw [interior_Ici] at ha hb'
    rw [Real.deriv_sinh]
    exact Real.cosh_le_cosh.2 (by rw [abs_of_pos ha, abs_of_pos hb']; exact hab)
  have := hcv.2 (show (0 : ℝ) ∈ Set.Ici 0 by simp) (show b ∈ Set.Ici 0 from hb0.le)
    (show 0 ≤ 1 - h / b by rw [sub_nonneg, div_le_one hb0]; exact hb) (show 0 ≤ h / b by positivity) (by ring)
  simp only [smul_eq_mul, mul_zero, Real.sinh_zero, zero_add] at this
  rw [div_mul_cancel₀ _ hb0.ne'] at this
  rw [div_le_div_iff₀ hh hb0]
  calc Real.sinh h * b ≤ h / b * Real.sinh b * b := by gcongr
    _ = Real.sinh b * h := by field_simp

/-- In small units of length one readjustment suffices. -/
theorem readjust_small {R1 R2 A psi lo : ℝ} (h1 : 0 < R1) (h2 : 0 < R2) (hA : 0 < A) (hA2 : A ^ 2 < 2 * (R1 * R2))
    (hK : R1 * R2 * (Real.sinh Real.pi / (Real.sqrt 2 * Real.pi)) ≤ A) (hp : -(4 * Real.pi ^ 2) ≤ psi) 
    (hp' : psi < 4 * Real.pi ^ 2) :
    readjust R1 R2 A ⟨lo, psi, uvY (R1 + R2) A psi⟩ = .ok ⟨lo, psi, uvY (R1 + R2) A psi⟩ ∨
    ∃ q y, 0 ≤ q ∧ q < 4 * Real.pi ^ 2 ∧ readjust R1 R2 A ⟨lo, psi, uvY (R1 + R2) A psi⟩ = .ok ⟨psi, q, y⟩ := by
  have hpi := Real.pi_pos
  by_cases hy : 0 ≤ uvY (R1 + R2) A psi
  · exact .inl (readjust_nonneg hy)
  right
  have hneg : psi < 0 := by
    by_contra h
    exact hy (uvY_pos h1 h2 hA2 (not_lt.1 h) hp').le
  obtain ⟨h, hh, rfl⟩ := half_sqrt_neg hneg
  have hhpi : h ≤ Real.pi := by
    have : h ^ 2 ≤ Real.pi ^ 2 := by nlinarith
    exact (sq_le_sq₀ hh.le hpi.le).1 this
  have hq : R1 * R2 * (Real.sinh h / (Real.sqrt 2 * h)) / A ≤ 1 := by
    rw [div_le_one hA]
    refine le_trans ?_ hK
    have := sinh_div_le hh hhpi
    have e : ∀ x : ℝ, Real.sinh x / (Real.sqrt 2 * x) = Real.sinh x / x / Real.sqrt 2 := fun x => by
      rw [div_div, mul_comm]
    rw [e, e]
    gcongr
  have hq0 : 0 ≤ R1 * R2 * (Real.sinh h / (Real.sqrt 2 * h)) / A := by
    have := Real.sinh_pos_iff.2 hh
    positivity
  have hs : (2 * h) ^ 3 / 6 ≤ Real.sinh (2 * h) - 2 * h := by
    have := (sinh_ge (show 0 ≤ 2 * h by linarith)).1
    linarith
  have hs0 : 0 < Real.sinh (2 * h) - 2 * h := lt_of_lt_of_le (by positivity) hs
  have hc : (2 * h) ^ 3 / (Real.sinh (2 * h) - 2 * h) ≤ 6 := by rw [div_le_iff₀ hs0]; linarith
  have hc0 : 0 ≤ (2 * h) ^ 3 / (Real.sinh (2 * h) - 2 * h) := by positivity
  have key := readjustBody_eq (R1 := R1) (R2 := R2) hA.ne' hh lo (uvY (R1 + R2) A (-(2 * h) ^ 2))
  obtain ⟨q, hqe⟩ : ∃ q, q = 0.8 * ((2 * h) ^ 3 / (Real.sinh (2 * h) - 2 * h)) *
      (1 - R1 * R2 * (Real.sinh h / (Real.sqrt 2 * h)) / A) := ⟨_, rfl⟩
  have q1 : 0 ≤ q := by rw [hqe]; exact mul_nonneg (by positivity) (by linarith)
  have q2 : q < 4 * Real.pi ^ 2 := by
    have : q ≤ 0.8 * 6 * 1 := by rw [hqe]; gcongr; linarith
    have h3 := Real.pi_gt_three
    nlinarith
  rw [← hqe] at key
  refine ⟨q, uvY (R1 + R2) A q, q1, q2, ?_⟩
  unfold readjust
  rw [if_pos hA, whileLoop_true (cond := fun s : Adj => s.y < 0) (show uvY (R1 + R2) A (-(2 * h) ^ 2) < 0 from not_le.1 hy)
    (key (c2_pos q2))]
  exact whileLoop_false (not_lt.2 (uvY_pos h1 h2 hA2 q1 q2).le)

end Vallado

/-- **C37, the part that holds**: `vallado2013` ends, with a result or an exception, for
every iteration budget, on every long way arc, for every elliptic time of flight, and in
units of length small enough for `|r1||r2| sinh π / (√2 π) ≤ A`.
Missing: the hyperbolic short way in larger units, false by `vallado_diverges`. -/
theorem vallado_terminates_partial {mu : ℝ} (hmu : 0 < mu) {r1 r2 : V3} (hna : NotAligned r1 r2) {pro : Bool}
    {tof : ℝ} (htof : 0 < tof)
    (hc : ¬ ShortWay pro r1 r2 ∨ parabolicTime mu r1 r2 pro ≤ tof ∨
      V3.norm r1 * V3.norm r2 * (Real.sinh Real.pi / (Real.sqrt 2 * Real.pi)) ≤
        Real.sqrt (V3.norm r1 * V3.norm r2 + V3.dot r1 r2))
    {M : ℤ} (hM : 0 ≤ M) (low : Bool) (N : ℕ) (atol rtol : ℝ) (fo : Bool) (clock : ℝ) :
    Halts (vallado2013 mu r1 r2 tof M pro low N atol rtol fo clock) := by
  have hpi := Real.pi_pos
  obtain ⟨-, hG⟩ := getA_signedA (angle_of_eq hna (transferAngle_eq hna pro)) hna
  obtain ⟨hy0, hT0⟩ := parabolic hmu hna pro
  have hA2 := hG.A2_lt
  suffices hl : Halts (loop mu (V3.norm r1) (V3.norm r2) (signedA pro r1 r2) tof rtol N 1 0 (-4 * Real.pi ^ 2)
      (4 * Real.pi ^ 2)) by
    have z : (0.0 : ℝ) = 0 := by norm_num
    have hang := angle_of_eq hna (transferAngle_eq hna pro)
    obtain ⟨hA, -⟩ := getA_signedA hang hna
    have h12 : r1 ≠ r2 := by rintro rfl; simp [NotAligned, mul_comm] at hna
    unfold vallado2013
    simp only [assertParameters_eq hmu (norm_pos_iff.1 hG.R1) h12 htof hM, ok_bind, transferAngle_eq hna pro, hA]
    rw [raiseIf_neg _ (by norm_num; exact hG.hA), ok_bind, z]
    refine hl.bind fun ⟨y, q, k⟩ _ => ?_
    refine (halts_pdiv _ _).bind fun _ _ => (halts_pdiv _ _).bind fun _ _ => (halts_psqrt _).bind fun _ _ =>
      (halts_pdiv _ _).bind fun _ _ => ?_
    refine Halts.bind (by unfold vdiv Halts; split <;> simp) fun _ _ => ?_
    exact Halts.bind (by unfold vdiv Halts; split <;> simp) fun _ _ => halts_ok _
  by_cases hsw : ShortWay pro r1 r2
  swap
  · have hA : signedA pro r1 r2 ≤ 0 := by
      unfold signedA
      rw [if_neg hsw]
      have := Real.sqrt_nonneg (V3.norm r1 * V3.norm r2 + V3.dot r1 r2)
      linarith
    refine halts_loop (fun _ _ _ => True) (fun psi lo up y _ _ => ?_) _ _ _ _ _ trivial
    rw [readjust_neg hA]
    exact ⟨halts_ok _, fun _ _ => ⟨trivial, trivial⟩⟩
  rcases hc with hc | hc | hc
  · exact absurd hsw hc
  · rcases N with _ | N
    · simp [loop, Halts]
    rw [loop_step hmu htof (by positivity) hy0.le]
    split
    · exact halts_ok _
    rw [if_pos (by rw [hT0]; exact hc)]
    refine halts_loop (fun psi lo up => 0 ≤ psi ∧ psi < 4 * Real.pi ^ 2 ∧ 0 ≤ lo ∧ lo < 4 * Real.pi ^ 2 ∧
      0 ≤ up ∧ up ≤ 4 * Real.pi ^ 2) (fun psi lo up y h hy => ?_) _ _ _ _ _
      ⟨by positivity, by nlinarith, le_rfl, by positivity, by positivity, le_rfl⟩
    rw [yAtPsi_eq (c2_pos h.2.1)] at hy
    cases hy
    rw [readjust_nonneg (uvY_pos hG.R1 hG.R2 hA2 h.1 h.2.1).le]
    refine ⟨halts_ok _, fun s hs => ?_⟩
    cases hs
    obtain ⟨a, b, c, d, e, f⟩ := h
    exact ⟨⟨by linarith, by linarith, a, b, e, f⟩, ⟨by linarith, by linarith, c, d, a, b.le⟩⟩
  · have hAe : signedA pro r1 r2 = Real.sqrt (V3.norm r1 * V3.norm r2 + V3.dot r1 r2) := by
      unfold signedA; rw [if_pos hsw, one_mul]
    rw [← hAe] at hc
    have hA0 : 0 < signedA pro r1 r2 := lt_of_le_of_ne (by rw [hAe]; positivity) (Ne.symm hG.hA)
    refine halts_loop (fun psi lo up => -(4 * Real.pi ^ 2) ≤ psi ∧ psi < 4 * Real.pi ^ 2 ∧ -(4 * Real.pi ^ 2) ≤ lo ∧
      lo < 4 * Real.pi ^ 2 ∧ -(4 * Real.pi ^ 2) ≤ up ∧ up ≤ 4 * Real.pi ^ 2) (fun psi lo up y h hy => ?_) _ _ _ _ _
      ⟨by linarith [sq_nonneg Real.pi], by positivity, by linarith, by nlinarith, by linarith [sq_nonneg Real.pi], le_rfl⟩
    rw [yAtPsi_eq (c2_pos h.2.1)] at hy
    cases hy
    obtain ⟨a, b, c, d, e, f⟩ := h
    rcases readjust_small (lo := lo) hG.R1 hG.R2 hA0 hA2 hc a b with hr | ⟨q, y, q1, q2, hr⟩
    · rw [hr]
      refine ⟨halts_ok _, fun s hs => ?_⟩
      cases hs
      exact ⟨⟨by linarith, by linarith, a, b, e, f⟩, ⟨by linarith, by linarith, c, d, a, b.le⟩⟩
    · rw [hr]
      refine ⟨halts_ok _, fun s hs => ?_⟩
      cases hs
      have : -(4 * Real.pi ^ 2) ≤ q := by nlinarith
      exact ⟨⟨by linarith, by linarith, this, q2, e, f⟩, ⟨by linarith, by linarith, a, b, this, q2.le⟩⟩

/-- The three cases of `vallado_terminates_partial` can be met. -/
example : (NotAligned ⟨1, 0, 0⟩ ⟨0, 1, 0⟩ ∧ ¬ ShortWay false ⟨1, 0, 0⟩ ⟨0, 1, 0⟩) ∧
    ∃ R : ℝ, 0 < R ∧ NotAligned ⟨R, 0, 0⟩ ⟨0, R, 0⟩ ∧ ShortWay true ⟨R, 0, 0⟩ ⟨0, R, 0⟩ ∧
      V3.norm ⟨R, 0, 0⟩ * V3.norm ⟨0, R, 0⟩ * (Real.sinh Real.pi / (Real.sqrt 2 * Real.pi)) ≤
        Real.sqrt (V3.norm ⟨R, 0, 0⟩ * V3.norm ⟨0, R, 0⟩ + V3.dot ⟨R, 0, 0⟩ ⟨0, R, 0⟩) := by
  refine ⟨⟨by simp [NotAligned], by simp [ShortWay, crossZ]⟩, ?_⟩
  have hc : 0 < Real.sinh Real.pi / (Real.sqrt 2 * Real.pi) := by
    have := Real.sinh_pos_iff.2 Real.pi_pos
    have := Real.pi_pos
    positivity
  set c := Real.sinh Real.pi / (Real.sqrt 2 * Real.pi)
  have hR : 0 < 1 / c := by positivity
  refine ⟨1 / c, hR, by simp [NotAligned, hc.ne'], by simp [ShortWay, crossZ, hc], ?_⟩
  have n1 : V3.norm ⟨1 / c, 0, 0⟩ = 1 / c := by
    unfold V3.norm V3.dot; simp only [mul_zero, add_zero]; exact Real.sqrt_mul_self hR.le
  have n2 : V3.norm ⟨0, 1 / c, 0⟩ = 1 / c := by
    unfold V3.norm V3.dot; simp only [mul_zero, add_zero, zero_add]; exact Real.sqrt_mul_self hR.le
  rw [n1, n2, show V3.dot ⟨1 / c, 0, 0⟩ ⟨0, 1 / c, 0⟩ = 0 by simp [V3.dot], add_zero, Real.sqrt_mul_self hR.le]
  exact le_of_eq (by field_simp)

end Lamberthub
