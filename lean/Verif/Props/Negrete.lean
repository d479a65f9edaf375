import Verif.Proofs.NegreteLemmas
import Verif.Props.McElreath
import Verif.Props.Vallado
import Mathlib.Analysis.Real.Pi.Bounds

/-! # C25: what `negrete2024` returns is a Kepler transfer -/

set_option autoImplicit false

namespace Lamberthub
open Spec LC Negrete

namespace Negrete
open McElreath

theorem reconstruct_ok {mu A z : ℝ} {r1 r2 v1 v2 : V3} (hmu : 0 < mu)
    (h : reconstruct mu r1 r2 (V3.norm r1) (V3.norm r2) A z = .ok (v1, v2)) :
    ∃ y : ℂ, yAtZ z (V3.norm r1) (V3.norm r2) A = .ok y ∧ 0 < y.re ∧ v1 = fgV1 mu r1 r2 A y.re ∧
      v2 = fgV2 mu r1 r2 A y.re := by
  unfold reconstruct at h
  simp only [bind_ok, pdiv_ok, psqrt_ok, vdiv_ok] at h
  obtain ⟨y, hy, _, ⟨-, rfl⟩, _, ⟨-, rfl⟩, _, ⟨h0, rfl⟩, _, ⟨-, rfl⟩, _, ⟨hg, rfl⟩, _, ⟨-, rfl⟩, h⟩ := h
  simp only [Except.ok.injEq, Prod.mk.injEq] at h
  obtain ⟨rfl, rfl⟩ := h
  refine ⟨y, hy, ?_, rfl, rfl⟩
  have h1 : 0 ≤ y.re := by
    have := mul_nonneg h0 hmu.le
    rwa [div_mul_cancel₀ _ hmu.ne'] at this
  rcases h1.lt_or_eq with h2 | h2
  · exact h2
  · exfalso; apply hg; rw [← h2]; simp

/-- The number of revolutions belonging to a positive `z` off the multiples. -/
theorem revolutions {z : ℝ} (hz : 0 < z) (h2 : 0 < stumpffSeries 2 z) :
    ∃ k : ℕ, (2 * k * Real.pi) ^ 2 < z ∧ z < (2 * (k + 1) * Real.pi) ^ 2 := by
  have hpi := Real.pi_pos
  obtain ⟨φ, hφ, rfl⟩ := half_sqrt hz
  have hq : 0 ≤ φ / Real.pi := by positivity
  refine ⟨⌊φ / Real.pi⌋₊, ?_, ?_⟩
  · have h := Nat.floor_le hq
    rw [le_div_iff₀ hpi] at h
    have hne : (⌊φ / Real.pi⌋₊ : ℝ) * Real.pi ≠ φ := by
      intro e
      rw [series2_half hφ.ne', ← e, Real.sin_nat_mul_pi] at h2
      simp at h2
    have hlt := lt_of_le_of_ne h hne
    refine pow_lt_pow_left₀ ?_ (by positivity) two_ne_zero
    linarith
  · have h := Nat.lt_floor_add_one (φ / Real.pi)
    rw [div_lt_iff₀ hpi] at h
    refine pow_lt_pow_left₀ ?_ (by positivity) two_ne_zero
    linarith

theorem tofAtZ_large {mu z R1 R2 A : ℝ} (hmu : 0 < mu) (hz : 1e-8 ≤ |z|) (h2 : 0 < stumpffSeries 2 z)
    (hy : 0 ≤ uvY (R1 + R2) A z) : tofAtZ z mu R1 R2 A = .ok (uvT mu (R1 + R2) A z) := by
  unfold tofAtZ
  rw [yAtZ_large_eq hz h2, ok_bind, c2_large hz, ok_bind, cdiv_eq (by exact_mod_cast h2.ne'), ok_bind, c3_large hz,
    ok_bind, psqrt_eq hmu.le, ok_bind, cdiv_eq (by exact_mod_cast (Real.sqrt_pos.2 hmu).ne'), ok_bind,
    ← Complex.ofReal_div, csqrt_ofReal (by positivity), csqrt_ofReal hy]
  congr 1
  unfold uvT
  rw [← Complex.ofReal_re ((Real.sqrt (uvY (R1 + R2) A z / stumpffSeries 2 z) ^ 3 * stumpffSeries 3 z +
    A * Real.sqrt (uvY (R1 + R2) A z)) / Real.sqrt mu)]
  push_cast
  rfl

/-- The transfer described by any real `z` at which `y` is positive. -/
theorem path_of_z {mu z R1 R2 A : ℝ} (hmu : 0 < mu) {y : ℂ} (h : yAtZ z R1 R2 A = .ok y) (hy : 0 < y.re) :
    ∃ T k, Path mu (R1 + R2) A k y.re T ∧ (1e-8 ≤ |z| → tofAtZ z mu R1 R2 A = .ok T) ∧
      (z < 4 * Real.pi ^ 2 → k = 0) ∧ ((2 * k * Real.pi) ^ 2 ≤ z ∨ k = 0) ∧ z < (2 * (k + 1) * Real.pi) ^ 2 := by
  have hpi := Real.pi_pos
  have hpi3 := Real.pi_gt_three
  rcases lt_or_ge |z| 1e-8 with hz | hz
  · obtain ⟨c, hc, he⟩ := yAtZ_small (R1 := R1) (R2 := R2) (A := A) hz
    rw [he] at h
    rw [← Except.ok.inj h, Complex.ofReal_re] at hy ⊢
    obtain ⟨T, hT⟩ := path_of_cos_zero (μ := mu) (P := R1 + R2) (A := A) (c := c) (by linarith) hy rfl
    refine ⟨T, 0, hT, fun h' => absurd hz (not_lt.2 h'), fun _ => rfl, .inr rfl, ?_⟩
    have := le_abs_self z
    push_cast
    norm_num at hz
    nlinarith
  · obtain ⟨h2, rfl⟩ := yAtZ_large hz h
    rw [Complex.ofReal_re] at hy ⊢
    have ht := tofAtZ_large hmu hz h2 hy.le
    have hz0 : z ≠ 0 := by rintro rfl; norm_num at hz
    rcases lt_or_gt_of_ne hz0 with h0 | h0
    · refine ⟨_, 0, uv_path hmu (by nlinarith) hy, fun _ => ht, fun _ => rfl, .inr rfl, ?_⟩
      have : 0 < (2 * ((0 : ℕ) + 1) * Real.pi) ^ 2 := by positivity
      linarith
    · obtain ⟨k, hk1, hk2⟩ := revolutions h0 h2
      refine ⟨_, k, uv_ell hmu h0 hk1 hk2 hy, fun _ => ht, ?_, .inl hk1.le, hk2⟩
      intro h4
      by_contra hk
      have h1 : (1 : ℝ) ≤ k := by exact_mod_cast Nat.one_le_iff_ne_zero.2 hk
      have : (2 * 1 * Real.pi) ^ 2 ≤ (2 * k * Real.pi) ^ 2 := by gcongr
      nlinarith

end Negrete

/-- What `negrete2024` needs to return. -/
theorem negrete_ok_split {mu : ℝ} {r1 r2 : V3} {tof : ℝ} {M : ℤ} {pro low : Bool} {maxiter : ℕ}
    {atol rtol : ℝ} {full : Bool} {clock : ℝ} {out : Output}
    (h : negrete2024 mu r1 r2 tof M pro low maxiter atol rtol full clock = .ok out) :
    0 ≤ M ∧ 0 < mu ∧ 0 < tof ∧ NotAligned r1 r2 ∧ ∃ z tpi v1 v2,
      Geo r1 r2 (signedA pro r1 r2) ∧
      findZ mu (V3.norm r1) (V3.norm r2) (signedA pro r1 r2) tof M.toNat low (max 4 maxiter) atol rtol = .ok z ∧
      timePerIter full clock (3 * max 4 maxiter) = .ok tpi ∧
      reconstruct mu r1 r2 (V3.norm r1) (V3.norm r2) (signedA pro r1 r2) z = .ok (v1, v2) ∧
      out = mkOutput full v1 v2 (max 4 maxiter) tpi := by
  unfold negrete2024 at h
  simp only [bind_ok, assertTransferAngleNotZero, raiseIf_ok] at h
  obtain ⟨_, hv, θ, hθ, _, hz, A, hA, _, hA0, z, hf, tpi, htpi, ⟨v1, v2⟩, hr, h⟩ := h
  obtain ⟨h1, -, -, h3, h4⟩ := assertParameters_iff.1 hv
  have hpi : θ ≠ Real.pi := by
    rintro rfl
    apply hA0
    unfold Negrete.getA at hA
    simp only [bind_ok, psqrt_ok, Real.cos_pi] at hA
    obtain ⟨s, ⟨-, rfl⟩, hA⟩ := hA
    rw [← Except.ok.inj hA]
    norm_num
  have hna := notAligned_of_angle hθ hz hpi
  obtain ⟨hAe, hG⟩ := getA_signedA (angle_of_eq hna hθ) hna
  have hA' : Vallado.getA (V3.norm r1) (V3.norm r2) θ = .ok A := hA
  rw [hAe] at hA'
  obtain rfl := Except.ok.inj hA'
  exact ⟨h4, h1, h3, hna, z, tpi, v1, v2, hG, hf, htpi, hr, (Except.ok.inj h).symm⟩

theorem Negrete.sense {mu V : ℝ} {r1 r2 : V3} {pro : Bool} (hmu : 0 < mu) (hV : 0 < V)
    (hG : Geo r1 r2 (signedA pro r1 r2)) (hnp : NotPolar r1 r2) :
    Sense pro r1 (fgV1 mu r1 r2 (signedA pro r1 r2) V) := by
  refine sense_of_sign hmu hV hG.hA hnp ?_
  have h0 := hG.hA
  unfold signedA at h0 ⊢
  have hs : 0 < Real.sqrt (V3.norm r1 * V3.norm r2 + V3.dot r1 r2) :=
    lt_of_le_of_ne (Real.sqrt_nonneg _) (fun h => h0 (by rw [← h, mul_zero]))
  rw [mul_pos_iff_of_pos_right hs]
  split <;> rename_i h
  · exact ⟨fun _ => h, fun _ => one_pos⟩
  · exact ⟨fun h' => by linarith, fun h' => absurd h' h⟩

/-- **C25** (partial).  Whatever the inputs, if `negrete2024` returns, the velocities belong
to a true Kepler motion from `r1` to `r2`, in the requested sense, for some positive time
`T` and some number `k` of revolutions; `z` is the root the code found, `k` is the number of
revolutions that belongs to `z`, and `T` is the code's own time equation at `z`.
Missing: `T = tof` and `k = M`, which the code never verifies. -/
theorem negrete_kepler_transfer_partial {mu : ℝ} {r1 r2 : V3} {tof : ℝ} {M : ℤ} {pro low : Bool} {maxiter : ℕ}
    {atol rtol : ℝ} {full : Bool} {clock : ℝ} {out : Output}
    (h : negrete2024 mu r1 r2 tof M pro low maxiter atol rtol full clock = .ok out) :
    0 ≤ M ∧ ∃ z T k, LambertArc mu r1 r2 out.v1 out.v2 T k ∧ (NotPolar r1 r2 → Sense pro r1 out.v1) ∧
      findZ mu (V3.norm r1) (V3.norm r2) (signedA pro r1 r2) tof M.toNat low (max 4 maxiter) atol rtol = .ok z ∧
      (1e-8 ≤ |z| → tofAtZ z mu (V3.norm r1) (V3.norm r2) (signedA pro r1 r2) = .ok T) ∧
      (z < 4 * Real.pi ^ 2 → k = 0) ∧ ((2 * k * Real.pi) ^ 2 ≤ z ∨ k = 0) ∧ z < (2 * (k + 1) * Real.pi) ^ 2 := by
  obtain ⟨hM, hmu, -, -, z, tpi, v1, v2, hG, hz, -, hr, rfl⟩ := negrete_ok_split h
  obtain ⟨y, hy, hy0, rfl, rfl⟩ := reconstruct_ok hmu hr
  obtain ⟨T, k, hP, ht, hk⟩ := path_of_z hmu hy hy0
  refine ⟨hM, z, T, k, ?_, ?_, hz, ht, hk⟩
  · rw [mkOutput_v1, mkOutput_v2]; exact hP.arc hmu hG
  · intro hnp; rw [mkOutput_v1]; exact Negrete.sense hmu hy0 hG hnp

/-- The parabolic value of Lagrange's equation is Euler's time. -/
theorem Tpar_parabolicTime {mu : ℝ} {r1 r2 : V3} {pro : Bool} (hmu : 0 < mu)
    (hG : Geo r1 r2 (signedA pro r1 r2)) :
    Tpar mu (signedA pro r1 r2) (V3.norm r1 + V3.norm r2 - Real.sqrt 2 * signedA pro r1 r2) =
      parabolicTime mu r1 r2 pro := by
  obtain ⟨s, l, hS, hs⟩ := hG.semi
  have hsp := hS.spos
  have hl := hS.lam_lt
  have hl1 : l < 1 := (abs_lt.1 ((sq_lt_one_iff_abs_lt_one _).1 hl)).2
  have h2 : Real.sqrt 2 * Real.sqrt 2 = 2 := Real.mul_self_sqrt (by norm_num)
  have h0 : l ≠ 0 := by rintro rfl; exact hG.hA (by rw [hs]; ring)
  have hsg : 0 < l ↔ ShortWay pro r1 r2 := by
    have h1 : 0 < signedA pro r1 r2 ↔ 0 < l := by rw [hs, mul_pos_iff_of_pos_left (by positivity)]
    rw [← h1]
    have h0 := hG.hA
    unfold signedA at h0 ⊢
    have hs : 0 < Real.sqrt (V3.norm r1 * V3.norm r2 + V3.dot r1 r2) :=
      lt_of_le_of_ne (Real.sqrt_nonneg _) (fun h => h0 (by rw [← h, mul_zero]))
    rw [mul_pos_iff_of_pos_right hs]
    split <;> rename_i h
    · exact ⟨fun _ => h, fun _ => one_pos⟩
    · exact ⟨fun h' => by linarith, fun h' => absurd h' h⟩
  rw [Der.parabolicTime_eq hS h0 hsg, hs, hS.sum]
  unfold Tpar Der.computeParabolicTime
  have e : s * (1 + l ^ 2) - Real.sqrt 2 * (Real.sqrt 2 * s * l) = s * (1 - l) ^ 2 := by
    linear_combination (-s * l) * h2
  have hl' : 0 < 1 - l := by linarith
  have e2 : Real.sqrt (s * (1 - l) ^ 2 / mu) = Real.sqrt (s / mu) * (1 - l) := by
    rw [show s * (1 - l) ^ 2 / mu = s / mu * (1 - l) ^ 2 by ring, Real.sqrt_mul (by positivity), Real.sqrt_sq hl'.le]
  have e3 : Real.sqrt (s ^ 3 / (2 * mu)) * 2 = Real.sqrt (s / mu) * (s * Real.sqrt 2) := by
    rw [show s ^ 3 / (2 * mu) = (s / 2) ^ 2 * ((s / mu) * 2) by field_simp, Real.sqrt_mul (by positivity),
      Real.sqrt_mul (by positivity), Real.sqrt_sq (by positivity)]
    ring
  rw [e, e2]
  linear_combination (-(1 - l ^ 3) / 3) * e3

namespace Negrete

/-- The doubling search never meets a positive `y`. -/
theorem hyperbolicLoop_fails {mu R1 R2 A tof : ℝ} (hA : 0 < A) (h : R1 + R2 ≤ Real.sqrt 2 * A * Real.cosh (1 / 2)) :
    ∀ (n : ℕ) (z : ℝ), z ≤ -1 → ∃ zl, hyperbolicLoop mu R1 R2 A tof n z = .ok (zl, false)
  | 0, z, _ => ⟨z, rfl⟩
  | n + 1, z, hz => by
    have hpi := Real.pi_pos
    have hzl : (1e-8 : ℝ) ≤ |z| := by rw [abs_of_neg (by linarith)]; norm_num; linarith
    obtain ⟨φ, hφ, rfl⟩ := half_sqrt_neg (by linarith : z < 0)
    have hφ1 : 1 / 2 ≤ φ := by nlinarith
    have hc : Real.cosh (1 / 2) ≤ Real.cosh φ := by
      rw [Real.cosh_le_cosh, abs_of_pos (by norm_num), abs_of_pos hφ]; exact hφ1
    have hy : uvY (R1 + R2) A (-(2 * φ) ^ 2) ≤ 0 := by
      rw [uvY_neg_sq hφ]
      have : Real.sqrt 2 * A * Real.cosh (1 / 2) ≤ Real.sqrt 2 * A * Real.cosh φ := by gcongr
      linarith
    have h2 : 0 < stumpffSeries 2 (-(2 * φ) ^ 2) := series2_pos_of_lt (by nlinarith)
    rw [hyperbolicLoop, yAtZ_large_eq hzl h2, ok_bind, Complex.ofReal_re, if_neg (not_lt.2 hy)]
    exact hyperbolicLoop_fails hA h n _ (by linarith)

end Negrete

/-- Finding (C25).  Every zero-revolution problem that is faster than the parabola is
refused when the positions are close enough in direction and length:
`|r1| + |r2| ≤ √(2(|r1||r2| + r1·r2)) cosh(1/2)` on the short way (for equal lengths, any
angle below about 55 degrees).  The doubling search for a contour starts at `z = -1`, where
`y` is already negative, and only moves away from the root. -/
theorem negrete_hyperbolic_refused {mu : ℝ} {r1 r2 : V3} {tof : ℝ} {pro : Bool} (hmu : 0 < mu) (htof : 0 < tof)
    (hna : NotAligned r1 r2) (hsw : ShortWay pro r1 r2)
    (hgeo : len r1 + len r2 ≤ Real.sqrt (2 * (len r1 * len r2 + V3.dot r1 r2)) * Real.cosh (1 / 2))
    (hfast : tof < parabolicTime mu r1 r2 pro) (low : Bool) (maxiter : ℕ) (atol rtol : ℝ) (full : Bool)
    (clock : ℝ) :
    negrete2024 mu r1 r2 tof 0 pro low maxiter atol rtol full clock =
      .error (.valueError "Could not bracket hyperbolic contour!") := by
  have h10 : r1 ≠ 0 := by rintro rfl; simp [NotAligned] at hna
  have h12 : r1 ≠ r2 := by rintro rfl; simp [NotAligned, mul_comm] at hna
  obtain ⟨θ, hθ⟩ : ∃ θ, getTransferAngle r1 r2 pro = .ok θ := ⟨_, transferAngle_eq hna pro⟩
  have hA := angle_of_eq hna hθ
  obtain ⟨hAe, hG⟩ := getA_signedA hA hna
  have hA' : Negrete.getA (V3.norm r1) (V3.norm r2) θ = .ok (signedA pro r1 r2) := hAe
  have hsA : signedA pro r1 r2 = Real.sqrt (V3.norm r1 * V3.norm r2 + V3.dot r1 r2) := by
    unfold signedA; rw [if_pos hsw, one_mul]
  have hApos : 0 < signedA pro r1 r2 :=
    lt_of_le_of_ne (by rw [hsA]; positivity) (Ne.symm hG.hA)
  rw [len_eq_norm, len_eq_norm, Real.sqrt_mul (by norm_num), ← hsA] at hgeo
  have hy0 : 0 < uvY (V3.norm r1 + V3.norm r2) (signedA pro r1 r2) 0 :=
    Vallado.uvY_pos hG.R1 hG.R2 hG.A2_lt le_rfl (by positivity)
  have htp : tofAtZ 0 mu (V3.norm r1) (V3.norm r2) (signedA pro r1 r2) = .ok (parabolicTime mu r1 r2 pro) := by
    rw [tofAtZ_zero hmu hy0.le, uvT_zero hmu hy0.le, uvY_zero, Tpar_parabolicTime hmu hG]
  obtain ⟨zl, hzl⟩ := hyperbolicLoop_fails (mu := mu) (tof := tof) hApos hgeo 64 (-1) le_rfl
  unfold negrete2024
  rw [assertParameters_eq hmu h10 h12 htof le_rfl, ok_bind]
  simp only []
  rw [hθ, ok_bind, assertTransferAngleNotZero, raiseIf_neg _ hA.pos.ne', ok_bind, hA', ok_bind,
    raiseIf_neg _ (by rw [show (0.0 : ℝ) = 0 by norm_num]; exact hG.hA), ok_bind, Int.toNat_zero, findZ, if_pos rfl,
    htp, ok_bind, singleContour, if_pos hfast, hyperbolicContour, hzl, ok_bind]
  simp only []
  rw [ok_bind]
  simp only []
  rw [raiseIf_pos _ trivial, error_bind, error_bind, error_bind]

/-- The hypotheses of `negrete_hyperbolic_refused` are met by unit vectors at an angle of
about 37 degrees. -/
example : NotAligned ⟨1, 0, 0⟩ ⟨4 / 5, 3 / 5, 0⟩ ∧ ShortWay true ⟨1, 0, 0⟩ ⟨4 / 5, 3 / 5, 0⟩ ∧
    len ⟨1, 0, 0⟩ + len ⟨4 / 5, 3 / 5, 0⟩ ≤
      Real.sqrt (2 * (len ⟨1, 0, 0⟩ * len ⟨4 / 5, 3 / 5, 0⟩ + V3.dot ⟨1, 0, 0⟩ ⟨4 / 5, 3 / 5, 0⟩)) * Real.cosh (1 / 2) ∧
    0 < parabolicTime 1 ⟨1, 0, 0⟩ ⟨4 / 5, 3 / 5, 0⟩ true := by
  have hna : NotAligned ⟨1, 0, 0⟩ ⟨4 / 5, 3 / 5, 0⟩ := by norm_num [NotAligned]
  have n1 : len ⟨1, 0, 0⟩ = 1 := by simp [len]
  have n2 : len ⟨4 / 5, 3 / 5, 0⟩ = 1 := by
    unfold len; rw [Real.sqrt_eq_one]; norm_num
  refine ⟨hna, by norm_num [ShortWay, crossZ], ?_, ?_⟩
  · rw [n1, n2]
    have h1 : 1 + (1 / 2) ^ 2 / 2 ≤ Real.cosh (1 / 2) := by
      have e := Real.cosh_two_mul (1 / 4)
      rw [Real.cosh_sq, show (2 : ℝ) * (1 / 4) = 1 / 2 by norm_num] at e
      have := Real.self_le_sinh_iff.2 (by norm_num : (0 : ℝ) ≤ 1 / 4)
      nlinarith
    have h2 : (1.89 : ℝ) ≤ Real.sqrt (2 * (1 * 1 + V3.dot ⟨1, 0, 0⟩ ⟨4 / 5, 3 / 5, 0⟩)) := by
      apply Real.le_sqrt_of_sq_le
      norm_num [V3.dot]
    norm_num at h1 h2 ⊢
    nlinarith
  · obtain ⟨θ, hθ⟩ : ∃ θ, getTransferAngle ⟨1, 0, 0⟩ ⟨4 / 5, 3 / 5, 0⟩ true = .ok θ := ⟨_, transferAngle_eq hna true⟩
    obtain ⟨-, hG⟩ := getA_signedA (angle_of_eq hna hθ) hna
    rw [← Tpar_parabolicTime one_pos hG]
    have hy0 : 0 < uvY (V3.norm ⟨1, 0, 0⟩ + V3.norm ⟨4 / 5, 3 / 5, 0⟩) (signedA true ⟨1, 0, 0⟩ ⟨4 / 5, 3 / 5, 0⟩) 0 :=
      Vallado.uvY_pos hG.R1 hG.R2 hG.A2_lt le_rfl (by positivity)
    have := ((uv_path one_pos (by positivity) hy0).arc one_pos hG).1
    rwa [uvT_zero one_pos hy0.le, uvY_zero] at this

end Lamberthub
