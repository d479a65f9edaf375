import Verif.Props.DerSolves
import Verif.Props.LowPathMore
import Verif.Props.IzzoFeasible
import Verif.Props.CharacteristicTimes

/-! # C87: the least time with revolutions in `der2011` -/

set_option autoImplicit false

namespace Lamberthub
open Spec LC Set

/-- The ratio of the chord to the semi-perimeter of the triangle of the problem. -/
noncomputable def Spec.chordRatio (r1 r2 : V3) : ℝ := len (r2 - r1) / semiPerimeter r1 r2

/-- How far the least time with `M` revolutions may be missed, in units of `timeUnit`, when the path parameter of the
fastest transfer is known up to `e`. -/
noncomputable def Spec.leastTimeError (r1 r2 : V3) (M : ℕ) (e : ℝ) : ℝ := e * (5 * (M + 2)) ^ 2 / chordRatio r1 r2 ^ 2

namespace Der

/-- The two branches of `_phi` that are reached: an odd function of its argument. -/
theorem phi_eq {σ y : ℝ} (h1 : 0 < y) (h2 : y ≤ 1) :
    phi (sg σ * y) = .ok (sg σ * (Real.arccos y - (2 + y ^ 2) * Real.sqrt (1 - y ^ 2) / (3 * y))) := by
  have hs2 : (sg σ * y) ^ 2 = y ^ 2 := by linear_combination (y ^ 2) * sg_sq σ
  have hs0 : sg σ ≠ 0 := by rcases sg_cases σ with h | h <;> rw [h] <;> norm_num
  have hy : sg σ * y ≠ 0 := mul_ne_zero hs0 h1.ne'
  have hq : 0 ≤ 1 - y ^ 2 := by nlinarith
  unfold phi
  simp only []
  rw [hs2, max_eq_right (show (0.0 : ℝ) ≤ 1 - y ^ 2 by rw [show (0.0 : ℝ) = 0 by norm_num]; exact hq), psqrt_eq hq, ok_bind,
    if_neg hy, acotY h1 h2, ok_bind, hs2, pdiv_eq (mul_ne_zero (by norm_num) hy), ok_bind]
  congr 1
  rcases sg_cases σ with h | h <;> rw [h] <;> field_simp
  ring

section
variable {σ : ℝ} (hl : σ ^ 2 < 1) (h0 : σ ≠ 0)
include hl h0

/-- The function whose root is sought is, up to a factor, the derivative of the time of flight. -/
theorem minimumTimeEquation_eq {x : ℝ} (hx0 : 0 < x) (hx1 : x < 1) (M : ℕ) :
    minimumTimeEquation σ M x = .ok (-(revH σ M x / 3)) := by
  have h := lanc_lancY hl x
  have hT := tofElliptic_eq hl h0 (by linarith : -1 < x) hx1 M
  rw [computeY_eq hl h0] at hT
  have hq : 0 < 1 - x ^ 2 := by nlinarith
  obtain ⟨w, hw, hw2⟩ : ∃ w, 0 < w ∧ w ^ 2 = 1 - x ^ 2 := ⟨Real.sqrt (1 - x ^ 2), by positivity, Real.sq_sqrt hq.le⟩
  have e : Real.sqrt (1 - x ^ 2) = w := by rw [← hw2, Real.sqrt_sq hw.le]
  unfold minimumTimeEquation revH revT
  rw [computeY_eq hl h0, e]
  generalize lancT σ x (lancY σ x) M = t at *
  obtain ⟨Y, hY⟩ : ∃ Y, Y = lancY σ x := ⟨_, rfl⟩
  rw [← hY] at h hT ⊢
  have hYp := h.y_pos
  have hY2 : 1 - Y ^ 2 = (|σ| * w) ^ 2 := by rw [h.y_sq, mul_pow, sq_abs, hw2]; ring
  have hY1 : Y ≤ 1 := by nlinarith [sq_nonneg (|σ| * w)]
  have hsy : 1 - (sg σ * Y) ^ 2 = (|σ| * w) ^ 2 := by
    rw [← hY2]; linear_combination (-Y ^ 2) * sg_sq σ
  have hN : Real.arccos x - sg σ * Real.arccos Y - x * w + sg σ * Y * (|σ| * w) + M * Real.pi = t * w ^ 3 := by
    unfold tofElliptic at hT
    simp only [] at hT
    rw [acotX (by linarith) hx1.le, ok_bind, acotY hYp hY1, ok_bind, psqrt_eq hq.le, ok_bind, hsy,
      max_eq_right (by norm_num; positivity), psqrt_eq (by positivity), ok_bind, Real.sqrt_sq (by positivity), e,
      ← hw2, prpow_ok.2 ⟨.inl (by positivity), rfl⟩, ok_bind, rpow_threehalf hw, pdiv_eq (by positivity)] at hT
    have := Except.ok.inj hT
    rw [div_eq_iff (by positivity)] at this
    exact_mod_cast this
  have hpx : phi x = .ok (Real.arccos x - (2 + x ^ 2) * w / (3 * x)) := by
    have := phi_eq (σ := 1) hx0 hx1.le
    rw [e] at this
    have e1 : sg 1 = 1 := by unfold sg; rw [if_neg (by norm_num)]
    rwa [e1, one_mul, one_mul] at this
  rw [phi_eq hYp hY1, ok_bind, hpx, ok_bind, hY2, Real.sqrt_sq (by positivity)]
  congr 1
  push_cast
  have hg := sg_mul σ
  have hY3 : Y ^ 2 = 1 - σ ^ 2 * w ^ 2 := by rw [h.y_sq, hw2]
  have hw3 : x ^ 2 = 1 - w ^ 2 := by linarith
  have ha : Real.arccos x - sg σ * Real.arccos Y + M * Real.pi = t * w ^ 3 + x * w - σ * Y * w := by
    rw [← hN]; linear_combination (-(Y * w)) * hg
  have e3 : sg σ * ((2 + Y ^ 2) * (|σ| * w) / (3 * Y)) = σ * ((2 + Y ^ 2) * w) / (3 * Y) := by
    linear_combination ((2 + Y ^ 2) * w / (3 * Y)) * hg
  have e4 : sg σ * (Real.arccos Y - (2 + Y ^ 2) * (|σ| * w) / (3 * Y)) - (Real.arccos x - (2 + x ^ 2) * w / (3 * x)) - M * Real.pi =
      -(t * w ^ 3 + x * w - σ * Y * w) - σ * ((2 + Y ^ 2) * w) / (3 * Y) + (2 + x ^ 2) * w / (3 * x) := by
    rw [mul_sub, e3, ← ha]; ring
  rw [e4]
  field_simp
  linear_combination (2 * σ * x) * hY3 - (2 * Y) * hw3
  
/-- The estimate of the least time: the code divides by the signed `y`. -/
theorem minimumTimeAt_eq {x : ℝ} (hx0 : x ≠ 0) :
    minimumTimeAt σ x = .ok (2 / 3 * (1 / x - |σ| ^ 3 / lancY σ x)) := by
  have h := (lanc_lancY hl x).y_pos
  unfold minimumTimeAt
  rw [pdiv_eq hx0, ok_bind, pdiv_eq (computeY_ne hl h0 x), ok_bind, computeY_eq hl h0]
  congr 1
  have hg := sg_mul σ
  have e : σ ^ 3 / (sg σ * lancY σ x) = |σ| ^ 3 / lancY σ x := by
    rcases sg_cases σ with h | h <;> rw [h] at hg ⊢ <;> field_simp
    · rw [show |σ| = -σ by linarith]; ring
    · rw [show |σ| = σ by linarith]
  rw [e]
  ring

omit h0 in
/-- The derivative of the time vanishes at the fastest transfer. -/
theorem revH_fastest {M : ℕ} (hM : 1 ≤ M) {m : ℝ} (hm : Fastest σ M m) : revH σ M m = 0 := by
  obtain ⟨hm0, hm1, -, -⟩ := hm.valley hl hM
  have hmin : IsLocalMin (revT σ M) m :=
    Filter.eventually_of_mem (Ioo_mem_nhds hm.mem.1 hm.mem.2) fun x hx => hm.least x hx
  have hd := hmin.hasDerivAt_eq_zero (revT_hasDerivAt hl hm.mem.1 hm.mem.2 M)
  have hq : 0 < 1 - m ^ 2 := by nlinarith
  have hG : revG σ M m = 0 := (div_eq_zero_iff.1 hd).resolve_right hq.ne'
  have e := revH_eq (lam := σ) M hm0.ne'
  rw [hG, mul_zero] at e
  exact (mul_eq_zero.1 e).resolve_left hm0.ne'

/-- The root of the code's equation is the fastest transfer, and the sign tells the side. -/
theorem minimum_sign {M : ℕ} (hM : 1 ≤ M) {m x : ℝ} (hm : Fastest σ M m) (hx0 : 0 < x) (hx1 : x < 1) :
    ∃ F, minimumTimeEquation σ M x = .ok F ∧ (0 < F ↔ x < m) ∧ (F = 0 ↔ x = m) := by
  obtain ⟨hm0, hm1, -, -⟩ := hm.valley hl hM
  have hz := revH_fastest hl hM hm
  have hmono := revH_strictMono hl M
  have hmm : m ∈ Ioo (0 : ℝ) 1 := ⟨hm0, by linarith⟩
  have hxm : x ∈ Ioo (0 : ℝ) 1 := ⟨hx0, hx1⟩
  refine ⟨_, minimumTimeEquation_eq hl h0 hx0 hx1 M, ?_, ?_⟩
  · rw [← hmono.lt_iff_lt hxm hmm, hz]
    constructor <;> intro h <;> linarith
  · rw [← hmono.eq_iff_eq hxm hmm, hz]
    constructor <;> intro h <;> linarith

omit h0 in
/-- The time of the fastest transfer. -/
theorem fastest_time {M : ℕ} (hM : 1 ≤ M) {m : ℝ} (hm : Fastest σ M m) :
    revT σ M m = 2 / 3 * (1 / m - σ ^ 3 / lancY σ m) := by
  obtain ⟨hm0, hm1, -, -⟩ := hm.valley hl hM
  have hz := revH_fastest hl hM hm
  have hq : 0 < 1 - m ^ 2 := by nlinarith
  have hw : 0 < Real.sqrt (1 - m ^ 2) := Real.sqrt_pos.2 hq
  unfold revH at hz
  have := (mul_eq_zero.1 hz).resolve_left (by positivity)
  rw [mul_div_assoc 2 (σ ^ 3), show 2 / m = 2 * (1 / m) by ring] at this
  linarith

/-- What the code takes for the least time when it has found the fastest transfer. -/
theorem minimum_value {M : ℕ} (hM : 1 ≤ M) {m : ℝ} (hm : Fastest σ M m) :
    minimumTimeAt σ m = .ok (revT σ M m - if 0 < σ then 0 else 4 / 3 * (|σ| ^ 3 / lancY σ m)) := by
  obtain ⟨hm0, hm1, -, -⟩ := hm.valley hl hM
  rw [minimumTimeAt_eq hl h0 hm0.ne', fastest_time hl hM hm]
  congr 1
  split
  · rename_i h; rw [abs_of_pos h, sub_zero]
  · rename_i h
    have : |σ| = -σ := abs_of_nonpos (not_lt.1 h)
    rw [this]
    ring

omit h0 in
/-- The estimate depends on the point less than `2/(3x)` does. -/
theorem estimate_lipschitz {x z : ℝ} (hx : 0 < x) (hxz : x ≤ z) :
    0 ≤ 2 / 3 * (1 / x - |σ| ^ 3 / lancY σ x) - 2 / 3 * (1 / z - |σ| ^ 3 / lancY σ z) ∧
      2 / 3 * (1 / x - |σ| ^ 3 / lancY σ x) - 2 / 3 * (1 / z - |σ| ^ 3 / lancY σ z) ≤ 2 / 3 * ((z - x) / (x * z)) := by
  have hz : 0 < z := by linarith
  have hX := lanc_lancY hl x
  have hZ := lanc_lancY hl z
  have ha : |σ| < 1 := (sq_lt_one_iff_abs_lt_one _).1 hl
  have ha0 := abs_nonneg σ
  have bX := abs_lam_mul_lt hX
  have bZ := abs_lam_mul_lt hZ
  rw [abs_mul, abs_of_pos hx] at bX
  rw [abs_mul, abs_of_pos hz] at bZ
  have hX2 := hX.y_sq
  have hZ2 := hZ.y_sq
  have pX := hX.y_pos
  have pZ := hZ.y_pos
  rw [← sq_abs σ] at hX2 hZ2
  generalize lancY σ x = X at *
  generalize lancY σ z = Z at *
  generalize |σ| = a at *
  have hd : (Z - X) * (Z + X) = a ^ 2 * ((z - x) * (z + x)) := by linear_combination hZ2 - hX2
  have hle : X ≤ Z := by
    by_contra hn
    push Not at hn
    have h1 : (Z - X) * (Z + X) < 0 := mul_neg_of_neg_of_pos (by linarith) (by linarith)
    have : 0 ≤ a ^ 2 * ((z - x) * (z + x)) := mul_nonneg (sq_nonneg _) (mul_nonneg (by linarith) (by linarith))
    linarith
  have hdl : Z - X ≤ a * (z - x) := by
    by_contra hn
    push Not at hn
    have h1 : a * (z - x) * (a * (z + x)) ≤ a * (z - x) * (Z + X) :=
      mul_le_mul_of_nonneg_left (by linarith) (mul_nonneg ha0 (by linarith))
    have h2 : a * (z - x) * (Z + X) < (Z - X) * (Z + X) := mul_lt_mul_of_pos_right hn (by linarith)
    nlinarith
  have hB : a ^ 3 / X - a ^ 3 / Z = a ^ 3 * (Z - X) / (X * Z) := by field_simp
  have hB0 : 0 ≤ a ^ 3 * (Z - X) / (X * Z) := by
    have : 0 ≤ Z - X := by linarith
    positivity
  have hA : 1 / x - 1 / z = (z - x) / (x * z) := by field_simp
  have hBA : a ^ 3 * (Z - X) / (X * Z) ≤ (z - x) / (x * z) := by
    rw [div_le_div_iff₀ (by positivity) (by positivity)]
    have h1 : a ^ 3 * (Z - X) * (x * z) ≤ a ^ 3 * (a * (z - x)) * (x * z) :=
      mul_le_mul_of_nonneg_right (mul_le_mul_of_nonneg_left hdl (by positivity)) (by positivity)
    have h2 : (a * x) * (a * z) ≤ X * Z := mul_le_mul bX.le bZ.le (by positivity) pX.le
    have h3 : (z - x) * (a ^ 2 * ((a * x) * (a * z))) ≤ (z - x) * (X * Z) := by
      apply mul_le_mul_of_nonneg_left _ (by linarith)
      have : 0 ≤ (a * x) * (a * z) := by positivity
      exact (mul_le_of_le_one_left this (pow_le_one₀ ha0 ha.le)).trans h2
    calc a ^ 3 * (Z - X) * (x * z) ≤ a ^ 3 * (a * (z - x)) * (x * z) := h1
      _ = (z - x) * (a ^ 2 * ((a * x) * (a * z))) := by ring
      _ ≤ (z - x) * (X * Z) := h3
  constructor
  · linarith
  · linarith

omit h0 in
/-- The time of the ellipse of least energy. -/
theorem time_zero_le (M : ℕ) : revT σ M 0 ≤ (M + 1) * Real.pi + 1 := by
  have h1 := abs_lt.1 ((sq_lt_one_iff_abs_lt_one _).1 hl)
  rw [revT_at_zero]
  have := Real.arccos_le_pi σ
  have h2 : Real.sqrt (1 - σ ^ 2) ≤ 1 := by rw [Real.sqrt_le_one]; nlinarith [sq_nonneg σ]
  have h3 := Real.sqrt_nonneg (1 - σ ^ 2)
  nlinarith

omit h0 in
/-- The fastest transfer is not too close to the ellipse of least energy. -/
theorem fastest_ge {M : ℕ} (hM : 1 ≤ M) {m : ℝ} (hm : Fastest σ M m) : 1 - σ ^ 2 ≤ 5 * (M + 2) * m := by
  obtain ⟨hm0, hm1, -, -⟩ := hm.valley hl hM
  have hT := fastest_time hl hM hm
  have hle : revT σ M m ≤ revT σ M 0 := hm.least 0 (by norm_num)
  have hz := time_zero_le hl M
  have hL := lanc_lancY hl m
  have hy := hL.y_pos
  have hb := abs_lam_mul_lt hL
  have hpi := Real.pi_lt_d2
  have hM1 : (1 : ℝ) ≤ M := by exact_mod_cast hM
  have h3 : σ ^ 3 / lancY σ m * m ≤ σ ^ 2 := by
    rw [div_mul_eq_mul_div, div_le_iff₀ hy]
    have := le_abs_self (σ * m)
    nlinarith [sq_nonneg σ]
  have h4 : (1 / m) * m = 1 := by field_simp
  have h5 : 2 / 3 * (1 - σ ^ 2) ≤ revT σ M m * m := by
    rw [hT]; nlinarith
  have h6 : revT σ M m * m ≤ ((M + 1) * Real.pi + 1) * m := mul_le_mul_of_nonneg_right (hle.trans hz) hm0.le
  have h7 : ((M + 1) * Real.pi + 1) * m ≤ 10 / 3 * (M + 2) * m := by
    apply mul_le_mul_of_nonneg_right _ hm0.le
    norm_num at hpi
    nlinarith
  linarith

/-- What `_compute_minimum_time` returns: brentq finds the fastest transfer. -/
theorem computeMinimumTime_near {b : Brent} (hb : BrentSpec b) (hbc : BrentComplete b) {M : ℕ} (hM : 1 ≤ M) {m : ℝ}
    (hm : Fastest σ M m) {atol rtol : ℝ} (ha : 0 < atol) (hr : 1 / 2 ^ 50 ≤ rtol)
    (he : (atol + rtol) * (10 * (M + 2)) ^ 2 ≤ (1 - σ ^ 2) ^ 2) :
    ∃ N0 : ℕ, ∀ N ≥ N0, ∃ t, computeMinimumTime b σ M N atol rtol = .ok t ∧
      |t - (revT σ M m - if 0 < σ then 0 else 4 / 3 * (|σ| ^ 3 / lancY σ m))| ≤
        (atol + rtol) * (5 * (M + 2)) ^ 2 / (1 - σ ^ 2) ^ 2 := by
  obtain ⟨hm0, hm1, -, -⟩ := hm.valley hl hM
  have hq : 0 < 1 - σ ^ 2 := by linarith
  have hq1 : 1 - σ ^ 2 ≤ 1 := by nlinarith [sq_nonneg σ]
  have hge := fastest_ge hl hM hm
  have hM1 : (1 : ℝ) ≤ M := by exact_mod_cast hM
  have hep := eps_pos
  have hr0 : 0 < rtol := lt_of_lt_of_le (by norm_num) hr
  obtain ⟨e, hedef⟩ : ∃ e, e = atol + rtol := ⟨_, rfl⟩
  have he0 : 0 < e := by rw [hedef]; positivity
  rw [← hedef] at he ⊢
  -- the tolerance is small beside the point
  have hsq : (1 - σ ^ 2) ^ 2 ≤ (5 * (M + 2) * m) ^ 2 := pow_le_pow_left₀ hq.le hge 2
  have hB : (0 : ℝ) < (5 * (M + 2)) ^ 2 := by positivity
  have hem : 4 * e ≤ m ^ 2 := by
    have : (5 * ((M : ℝ) + 2)) ^ 2 * (4 * e) ≤ (5 * (M + 2)) ^ 2 * m ^ 2 := by nlinarith
    exact le_of_mul_le_mul_left this hB
  have hem' : 4 * e ≤ m := by nlinarith
  have hemin : eps < m := by
    have h1 : eps < 1 / 2 ^ 50 := by unfold eps; norm_num
    linarith
  have heps : eps < 1 / 2 := by unfold eps; norm_num
  have hf : ∀ t ∈ Icc eps (1 - eps), minimumTimeEquation σ M t = .ok (-(revH σ M t / 3)) := fun t ht =>
    minimumTimeEquation_eq hl h0 (by linarith [ht.1]) (by linarith [ht.2]) M
  have hg : ContinuousOn (fun t => -(revH σ M t / 3)) (Icc eps (1 - eps)) := fun t ht =>
    ((revH_hasDerivAt hl (by linarith [ht.1]) (by linarith [ht.2]) M).continuousAt.div_const 3).neg.continuousWithinAt
  have hz := revH_fastest hl hM hm
  have hmono := revH_strictMono hl M
  have hmm : m ∈ Ioo (0 : ℝ) 1 := ⟨hm0, by linarith⟩
  have hsl : revH σ M eps < 0 := by rw [← hz]; exact hmono ⟨by linarith, by linarith⟩ hmm hemin
  have hsr : 0 < revH σ M (1 - eps) := by rw [← hz]; exact hmono hmm ⟨by linarith, by linarith⟩ (by linarith)
  obtain ⟨N0, hN0⟩ := hbc (f := minimumTimeEquation σ M) (g := fun t => -(revH σ M t / 3)) (lo := eps) (hi := 1 - eps)
    (by linarith) hg hf (mul_nonpos_of_nonneg_of_nonpos (by linarith) (by linarith)) ha hr
  refine ⟨N0, fun N hN => ?_⟩
  obtain ⟨x, n, hx⟩ := hN0 N hN
  obtain ⟨z, hzI, hz0, hxz⟩ := hb.root (by linarith : eps ≤ 1 - eps) hg hf hx
  have hzm : z = m := by
    have hzI' : z ∈ Ioo (0 : ℝ) 1 := ⟨by linarith [hzI.1], by linarith [hzI.2]⟩
    refine (hmono.eq_iff_eq hzI' hmm).1 ?_
    rw [hz]; linarith
  rw [hzm, abs_of_pos hm0] at hxz
  have hxe : |x - m| ≤ e := by rw [hedef]; nlinarith
  obtain ⟨hx1, hx2⟩ := abs_le.1 hxe
  have hx0 : 3 / 4 * m ≤ x := by linarith
  have hxp : 0 < x := by linarith
  have hmv := minimum_value hl h0 hM hm
  rw [minimumTimeAt_eq hl h0 hm0.ne'] at hmv
  have hmv := Except.ok.inj hmv
  refine ⟨_, by unfold computeMinimumTime; rw [hx]; exact minimumTimeAt_eq hl h0 hxp.ne', ?_⟩
  rw [← hmv]
  have hgap : 2 / 3 * (e / (x * m)) ≤ e * (5 * (M + 2)) ^ 2 / (1 - σ ^ 2) ^ 2 := by
    have h1 : 3 / 4 * m ^ 2 ≤ x * m := by nlinarith
    rw [← mul_div_assoc, div_le_div_iff₀ (by positivity) (by positivity)]
    have h2 : 2 / 3 * (1 - σ ^ 2) ^ 2 ≤ (5 * (M + 2)) ^ 2 * (x * m) := by
      have h3 := mul_le_mul_of_nonneg_left h1 hB.le
      rw [mul_pow] at hsq
      clear he hem hge hB
      generalize (5 * ((M : ℝ) + 2)) ^ 2 = B at *
      have : 0 ≤ B * (x * m) := le_trans (by nlinarith [sq_nonneg (1 - σ ^ 2)]) h3
      linarith
    calc 2 / 3 * e * (1 - σ ^ 2) ^ 2 = e * (2 / 3 * (1 - σ ^ 2) ^ 2) := by ring
      _ ≤ e * ((5 * (M + 2)) ^ 2 * (x * m)) := mul_le_mul_of_nonneg_left h2 he0.le
      _ = e * (5 * (M + 2)) ^ 2 * (x * m) := by ring
  refine le_trans ?_ hgap
  rcases le_total x m with hxm | hxm
  · obtain ⟨a1, a2⟩ := estimate_lipschitz hl hxp hxm
    rw [abs_of_nonneg a1]
    refine a2.trans ?_
    have : (m - x) / (x * m) ≤ e / (x * m) := div_le_div_of_nonneg_right (by linarith) (by positivity)
    linarith
  · obtain ⟨a1, a2⟩ := estimate_lipschitz hl hm0 hxm
    rw [abs_sub_comm, abs_of_nonneg a1]
    refine a2.trans ?_
    rw [mul_comm m x]
    have : (x - m) / (x * m) ≤ e / (x * m) := div_le_div_of_nonneg_right (by linarith) (by positivity)
    linarith

/-- The fallback iteration of l.465-476 moves away from the minimum: it fails unless its first point passes the test. -/
theorem minimumTimeLoop_fails {M : ℕ} (hM : 1 ≤ M) {m atol rtol : ℝ} (hm : Fastest σ M m) (htol : 0 ≤ atol + rtol * M * Real.pi) :
    ∀ (k : ℕ) {x : ℝ}, eps ≤ x → x ≤ 0.999999 → atol + rtol * M * Real.pi < |-(revH σ M x / 3)| →
      minimumTimeLoop σ M atol rtol k x = .error (.valueError "Exceeded maximum number of iterations.")
  | 0, x, _, _, _ => by rw [minimumTimeLoop]
  | k + 1, x, hx1, hx2, hx => by
    have hep := eps_pos
    have he2 : eps < 1 / 2 := by unfold eps; norm_num
    have hx0 : 0 < x := by linarith
    have hxl : x < 1 := by norm_num at hx2; linarith
    have hq : 0 < 1 - x ^ 2 := by nlinarith
    have hL := lanc_lancY hl x
    have hy := hL.y_pos
    rw [minimumTimeLoop]
    have hfrac : σ ^ 5 * x ^ 3 / computeY σ x ^ 3 < 1 := by
      have hb := abs_lam_mul_lt hL
      have hb3 : |σ * x| ^ 3 < lancY σ x ^ 3 := pow_lt_pow_left₀ hb (abs_nonneg _) (by norm_num)
      have e : σ ^ 5 * x ^ 3 / computeY σ x ^ 3 = σ ^ 2 * (|σ * x| ^ 3 / lancY σ x ^ 3) := by
        rw [computeY_eq hl h0, abs_mul, abs_of_pos hx0]
        have hg := sg_mul σ
        rcases sg_cases σ with h | h <;> rw [h] at hg ⊢
        · rw [show |σ| = -σ by linarith]; field_simp
        · rw [show |σ| = σ by linarith]; field_simp
      rw [e]
      have h1 : |σ * x| ^ 3 / lancY σ x ^ 3 < 1 := by rw [div_lt_one (by positivity)]; exact hb3
      have h2 : 0 ≤ |σ * x| ^ 3 / lancY σ x ^ 3 := by positivity
      nlinarith [sq_nonneg σ]
    rw [minimumTimeEquation_eq hl h0 hx0 hxl, ok_bind, pdiv_eq (pow_ne_zero 3 (computeY_ne hl h0 x)), ok_bind,
      pdiv_eq (by positivity), ok_bind]
    push_cast
    rw [if_neg (not_le.2 hx)]
    have hd : 0 < 2 * (1 - x ^ 2) * (1 - σ ^ 5 * x ^ 3 / computeY σ x ^ 3) / (3 * x ^ 2) :=
      div_pos (mul_pos (by linarith) (by linarith)) (by positivity)
    rw [pdiv_eq hd.ne', ok_bind]
    generalize 2 * (1 - x ^ 2) * (1 - σ ^ 5 * x ^ 3 / computeY σ x ^ 3) / (3 * x ^ 2) = d at *
    have hmono := (revH_strictMono hl M).monotoneOn
    obtain ⟨x', hx'⟩ : ∃ x', x' = min (max (x - -(revH σ M x / 3) / d) eps) 0.999999 := ⟨_, rfl⟩
    rw [← hx']
    have hlo : eps ≤ x' := by rw [hx']; exact le_min (le_max_right _ _) (by norm_num; linarith)
    have hhi : x' ≤ 0.999999 := by rw [hx']; exact min_le_right _ _
    have hhi1 : x' < 1 := by norm_num at hhi; linarith
    refine minimumTimeLoop_fails hM hm htol k hlo hhi ?_
    rcases lt_or_ge (revH σ M x) 0 with hneg | hpos
    · -- before the minimum: the step goes down
      have hle : x' ≤ x := by
        rw [hx']
        refine (min_le_left _ _).trans (max_le ?_ hx1)
        have : 0 < -(revH σ M x / 3) / d := div_pos (by linarith) hd
        linarith
      have h1 := hmono (show x' ∈ Ioo (0 : ℝ) 1 from ⟨by linarith, hhi1⟩) (show x ∈ Ioo (0 : ℝ) 1 from ⟨hx0, hxl⟩) hle
      rw [abs_of_pos (by linarith)] at hx
      rw [abs_of_pos (by linarith)]
      linarith
    · have hle : x ≤ x' := by
        rw [hx']
        refine le_min (le_max_of_le_left ?_) hx2
        have : -(revH σ M x / 3) / d ≤ 0 := div_nonpos_of_nonpos_of_nonneg (by linarith) hd.le
        linarith
      have h1 := hmono (show x ∈ Ioo (0 : ℝ) 1 from ⟨hx0, hxl⟩) (show x' ∈ Ioo (0 : ℝ) 1 from ⟨by linarith, hhi1⟩) hle
      rw [abs_of_nonpos (by linarith)] at hx
      rw [abs_of_nonpos (by linarith)]
      linarith

omit h0 in
/-- Times of at most `10²³` units are below those at the ends of the fallback bracket. -/
theorem end_time {M : ℕ} (hM : 1 ≤ M) {x : ℝ} (h1 : -1 < x) (h2 : x < 1) (hx : x ^ 2 = (1 - eps) ^ 2) : 10 ^ 23 ≤ revT σ M x := by
  have hlow := revT_lower hl h1 h2 M
  have hp := revT_pos hl h1 h2 M
  have hw2 : 1 - x ^ 2 ≤ (22 / 10 ^ 9) ^ 2 := by rw [hx]; unfold eps; norm_num
  have hw : Real.sqrt (1 - x ^ 2) ≤ 22 / 10 ^ 9 := Real.sqrt_le_iff.2 ⟨by norm_num, hw2⟩
  have hc : Real.sqrt (1 - x ^ 2) ^ 3 ≤ (22 / 10 ^ 9) ^ 3 := pow_le_pow_left₀ (Real.sqrt_nonneg _) hw 3
  have h3 := mul_le_mul_of_nonneg_left hc hp.le
  have hpi := Real.pi_gt_three
  have hM1 : (1 : ℝ) ≤ M := by exact_mod_cast hM
  norm_num at h3 ⊢
  nlinarith

omit h0 in
theorem parabolic_lt : computeParabolicTime σ < 4 / 3 := by
  unfold computeParabolicTime
  have := (abs_lt.1 ((sq_lt_one_iff_abs_lt_one _).1 hl)).1
  nlinarith [sq_nonneg σ, sq_nonneg (σ - 1)]

/-- What happens to times below the least one when the feasibility test lets them through. -/
theorem solveElliptic_infeasible {b : Brent} (hb : BrentSpec b) {M : ℕ} {tau x0 atol rtol : ℝ} {N : ℕ}
    (hx1 : -1 < x0) (hx2 : x0 < 1) (ht : ∀ x, -1 < x → x < 1 → tau < revT σ M x) :
    (∃ x y n, 1 ≤ n ∧ solveElliptic b σ tau M x0 N atol rtol = .ok (x, y, n)) ∨
      solveElliptic b σ tau M x0 N atol rtol = .error (.valueError "Exceeded maximum number of iterations.") := by
  have hep := eps_pos
  have he2 : eps < 1 / 2 := by unfold eps; norm_num
  unfold solveElliptic solveEllipticJit
  obtain ⟨⟨x', y', n, fb⟩, e'⟩ := ellipticLoop_returns hl h0 (tau := tau) (x0 := x0) (M := M) (maxiter := N)
    (atol := atol) (rtol := rtol) N 0 hx1 hx2
  rw [e', ok_bind]
  cases fb
  · have := ellipticLoop_ok hl h0 hx1 hx2 e'
    exact .inl ⟨x', y', n, by omega, by simp⟩
  · right
    simp only [if_true]
    unfold solveEllipticBracketed
    have hlo : ∀ x, -1 < x → x < 1 → ∃ F, 0 < F ∧ ellipticEquation σ tau M x = .ok F := fun x a c =>
      ⟨_, by have := ht x a c; unfold revT at this; linarith, ellipticEquation_eq hl h0 a c⟩
    obtain ⟨F1, p1, e1⟩ := hlo (if x0 < 0 then -1 + eps else 0.0) (by split <;> norm_num <;> linarith)
      (by split <;> norm_num <;> linarith)
    obtain ⟨F2, p2, e2⟩ := hlo (if x0 < 0 then 0.0 else 1 - eps) (by split <;> norm_num <;> linarith)
      (by split <;> norm_num <;> linarith)
    obtain ⟨msg, hmsg⟩ := hb.refuses (xtol := atol) (rtol := rtol) (maxiter := N) e1 e2 (mul_pos p1 p2)
    simp only []
    rw [hmsg]
    rfl

end

/-- What the solver does with the results of its two phases. -/
theorem run_multi {b : Brent} {mu : ℝ} (hmu : 0 < mu) {r1 r2 : V3} {s σ : ℝ} {pro : Bool}
    (hna : NotAligned r1 r2) {tof : ℝ} (htof : 0 < tof) {ψ : ℝ} (hψ : getTransferAngle r1 r2 pro = .ok ψ)
    (hG : Geo r1 r2 (Real.sqrt 2 * s * σ)) (hS : Semi (V3.norm r1) (V3.norm r2) (V3.norm (r2 - r1)) s σ) (h0 : σ ≠ 0)
    (hcs : computeSigma (V3.norm r1) (V3.norm r2) (V3.norm r1 + V3.norm r2 + V3.norm (r2 - r1)) ψ = .ok σ)
    {tau : ℝ} (hnt : computeNormalizedTime mu (V3.norm r1 + V3.norm r2 + V3.norm (r2 - r1)) tof = .ok tau)
    {M : ℕ} (hM : 1 ≤ M) (low : Bool) {N : ℕ} {atol rtol : ℝ} (full : Bool) (clock : ℝ) :
    (∀ e, checkFeasible b σ tau (computeParabolicTime σ) M N atol rtol = .error e →
      der2011 b mu r1 r2 tof M pro low N atol rtol full clock = .error e) ∧
    (checkFeasible b σ tau (computeParabolicTime σ) M N atol rtol = .ok () →
      (∀ x y n, 1 ≤ n → solveElliptic b σ tau M (if low then 0.5 else -0.5) N atol rtol = .ok (x, y, n) →
        ∃ out, der2011 b mu r1 r2 tof M pro low N atol rtol full clock = .ok out) ∧
      ∀ e, solveElliptic b σ tau M (if low then 0.5 else -0.5) N atol rtol = .error e →
        der2011 b mu r1 r2 tof M pro low N atol rtol full clock = .error e) := by
  have h1 : r1 ≠ 0 := by rintro rfl; exact (norm_pos_of_notAligned_left hna).ne' (by simp [V3.norm, V3.dot])
  have h2 : r1 ≠ r2 := by rintro rfl; exact hna ⟨by ring, by ring, by ring⟩
  have hA := angle_of_eq hna hψ
  have hl := hS.lam_lt
  have hM0 : (M : ℤ) ≠ 0 := by omega
  have hMp : (M : ℤ) > 0 := by omega
  have hfind : findPathParameter b σ tau (computeParabolicTime σ) M low N atol rtol =
      solveElliptic b σ tau M (if low then 0.5 else -0.5) N atol rtol := by
    unfold findPathParameter startX
    rw [if_neg (fun h => hM0 h.1), if_neg hM0, minimumEnergyTime_eq hl, ok_bind, ok_bind, if_pos (.inl hMp)]
  refine ⟨fun e he => ?_, fun hok => ⟨fun x y n hn hx => ?_, fun e he => ?_⟩⟩
  · unfold der2011
    rw [assertParameters_eq hmu h1 h2 htof (by omega), ok_bind, hψ, ok_bind]
    simp only []
    rw [assertTransferAngleNotZero, raiseIf_neg _ hA.pos.ne', ok_bind, assertTransferAngleNotPi,
      raiseIf_neg _ hA.ne_pi, ok_bind, hcs, ok_bind, hnt, ok_bind, he]
    rfl
  · obtain ⟨tpi, htpi⟩ := timePerIter_pos full clock hn
    exact ⟨_, der_fwd (low := low) hmu hna htof (by omega) hψ hcs hnt hok (hfind.trans hx) htpi
      (reconstruct_eq hmu h0 hG hS _ _)⟩
  · unfold der2011
    rw [assertParameters_eq hmu h1 h2 htof (by omega), ok_bind, hψ, ok_bind]
    simp only []
    rw [assertTransferAngleNotZero, raiseIf_neg _ hA.pos.ne', ok_bind, assertTransferAngleNotPi,
      raiseIf_neg _ hA.ne_pi, ok_bind, hcs, ok_bind, hnt, ok_bind, hok, ok_bind, hfind, he]
    rfl

theorem chordRatio_eq {r1 r2 : V3} {s σ : ℝ} (hS : Semi (V3.norm r1) (V3.norm r2) (V3.norm (r2 - r1)) s σ) :
    chordRatio r1 r2 = 1 - σ ^ 2 := by
  have hs := hS.spos
  unfold chordRatio
  rw [semiPerimeter_eq, ← hS.hs, len_eq_norm, hS.chord]
  field_simp

theorem feasible_scaled {mu : ℝ} (hmu : 0 < mu) {r1 r2 : V3} (hnp : NotPolar r1 r2) {pro : Bool} {s σ : ℝ}
    (hS : Semi (V3.norm r1) (V3.norm r2) (V3.norm (r2 - r1)) s σ) (h0 : σ ≠ 0)
    (hsg : 0 < σ ↔ ShortWay pro r1 r2) {M : ℕ} (hM : 1 ≤ M) {m : ℝ} (hm : Fastest σ M m) (tof d : ℝ) :
    Feasible mu r1 r2 pro (tof + timeUnit mu r1 r2 * d) M ↔ revT σ M m ≤ tof / Real.sqrt (s ^ 3 / (2 * mu)) + d := by
  have hs := hS.spos
  have hU : 0 < Real.sqrt (s ^ 3 / (2 * mu)) := by positivity
  rw [feasible_iff hmu hnp hS h0 hsg hM hm, unit_eq hS]
  have e : Real.sqrt (2 * mu / s ^ 3) = 1 / Real.sqrt (s ^ 3 / (2 * mu)) := by
    rw [one_div, ← Real.sqrt_inv, inv_div]
  rw [e, show 1 / Real.sqrt (s ^ 3 / (2 * mu)) * (tof + Real.sqrt (s ^ 3 / (2 * mu)) * d) =
    tof / Real.sqrt (s ^ 3 / (2 * mu)) + d by field_simp]

end Der

open Der

/-- **C87.**  The equation whose root `_compute_minimum_time` seeks is positive before the fastest transfer with `M ≥ 1`
revolutions, zero at it and negative beyond it.  The value that is computed at that root is the least time below half
a turn, and less than it by `4/3 |σ|³ / √(1 - σ²(1 - m²))` above half a turn. -/
theorem der_minimum_time {σ : ℝ} (hl : σ ^ 2 < 1) (h0 : σ ≠ 0) {M : ℕ} (hM : 1 ≤ M) {m : ℝ} (hm : Fastest σ M m) :
    (∀ x, 0 < x → x < 1 → ∃ F, minimumTimeEquation σ M x = .ok F ∧ (0 < F ↔ x < m) ∧ (F = 0 ↔ x = m)) ∧
    minimumTimeAt σ m = .ok (lancT σ m (lancY σ m) M -
      if 0 < σ then 0 else 4 / 3 * (|σ| ^ 3 / Real.sqrt (1 - σ ^ 2 * (1 - m ^ 2)))) :=
  ⟨fun _ h1 h2 => minimum_sign hl h0 hM hm h1 h2, minimum_value hl h0 hM hm⟩

/-- Both cases of the theorem. -/
example : ∃ m m' t t', Fastest (1 / 2) 2 m ∧ minimumTimeAt (1 / 2) m = .ok t ∧ t = lancT (1 / 2) m (lancY (1 / 2) m) 2 ∧
    Fastest (-1 / 2) 2 m' ∧ minimumTimeAt (-1 / 2) m' = .ok t' ∧ t' < lancT (-1 / 2) m' (lancY (-1 / 2) m') 2 := by
  obtain ⟨m, hm⟩ := exists_fastest (lam := 1 / 2) (M := 2) (by norm_num) (by norm_num)
  obtain ⟨m', hm'⟩ := exists_fastest (lam := -1 / 2) (M := 2) (by norm_num) (by norm_num)
  have h := (der_minimum_time (by norm_num) (by norm_num) (by norm_num) hm).2
  have h' := (der_minimum_time (by norm_num) (by norm_num) (by norm_num) hm').2
  refine ⟨m, m', _, _, hm, h, ?_, hm', h', ?_⟩
  · rw [if_pos (by norm_num)]; norm_num
  · rw [if_neg (by norm_num)]
    have : 0 < 1 - (-1 / 2 : ℝ) ^ 2 * (1 - m' ^ 2) := by nlinarith [sq_nonneg m']
    have : 0 < 4 / 3 * (|(-1 / 2 : ℝ)| ^ 3 / Real.sqrt (1 - (-1 / 2 : ℝ) ^ 2 * (1 - m' ^ 2))) := by positivity
    push_cast
    linarith

section
variable {b : Brent} (hb : BrentSpec b) {mu : ℝ} (hmu : 0 < mu) {r1 r2 : V3} (hnp : NotPolar r1 r2) {pro : Bool}
include hb hmu hnp

/-- **C87.**  Below half a turn `der2011` refuses the times that are too short for `M ≥ 1` revolutions: if no transfer
exists even for a time longer by the error with which the root finder knows the fastest transfer, the call ends with
the documented `ValueError`. -/
theorem der_refuses_infeasible (hbc : BrentComplete b) (hsh : ShortWay pro r1 r2) {M : ℕ} (hM : 1 ≤ M) {tof : ℝ} (htof : 0 < tof) {atol rtol : ℝ}
    (ha : 0 < atol) (hr : 1 / 2 ^ 50 ≤ rtol) (he : (atol + rtol) * (10 * (M + 2)) ^ 2 ≤ chordRatio r1 r2 ^ 2)
    (hinf : ¬ Feasible mu r1 r2 pro (tof + timeUnit mu r1 r2 * leastTimeError r1 r2 M (atol + rtol)) M) :
    ∃ N0 : ℕ, ∀ N ≥ N0, ∀ low full clock, der2011 b mu r1 r2 tof M pro low N atol rtol full clock =
      .error (.valueError "No feasible solution, try lower M!") := by
  have hna : NotAligned r1 r2 := fun h => hnp h.2.2
  have hψ := transferAngle_eq hna pro
  obtain ⟨s, σ, hG, hS, h0, hsg, hcs, hnt⟩ := geo hna (angle_of_eq hna hψ)
  have hl := hS.lam_lt
  obtain ⟨m, hm⟩ := exists_fastest hl hM
  rw [feasible_scaled hmu hnp hS h0 hsg hM hm, not_le] at hinf
  rw [chordRatio_eq hS] at he
  unfold leastTimeError at hinf
  rw [chordRatio_eq hS] at hinf
  obtain ⟨N0, hN0⟩ := computeMinimumTime_near hl h0 hb hbc hM hm ha hr he
  refine ⟨N0, fun N hN low full clock => ?_⟩
  obtain ⟨t, ht, hte⟩ := hN0 N hN
  rw [if_pos (hsg.2 hsh), sub_zero] at hte
  have := (abs_le.1 hte).1
  refine (run_multi hmu hna htof hψ hG hS h0 hcs (hnt mu tof hmu) hM low full clock).1 _ ?_
  unfold checkFeasible
  rw [if_pos (by exact_mod_cast hM)]
  split
  · rfl
  · rw [ht, ok_bind, raiseIf_pos _ (by linarith)]

/-- **C87, negation above half a turn.**  There the code's least time is too small by more than `4/3 (1 - c/s)^{3/2}` units,
because it divides by a negative `y`: a time that is too short for `M` revolutions, but not by that much, is not refused.
The call ends, if it fails, with the message of an exhausted iteration. -/
theorem der_infeasible_not_refused (hbc : BrentComplete b) (hsh : ¬ ShortWay pro r1 r2) {M : ℕ} (hM : 1 ≤ M) {tof : ℝ} (htof : 0 < tof) {atol rtol : ℝ}
    (ha : 0 < atol) (hr : 1 / 2 ^ 50 ≤ rtol) (he : (atol + rtol) * (10 * (M + 2)) ^ 2 ≤ chordRatio r1 r2 ^ 2)
    (hinf : ¬ Feasible mu r1 r2 pro tof M)
    (hmiss : Feasible mu r1 r2 pro (tof + timeUnit mu r1 r2 *
      (4 / 3 * Real.sqrt (1 - chordRatio r1 r2) ^ 3 - leastTimeError r1 r2 M (atol + rtol))) M) :
    ∃ N0 : ℕ, ∀ N ≥ N0, ∀ low full clock,
      (∃ out, der2011 b mu r1 r2 tof M pro low N atol rtol full clock = .ok out) ∨
      der2011 b mu r1 r2 tof M pro low N atol rtol full clock =
        .error (.valueError "Exceeded maximum number of iterations.") := by
  have hna : NotAligned r1 r2 := fun h => hnp h.2.2
  have hψ := transferAngle_eq hna pro
  obtain ⟨s, σ, hG, hS, h0, hsg, hcs, hnt⟩ := geo hna (angle_of_eq hna hψ)
  have hl := hS.lam_lt
  obtain ⟨m, hm⟩ := exists_fastest hl hM
  have hinf' := feasible_scaled hmu hnp hS h0 hsg hM hm tof 0
  rw [mul_zero, add_zero, add_zero] at hinf'
  rw [hinf', not_le] at hinf
  rw [feasible_scaled hmu hnp hS h0 hsg hM hm] at hmiss
  rw [chordRatio_eq hS] at he
  unfold leastTimeError at hmiss
  rw [chordRatio_eq hS, show 1 - (1 - σ ^ 2) = σ ^ 2 by ring, Real.sqrt_sq_eq_abs] at hmiss
  have hL := lanc_lancY hl m
  have hy1 : lancY σ m ≤ 1 := by
    have h1 := hL.y_sq
    have h2 := hL.y_pos
    have h3 : 0 < 1 - m ^ 2 := by nlinarith [hm.mem.1, hm.mem.2]
    nlinarith [mul_nonneg (sq_nonneg σ) h3.le]
  have hs3 : |σ| ^ 3 ≤ |σ| ^ 3 / lancY σ m := by
    rw [le_div_iff₀ hL.y_pos]
    have : 0 ≤ |σ| ^ 3 := by positivity
    nlinarith
  have hs1 : |σ| ^ 3 ≤ 1 := pow_le_one₀ (abs_nonneg _) ((sq_lt_one_iff_abs_lt_one _).1 hl).le
  have hgt := revT_gt hl hm.mem.1 hm.mem.2 M
  have hM1 : (1 : ℝ) ≤ M := by exact_mod_cast hM
  have hpi := Real.pi_gt_three
  have hq : 0 < 1 - σ ^ 2 := by linarith
  have hr0 : (0 : ℝ) ≤ rtol := le_trans (by norm_num) hr
  have herr : 0 ≤ (atol + rtol) * (5 * (M + 2)) ^ 2 / (1 - σ ^ 2) ^ 2 := by positivity
  have hpar := parabolic_lt hl
  obtain ⟨N0, hN0⟩ := computeMinimumTime_near hl h0 hb hbc hM hm ha hr he
  refine ⟨N0, fun N hN low full clock => ?_⟩
  obtain ⟨t, ht, hte⟩ := hN0 N hN
  rw [if_neg (fun h => hsh (hsg.1 h))] at hte
  have := (abs_le.1 hte).2
  obtain ⟨-, hrun⟩ := run_multi (b := b) hmu hna htof hψ hG hS h0 hcs (hnt mu tof hmu) hM low (N := N) (atol := atol) (rtol := rtol) full clock
  have hok : checkFeasible b σ (tof / Real.sqrt (s ^ 3 / (2 * mu))) (computeParabolicTime σ) M N atol rtol = .ok () := by
    unfold checkFeasible
    rw [if_pos (by exact_mod_cast hM), if_neg (by nlinarith), ht, ok_bind, raiseIf_neg _ (by linarith)]
  obtain ⟨hrun1, hrun2⟩ := hrun hok
  rcases solveElliptic_infeasible hl h0 hb (M := M) (tau := tof / Real.sqrt (s ^ 3 / (2 * mu)))
      (x0 := if low then 0.5 else -0.5) (atol := atol) (rtol := rtol) (N := N)
      (by split <;> norm_num) (by split <;> norm_num) (fun x h1 h2 => hinf.trans_le (hm.least x ⟨h1, h2⟩)) with
    ⟨x, y, n, hn, hx⟩ | hx
  · exact .inl (hrun1 x y n hn hx)
  · exact .inr (hrun2 _ hx)

/-- **C87.**  With `M ≥ 1` revolutions `der2011` solves, on both paths and for both senses, every problem whose time of
flight is at least a quarter of a unit longer than that of the ellipse of least energy (and at most `10²³` units): for
every large enough `maxiter` it returns velocities of a transfer with `M` revolutions in the requested sense whose time
is the requested one within the tolerances, or whose path parameter is within the tolerances of that of a
transfer of the requested time. -/
theorem der_multi_solves (hbc : BrentComplete b) {M : ℕ} (hM : 1 ≤ M) {tof : ℝ} {atol rtol : ℝ} (ha : 0 < atol)
    (hr : 1 / 2 ^ 50 ≤ rtol) (he : (atol + rtol) * (10 * (M + 2)) ^ 2 ≤ chordRatio r1 r2 ^ 2)
    (hlo : leastEnergyTime mu r1 r2 pro M + timeUnit mu r1 r2 / 4 ≤ tof) (hhi : tof ≤ 10 ^ 23 * timeUnit mu r1 r2) :
    ∃ N0 : ℕ, ∀ N ≥ N0, ∀ low full clock, ∃ out, der2011 b mu r1 r2 tof M pro low N atol rtol full clock = .ok out ∧
      ∃ T, LambertArc mu r1 r2 out.v1 out.v2 T M ∧ Sense pro r1 out.v1 ∧
      (|T - tof| ≤ atol * timeUnit mu r1 r2 + rtol * tof ∨
        ∃ x x0 w1 w2, HasPathParameter mu r1 r2 out.v1 x ∧ LambertArc mu r1 r2 w1 w2 tof M ∧
          Sense pro r1 w1 ∧ HasPathParameter mu r1 r2 w1 x0 ∧ |x - x0| ≤ atol + rtol * |x0|) := by
  have hna : NotAligned r1 r2 := fun h => hnp h.2.2
  have hψ := transferAngle_eq hna pro
  obtain ⟨s, σ, hG, hS, h0, hsg, hcs, hnt⟩ := geo hna (angle_of_eq hna hψ)
  have hl := hS.lam_lt
  have hs := hS.spos
  have hU : 0 < Real.sqrt (s ^ 3 / (2 * mu)) := by positivity
  obtain ⟨m, hm⟩ := exists_fastest hl hM
  rw [chordRatio_eq hS] at he
  rw [Times.leastEnergyTime_eq hS h0 hsg, unit_eq hS] at hlo
  rw [unit_eq hS] at hhi
  have hM1 : (1 : ℝ) ≤ M := by exact_mod_cast hM
  have hpi := Real.pi_gt_three
  have hq : 0 < 1 - σ ^ 2 := by linarith
  have hep := eps_pos
  have he2 : Der.eps < 1 / 2 := by unfold Der.eps; norm_num
  have htau1 : lancT σ 0 (lancY σ 0) M + 1 / 4 ≤ tof / Real.sqrt (s ^ 3 / (2 * mu)) := by
    rw [le_div_iff₀ hU]; linarith
  have htau2 : tof / Real.sqrt (s ^ 3 / (2 * mu)) ≤ 10 ^ 23 := by rw [div_le_iff₀ hU]; exact hhi
  have hgt : M * Real.pi < lancT σ 0 (lancY σ 0) M := revT_gt hl (by norm_num) (by norm_num) M
  have htof : 0 < tof := by
    have : 0 < tof / Real.sqrt (s ^ 3 / (2 * mu)) := by nlinarith
    exact (div_pos_iff_of_pos_right hU).1 this
  have hpar := parabolic_lt hl
  have hmin : revT σ M m ≤ lancT σ 0 (lancY σ 0) M := hm.least 0 (by norm_num)
  have herr : (atol + rtol) * (5 * (M + 2)) ^ 2 / (1 - σ ^ 2) ^ 2 ≤ 1 / 4 := by
    rw [div_le_iff₀ (by positivity)]
    nlinarith
  generalize htd : tof / Real.sqrt (s ^ 3 / (2 * mu)) = tau at *
  have hlast : 0 ≤ 4 / 3 * (|σ| ^ 3 / lancY σ m) := by
    have := (lanc_lancY hl m).y_pos
    positivity
  obtain ⟨N0, hN0⟩ := computeMinimumTime_near hl h0 hb hbc hM hm ha hr he
  have hsol : ∀ low : Bool, ∃ N1 : ℕ, ∀ N ≥ N1, ∃ x y n, 1 ≤ n ∧
      solveElliptic b σ tau M (if low then 0.5 else -0.5) N atol rtol = .ok (x, y, n) := by
    intro low
    refine solveElliptic_returns hl h0 hbc ha hr (by split <;> norm_num) (by split <;> norm_num) ?_
    have e1 : 10 ^ 23 ≤ lancT σ (-1 + Der.eps) (lancY σ (-1 + Der.eps)) M := end_time hl hM (by linarith) (by linarith) (by ring)
    have e2 : 10 ^ 23 ≤ lancT σ (1 - Der.eps) (lancY σ (1 - Der.eps)) M := end_time hl hM (by linarith) (by linarith) (by ring)
    cases low
    · rw [if_pos (by norm_num)]
      exact mul_nonpos_of_nonneg_of_nonpos (by linarith) (by linarith)
    · rw [if_neg (by norm_num)]
      exact mul_nonpos_of_nonpos_of_nonneg (by linarith) (by linarith)
  obtain ⟨N1, hN1⟩ := hsol true
  obtain ⟨N2, hN2⟩ := hsol false
  refine ⟨max N0 (max N1 N2), fun N hN low full clock => ?_⟩
  obtain ⟨t, ht, hte⟩ := hN0 N (le_of_max_le_left hN)
  have hte := (abs_le.1 hte).2
  have htle : t ≤ tau := by
    split at hte <;> linarith
  have hx : ∃ x y n, 1 ≤ n ∧ solveElliptic b σ tau M (if low then 0.5 else -0.5) N atol rtol = .ok (x, y, n) := by
    cases low
    · exact hN2 N ((le_max_right _ _).trans ((le_max_right _ _).trans hN))
    · exact hN1 N ((le_max_left _ _).trans ((le_max_right _ _).trans hN))
  obtain ⟨x, y, n, hn, hx⟩ := hx
  have hnt' := hnt mu tof hmu
  rw [htd] at hnt'
  obtain ⟨-, hrun⟩ := run_multi (b := b) hmu hna htof hψ hG hS h0 hcs hnt' hM low (N := N) (atol := atol) (rtol := rtol) full clock
  obtain ⟨out, hout⟩ := (hrun (by
    unfold checkFeasible
    rw [if_pos (by exact_mod_cast hM), if_neg (by nlinarith), ht, ok_bind, raiseIf_neg _ (by linarith)])).1 x y n hn hx
  refine ⟨out, hout, ?_⟩
  obtain ⟨-, T, hT, hse, hacc⟩ := der_kepler_transfer_partial hb hout (fun h => by have := h.1; omega)
  rw [Int.toNat_natCast] at hT hacc
  refine ⟨T, hT, hse hnp, ?_⟩
  rcases hacc with h | ⟨x, x0, w1, w2, a1, a2, a3, a4, a5⟩
  · exact .inl h
  · exact .inr ⟨x, x0, w1, w2, a1, a2, a3 hnp, a4, a5⟩

end

/-- **C87, negation for tolerances that `brentq` rejects.**  `brentq` raises `ValueError` for `xtol ≤ 0` and for `rtol`
below four units of rounding.  The code then runs its own iteration, whose derivative has the wrong sign, so that every
pass moves away from the minimum: with five revolutions or more every call fails, whatever the positions and the
time of flight. -/
theorem der_fallback_minimum_fails {b : Brent} {mu : ℝ} (hmu : 0 < mu) {r1 r2 : V3} (hnp : NotPolar r1 r2) {pro : Bool} {M : ℕ} (hM : 5 ≤ M) {tof : ℝ} (htof : 0 < tof)
    {atol rtol : ℝ} (hat : 0 ≤ atol + rtol * M * Real.pi) (htol : atol + rtol * M * Real.pi < M * Real.pi - 40 / 3) {N : ℕ}
    (hrej : ∀ f lo hi, ∃ msg, b f lo hi atol rtol N = .error (.valueError msg)) (low full : Bool) (clock : ℝ) :
    ∃ msg, der2011 b mu r1 r2 tof M pro low N atol rtol full clock = .error (.valueError msg) := by
  have hM' : 1 ≤ M := by omega
  have hna : NotAligned r1 r2 := fun h => hnp h.2.2
  have hψ := transferAngle_eq hna pro
  obtain ⟨s, σ, hG, hS, h0, hsg, hcs, hnt⟩ := geo hna (angle_of_eq hna hψ)
  have hl := hS.lam_lt
  obtain ⟨m, hm⟩ := exists_fastest hl hM'
  have hrun := (run_multi (b := b) hmu hna htof hψ hG hS h0 hcs (hnt mu tof hmu) hM' low (N := N) (atol := atol) (rtol := rtol) full clock).1
  by_cases hp : tof / Real.sqrt (s ^ 3 / (2 * mu)) ≤ computeParabolicTime σ
  · refine ⟨_, hrun (.valueError "No feasible solution, try lower M!") ?_⟩
    unfold checkFeasible
    rw [if_pos (by exact_mod_cast hM'), if_pos hp]
  · refine ⟨_, hrun (.valueError "Exceeded maximum number of iterations.") ?_⟩
    unfold checkFeasible
    obtain ⟨msg, hmsg⟩ := hrej (minimumTimeEquation σ M) Der.eps (1 - Der.eps)
    rw [if_pos (by exact_mod_cast hM'), if_neg hp, computeMinimumTime, hmsg]
    simp only []
    rw [minimumTimeLoop_fails hl h0 hM' hm hat N (by unfold Der.eps; norm_num) (by norm_num) ?_]
    · rfl
    have hL := lanc_lancY hl 0.1
    have hy := hL.y_pos
    have hb := abs_lam_mul_lt hL
    have hlow := revT_lower hl (by norm_num : (-1 : ℝ) < 0.1) (by norm_num) M
    have hw0 := Real.sqrt_nonneg (1 - (0.1 : ℝ) ^ 2)
    have hw1 : Real.sqrt (1 - (0.1 : ℝ) ^ 2) ≤ 1 := by rw [Real.sqrt_le_one]; norm_num
    have hw3 : Real.sqrt (1 - (0.1 : ℝ) ^ 2) ^ 3 ≤ 1 := pow_le_one₀ hw0 hw1
    have hw3' : 0 ≤ Real.sqrt (1 - (0.1 : ℝ) ^ 2) ^ 3 := by positivity
    have hq : -20 ≤ 2 * σ ^ 3 / lancY σ 0.1 := by
      rw [le_div_iff₀ hy]
      have h1 := neg_abs_le (σ * 0.1)
      have h2 : -lancY σ 0.1 ≤ σ * 0.1 := by linarith
      have h3 : 0 ≤ σ ^ 2 := sq_nonneg _
      norm_num at h2 ⊢
      nlinarith
    have hH : 3 * (M * Real.pi) - 40 ≤ revH σ M 0.1 := by
      unfold revH
      generalize Real.sqrt (1 - (0.1 : ℝ) ^ 2) ^ 3 = W at *
      have : W * (2 / 0.1 - 2 * σ ^ 3 / lancY σ 0.1) ≤ 40 := by
        have h1 : (2 : ℝ) / 0.1 - 2 * σ ^ 3 / lancY σ 0.1 ≤ 40 := by norm_num at hq ⊢; linarith
        nlinarith
      nlinarith
    rw [abs_of_nonpos (by linarith)]
    linarith

/-- The quarter of a circle: the ratio of the chord to the semi-perimeter and the unit of time. -/
theorem Der.quarter : chordRatio ⟨1, 0, 0⟩ ⟨0, 1, 0⟩ = 2 * (Real.sqrt 2 - 1) ∧ (1.41 : ℝ) < Real.sqrt 2 ∧ Real.sqrt 2 < 1.42 ∧
    1 / 2 ≤ timeUnit 1 ⟨1, 0, 0⟩ ⟨0, 1, 0⟩ ∧ timeUnit 1 ⟨1, 0, 0⟩ ⟨0, 1, 0⟩ ≤ 2 := by
  have hl1 : (1.41 : ℝ) < Real.sqrt 2 := Real.lt_sqrt_of_sq_lt (by norm_num)
  have hl2 : Real.sqrt 2 < 1.42 := by rw [Real.sqrt_lt' (by norm_num)]; norm_num
  have hq : Real.sqrt 2 ^ 2 = 2 := Real.sq_sqrt (by norm_num)
  have n1 : len ⟨1, 0, 0⟩ = 1 := by simp [len]
  have n2 : len ⟨0, 1, 0⟩ = 1 := by simp [len]
  have n3 : len ((⟨0, 1, 0⟩ : V3) - ⟨1, 0, 0⟩) = Real.sqrt 2 := by
    rw [len_eq_norm]; simp [V3.norm, V3.dot]; norm_num
  refine ⟨?_, hl1, hl2, ?_, ?_⟩
  · unfold chordRatio semiPerimeter
    rw [n1, n2, n3]
    field_simp
    nlinarith
  · unfold timeUnit
    rw [n1, n2, n3]
    refine Real.le_sqrt_of_sq_le ?_
    norm_num at hl1 ⊢
    have : (1 : ℝ) ≤ ((2 + Real.sqrt 2) / 2) ^ 3 := one_le_pow₀ (by linarith)
    norm_num at this ⊢
    linarith
  · unfold timeUnit
    rw [n1, n2, n3, Real.sqrt_le_left (by norm_num)]
    norm_num at hl2 ⊢
    have : ((2 + Real.sqrt 2) / 2) ^ 3 ≤ 2 ^ 3 := pow_le_pow_left₀ (by linarith) (by linarith) 3
    norm_num at this ⊢
    linarith

/-- `der_multi_solves` on a quarter of a circle with one revolution, in both senses and on both paths. -/
example (pro : Bool) : ∃ N0 : ℕ, ∀ N ≥ N0, ∀ low full clock, ∃ out,
    der2011 exactBrent 1 ⟨1, 0, 0⟩ ⟨0, 1, 0⟩ 50 ((1 : ℕ) : ℤ) pro low N 1e-5 1e-5 full clock = .ok out := by
  obtain ⟨hc, hl1, hl2, hu1, hu2⟩ := Der.quarter
  have hnp : NotPolar ⟨1, 0, 0⟩ ⟨0, 1, 0⟩ := by simp [NotPolar]
  have hna : NotAligned ⟨1, 0, 0⟩ ⟨0, 1, 0⟩ := fun h => hnp h.2.2
  norm_num at hl1 hl2
  obtain ⟨s, σ, hG, hS, h0, hsg, -, -⟩ := geo hna (angle_of_eq hna (transferAngle_eq hna pro))
  have hle := time_zero_le hS.lam_lt 1
  have hE : leastEnergyTime 1 ⟨1, 0, 0⟩ ⟨0, 1, 0⟩ pro 1 ≤ timeUnit 1 ⟨1, 0, 0⟩ ⟨0, 1, 0⟩ * (2 * Real.pi + 1) := by
    rw [Times.leastEnergyTime_eq hS h0 hsg, Der.unit_eq hS]
    refine mul_le_mul_of_nonneg_left ?_ (Real.sqrt_nonneg _)
    unfold revT at hle
    norm_num at hle ⊢
    linarith
  have hpi := Real.pi_lt_d2
  norm_num at hpi
  obtain ⟨N0, h⟩ := der_multi_solves exactBrent_spec one_pos hnp (pro := pro) exactBrent_complete (le_refl 1) (tof := 50)
    (atol := 1e-5) (rtol := 1e-5) (by norm_num) (by norm_num) (by rw [hc]; norm_num; nlinarith) (by nlinarith)
    (by norm_num; linarith)
  refine ⟨N0, fun N hN low full clock => ?_⟩
  obtain ⟨out, ho, -⟩ := h N hN low full clock
  exact ⟨out, ho⟩

/-- `der_refuses_infeasible` on the same arc, with a time too short for a revolution. -/
example : ∃ N0 : ℕ, ∀ N ≥ N0, ∀ low full clock,
    der2011 exactBrent 1 ⟨1, 0, 0⟩ ⟨0, 1, 0⟩ 1 ((1 : ℕ) : ℤ) true low N 1e-5 1e-5 full clock =
      .error (.valueError "No feasible solution, try lower M!") := by
  obtain ⟨hc, hl1, hl2, hu1, hu2⟩ := Der.quarter
  have hnp : NotPolar ⟨1, 0, 0⟩ ⟨0, 1, 0⟩ := by simp [NotPolar]
  have hna : NotAligned ⟨1, 0, 0⟩ ⟨0, 1, 0⟩ := fun h => hnp h.2.2
  norm_num at hl1 hl2
  obtain ⟨s, σ, hG, hS, h0, hsg, -, -⟩ := geo hna (angle_of_eq hna (transferAngle_eq hna true))
  obtain ⟨m, hm⟩ := exists_fastest hS.lam_lt (le_refl 1)
  have hgt := revT_gt hS.lam_lt hm.mem.1 hm.mem.2 1
  have hpi := Real.pi_gt_three
  refine der_refuses_infeasible exactBrent_spec one_pos hnp exactBrent_complete (by simp [ShortWay, crossZ]) (le_refl 1)
    one_pos (by norm_num) (by norm_num) (by rw [hc]; norm_num; nlinarith) ?_
  rw [Der.feasible_scaled one_pos hnp hS h0 hsg (le_refl 1) hm, not_le, ← Der.unit_eq hS]
  have h1 : 1 / timeUnit 1 ⟨1, 0, 0⟩ ⟨0, 1, 0⟩ ≤ 2 := by rw [div_le_iff₀ (by linarith)]; linarith
  have h2 : leastTimeError ⟨1, 0, 0⟩ ⟨0, 1, 0⟩ 1 (1e-5 + 1e-5) ≤ 1 := by
    unfold leastTimeError
    rw [hc, div_le_one (by nlinarith)]
    norm_num
    nlinarith
  norm_num at hgt
  linarith

/-- `der_infeasible_not_refused` on the same arc in the other sense. -/
example : ∃ tof : ℝ, 0 < tof ∧ ¬ Feasible 1 ⟨1, 0, 0⟩ ⟨0, 1, 0⟩ false tof 1 ∧ ∃ N0 : ℕ, ∀ N ≥ N0, ∀ low full clock,
    (∃ out, der2011 exactBrent 1 ⟨1, 0, 0⟩ ⟨0, 1, 0⟩ tof ((1 : ℕ) : ℤ) false low N 1e-5 1e-5 full clock = .ok out) ∨
    der2011 exactBrent 1 ⟨1, 0, 0⟩ ⟨0, 1, 0⟩ tof ((1 : ℕ) : ℤ) false low N 1e-5 1e-5 full clock =
      .error (.valueError "Exceeded maximum number of iterations.") := by
  obtain ⟨hc, hl1, hl2, hu1, hu2⟩ := Der.quarter
  have hnp : NotPolar ⟨1, 0, 0⟩ ⟨0, 1, 0⟩ := by simp [NotPolar]
  have hna : NotAligned ⟨1, 0, 0⟩ ⟨0, 1, 0⟩ := fun h => hnp h.2.2
  norm_num at hl1 hl2
  have hq : Real.sqrt 2 ^ 2 = 2 := Real.sq_sqrt (by norm_num)
  obtain ⟨s, σ, hG, hS, h0, hsg, -, -⟩ := geo hna (angle_of_eq hna (transferAngle_eq hna false))
  obtain ⟨m, hm⟩ := exists_fastest hS.lam_lt (le_refl 1)
  have hgt := revT_gt hS.lam_lt hm.mem.1 hm.mem.2 1
  have hpi := Real.pi_gt_three
  have hU := Der.unit_eq (mu := 1) hS
  obtain ⟨U, hUd⟩ : ∃ U, U = timeUnit 1 ⟨1, 0, 0⟩ ⟨0, 1, 0⟩ := ⟨_, rfl⟩
  rw [← hUd] at hu1 hu2 hU
  have hU0 : 0 < U := by linarith
  norm_num at hgt
  have hsc := Der.feasible_scaled one_pos hnp hS h0 hsg (le_refl 1) hm (U * (revT σ 1 m - 1 / 100))
  have e1 : U * (revT σ 1 m - 1 / 100) / Real.sqrt (s ^ 3 / (2 * 1)) = revT σ 1 m - 1 / 100 := by
    rw [← hU]; field_simp
  have htof : 0 < U * (revT σ 1 m - 1 / 100) := mul_pos hU0 (by linarith)
  have hinf : ¬ Feasible 1 ⟨1, 0, 0⟩ ⟨0, 1, 0⟩ false (U * (revT σ 1 m - 1 / 100)) 1 := by
    have := hsc 0
    rw [mul_zero, add_zero, add_zero, e1] at this
    rw [this]
    linarith
  refine ⟨_, htof, hinf, der_infeasible_not_refused exactBrent_spec one_pos hnp exactBrent_complete
    (by simp [ShortWay, crossZ]) (le_refl 1) htof (by norm_num) (by norm_num) (by rw [hc]; norm_num; nlinarith) hinf ?_⟩
  rw [hsc, e1, hc]
  have e2 : Real.sqrt (1 - 2 * (Real.sqrt 2 - 1)) = Real.sqrt 2 - 1 := by
    rw [show 1 - 2 * (Real.sqrt 2 - 1) = (Real.sqrt 2 - 1) ^ 2 by rw [sub_sq, hq]; ring, Real.sqrt_sq (by linarith)]
  have h2 : leastTimeError ⟨1, 0, 0⟩ ⟨0, 1, 0⟩ 1 (1e-5 + 1e-5) ≤ 1 / 100 := by
    unfold leastTimeError
    rw [hc, div_le_iff₀ (by nlinarith)]
    norm_num
    nlinarith
  have h3 : (4 / 10 : ℝ) ^ 3 ≤ (Real.sqrt 2 - 1) ^ 3 := pow_le_pow_left₀ (by norm_num) (by linarith) 3
  rw [e2]
  norm_num at h3
  linarith

/-- `der_fallback_minimum_fails` with a root finder that rejects `rtol = 0`. -/
example (tof : ℝ) (h : 0 < tof) (N : ℕ) : ∃ msg, der2011 (fun _ _ _ _ _ _ => .error (.valueError "rtol too small (0 < 8.88178e-16)"))
    1 ⟨1, 0, 0⟩ ⟨0, 1, 0⟩ tof ((5 : ℕ) : ℤ) true true N 1e-5 0 false 0 = .error (.valueError msg) := by
  have hpi := Real.pi_gt_three
  exact der_fallback_minimum_fails one_pos (by simp [NotPolar]) (le_refl 5) h (by norm_num) (by norm_num; linarith)
    (fun _ _ _ => ⟨_, rfl⟩) true false 0

end Lamberthub
