import Mathlib.Analysis.Calculus.SmoothSeries
import Mathlib.Analysis.SpecificLimits.Normed
import Mathlib.Analysis.Calculus.Deriv.MeanValue
import Mathlib.Analysis.SpecialFunctions.Sqrt
import Mathlib.Analysis.SpecialFunctions.Arsinh
import Mathlib.Analysis.SpecialFunctions.Trigonometric.Deriv
import Mathlib.Analysis.SpecialFunctions.Trigonometric.DerivHyp

/-! # Real power series with coefficients of polynomial growth -/

set_option autoImplicit false

namespace Lamberthub

/-- Coefficients of polynomial growth. -/
def PBdd (a : ℕ → ℝ) : Prop := ∃ C : ℝ, ∃ p : ℕ, 0 ≤ C ∧ ∀ n, |a n| ≤ C * ((n : ℝ) + 1) ^ p

/-- The sum of the power series. -/
noncomputable def ps (a : ℕ → ℝ) (x : ℝ) : ℝ := ∑' n, a n * x ^ n

/-- Coefficients of the derivative. -/
noncomputable def psD (a : ℕ → ℝ) (n : ℕ) : ℝ := (n + 1) * a (n + 1)

theorem PBdd.psD {a : ℕ → ℝ} (h : PBdd a) : PBdd (psD a) := by
  obtain ⟨C, p, hC, h⟩ := h
  refine ⟨C * 2 ^ p, p + 1, by positivity, fun n => ?_⟩
  unfold Lamberthub.psD
  have h1 := h (n + 1)
  push_cast at h1
  have h0 : (0 : ℝ) ≤ n := by positivity
  rw [abs_mul, abs_of_pos (by positivity : (0 : ℝ) < n + 1)]
  have h2 : ((n : ℝ) + 1 + 1) ^ p ≤ (2 * ((n : ℝ) + 1)) ^ p :=
    pow_le_pow_left₀ (by positivity) (by linarith) p
  calc ((n : ℝ) + 1) * |a (n + 1)| ≤ (n + 1) * (C * ((n : ℝ) + 1 + 1) ^ p) :=
        mul_le_mul_of_nonneg_left h1 (by positivity)
    _ ≤ (n + 1) * (C * (2 * ((n : ℝ) + 1)) ^ p) := by gcongr
    _ = C * 2 ^ p * (n + 1) ^ (p + 1) := by rw [mul_pow]; ring

theorem summable_poly_geom (C : ℝ) (p : ℕ) {r : ℝ} (h0 : 0 < r) (h1 : r < 1) :
    Summable fun n : ℕ => C * ((n : ℝ) + 1) ^ p * r ^ n := by
  have h := (summable_pow_mul_geometric_of_norm_lt_one (R := ℝ) p (r := r)
    (by rw [Real.norm_eq_abs, abs_of_pos h0]; exact h1))
  have h2 := ((summable_nat_add_iff 1).2 h).mul_left (C / r)
  refine h2.congr fun n => ?_
  push_cast
  rw [pow_succ r]
  field_simp

theorem PBdd.summable {a : ℕ → ℝ} (h : PBdd a) {x : ℝ} (hx : |x| < 1) :
    Summable fun n => a n * x ^ n := by
  obtain ⟨C, p, hC, h⟩ := h
  obtain ⟨r, h1, h2⟩ := exists_between hx
  refine .of_norm_bounded (summable_poly_geom C p (lt_of_le_of_lt (abs_nonneg x) h1) h2) fun n => ?_
  rw [Real.norm_eq_abs, abs_mul, abs_pow]
  exact mul_le_mul (h n) (pow_le_pow_left₀ (abs_nonneg _) h1.le _) (by positivity) (by positivity)

theorem PBdd.hasDerivAt {a : ℕ → ℝ} (h : PBdd a) {x : ℝ} (hx : |x| < 1) :
    HasDerivAt (ps a) (ps (Lamberthub.psD a) x) x := by
  obtain ⟨C, p, hC, hb⟩ := h.psD
  obtain ⟨r, h1, h2⟩ := exists_between hx
  have hr : 0 < r := lt_of_le_of_lt (abs_nonneg x) h1
  have hs : Summable fun n : ℕ => ((n : ℝ)) * (|a n|) * r ^ (n - 1) := by
    refine (summable_nat_add_iff 1).1 ?_
    refine .of_norm_bounded (summable_poly_geom C p hr h2) fun n => ?_
    have := hb n
    unfold Lamberthub.psD at this
    rw [abs_mul, abs_of_pos (by positivity : (0 : ℝ) < n + 1)] at this
    push_cast
    rw [Real.norm_eq_abs, abs_of_nonneg (by positivity)]
    gcongr
  have hd := hasDerivAt_tsum_of_isPreconnected (g := fun (n : ℕ) (y : ℝ) => a n * y ^ n)
    (g' := fun n y => a n * (n * y ^ (n - 1))) hs (isOpen_Ioo (a := -r) (b := r)) isPreconnected_Ioo
    (fun n y _ => (hasDerivAt_pow n y).const_mul _)
    (fun n y hy => by
      have hy' : |y| ≤ r := (abs_lt.2 hy).le
      rw [Real.norm_eq_abs, abs_mul, abs_mul, Nat.abs_cast, abs_pow]
      have h3 : |y| ^ (n - 1) ≤ r ^ (n - 1) := pow_le_pow_left₀ (abs_nonneg _) hy' _
      calc |a n| * (n * |y| ^ (n - 1)) = (n * |a n|) * |y| ^ (n - 1) := by ring
        _ ≤ _ := by gcongr) (abs_lt.1 h1) (h.summable hx) (abs_lt.1 h1)
  refine hd.congr_deriv ?_
  have hsum : Summable fun n : ℕ => a n * (n * x ^ (n - 1)) := by
    refine .of_norm_bounded hs fun n => ?_
    rw [Real.norm_eq_abs, abs_mul, abs_mul, Nat.abs_cast, abs_pow]
    calc |a n| * (n * |x| ^ (n - 1)) = (n * |a n|) * |x| ^ (n - 1) := by ring
        _ ≤ _ := by gcongr
  rw [hsum.tsum_eq_zero_add]
  simp only [Nat.cast_zero, zero_mul, mul_zero, zero_add, ps, Lamberthub.psD]
  refine tsum_congr fun n => ?_
  rw [Nat.add_sub_cancel]; push_cast; ring

/-- `x f'(x)` as a series. -/
theorem PBdd.mul_psD {a : ℕ → ℝ} (h : PBdd a) {x : ℝ} (hx : |x| < 1) :
    Summable (fun n : ℕ => (n : ℝ) * a n * x ^ n) ∧
      x * ps (Lamberthub.psD a) x = ∑' n : ℕ, (n : ℝ) * a n * x ^ n := by
  have hs : Summable (fun n : ℕ => (n : ℝ) * a n * x ^ n) := by
    refine (summable_nat_add_iff 1).1 (((h.psD.summable hx).mul_left x).congr fun n => ?_)
    unfold Lamberthub.psD; push_cast; ring
  refine ⟨hs, ?_⟩
  rw [hs.tsum_eq_zero_add, ps, ← tsum_mul_left]
  simp only [Nat.cast_zero, zero_mul, zero_add]
  refine tsum_congr fun n => ?_
  unfold Lamberthub.psD; push_cast; ring

theorem ps_zero (a : ℕ → ℝ) : ps a 0 = a 0 := by
  unfold ps
  rw [tsum_eq_single 0 (fun n hn => by rw [zero_pow hn, mul_zero])]
  simp

/-- binomial coefficients of `(1-u)^(-1/2)` -/
noncomputable def binC : ℕ → ℝ
  | 0 => 1
  | n + 1 => binC n * (n + 1 / 2) / (n + 1)

theorem binC_pos (n : ℕ) : 0 < binC n := by
  induction n with
  | zero => simp [binC]
  | succ n ih => rw [binC]; positivity

theorem binC_le (n : ℕ) : binC n ≤ 1 := by
  induction n with
  | zero => simp [binC]
  | succ n ih =>
    rw [binC, div_le_one (by positivity)]
    have := binC_pos n
    have h0 : (0 : ℝ) ≤ n := by positivity
    nlinarith

theorem binC_bdd : PBdd binC := ⟨1, 0, by norm_num, fun n => by
  rw [abs_of_pos (binC_pos n)]; simpa using binC_le n⟩

theorem binC_ode {u : ℝ} (hu : |u| < 1) :
    (1 - u) * ps (psD binC) u = ps binC u / 2 := by
  obtain ⟨hs, h2⟩ := binC_bdd.mul_psD hu
  have h1 : ps (psD binC) u = ∑' n : ℕ, ((n : ℝ) * binC n * u ^ n + 1 / 2 * (binC n * u ^ n)) := by
    unfold ps
    refine tsum_congr fun n => ?_
    rw [psD, binC]
    have : (n : ℝ) + 1 ≠ 0 := by positivity
    field_simp
  rw [hs.tsum_add ((binC_bdd.summable hu).mul_left _), tsum_mul_left, ← h2] at h1
  change _ = _ + 1 / 2 * ps binC u at h1
  linear_combination h1

theorem binC_sum {u : ℝ} (hu : |u| < 1) : ps binC u * Real.sqrt (1 - u) = 1 := by
  have hd : ∀ v ∈ Set.Ioo (-1 : ℝ) 1, HasDerivAt (fun v => ps binC v * Real.sqrt (1 - v)) 0 v := by
    intro v hv
    have h1 : 0 < 1 - v := by linarith [hv.2]
    have d1 := binC_bdd.hasDerivAt (abs_lt.2 hv)
    have d2 := (((hasDerivAt_id v).const_sub 1).sqrt h1.ne')
    refine ((d1.mul d2).congr_deriv ?_).congr_of_eventuallyEq
      (Filter.Eventually.of_forall fun y => rfl)
    have ode := binC_ode (abs_lt.2 hv)
    have hsp : 0 < Real.sqrt (1 - v) := Real.sqrt_pos.2 h1
    have hs2 : Real.sqrt (1 - v) ^ 2 = 1 - v := Real.sq_sqrt h1.le
    simp only [id]
    rw [show ps (psD binC) v = ps binC v / 2 / (1 - v) by rw [eq_div_iff h1.ne', mul_comm]; exact ode]
    rw [← hs2]
    field_simp
    simp [hs2]
  have := isOpen_Ioo.is_const_of_deriv_eq_zero (isPreconnected_Ioo (a := (-1 : ℝ)) (b := 1))
    (fun v hv => (hd v hv).differentiableAt.differentiableWithinAt) (fun v hv => (hd v hv).deriv)
    (abs_lt.1 hu) (show (0 : ℝ) ∈ Set.Ioo (-1 : ℝ) 1 by norm_num)
  rw [this, ps_zero]
  simp [binC]

/-- coefficients of Lancaster's function `σ` -/
noncomputable def sigC (n : ℕ) : ℝ := 4 * binC n / (2 * n + 3)

theorem sigC_pos (n : ℕ) : 0 < sigC n := by
  unfold sigC; have := binC_pos n; positivity

theorem sigC_bdd : PBdd sigC := ⟨4, 0, by norm_num, fun n => by
  rw [abs_of_pos (sigC_pos n)]
  unfold sigC
  rw [div_le_iff₀ (by positivity)]
  have h1 := binC_le n
  have h0 : (0 : ℝ) ≤ n := by positivity
  nlinarith⟩

theorem sigC_ode {u : ℝ} (hu : |u| < 1) :
    2 * u * ps (psD sigC) u + 3 * ps sigC u = 4 * ps binC u := by
  obtain ⟨hs, h2⟩ := sigC_bdd.mul_psD hu
  have h1 : 4 * ps binC u = ∑' n : ℕ, (2 * ((n : ℝ) * sigC n * u ^ n) + 3 * (sigC n * u ^ n)) := by
    unfold ps
    rw [← tsum_mul_left]
    refine tsum_congr fun n => ?_
    unfold sigC
    field_simp
  rw [(hs.mul_left 2).tsum_add ((sigC_bdd.summable hu).mul_left _), tsum_mul_left, tsum_mul_left, ← h2] at h1
  change _ = _ + 3 * ps sigC u at h1
  linear_combination (-1 : ℝ) * h1

open Real

theorem sigC_sin {a : ℝ} (h1 : -(π / 2) < a) (h2 : a < π / 2) :
    sin a ^ 3 * ps sigC (sin a ^ 2) = 2 * (a - sin a * cos a) := by
  have hd : ∀ t ∈ Set.Ioo (-(π / 2)) (π / 2),
      HasDerivAt (fun t => sin t ^ 3 * ps sigC (sin t ^ 2) - 2 * (t - sin t * cos t)) 0 t := by
    intro t ht
    have hc : 0 < cos t := cos_pos_of_mem_Ioo ht
    have hsc := sin_sq_add_cos_sq t
    have hu : |sin t ^ 2| < 1 := by
      rw [abs_of_nonneg (by positivity)]; nlinarith
    have d1 := (sigC_bdd.hasDerivAt hu).comp t ((hasDerivAt_sin t).pow 2)
    have d2 := (((hasDerivAt_sin t).pow 3).mul d1).sub
      (((hasDerivAt_id t).sub ((hasDerivAt_sin t).mul (hasDerivAt_cos t))).const_mul 2)
    refine (d2.congr_deriv ?_).congr_of_eventuallyEq (Filter.Eventually.of_forall fun y => rfl)
    have o1 := sigC_ode hu
    have o2 := binC_sum hu
    rw [show 1 - sin t ^ 2 = cos t ^ 2 by linarith, sqrt_sq hc.le] at o2
    simp only [Pi.pow_apply, Function.comp]
    push_cast
    linear_combination (sin t ^ 2 * cos t) * o1 + 4 * sin t ^ 2 * o2 + 2 * hsc
  have hpi := pi_pos
  have := isOpen_Ioo.is_const_of_deriv_eq_zero (isPreconnected_Ioo (a := -(π / 2)) (b := π / 2))
    (fun v hv => (hd v hv).differentiableAt.differentiableWithinAt) (fun v hv => (hd v hv).deriv)
    (show a ∈ _ from ⟨h1, h2⟩) (show (0 : ℝ) ∈ Set.Ioo (-(π / 2)) (π / 2) from ⟨by linarith, by linarith⟩)
  simp only [sin_zero] at this
  norm_num at this
  linarith

theorem sigC_sinh {a : ℝ} (h1 : sinh a ^ 2 < 1) :
    sinh a ^ 3 * ps sigC (-sinh a ^ 2) = 2 * (sinh a * cosh a - a) := by
  have hm : ∀ t : ℝ, t ∈ Set.Ioo (arsinh (-1)) (arsinh 1) ↔ sinh t ^ 2 < 1 := by
    intro t
    rw [sq_lt_one_iff_abs_lt_one, abs_lt, Set.mem_Ioo]
    constructor
    · rintro ⟨e1, e2⟩
      have h3 := sinh_lt_sinh.2 e1
      have h4 := sinh_lt_sinh.2 e2
      rw [sinh_arsinh] at h3 h4
      exact ⟨h3, h4⟩
    · rintro ⟨e1, e2⟩
      constructor
      · rw [← sinh_lt_sinh, sinh_arsinh]; exact e1
      · rw [← sinh_lt_sinh, sinh_arsinh]; exact e2
  have hd : ∀ t ∈ Set.Ioo (arsinh (-1)) (arsinh 1),
      HasDerivAt (fun t => sinh t ^ 3 * ps sigC (-sinh t ^ 2) - 2 * (sinh t * cosh t - t)) 0 t := by
    intro t ht
    rw [hm] at ht
    have hc : 0 < cosh t := cosh_pos t
    have hsc := cosh_sq t
    have hu : |-sinh t ^ 2| < 1 := by
      rw [abs_neg, abs_of_nonneg (by positivity)]; exact ht
    have d1 := (sigC_bdd.hasDerivAt hu).comp t ((hasDerivAt_sinh t).pow 2).neg
    have d2 := (((hasDerivAt_sinh t).pow 3).mul d1).sub
      ((((hasDerivAt_sinh t).mul (hasDerivAt_cosh t)).sub (hasDerivAt_id t)).const_mul 2)
    refine (d2.congr_deriv ?_).congr_of_eventuallyEq (Filter.Eventually.of_forall fun y => rfl)
    have o1 := sigC_ode hu
    have o2 := binC_sum hu
    rw [show 1 - -sinh t ^ 2 = cosh t ^ 2 by rw [hsc]; ring, sqrt_sq hc.le] at o2
    simp only [Pi.pow_apply, Pi.neg_apply, Function.comp]
    push_cast
    linear_combination (sinh t ^ 2 * cosh t) * o1 + 4 * sinh t ^ 2 * o2 - 2 * hsc
  have := isOpen_Ioo.is_const_of_deriv_eq_zero (isPreconnected_Ioo (a := arsinh (-1)) (b := arsinh 1))
    (fun v hv => (hd v hv).differentiableAt.differentiableWithinAt) (fun v hv => (hd v hv).deriv)
    ((hm a).2 h1) ((hm 0).2 (by simp))
  simp only [sinh_zero] at this
  norm_num at this
  linarith

end Lamberthub
