import Verif.Model.Izzo
import Mathlib.Analysis.Calculus.SmoothSeries
import Mathlib.Analysis.SpecificLimits.Normed
import Mathlib.Analysis.SpecialFunctions.Trigonometric.Deriv
import Mathlib.Analysis.SpecialFunctions.Trigonometric.DerivHyp
import Mathlib.Analysis.Calculus.Deriv.MeanValue

/-!
# The series summed by `hyp2f1b`

`F(x) = ₂F₁(3, 1; 5/2; x)` satisfies `x(1-x)F' + (3/2-3x)F = 3/2`, hence
`F(sin²(ψ/2)) = 3(2ψ - sin 2ψ)/(4 sin³ψ)` and the hyperbolic analogue.
-/

set_option autoImplicit false

namespace Lamberthub.Izzo

/-- coefficient of `x^n` -/
noncomputable def hypCoef : ℕ → ℝ
  | 0 => 1
  | n + 1 => hypCoef n * (3 + n) / (5 / 2 + n)

theorem hypTerm_eq (x : ℝ) (n : ℕ) : hypTerm x n = hypCoef n * x ^ n := by
  induction n with
  | zero => simp [hypTerm, hypCoef]
  | succ n ih =>
    rw [hypTerm, hypCoef, ih]
    have : (n : ℝ) + 1 ≠ 0 := by positivity
    have : (5 / 2 + n : ℝ) ≠ 0 := by positivity
    field_simp
    ring

theorem hypCoef_pos (n : ℕ) : 0 < hypCoef n := by
  induction n with
  | zero => simp [hypCoef]
  | succ n ih => rw [hypCoef]; positivity

theorem hypCoef_le (n : ℕ) : hypCoef n ≤ n + 1 := by
  induction n with
  | zero => simp [hypCoef]
  | succ n ih =>
    rw [hypCoef, div_le_iff₀ (by positivity)]
    push_cast
    have : (0 : ℝ) ≤ n := by positivity
    nlinarith

theorem hypCoef_rec (n : ℕ) : (n + 5 / 2) * hypCoef (n + 1) = (n + 3) * hypCoef n := by
  rw [hypCoef]
  have : (5 / 2 + n : ℝ) ≠ 0 := by positivity
  field_simp
  ring

/-- The limit of the loop of `hyp2f1b`. -/
noncomputable def hypF (x : ℝ) : ℝ := ∑' n, hypTerm x n

/-- Its derivative. -/
noncomputable def hypF' (x : ℝ) : ℝ := ∑' n : ℕ, hypCoef n * (n * x ^ (n - 1))

theorem summable_hypBound {r : ℝ} (h0 : 0 < r) (h1 : r < 1) :
    Summable fun n : ℕ => 2 * (n : ℝ) ^ 2 * r ^ (n - 1) := by
  have h := (summable_pow_mul_geometric_of_norm_lt_one (R := ℝ) 2 (r := r)
    (by rw [Real.norm_eq_abs, abs_of_pos h0]; exact h1)).mul_left (2 / r)
  refine h.congr fun n => ?_
  cases n with
  | zero => simp
  | succ n => simp only [Nat.add_sub_cancel, pow_succ]; field_simp

theorem hypDeriv_bound {r x : ℝ} (hx : |x| ≤ r) (n : ℕ) :
    ‖hypCoef n * (n * x ^ (n - 1))‖ ≤ 2 * (n : ℝ) ^ 2 * r ^ (n - 1) := by
  rw [Real.norm_eq_abs, abs_mul, abs_mul, abs_pow, abs_of_pos (hypCoef_pos n), Nat.abs_cast]
  have h1 : |x| ^ (n - 1) ≤ r ^ (n - 1) := pow_le_pow_left₀ (abs_nonneg _) hx _
  have h2 := hypCoef_le n
  have h3 : 0 ≤ |x| ^ (n - 1) := by positivity
  cases n with
  | zero => simp
  | succ n =>
    push_cast at h2 ⊢
    have h4 : hypCoef (n + 1) * (n + 1) ≤ 2 * ((n : ℝ) + 1) ^ 2 := by
      have : (0 : ℝ) ≤ n := by positivity
      nlinarith
    calc hypCoef (n + 1) * (((n : ℝ) + 1) * |x| ^ (n + 1 - 1))
        = hypCoef (n + 1) * (n + 1) * |x| ^ (n + 1 - 1) := by ring
      _ ≤ 2 * ((n : ℝ) + 1) ^ 2 * r ^ (n + 1 - 1) :=
        mul_le_mul h4 h1 h3 (by positivity)

theorem summable_hypDeriv {x : ℝ} (hx : |x| < 1) :
    Summable fun n : ℕ => hypCoef n * (n * x ^ (n - 1)) := by
  obtain ⟨r, h1, h2⟩ := exists_between hx
  exact .of_norm_bounded (summable_hypBound (lt_of_le_of_lt (abs_nonneg x) h1) h2)
    fun n => hypDeriv_bound h1.le n

theorem summable_hypTerm {x : ℝ} (hx : |x| < 1) : Summable (hypTerm x) := by
  have h1 := (summable_hypDeriv hx).mul_right x
  have h2 : Summable fun n => hypTerm x (n + 1) := by
    refine .of_norm_bounded ((summable_nat_add_iff 1).2 (summable_abs_iff.2 h1)) fun n => ?_
    rw [hypTerm_eq, Real.norm_eq_abs, Nat.add_sub_cancel]
    rw [show hypCoef (n + 1) * (((n + 1 : ℕ) : ℝ) * x ^ n) * x =
      ((n + 1 : ℕ) : ℝ) * (hypCoef (n + 1) * x ^ (n + 1)) by ring, abs_mul ((n + 1 : ℕ) : ℝ), Nat.abs_cast]
    have h3 : (1 : ℝ) ≤ ((n + 1 : ℕ) : ℝ) := by push_cast; linarith [(Nat.cast_nonneg n : (0:ℝ) ≤ n)]
    exact le_mul_of_one_le_left (abs_nonneg _) h3
  exact (summable_nat_add_iff 1).1 h2

theorem hypF_hasDerivAt {x : ℝ} (hx : |x| < 1) : HasDerivAt hypF (hypF' x) x := by
  obtain ⟨r, h1, h2⟩ := exists_between hx
  have hr : 0 < r := lt_of_le_of_lt (abs_nonneg x) h1
  have hmem : ∀ y ∈ Set.Ioo (-r) r, |y| ≤ r := fun y hy => (abs_lt.2 hy).le
  have h := hasDerivAt_tsum_of_isPreconnected (g := fun (n : ℕ) (y : ℝ) => hypCoef n * y ^ n)
    (g' := fun n y => hypCoef n * (n * y ^ (n - 1)))
    (summable_hypBound hr h2) (isOpen_Ioo (a := -r) (b := r)) isPreconnected_Ioo
    (fun n y _ => (hasDerivAt_pow n y).const_mul _)
    (fun n y hy => hypDeriv_bound (hmem y hy) n) (abs_lt.1 h1)
    ((summable_hypTerm hx).congr fun n => hypTerm_eq x n) (abs_lt.1 h1)
  refine h.congr_of_eventuallyEq (Filter.Eventually.of_forall fun y => ?_)
  exact tsum_congr fun n => hypTerm_eq y n

/-- The differential equation of the series. -/
theorem hypF_ode {x : ℝ} (hx : |x| < 1) :
    x * (1 - x) * hypF' x + (3 / 2 - 3 * x) * hypF x = 3 / 2 := by
  have s1 := summable_hypTerm hx
  have s2 := summable_hypDeriv hx
  have sa : Summable fun n : ℕ => (n + 3 / 2) * hypTerm x n := by
    refine ((s2.mul_left x).add (s1.mul_left (3 / 2))).congr fun n => ?_
    rw [hypTerm_eq]
    cases n with
    | zero => simp
    | succ n => simp only [Nat.add_sub_cancel, pow_succ]; push_cast; ring
  have ha : x * hypF' x + 3 / 2 * hypF x = ∑' n : ℕ, (n + 3 / 2) * hypTerm x n := by
    unfold hypF hypF'
    rw [← tsum_mul_left, ← tsum_mul_left, ← (s2.mul_left x).tsum_add (s1.mul_left (3 / 2))]
    refine tsum_congr fun n => ?_
    rw [hypTerm_eq]
    cases n with
    | zero => simp
    | succ n => simp only [Nat.add_sub_cancel, pow_succ]; push_cast; ring
  have hb : x * (x * hypF' x) + 3 * x * hypF x =
      ∑' n : ℕ, (((n + 1 : ℕ) : ℝ) + 3 / 2) * hypTerm x (n + 1) := by
    unfold hypF hypF'
    rw [← tsum_mul_left, ← tsum_mul_left, ← tsum_mul_left,
      ← ((s2.mul_left x).mul_left x).tsum_add (s1.mul_left (3 * x))]
    refine tsum_congr fun n => ?_
    rw [hypTerm_eq, hypTerm_eq]
    have h := hypCoef_rec n
    have e : (((n + 1 : ℕ) : ℝ) + 3 / 2) * (hypCoef (n + 1) * x ^ (n + 1)) =
        ((n + 3) * hypCoef n) * x ^ (n + 1) := by rw [← h]; push_cast; ring
    rw [e]
    cases n with
    | zero => simp; ring
    | succ n => simp only [Nat.add_sub_cancel, pow_succ]; push_cast; ring
  have hsplit := sa.tsum_eq_zero_add
  rw [← ha, ← hb] at hsplit
  simp only [Nat.cast_zero, hypTerm] at hsplit
  linear_combination hsplit

open Real

/-- Closed form on the elliptic side. -/
theorem hypF_sin {ψ : ℝ} (h0 : 0 ≤ ψ) (h1 : ψ < π) :
    sin ψ ^ 3 * hypF ((1 - cos ψ) / 2) = 3 / 4 * (2 * ψ - sin (2 * ψ)) := by
  have key : ∀ t ∈ Set.Icc 0 ψ, (fun t => sin t ^ 3 * hypF ((1 - cos t) / 2) -
      3 / 4 * (2 * t - sin (2 * t))) t = (fun t => sin t ^ 3 * hypF ((1 - cos t) / 2) -
      3 / 4 * (2 * t - sin (2 * t))) 0 := by
    have hd : ∀ t ∈ Set.Icc 0 ψ, HasDerivAt (fun t => sin t ^ 3 * hypF ((1 - cos t) / 2) -
        3 / 4 * (2 * t - sin (2 * t))) 0 t := by
      intro t ht
      have hc : |(1 - cos t) / 2| < 1 := by
        have h2 : -1 < cos t := by
          rw [← cos_pi]
          exact cos_lt_cos_of_nonneg_of_le_pi ht.1 le_rfl (by linarith [ht.2])
        have h3 := cos_le_one t
        rw [abs_lt]; constructor <;> linarith
      have d1 : HasDerivAt (fun t => (1 - cos t) / 2) (sin t / 2) t := by
        refine ((((hasDerivAt_cos t).const_sub 1).div_const 2)).congr_deriv ?_
        ring
      have d2 := (hypF_hasDerivAt hc).comp t d1
      have d3 := ((hasDerivAt_sin t).pow 3).mul d2
      have d4 : HasDerivAt (fun t => 3 / 4 * (2 * t - sin (2 * t)))
          (3 / 4 * (2 - cos (2 * t) * 2)) t := by
        have e1 : HasDerivAt (fun t : ℝ => 2 * t) 2 t := by
          simpa using (hasDerivAt_id t).const_mul 2
        exact (e1.sub e1.sin).const_mul _
      refine ((d3.sub d4).congr_deriv ?_).congr_of_eventuallyEq
        (Filter.Eventually.of_forall fun y => rfl)
      have ode := hypF_ode hc
      have hs := sin_sq_add_cos_sq t
      have hc2 := cos_two_mul t
      simp only [Pi.pow_apply, Function.comp]
      push_cast
      rw [hc2]
      generalize hypF ((1 - cos t) / 2) = F at *
      generalize hypF' ((1 - cos t) / 2) = F' at *
      have hs2 : sin t ^ 2 = 1 - cos t ^ 2 := by linarith
      linear_combination 2 * sin t ^ 2 * ode +
        (1 / 2 * F' * (sin t ^ 2) + 3) * hs2
    intro t ht
    refine constant_of_has_deriv_right_zero
      (fun y hy => (hd y hy).continuousAt.continuousWithinAt)
      (fun y hy => (hd y ⟨hy.1, hy.2.le⟩).hasDerivWithinAt) t ht
  have := key ψ ⟨h0, le_rfl⟩
  simp only [sin_zero, mul_zero, sub_zero] at this
  norm_num at this
  linarith

/-- Closed form on the hyperbolic side. -/
theorem hypF_sinh {ψ : ℝ} (h0 : 0 ≤ ψ) (h1 : cosh ψ < 3) :
    sinh ψ ^ 3 * hypF ((1 - cosh ψ) / 2) = 3 / 4 * (sinh (2 * ψ) - 2 * ψ) := by
  have key : ∀ t ∈ Set.Icc 0 ψ, (fun t => sinh t ^ 3 * hypF ((1 - cosh t) / 2) -
      3 / 4 * (sinh (2 * t) - 2 * t)) t = (fun t => sinh t ^ 3 * hypF ((1 - cosh t) / 2) -
      3 / 4 * (sinh (2 * t) - 2 * t)) 0 := by
    have hd : ∀ t ∈ Set.Icc 0 ψ, HasDerivAt (fun t => sinh t ^ 3 * hypF ((1 - cosh t) / 2) -
        3 / 4 * (sinh (2 * t) - 2 * t)) 0 t := by
      intro t ht
      have hc : |(1 - cosh t) / 2| < 1 := by
        have h2 : cosh t ≤ cosh ψ := by
          rw [cosh_le_cosh, abs_of_nonneg ht.1, abs_of_nonneg h0]; exact ht.2
        have h3 := one_le_cosh t
        rw [abs_lt]; constructor <;> linarith
      have d1 : HasDerivAt (fun t => (1 - cosh t) / 2) (-sinh t / 2) t :=
        ((hasDerivAt_cosh t).const_sub 1).div_const 2
      have d2 := (hypF_hasDerivAt hc).comp t d1
      have d3 := ((hasDerivAt_sinh t).pow 3).mul d2
      have d4 : HasDerivAt (fun t => 3 / 4 * (sinh (2 * t) - 2 * t))
          (3 / 4 * (cosh (2 * t) * 2 - 2)) t := by
        have e1 : HasDerivAt (fun t : ℝ => 2 * t) 2 t := by
          simpa using (hasDerivAt_id t).const_mul 2
        exact (e1.sinh.sub e1).const_mul _
      refine ((d3.sub d4).congr_deriv ?_).congr_of_eventuallyEq
        (Filter.Eventually.of_forall fun y => rfl)
      have ode := hypF_ode hc
      have hs := cosh_sq t
      have hc2 := cosh_two_mul t
      simp only [Pi.pow_apply, Function.comp]
      push_cast
      rw [hc2]
      generalize hypF ((1 - cosh t) / 2) = F at *
      generalize hypF' ((1 - cosh t) / 2) = F' at *
      linear_combination 2 * sinh t ^ 2 * ode +
        (1 / 2 * F' * (sinh t ^ 2) - 3 / 2) * hs
    intro t ht
    refine constant_of_has_deriv_right_zero
      (fun y hy => (hd y hy).continuousAt.continuousWithinAt)
      (fun y hy => (hd y ⟨hy.1, hy.2.le⟩).hasDerivWithinAt) t ht
  have := key ψ ⟨h0, le_rfl⟩
  simp only [sinh_zero, mul_zero, sub_zero] at this
  norm_num at this
  linarith

theorem hypF_zero : hypF 0 = 1 := by
  unfold hypF
  rw [tsum_eq_single 0 (fun n hn => by rw [hypTerm_eq, zero_pow hn, mul_zero])]
  rfl

end Lamberthub.Izzo
