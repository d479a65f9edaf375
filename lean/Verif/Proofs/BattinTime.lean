import Verif.Props.Battin
import Verif.Props.CharacteristicTimes
import Mathlib.Analysis.SpecialFunctions.Trigonometric.ArctanDeriv
import Mathlib.Analysis.SpecialFunctions.Trigonometric.Deriv
import Mathlib.Analysis.Calculus.Deriv.MeanValue

set_option autoImplicit false

namespace Lamberthub
open Spec LC

namespace Battin

/-- A rational bound of the arc. -/
theorem sin_bound {a : ℝ} (h0 : 0 < a) (h1 : a < Real.pi) :
    5 / 3 * Real.sin a * (16 + 5 * Real.cos a) / (17 + 16 * Real.cos a + 2 * Real.cos a ^ 2) < a := by
  have hQ : ∀ t : ℝ, 0 < 17 + 16 * Real.cos t + 2 * Real.cos t ^ 2 := fun t => by
    nlinarith [Real.neg_one_le_cos t, sq_nonneg (Real.cos t)]
  have hd : ∀ t : ℝ, HasDerivAt (fun t => t - 5 / 3 * Real.sin t * (16 + 5 * Real.cos t) /
      (17 + 16 * Real.cos t + 2 * Real.cos t ^ 2))
      (4 * (1 - Real.cos t) ^ 4 / (17 + 16 * Real.cos t + 2 * Real.cos t ^ 2) ^ 2) t := by
    intro t
    have hs := Real.hasDerivAt_sin t
    have hc := Real.hasDerivAt_cos t
    have h := (hasDerivAt_id t).sub ((((hs.const_mul (5 / 3)).mul ((hc.const_mul 5).const_add 16))).div
      (((hc.const_mul 16).const_add 17).add ((hc.pow 2).const_mul 2)) (hQ t).ne')
    refine (h : HasDerivAt (fun t => t - 5 / 3 * Real.sin t * (16 + 5 * Real.cos t) /
      (17 + 16 * Real.cos t + 2 * Real.cos t ^ 2)) _ t).congr_deriv ?_
    have hq := (hQ t).ne'
    have e : Real.sin t ^ 2 = 1 - Real.cos t ^ 2 := by rw [← Real.sin_sq_add_cos_sq t]; ring
    show 1 - ((5 / 3 * Real.cos t * (16 + 5 * Real.cos t) + 5 / 3 * Real.sin t * (5 * -Real.sin t)) *
      (17 + 16 * Real.cos t + 2 * Real.cos t ^ 2) - 5 / 3 * Real.sin t * (16 + 5 * Real.cos t) *
      (16 * -Real.sin t + 2 * ((2 : ℕ) * Real.cos t ^ (2 - 1) * -Real.sin t))) /
      (17 + 16 * Real.cos t + 2 * Real.cos t ^ 2) ^ 2 = _
    generalize Real.cos t = c at *
    generalize Real.sin t = S at *
    push_cast
    rw [eq_div_iff (pow_ne_zero 2 hq), sub_mul, div_mul_cancel₀ _ (pow_ne_zero 2 hq)]
    linear_combination (-5 / 3 * (16 + 5 * c) * (16 + 4 * c) + 25 / 3 * (17 + 16 * c + 2 * c ^ 2)) * e
  have hm : StrictMonoOn (fun t => t - 5 / 3 * Real.sin t * (16 + 5 * Real.cos t) /
      (17 + 16 * Real.cos t + 2 * Real.cos t ^ 2)) (Set.Icc 0 Real.pi) := by
    apply strictMonoOn_of_deriv_pos (convex_Icc _ _)
    · exact fun t _ => (hd t).continuousAt.continuousWithinAt
    · intro t ht
      rw [interior_Icc] at ht
      rw [(hd t).deriv]
      have : Real.cos t < 1 := by
        have := Real.cos_lt_cos_of_nonneg_of_le_pi le_rfl ht.2.le ht.1
        rwa [Real.cos_zero] at this
      have h2 := hQ t
      have h3 : 0 < 1 - Real.cos t := by linarith
      positivity
  have := hm ⟨le_rfl, Real.pi_pos.le⟩ ⟨h0.le, h1.le⟩ h0
  simp at this
  exact this

/-- The value of `xi` computed by the code. -/
noncomputable def xiCode (x : ℝ) : ℝ := 8 * (Real.sqrt (1 + x) + 1) /
  (3 + 1 / (5 + x / (Real.sqrt (1 + x) + 1) ^ 2 + 9 * (x / (Real.sqrt (1 + x) + 1) ^ 2) / 7 * 1))

theorem xiCode_eq {x : ℝ} (hx : -1 < x) : xiCode x = (Real.sqrt (1 + x) + 1) * (51 * Real.sqrt (1 + x) + 19) /
    (20 * Real.sqrt (1 + x) + 8) := by
  have hr : 0 < Real.sqrt (1 + x) := Real.sqrt_pos.2 (by linarith)
  have hr2 : x = Real.sqrt (1 + x) ^ 2 - 1 := by rw [Real.sq_sqrt (by linarith)]; ring
  unfold xiCode
  generalize Real.sqrt (1 + x) = r at *
  subst hr2
  have h2 : (r ^ 2 - 1) / (r + 1) ^ 2 = (r - 1) / (r + 1) := by field_simp; ring
  rw [h2]
  have h3 : 5 + (r - 1) / (r + 1) + 9 * ((r - 1) / (r + 1)) / 7 * 1 = (51 * r + 19) / (7 * (r + 1)) := by
    field_simp; ring
  rw [h3, one_div_div]
  field_simp
  ring

/-- The factor that multiplies `l + x` in Gauss's equation, and its exact value. -/
noncomputable def gaussQ (x : ℝ) : ℝ := ((1 + x) * (Real.arctan (Real.sqrt x) / Real.sqrt x) - 1) / (2 * x)

theorem xi_low {x : ℝ} (hx : 0 < x) : (xiCode x + 2 * x) / (4 * x + xiCode x * (3 + x)) < gaussQ x := by
  have hr : 1 < Real.sqrt (1 + x) := by rw [Real.lt_sqrt (by norm_num)]; linarith
  have hr2 : Real.sqrt (1 + x) ^ 2 = 1 + x := Real.sq_sqrt (by linarith)
  have hsx : 0 < Real.sqrt x := Real.sqrt_pos.2 hx
  have hα0 : 0 < Real.arctan (Real.sqrt x) := Real.arctan_pos.2 hsx
  have hα1 := Real.arctan_lt_pi_div_two (Real.sqrt x)
  have hb := sin_bound hα0 (by linarith [Real.pi_pos])
  rw [Real.sin_arctan, Real.cos_arctan, Real.sq_sqrt hx.le] at hb
  unfold gaussQ
  rw [xiCode_eq (by linarith)]
  generalize Real.arctan (Real.sqrt x) = a at *
  have hx' : x = Real.sqrt (1 + x) ^ 2 - 1 := by rw [hr2]; ring
  generalize Real.sqrt (1 + x) = r at *
  generalize Real.sqrt x = q at *
  have hr0 : 0 < r := by linarith
  have h1 : 5 * (16 * r + 5) / (3 * (17 * r ^ 2 + 16 * r + 2)) < a / q := by
    rw [lt_div_iff₀ hsx]
    refine lt_of_eq_of_lt ?_ hb
    field_simp
  have h2 : (((r + 1) * (51 * r + 19) / (20 * r + 8)) + 2 * x) / (4 * x + (r + 1) * (51 * r + 19) / (20 * r + 8) * (3 + x)) =
      ((1 + x) * (5 * (16 * r + 5) / (3 * (17 * r ^ 2 + 16 * r + 2))) - 1) / (2 * x) := by
    subst hx'
    have e1 : 0 < r - 1 := by linarith
    have e2 : (r ^ 2 - 1) = (r - 1) * (r + 1) := by ring
    have e3 : 4 * (r ^ 2 - 1) + (r + 1) * (51 * r + 19) / (20 * r + 8) * (3 + (r ^ 2 - 1)) =
        3 * (r + 1) ^ 2 * (17 * r ^ 2 + 16 * r + 2) / (20 * r + 8) := by field_simp; ring
    rw [e3, e2]
    have e4 : (1 + (r - 1) * (r + 1)) = r ^ 2 := by ring
    rw [e4]
    field_simp
    ring
  rw [h2, div_lt_div_iff_of_pos_right (by linarith)]
  have : (1 + x) * (5 * (16 * r + 5) / (3 * (17 * r ^ 2 + 16 * r + 2))) < (1 + x) * (a / q) :=
    mul_lt_mul_of_pos_left h1 (by linarith)
  linarith

/-- Another rational bound of the arc, from above. -/
theorem sin_bound' {a : ℝ} (h0 : 0 < a) (h1 : a < Real.pi / 2) :
    a < Real.sin a * (8 + 7 * Real.cos a) / (5 + 8 * Real.cos a + 2 * Real.cos a ^ 2) := by
  have hc0 : ∀ t ∈ Set.Icc 0 (Real.pi / 2), 0 ≤ Real.cos t := fun t ht =>
    Real.cos_nonneg_of_neg_pi_div_two_le_of_le (by linarith [ht.1, Real.pi_pos]) ht.2
  have hQ : ∀ t ∈ Set.Icc 0 (Real.pi / 2), 0 < 5 + 8 * Real.cos t + 2 * Real.cos t ^ 2 := fun t ht => by
    have := hc0 t ht; positivity
  have hd : ∀ t ∈ Set.Icc 0 (Real.pi / 2), HasDerivAt (fun t => Real.sin t * (8 + 7 * Real.cos t) /
      (5 + 8 * Real.cos t + 2 * Real.cos t ^ 2) - t)
      (4 * (1 - Real.cos t) ^ 3 * (1 + Real.cos t) / (5 + 8 * Real.cos t + 2 * Real.cos t ^ 2) ^ 2) t := by
    intro t ht
    have hs := Real.hasDerivAt_sin t
    have hc := Real.hasDerivAt_cos t
    have h := (((hs.mul ((hc.const_mul 7).const_add 8))).div
      (((hc.const_mul 8).const_add 5).add ((hc.pow 2).const_mul 2)) (hQ t ht).ne').sub (hasDerivAt_id t)
    refine (h : HasDerivAt (fun t => Real.sin t * (8 + 7 * Real.cos t) /
      (5 + 8 * Real.cos t + 2 * Real.cos t ^ 2) - t) _ t).congr_deriv ?_
    have hq := (hQ t ht).ne'
    have e : Real.sin t ^ 2 = 1 - Real.cos t ^ 2 := by rw [← Real.sin_sq_add_cos_sq t]; ring
    show ((Real.cos t * (8 + 7 * Real.cos t) + Real.sin t * (7 * -Real.sin t)) *
      (5 + 8 * Real.cos t + 2 * Real.cos t ^ 2) - Real.sin t * (8 + 7 * Real.cos t) *
      (8 * -Real.sin t + 2 * ((2 : ℕ) * Real.cos t ^ (2 - 1) * -Real.sin t))) /
      (5 + 8 * Real.cos t + 2 * Real.cos t ^ 2) ^ 2 - 1 = _
    generalize Real.cos t = c at *
    generalize Real.sin t = S at *
    push_cast
    rw [eq_div_iff (pow_ne_zero 2 hq), sub_mul, div_mul_cancel₀ _ (pow_ne_zero 2 hq)]
    linear_combination ((8 + 7 * c) * (8 + 4 * c) - 7 * (5 + 8 * c + 2 * c ^ 2)) * e
  have hm : StrictMonoOn (fun t => Real.sin t * (8 + 7 * Real.cos t) /
      (5 + 8 * Real.cos t + 2 * Real.cos t ^ 2) - t) (Set.Icc 0 (Real.pi / 2)) := by
    apply strictMonoOn_of_deriv_pos (convex_Icc _ _)
    · exact fun t ht => (hd t ht).continuousAt.continuousWithinAt
    · intro t ht
      have ht' := interior_subset ht
      rw [interior_Icc] at ht
      rw [(hd t ht').deriv]
      have : Real.cos t < 1 := by
        have := Real.cos_lt_cos_of_nonneg_of_le_pi_div_two le_rfl ht.2.le ht.1
        rwa [Real.cos_zero] at this
      have h2 := hQ t ht'
      have h4 := hc0 t ht'
      have h3 : 0 < 1 - Real.cos t := by linarith
      positivity
  have := hm ⟨le_rfl, by positivity⟩ ⟨h0.le, h1.le⟩ h0
  simp at this
  exact this

theorem xi_high {x : ℝ} (hx : 0 < x) : gaussQ x ≤ 4 / 3 * ((xiCode x + 2 * x) / (4 * x + xiCode x * (3 + x))) := by
  have hr : 1 < Real.sqrt (1 + x) := by rw [Real.lt_sqrt (by norm_num)]; linarith
  have hr2 : Real.sqrt (1 + x) ^ 2 = 1 + x := Real.sq_sqrt (by linarith)
  have hsx : 0 < Real.sqrt x := Real.sqrt_pos.2 hx
  have hb := sin_bound' (Real.arctan_pos.2 hsx) (Real.arctan_lt_pi_div_two _)
  rw [Real.sin_arctan, Real.cos_arctan, Real.sq_sqrt hx.le] at hb
  unfold gaussQ
  rw [xiCode_eq (by linarith)]
  generalize Real.arctan (Real.sqrt x) = a at *
  have hx' : x = Real.sqrt (1 + x) ^ 2 - 1 := by rw [hr2]; ring
  generalize Real.sqrt (1 + x) = r at *
  generalize Real.sqrt x = q at *
  have hr0 : 0 < r := by linarith
  have h1 : a / q ≤ (8 * r + 7) / (5 * r ^ 2 + 8 * r + 2) := by
    rw [div_le_iff₀ hsx]
    refine hb.le.trans_eq ?_
    field_simp
  have e3 : 4 * x + (r + 1) * (51 * r + 19) / (20 * r + 8) * (3 + x) =
      3 * (r + 1) ^ 2 * (17 * r ^ 2 + 16 * r + 2) / (20 * r + 8) := by rw [hx']; field_simp; ring
  have e4 : (r + 1) * (51 * r + 19) / (20 * r + 8) + 2 * x = (r + 1) * (40 * r ^ 2 + 27 * r + 3) / (20 * r + 8) := by
    rw [hx']; field_simp; ring
  have e5 : (r + 1) * (40 * r ^ 2 + 27 * r + 3) / (20 * r + 8) /
      (3 * (r + 1) ^ 2 * (17 * r ^ 2 + 16 * r + 2) / (20 * r + 8)) =
      (40 * r ^ 2 + 27 * r + 3) / (3 * (r + 1) * (17 * r ^ 2 + 16 * r + 2)) := by field_simp
  rw [e3, e4, e5]
  have h2 : ((1 + x) * (a / q) - 1) / (2 * x) ≤ (4 * r + 1) / (5 * r ^ 2 + 8 * r + 2) := by
    rw [div_le_iff₀ (by linarith)]
    have h3 : (1 + x) * (a / q) ≤ (1 + x) * ((8 * r + 7) / (5 * r ^ 2 + 8 * r + 2)) :=
      mul_le_mul_of_nonneg_left h1 (by linarith)
    have h4 : (1 + x) * ((8 * r + 7) / (5 * r ^ 2 + 8 * r + 2)) - 1 = (4 * r + 1) / (5 * r ^ 2 + 8 * r + 2) * (2 * x) := by
      rw [hx']; field_simp; ring
    linarith
  refine h2.trans ?_
  rw [← mul_div_assoc, div_le_div_iff₀ (by positivity) (by positivity)]
  have t0 : 0 < r - 1 := by linarith
  nlinarith [pow_pos hr0 2, pow_pos hr0 3, pow_pos hr0 4]

/-! ### The coefficients -/

noncomputable def dd (l x : ℝ) : ℝ := (1 + 2 * x + l) * (4 * x + xiCode x * (3 + x))
noncomputable def hA (l x : ℝ) : ℝ := (l + x) ^ 2 * (1 + 3 * x + xiCode x) / dd l x
noncomputable def hC (l x : ℝ) : ℝ := (x - l + xiCode x) / dd l x

/-- What the first two equations ask of `y`. -/
noncomputable def yBound (l x x0 : ℝ) : ℝ := 1 + hA l x0 + (x + l) * (1 + x) * hC l x0

theorem xiCode_ge {x : ℝ} (hx : -1 < x) : 19 / 8 * (Real.sqrt (1 + x) + 1) ≤ xiCode x := (xiAt_eq hx 125).2

theorem den_pos {x : ℝ} (hx : -1 < x) : 0 < 4 * x + xiCode x * (3 + x) := by
  have hb := xiCode_ge hx
  generalize xiCode x = xi at *
  have hr : 0 < Real.sqrt (1 + x) := Real.sqrt_pos.2 (by linarith)
  have hr2 : Real.sqrt (1 + x) ^ 2 = 1 + x := Real.sq_sqrt (by linarith)
  generalize Real.sqrt (1 + x) = r at *
  have : 19 / 8 * (r + 1) * (3 + x) ≤ xi * (3 + x) :=
    mul_le_mul_of_nonneg_right hb (by nlinarith)
  nlinarith [mul_pos hr hr, mul_pos hr (mul_pos hr hr)]

theorem dd_pos {l x : ℝ} (hx : -1 < x) (hl : 0 < 1 + 2 * x + l) : 0 < dd l x := mul_pos hl (den_pos hx)

theorem hCoefficients_eq {l x : ℝ} (m : ℝ) (hx : -1 < x) (hl : 0 < 1 + 2 * x + l) :
    hCoefficients x l m = .ok (hA l x, m * hC l x) := by
  have hxi := (xiAt_eq hx 125).1
  have hd := (dd_pos hx hl).ne'
  unfold hCoefficients
  rw [hxi, ok_bind]
  simp only []
  unfold dd xiCode at hd
  rw [pdiv_eq hd, ok_bind, pdiv_eq hd, ok_bind]
  unfold hA hC dd xiCode
  rw [mul_div_assoc m]

theorem yBound_self {l x : ℝ} (hx : -1 < x) (hl : 0 < 1 + 2 * x + l) :
    yBound l x x = 1 + (l + x) * ((xiCode x + 2 * x) / (4 * x + xiCode x * (3 + x))) := by
  have h1 := (den_pos hx).ne'
  have h2 := hl.ne'
  unfold yBound hA hC dd
  have e : (l + x) * (1 + 3 * x + xiCode x) + (1 + x) * (x - l + xiCode x) = (xiCode x + 2 * x) * (1 + 2 * x + l) := by
    ring
  generalize 4 * x + xiCode x * (3 + x) = D at *
  generalize 1 + 2 * x + l = E at *
  have e2 : (l + x) * ((xiCode x + 2 * x) / D) = (l + x) * ((xiCode x + 2 * x) * E) / (E * D) := by
    field_simp
  rw [e2, ← e]
  ring

/-- The value that the exact equations ask of `y`. -/
noncomputable def yTrue (l x : ℝ) : ℝ := 1 + (l + x) * gaussQ x

theorem yBound_lt {l x : ℝ} (hx : 0 < x) (hl : 0 < l) : yBound l x x < yTrue l x := by
  rw [yBound_self (by linarith) (by linarith), yTrue]
  have := mul_lt_mul_of_pos_left (xi_low hx) (show 0 < l + x by linarith)
  linarith

/-- At the solution the parameter `B` of the cubic is below 8. -/
theorem B_lt {l x : ℝ} (hx : 0 < x) (hl : 0 < l) (hc : 0 < x - l + xiCode x) :
    27 * (yTrue l x ^ 2 * ((l + x) * (1 + x)) * hC l x) / (4 * (1 + hA l x) ^ 3) < 8 := by
  have hxi : 0 < xiCode x := by
    have := xiCode_ge (show -1 < x by linarith)
    have := Real.sqrt_nonneg (1 + x)
    linarith
  have hd := dd_pos (l := l) (show -1 < x by linarith) (by linarith)
  have hA0 : 0 ≤ hA l x := div_nonneg (by positivity) hd.le
  have hC0 : 0 < hC l x := div_pos hc hd
  have hb := yBound_self (l := l) (show -1 < x by linarith) (by linarith)
  -- the true value is at most 4/3 of the bound
  have hY : yTrue l x ≤ 4 / 3 * yBound l x x := by
    rw [hb, yTrue]
    have := mul_le_mul_of_nonneg_left (xi_high hx) (show 0 ≤ l + x by linarith)
    linarith
  have hY0 : 0 < yTrue l x := by
    have : 0 ≤ (l + x) * ((xiCode x + 2 * x) / (4 * x + xiCode x * (3 + x))) := by positivity
    linarith [yBound_lt hx hl]
  -- the bound is at most 4/3 (1 + h1)
  have hz : yBound l x x ≤ 4 / 3 * (1 + hA l x) := by
    have h3 : 3 * ((x + l) * (1 + x) * hC l x) ≤ 1 + hA l x := by
      have e1 : 3 * ((x + l) * (1 + x) * hC l x) = 3 * ((x + l) * (1 + x) * (x - l + xiCode x)) / dd l x := by
        unfold hC; ring
      have e2 : 1 + hA l x = (dd l x + (l + x) ^ 2 * (1 + 3 * x + xiCode x)) / dd l x := by
        unfold hA; field_simp
      rw [e1, e2, div_le_div_iff_of_pos_right hd]
      unfold dd
      generalize xiCode x = xi at *
      have e3 : (1 + 2 * x + l) * (4 * x + xi * (3 + x)) + (l + x) ^ 2 * (1 + 3 * x + xi) -
          3 * ((x + l) * (1 + x) * (x - l + xi)) = xi * (3 + 4 * x + l ^ 2) + 4 * x + 6 * x ^ 2 + 6 * l * x +
            6 * x * l ^ 2 + 6 * l * x ^ 2 + 4 * l ^ 2 := by ring
      have : 0 ≤ xi * (3 + 4 * x + l ^ 2) + 4 * x + 6 * x ^ 2 + 6 * l * x +
            6 * x * l ^ 2 + 6 * l * x ^ 2 + 4 * l ^ 2 := by positivity
      linarith
    unfold yBound
    linarith
  rw [div_lt_iff₀ (by positivity)]
  have e : (l + x) * (1 + x) * hC l x = yBound l x x - (1 + hA l x) := by unfold yBound; ring
  have h0 : 0 < (l + x) * (1 + x) * hC l x := by positivity
  rw [mul_assoc (yTrue l x ^ 2), e]
  rw [e] at h0
  generalize yBound l x x = Z at *
  generalize yTrue l x = Y at *
  have hH : 1 ≤ 1 + hA l x := by linarith
  generalize 1 + hA l x = H at *
  have hZ : 0 < Z := by linarith
  have h5 : Y ^ 2 ≤ (16 / 9 * H) ^ 2 := by
    apply pow_le_pow_left₀ hY0.le; linarith
  have h6 : Z - H ≤ H / 3 := by linarith
  have h7 : Y ^ 2 * (Z - H) ≤ (16 / 9 * H) ^ 2 * (H / 3) := mul_le_mul h5 h6 h0.le (by positivity)
  have h8 : 0 < H ^ 3 := by positivity
  nlinarith

/-! ### The loop -/

/-- One pass of the loop. -/
def Step (l m x0 x y : ℝ) : Prop := ∃ h1 h2 u, hCoefficients x0 l m = .ok (h1, h2) ∧ uAtH h1 h2 = .ok u ∧
  secondEquation u h1 h2 = .ok y ∧ firstEquation y l m = .ok x

theorem loop_last {l m atol : ℝ} (hm : 0 < m) : ∀ (rem k : ℕ) {x0 x y : ℝ} {n : ℕ}, -1 < x0 → 0 < 1 + 2 * x0 + l →
    loop l m atol rem k x0 = .ok (x, y, n) →
    0 < y ∧ -1 < x ∧ 0 < x + l ∧ (x + l) * (1 + x) = m / y ^ 2 ∧
      ∃ x', -1 < x' ∧ 0 < 1 + 2 * x' + l ∧ |x - x'| ≤ atol ∧ Step l m x' x y
  | 0, k, x0, x, y, n, _, _, h => by simp [loop] at h
  | rem + 1, k, x0, x, y, n, h0, hl, h => by
    rw [loop] at h
    simp only [bind_ok] at h
    obtain ⟨⟨h1, h2⟩, hh, u, hu, y', hy, x', hx, h⟩ := h
    have hh1 := h1_nonneg h0 hl hh
    have hy0 := second_pos (uAtH_le hu) hh1 hy
    obtain ⟨a, b, c⟩ := first_ok hm hy0 hx
    split at h
    · rename_i hle
      simp only [Except.ok.injEq, Prod.mk.injEq] at h
      obtain ⟨rfl, rfl, rfl⟩ := h
      exact ⟨hy0, a, b, c, x0, h0, hl, hle, h1, h2, u, hh, hu, hy, hx⟩
    · exact loop_last hm rem (k + 1) a (by linarith) h

/-- The pass returns too small a value of `y`. -/
theorem Step.lt {l m x0 x y : ℝ} (h : Step l m x0 x y) (hx0 : -1 < x0) (hl : 0 < 1 + 2 * x0 + l) (hm : 0 < m)
    (hy : 0 < y) (hxy : (x + l) * (1 + x) = m / y ^ 2) (hc : 0 < hC l x0)
    (hB : 27 * (m * hC l x0) / (4 * (1 + hA l x0) ^ 3) < 8) : y < yBound l x x0 := by
  obtain ⟨h1, h2, u, hh, hu, hy2, -⟩ := h
  have hh1 := h1_nonneg hx0 hl hh
  rw [hCoefficients_eq m hx0 hl] at hh
  simp only [Except.ok.injEq, Prod.mk.injEq] at hh
  obtain ⟨rfl, rfl⟩ := hh
  have h3 := battin_cubic_wrong (by linarith) (mul_pos hm hc) hB.le hu hy2
  have hm' : m = (x + l) * (1 + x) * y ^ 2 := by rw [hxy]; field_simp
  have h4 : y ^ 2 * (y - yBound l x x0) < 0 := by
    have e : y ^ 2 * (y - yBound l x x0) = y ^ 3 - (1 + hA l x0) * y ^ 2 - m * hC l x0 := by
      rw [hm', yBound]; ring
    rw [e]; exact h3
  have h5 := neg_of_mul_neg_right h4 (by positivity)
  linarith

/-- What is known of a run that returns. -/
structure Run (mu : ℝ) (r1 r2 : V3) (tof : ℝ) (pro : Bool) (atol : ℝ) (v1 v2 : V3) (s lam l m x y x0 V : ℝ) : Prop where
  hmu : 0 < mu
  htof : 0 < tof
  geo : Geo r1 r2 (Real.sqrt 2 * s * lam)
  semi : Semi (V3.norm r1) (V3.norm r2) (V3.norm (r2 - r1)) s lam
  lam0 : lam ≠ 0
  sgn : 0 < lam ↔ ShortWay pro r1 r2
  hl : l = ((1 - lam) / (1 + lam)) ^ 2
  hm : m = 8 * mu * tof ^ 2 / (s ^ 3 * (1 + lam) ^ 6)
  hy : 0 < y
  hx : -1 < x
  hxl : 0 < x + l
  hxy : (x + l) * (1 + x) = m / y ^ 2
  hx0 : -1 < x0
  hx0l : 0 < 1 + 2 * x0 + l
  near : |x - x0| ≤ atol
  step : Step l m x0 x y
  hV : V = s * (1 + lam) ^ 2 * (x + l) / (1 + x)
  hV0 : 0 < V
  root : Real.sqrt (V / mu) = 2 * Real.sqrt 2 * tof / (s * (1 + lam) ^ 2 * (y * (1 + x)))
  hv1 : v1 = fgV1 mu r1 r2 (Real.sqrt 2 * s * lam) V
  hv2 : v2 = fgV2 mu r1 r2 (Real.sqrt 2 * s * lam) V

theorem run_of_ok {mu : ℝ} {r1 r2 : V3} {tof : ℝ} {M : ℤ} {pro low : Bool} {maxiter : ℕ} {atol rtol : ℝ}
    {full : Bool} {clock : ℝ} {out : Output} (hna : NotAligned r1 r2)
    (h : battin1984 mu r1 r2 tof M pro low maxiter atol rtol full clock = .ok out) :
    ∃ s lam l m x y x0 V, Run mu r1 r2 tof pro atol out.v1 out.v2 s lam l m x y x0 V := by
  unfold battin1984 at h
  simp only [bind_ok] at h
  obtain ⟨_, hv, θ, hθ, lam, hlam, ll, hll, m, hm, q, -, r, -, ⟨x, y, n⟩, hl, tpi, -, ⟨v1, v2⟩, hvel, h⟩ := h
  obtain ⟨hmu, h1, h12, htof, hM⟩ := assertParameters_iff.1 hv
  have hA := angle_of_eq hna hθ
  obtain ⟨hG, hsh⟩ := hA.halfGeo hna
  have hR1 := hG.R1
  have hR2 := hG.R2
  have hc : 0 < V3.norm (r2 - r1) := by
    obtain ⟨_, _, hS, _⟩ := hG.semi
    exact hS.cpos
  obtain ⟨s, hs⟩ : ∃ s, s = (V3.norm r1 + V3.norm r2 + V3.norm (r2 - r1)) / 2 := ⟨_, rfl⟩
  rw [← hs] at hlam hm hvel
  have hs0 : 0 < s := by rw [hs]; positivity
  obtain ⟨hlsq, hl2, hp, hn⟩ := getLambda_ok hs0 hc hlam
  have hlb := abs_lt.1 ((sq_lt_one_iff_abs_lt_one _).1 hl2)
  unfold getLl at hll
  simp only [bind_ok, pdiv_ok] at hll
  obtain ⟨_, ⟨-, rfl⟩, hll⟩ := hll
  have hll' := (Except.ok.inj hll).symm
  unfold getM at hm
  obtain ⟨-, hm'⟩ := pdiv_ok.1 hm
  have h1l : 0 < 1 + lam := by linarith [hlb.1]
  have hm0 : 0 < m := by rw [hm']; positivity
  have hll0 : 0 ≤ ll := by rw [hll']; positivity
  have hx0 : -1 < (if r * tof > 4 / 3 * (1 - lam ^ 3) then ll else 0) := by split <;> linarith
  have hx1 : 0 < 1 + 2 * (if r * tof > 4 / 3 * (1 - lam ^ 3) then ll else 0) + ll := by split <;> linarith
  obtain ⟨hy, hx, hxl, hxy, x0, hx0, hx0l, hnear, hstep⟩ := loop_last hm0 _ _ hx0 hx1 hl
  obtain ⟨s', lam', hS, hAs⟩ := hG.semi
  have hss : s' = s := by rw [hS.hs, hs]
  subst hss
  have hr2 : Real.sqrt 2 ^ 2 = 2 := Real.sq_sqrt (by norm_num)
  have hrp : 0 < Real.sqrt 2 := by positivity
  have hlle : lam' ^ 2 = lam ^ 2 := by
    rw [hlsq, hS.chord]; field_simp; ring
  have hlne : lam ≠ 0 := by
    intro h0
    rw [h0] at hlle
    apply hG.hA
    rw [hAs, pow_eq_zero_iff two_ne_zero |>.1 (hlle.trans (by ring))]; ring
  have hsgn : 0 < halfA (V3.norm r1) (V3.norm r2) θ ↔ θ < Real.pi := by rw [hsh, hA.short]
  have hlam' : lam' = lam := by
    rcases sq_eq_sq_iff_eq_or_eq_neg.1 hlle with h1 | h1
    · exact h1
    · exfalso
      rcases lt_or_gt_of_ne hlne with h2 | h2
      · apply hn h2
        rw [← hsgn, hAs, h1]
        have : 0 < -lam := by linarith
        positivity
      · have := hsgn.2 (hp h2)
        rw [hAs, h1] at this
        have h3 : 0 < Real.sqrt 2 * s' * lam := by positivity
        linarith
  rw [hlam'] at hAs hS
  rw [hAs] at hG hsh
  have h1x : 0 < 1 + x := by linarith
  obtain ⟨V, hVV⟩ : ∃ V, V = s' * (1 + lam) ^ 2 * (x + ll) / (1 + x) := ⟨_, rfl⟩
  have hV0 : 0 < V := by rw [hVV]; positivity
  unfold velocities at hvel
  simp only [bind_ok, pdiv_ok, vdiv_ok] at hvel
  obtain ⟨_, ⟨-, rfl⟩, t11, ⟨hs11, rfl⟩, _, ⟨-, rfl⟩, _, ⟨-, rfl⟩, hvel⟩ := hvel
  simp only [Except.ok.injEq, Prod.mk.injEq] at hvel
  have hys : 0 < y * (1 + x) := by positivity
  have ht : m * s' * (1 + lam) ^ 2 / (y * (1 + x)) = V * (y * (1 + x)) := by
    have hmy : m = (x + ll) * (1 + x) * y ^ 2 := by rw [hxy]; field_simp
    rw [hVV]; field_simp; rw [hmy]; ring
  have hmu' : V / mu = 8 * tof ^ 2 / (s' * (1 + lam) ^ 2 * (y * (1 + x))) ^ 2 := by
    have : V * (y * (1 + x)) ^ 2 = m * s' * (1 + lam) ^ 2 := by
      rw [div_eq_iff hys.ne'] at ht
      linear_combination -ht
    rw [hm'] at this
    field_simp at this ⊢
    linear_combination this
  have hsq : Real.sqrt (V / mu) = 2 * Real.sqrt 2 * tof / (s' * (1 + lam) ^ 2 * (y * (1 + x))) := by
    rw [hmu', Real.sqrt_div (by positivity), Real.sqrt_sq (by positivity),
      show 8 * tof ^ 2 = (2 * Real.sqrt 2 * tof) ^ 2 by rw [mul_pow, mul_pow, hr2]; ring, Real.sqrt_sq (by positivity)]
  have hg : (Real.sqrt 2 * s' * lam * Real.sqrt (V / mu))⁻¹ = (1 + lam) ^ 2 / (4 * tof * lam) * (y * (1 + x)) := by
    have : Real.sqrt 2 * s' * lam * Real.sqrt (V / mu) = 4 * tof * lam / ((1 + lam) ^ 2 * (y * (1 + x))) := by
      rw [hsq]; field_simp; rw [hr2]; ring
    rw [this, inv_div]; field_simp
  have hv1 : v1 = fgV1 mu r1 r2 (Real.sqrt 2 * s' * lam) V := by
    rw [← hvel.1, fgV1, hg, ht]
    generalize (1 + lam) ^ 2 / (4 * tof * lam) = k
    generalize y * (1 + x) = z
    ext <;> simp only [V3.add_x, V3.add_y, V3.add_z, V3.smul_x, V3.smul_y, V3.smul_z, V3.sub_x, V3.sub_y, V3.sub_z] <;>
      field_simp <;> ring
  have hv2 : v2 = fgV2 mu r1 r2 (Real.sqrt 2 * s' * lam) V := by
    rw [← hvel.2, fgV2, hg, ht]
    generalize (1 + lam) ^ 2 / (4 * tof * lam) = k
    generalize y * (1 + x) = z
    ext <;> simp only [V3.add_x, V3.add_y, V3.add_z, V3.smul_x, V3.smul_y, V3.smul_z, V3.sub_x, V3.sub_y, V3.sub_z] <;>
      field_simp <;> ring
  have hout := (Except.ok.inj h).symm
  refine ⟨s', lam, ll, m, x, y, x0, V, hmu, htof, hG, hS, hlne, ?_, hll', hm', hy, hx, hxl, hxy, hx0, hx0l, hnear, hstep,
    hVV, hV0, hsq, ?_, ?_⟩
  · rw [← hsh]
    have : 0 < Real.sqrt 2 * s' := by positivity
    exact (mul_pos_iff_of_pos_left this).symm
  · rw [hout, mkOutput_v1, hv1]
  · rw [hout, mkOutput_v2, hv2]

/-- The flight time in Battin's variable, for an ellipse. -/
theorem tell_eq {mu s lam x l : ℝ} (hs : 0 < s) (hl1 : 0 < 1 + lam) (hx : 0 < x)
    (hl : l = ((1 - lam) / (1 + lam)) ^ 2) :
    Tell mu (Real.sqrt 2 * s * lam) (s * (1 + lam) ^ 2 * (x + l) / (1 + x)) (2 * Real.arctan (Real.sqrt x)) =
      Real.sqrt (s * (1 + lam) ^ 2 * (x + l) / (1 + x) / mu) *
        (s * (1 + lam) ^ 2 * (1 + x) / (2 * Real.sqrt 2) * yTrue l x) := by
  have hr2 : Real.sqrt 2 ^ 2 = 2 := Real.sq_sqrt (by norm_num)
  have hrp : 0 < Real.sqrt 2 := by positivity
  have hq : 0 < Real.sqrt x := Real.sqrt_pos.2 hx
  have hq2 : Real.sqrt x ^ 2 = x := Real.sq_sqrt hx.le
  have h1x : 0 < 1 + x := by linarith
  have hR : 0 < Real.sqrt (1 + x) := Real.sqrt_pos.2 h1x
  have hR2 : Real.sqrt (1 + x) ^ 2 = 1 + x := Real.sq_sqrt h1x.le
  have hsin : Real.sin (2 * Real.arctan (Real.sqrt x)) = 2 * Real.sqrt x / (1 + x) := by
    rw [Real.sin_two_mul, Real.sin_arctan, Real.cos_arctan, hq2]; field_simp; exact hR2.symm
  have hcos : Real.cos (2 * Real.arctan (Real.sqrt x)) = (1 - x) / (1 + x) := by
    rw [Real.cos_two_mul, Real.cos_arctan, hq2, div_pow, hR2]; field_simp; ring
  have hl' : 4 * lam = (1 - l) * (1 + lam) ^ 2 := by rw [hl]; field_simp; ring
  unfold Tell yTrue gaussQ
  rw [Real.sin_two_mul (2 * Real.arctan (Real.sqrt x)), hsin, hcos, abs_of_pos (by positivity)]
  congr 1
  generalize Real.arctan (Real.sqrt x) = a at *
  generalize Real.sqrt x = q at *
  have hc3 : (2 * q / (1 + x)) ^ 3 = 8 * x * q / (1 + x) ^ 3 := by rw [div_pow, mul_pow, ← hq2]; ring
  rw [hc3, mul_assoc, show lam = (1 - l) * (1 + lam) ^ 2 / 4 by linarith]
  rw [show 1 + (1 - l) * (1 + lam) ^ 2 / 4 = 1 + lam by linarith]
  subst hq2
  generalize Real.sqrt 2 = R at *
  generalize 1 + lam = k at *
  field_simp
  rw [hr2]
  ring

end Battin
end Lamberthub
