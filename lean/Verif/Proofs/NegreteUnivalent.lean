import Verif.Proofs.StumpffComplex
import Mathlib.Analysis.Complex.CauchyIntegral
import Mathlib.Analysis.Complex.Liouville
import Mathlib.Analysis.SpecialFunctions.Pow.Deriv
import Mathlib.Analysis.Complex.RemovableSingularity
import Mathlib.Analysis.Calculus.MeanValue

/-!
# The time equation of `negrete2024` is injective near zero

For positions in almost opposite directions, `|A| ≤ (|r1| + |r2|) / 400`, the complex time
equation is injective on the unit disc.
-/

set_option autoImplicit false

namespace Lamberthub
namespace Negrete
open McElreath

theorem csqrt_re_nonneg (z : ℂ) : 0 ≤ (csqrt z).re := by
  unfold csqrt
  by_cases h : z = 0
  · rw [h, Complex.zero_cpow (by norm_num)]; simp
  rw [Complex.cpow_def_of_ne_zero h, Complex.exp_re]
  refine mul_nonneg (Real.exp_pos _).le (Real.cos_nonneg_of_mem_Icc ?_)
  have e : (Complex.log z * (1 / 2 : ℂ)).im = Complex.arg z / 2 := by
    rw [show (1 / 2 : ℂ) = ((1 / 2 : ℝ) : ℂ) by push_cast; ring, Complex.im_mul_ofReal, Complex.log_im]; ring
  rw [e]
  constructor <;> linarith [Complex.neg_pi_lt_arg z, Complex.arg_le_pi z]

theorem csqrt_unique {z w : ℂ} (h : w ^ 2 = z) (hw : 0 < w.re) : csqrt z = w := by
  have h1 : csqrt z ^ 2 = w ^ 2 := by rw [csqrt_pow, h]
  rcases sq_eq_sq_iff_eq_or_eq_neg.1 h1 with h2 | h2
  · exact h2
  · have := csqrt_re_nonneg z
    rw [h2, Complex.neg_re] at this
    linarith

theorem re_ge {w : ℂ} {e : ℝ} (h : ‖w - 1‖ ≤ e) : 1 - e ≤ w.re := by
  have h1 := Complex.abs_re_le_norm (w - 1)
  rw [Complex.sub_re, Complex.one_re] at h1
  linarith [(abs_le.1 (h1.trans h)).1]

theorem norm_ge {w : ℂ} {e : ℝ} (h : ‖w - 1‖ ≤ e) : 1 - e ≤ ‖w‖ :=
  (re_ge h).trans (Complex.re_le_norm w)

theorem norm_le' {w : ℂ} {e : ℝ} (h : ‖w - 1‖ ≤ e) : ‖w‖ ≤ 1 + e := by
  have := norm_add_le (w - 1) 1
  rw [sub_add_cancel, norm_one] at this
  linarith

theorem badd {a b : ℂ} {x y : ℝ} (ha : ‖a‖ ≤ x) (hb : ‖b‖ ≤ y) : ‖a + b‖ ≤ x + y :=
  (norm_add_le a b).trans (add_le_add ha hb)

theorem bmul {a b : ℂ} {x y : ℝ} (ha : ‖a‖ ≤ x) (hb : ‖b‖ ≤ y) : ‖a * b‖ ≤ x * y := by
  rw [norm_mul]
  exact mul_le_mul ha hb (norm_nonneg b) ((norm_nonneg a).trans ha)

theorem bpow {a : ℂ} {x : ℝ} (ha : ‖a‖ ≤ x) (n : ℕ) : ‖a ^ n‖ ≤ x ^ n := by
  rw [norm_pow]; exact pow_le_pow_left₀ (norm_nonneg a) ha n

theorem bmon {a : ℂ} {x : ℝ} (ha : ‖a‖ ≤ x) (n : ℕ) (c : ℝ) : ‖(c : ℂ) * a ^ n‖ ≤ |c| * x ^ n := by
  refine bmul ?_ (bpow ha n)
  rw [Complex.norm_real, Real.norm_eq_abs]

theorem D2_eq (z : ℂ) : 2 * S 2 z = 1 - z / 12 + z ^ 2 / 360 - 2 * z ^ 3 * S 8 z := by
  rw [S_succ 2, S_succ 4, S_succ 6]
  norm_num [Nat.factorial]
  ring

theorem D3_eq (z : ℂ) : 6 * S 3 z = 1 - z / 20 + z ^ 2 / 840 - 6 * z ^ 3 * S 9 z := by
  rw [S_succ 3, S_succ 5, S_succ 7]
  norm_num [Nat.factorial]
  ring

section
variable {z : ℂ} (hz : ‖z‖ ≤ 2)
include hz

theorem tail2 : ‖2 * z ^ 3 * S 8 z‖ ≤ 41 / 100000 := by
  have h := bmul (bmon hz 3 2) (S_bound (le_refl 8) hz)
  norm_num [Nat.factorial] at h ⊢
  linarith

theorem tail3 : ‖6 * z ^ 3 * S 9 z‖ ≤ 14 / 100000 := by
  have h := bmul (bmon hz 3 6) (S_bound (by norm_num : 8 ≤ 9) hz)
  norm_num [Nat.factorial] at h ⊢
  linarith

theorem D2_near : ‖2 * S 2 z - 1‖ ≤ 0.179 := by
  rw [D2_eq, show 1 - z / 12 + z ^ 2 / 360 - 2 * z ^ 3 * S 8 z - 1 =
    (((-1 / 12 : ℝ) : ℂ) * z ^ 1 + ((1 / 360 : ℝ) : ℂ) * z ^ 2) + -(2 * z ^ 3 * S 8 z) by push_cast; ring]
  refine (badd (badd (bmon hz 1 _) (bmon hz 2 _)) ((norm_neg _).trans_le (tail2 hz))).trans ?_
  norm_num [abs_of_neg]

theorem D3_near : ‖6 * S 3 z - 1‖ ≤ 0.105 := by
  rw [D3_eq, show 1 - z / 20 + z ^ 2 / 840 - 6 * z ^ 3 * S 9 z - 1 =
    (((-1 / 20 : ℝ) : ℂ) * z ^ 1 + ((1 / 840 : ℝ) : ℂ) * z ^ 2) + -(6 * z ^ 3 * S 9 z) by push_cast; ring]
  refine (badd (badd (bmon hz 1 _) (bmon hz 2 _)) ((norm_neg _).trans_le (tail3 hz))).trans ?_
  norm_num [abs_of_neg]

theorem S2_ge : 0.41 ≤ ‖S 2 z‖ ∧ 0.41 ≤ (S 2 z).re := by
  have h := re_ge (D2_near hz)
  rw [show (2 : ℂ) = ((2 : ℝ) : ℂ) by norm_num, Complex.re_ofReal_mul] at h
  have h2 : (0.41 : ℝ) ≤ (S 2 z).re := by norm_num at h ⊢; linarith
  exact ⟨h2.trans (Complex.re_le_norm _), h2⟩

/-- second order expansion of `1 / √(2 C2)` -/
theorem V0_near : ‖(1 + z / 24 + 7 * z ^ 2 / 5760) - 1‖ ≤ 0.0883 := by
  rw [show (1 + z / 24 + 7 * z ^ 2 / 5760) - 1 = ((1 / 24 : ℝ) : ℂ) * z ^ 1 + ((7 / 5760 : ℝ) : ℂ) * z ^ 2 by push_cast; ring]
  refine (badd (bmon hz 1 _) (bmon hz 2 _)).trans ?_
  norm_num

theorem V0_sq : ‖1 - 2 * S 2 z * (1 + z / 24 + 7 * z ^ 2 / 5760) ^ 2‖ ≤ 0.001 := by
  have hv := norm_le' (V0_near hz)
  rw [D2_eq, show 1 - (1 - z / 12 + z ^ 2 / 360 - 2 * z ^ 3 * S 8 z) * (1 + z / 24 + 7 * z ^ 2 / 5760) ^ 2 =
    (((1 / 69120 : ℝ) : ℂ) * z ^ 3 + ((-(49 / 33177600 - 7 / 829440 + 1 / 86400) : ℝ) : ℂ) * z ^ 4 +
      ((-(7 / 24883200 - 49 / 398131200) : ℝ) : ℂ) * z ^ 5 + ((-(49 / 11943936000) : ℝ) : ℂ) * z ^ 6) +
      2 * z ^ 3 * S 8 z * (1 + z / 24 + 7 * z ^ 2 / 5760) ^ 2 by push_cast; ring]
  refine (badd (badd (badd (badd (bmon hz 3 _) (bmon hz 4 _)) (bmon hz 5 _)) (bmon hz 6 _))
    (bmul (tail2 hz) (bpow hv 2))).trans ?_
  norm_num [abs_of_neg, abs_of_pos]

theorem V0_cube : ‖(1 + z / 24 + 7 * z ^ 2 / 5760) ^ 3 * (6 * S 3 z) - 1 - 0.075 * z‖ ≤ 0.018 := by
  have hv := norm_le' (V0_near hz)
  rw [D3_eq, show (1 + z / 24 + 7 * z ^ 2 / 5760) ^ 3 * (1 - z / 20 + z ^ 2 / 840 - 6 * z ^ 3 * S 9 z) - 1 - 0.075 * z =
    (((17 / 4480 : ℝ) : ℂ) * z ^ 2 + ((199 / 2419200 : ℝ) : ℂ) * z ^ 3 + ((193 / 77414400 : ℝ) : ℂ) * z ^ 4 +
      ((877 / 9289728000 : ℝ) : ℂ) * z ^ 5 + ((1027 / 191102976000 : ℝ) : ℂ) * z ^ 6 +
      ((497 / 3822059520000 : ℝ) : ℂ) * z ^ 7 + ((49 / 22932357120000 : ℝ) : ℂ) * z ^ 8) +
      -(6 * z ^ 3 * S 9 z) * (1 + z / 24 + 7 * z ^ 2 / 5760) ^ 3 by push_cast; ring]
  refine (badd (badd (badd (badd (badd (badd (badd (bmon hz 2 _) (bmon hz 3 _)) (bmon hz 4 _)) (bmon hz 5 _)) (bmon hz 6 _))
    (bmon hz 7 _)) (bmon hz 8 _)) (bmul ((norm_neg _).trans_le (tail3 hz)) (bpow hv 3))).trans ?_
  norm_num

end

/-- `(z C3 - 1) / √C2` -/
noncomputable def qOf (z : ℂ) : ℂ := (z * S 3 z - 1) / csqrt (S 2 z)

/-- `y / P`, with `α = A / P` -/
noncomputable def Yof (α : ℝ) (z : ℂ) : ℂ := 1 + α * qOf z

/-- `√(y / (2 P C2))` -/
noncomputable def Vof (α : ℝ) (z : ℂ) : ℂ := csqrt (Yof α z / (2 * S 2 z))

/-- the time equation, in units of `P ^ (3/2)` -/
noncomputable def Fof (α : ℝ) (z : ℂ) : ℂ := (Real.sqrt 2 / 3 : ℝ) * (Vof α z ^ 3 * (6 * S 3 z)) + α * csqrt (Yof α z)

section
variable {z : ℂ} (hz : ‖z‖ ≤ 2) {α : ℝ} (hα : |α| ≤ 1 / 400)
include hz

theorem csqrtS2_ge : 0.64 ≤ ‖csqrt (S 2 z)‖ := by
  have h := (S2_ge hz).1
  rw [← csqrt_pow (S 2 z), norm_pow] at h
  by_contra hc
  rw [not_le] at hc
  have := pow_lt_pow_left₀ hc (norm_nonneg _) two_ne_zero
  norm_num at h this
  linarith

theorem q_le : ‖qOf z‖ ≤ 2.14 := by
  have h3 := norm_le' (D3_near hz)
  have h1 : ‖z * S 3 z - 1‖ ≤ 1.3689 := by
    rw [show z * S 3 z - 1 = ((1 / 6 : ℝ) : ℂ) * z ^ 1 * (6 * S 3 z) + ((-1 : ℝ) : ℂ) * 1 ^ 1 by push_cast; ring]
    refine (badd (bmul (bmon hz 1 _) h3) (bmon (norm_one (α := ℂ)).le 1 _)).trans ?_
    norm_num
  have h2 := csqrtS2_ge hz
  unfold qOf
  rw [norm_div, div_le_iff₀ (by norm_num at h2; linarith)]
  norm_num at h1 h2 ⊢
  linarith

include hα

theorem Y_near : ‖Yof α z - 1‖ ≤ 0.00535 := by
  unfold Yof
  rw [add_sub_cancel_left]
  have ha : ‖(α : ℂ)‖ ≤ 1 / 400 := by rw [Complex.norm_real, Real.norm_eq_abs]; exact hα
  refine (bmul ha (q_le hz)).trans ?_
  norm_num

theorem csqrtY_le : ‖csqrt (Yof α z)‖ ≤ 1.004 := by
  have h := norm_le' (Y_near hz hα)
  rw [← csqrt_pow (Yof α z), norm_pow] at h
  by_contra hc
  rw [not_le] at hc
  have := pow_lt_pow_left₀ hc (by norm_num) two_ne_zero
  norm_num at h this
  linarith

theorem X_re : 0 < (Yof α z / (2 * S 2 z)).re := by
  have h2 := D2_near hz
  have hY := Y_near hz hα
  have hn := norm_ge h2
  have hne : 2 * S 2 z ≠ 0 := by
    intro h; rw [h, norm_zero] at hn; norm_num at hn
  have hn' : (0 : ℝ) < ‖2 * S 2 z‖ := norm_pos_iff.2 hne
  have h3 : ‖Yof α z / (2 * S 2 z) - 1‖ ≤ 1 / 2 := by
    rw [div_sub_one hne, norm_div, div_le_iff₀ hn', show Yof α z - 2 * S 2 z = (Yof α z - 1) + -(2 * S 2 z - 1) by ring]
    refine (badd hY ((norm_neg _).trans_le h2)).trans ?_
    norm_num at hn ⊢
    linarith
  linarith [re_ge h3]

theorem V_near : ‖Vof α z - (1 + z / 24 + 7 * z ^ 2 / 5760)‖ ≤ 0.0087 := by
  have h2 := D2_near hz
  have hn := norm_ge h2
  have hne : 2 * S 2 z ≠ 0 := by
    intro h; rw [h, norm_zero] at hn; norm_num at hn
  have hV := csqrt_pow (Yof α z / (2 * S 2 z))
  rw [show csqrt (Yof α z / (2 * S 2 z)) = Vof α z from rfl] at hV
  have hre : 0 ≤ (Vof α z).re := csqrt_re_nonneg _
  have h0 := re_ge (V0_near hz)
  generalize hW : (1 + z / 24 + 7 * z ^ 2 / 5760 : ℂ) = W at h0 ⊢
  have hs := V0_sq hz
  rw [hW] at hs
  have hsum : 0.9117 ≤ ‖Vof α z + W‖ := by
    refine le_trans ?_ (Complex.re_le_norm _)
    rw [Complex.add_re]
    norm_num at h0 ⊢
    linarith
  have e : (Vof α z - W) * (Vof α z + W) * (2 * S 2 z) = (Yof α z - 1) + (1 - 2 * S 2 z * W ^ 2) := by
    have : Vof α z ^ 2 * (2 * S 2 z) = Yof α z := by rw [hV, div_mul_cancel₀ _ hne]
    linear_combination this
  have h4 : ‖(Vof α z - W) * (Vof α z + W) * (2 * S 2 z)‖ ≤ 0.00535 + 0.001 := by
    rw [e]; exact badd (Y_near hz hα) hs
  rw [norm_mul, norm_mul] at h4
  have h5 : ‖Vof α z - W‖ * 0.9117 * (1 - 0.179) ≤ ‖Vof α z - W‖ * ‖Vof α z + W‖ * ‖2 * S 2 z‖ := by
    have := norm_nonneg (Vof α z - W)
    gcongr
  norm_num at h4 h5 ⊢
  linarith

theorem F_near : ‖Fof α z - (Real.sqrt 2 / 3 : ℝ) * (1 + 0.075 * z)‖ ≤ Real.sqrt 2 / 3 * 0.06 := by
  have hW := norm_le' (V0_near hz)
  have hVW := V_near hz hα
  have h3 := norm_le' (D3_near hz)
  have hc := V0_cube hz
  generalize (1 + z / 24 + 7 * z ^ 2 / 5760 : ℂ) = W at hW hVW hc
  have hV : ‖Vof α z‖ ≤ 1.097 := by
    have := badd hVW hW
    rw [sub_add_cancel] at this
    exact this.trans (by norm_num)
  have hs2 : 0 < Real.sqrt 2 := by positivity
  have hs : (1.41 : ℝ) ≤ Real.sqrt 2 := Real.le_sqrt_of_sq_le (by norm_num)
  have ha : ‖(α : ℂ)‖ ≤ 1 / 400 := by rw [Complex.norm_real, Real.norm_eq_abs]; exact hα
  have hY := bmul ha (csqrtY_le hz hα)
  have hcube : ‖(Vof α z - W) * (Vof α z ^ 2 + Vof α z * W + W ^ 2) * (6 * S 3 z)‖ ≤
      0.0087 * (1.097 ^ 2 + 1.097 * (1 + 0.0883) + (1 + 0.0883) ^ 2) * (1 + 0.105) :=
    bmul (bmul hVW (badd (badd (bpow hV 2) (bmul hV hW)) (bpow hW 2))) h3
  unfold Fof
  rw [show ((Real.sqrt 2 / 3 : ℝ) : ℂ) * (Vof α z ^ 3 * (6 * S 3 z)) + α * csqrt (Yof α z) -
      (Real.sqrt 2 / 3 : ℝ) * (1 + 0.075 * z) =
    ((Real.sqrt 2 / 3 : ℝ) : ℂ) * ((Vof α z - W) * (Vof α z ^ 2 + Vof α z * W + W ^ 2) * (6 * S 3 z) +
      (W ^ 3 * (6 * S 3 z) - 1 - 0.075 * z)) + α * csqrt (Yof α z) by ring]
  have hk : ‖((Real.sqrt 2 / 3 : ℝ) : ℂ)‖ ≤ Real.sqrt 2 / 3 := by
    rw [Complex.norm_real, Real.norm_of_nonneg (by positivity)]
  refine (badd (bmul hk (badd hcube hc)) hY).trans ?_
  norm_num
  nlinarith

end

theorem csqrt_re_pos {z : ℂ} (h : 0 < z.re) : 0 < (csqrt z).re := by
  refine lt_of_le_of_ne (csqrt_re_nonneg z) fun h0 => ?_
  have e := congrArg Complex.re (csqrt_pow z)
  rw [pow_two, Complex.mul_re, ← h0] at e
  nlinarith [mul_self_nonneg (csqrt z).im]

theorem csqrt_diff {f : ℂ → ℂ} {z : ℂ} (hf : DifferentiableAt ℂ f z) (h : 0 < (f z).re) :
    DifferentiableAt ℂ (fun z => csqrt (f z)) z := by
  unfold csqrt
  exact DifferentiableAt.cpow hf (differentiableAt_const _) (Or.inl h)

theorem S_diffAt (j : ℕ) (z : ℂ) : DifferentiableAt ℂ (S j) z :=
  (S_differentiableOn j (‖z‖ + 1)).differentiableAt (Metric.isOpen_ball.mem_nhds (by
    rw [mem_ball_zero_iff]; linarith))

section
variable {α : ℝ} (hα : |α| ≤ 1 / 400)
include hα

theorem F_diffAt {z : ℂ} (hz : ‖z‖ ≤ 2) : DifferentiableAt ℂ (Fof α) z := by
  have h2 := S_diffAt 2 z
  have h3 := S_diffAt 3 z
  have hS := S2_ge hz
  have hne : S 2 z ≠ 0 := by intro h; rw [h, norm_zero] at hS; norm_num at hS
  have hcs : csqrt (S 2 z) ≠ 0 := fun h => hne (by rw [← csqrt_pow (S 2 z), h]; ring)
  have hq : DifferentiableAt ℂ qOf z := by
    unfold qOf
    exact ((differentiableAt_id.mul h3).sub_const 1).div (csqrt_diff h2 (by linarith [hS.2])) hcs
  have hY : DifferentiableAt ℂ (Yof α) z := by
    unfold Yof
    exact (hq.const_mul _).const_add _
  have hV : DifferentiableAt ℂ (Vof α) z := by
    unfold Vof
    exact csqrt_diff (hY.div (h2.const_mul 2) (mul_ne_zero two_ne_zero hne)) (X_re hz hα)
  have hYr : 0 < (Yof α z).re := by
    have := re_ge (Y_near hz hα)
    norm_num at this; linarith
  unfold Fof
  exact (((hV.pow 3).mul (h3.const_mul 6)).const_mul _).add ((csqrt_diff hY hYr).const_mul _)

theorem F_deriv {z : ℂ} (hz : ‖z‖ ≤ 1) :
    ‖deriv (fun z => Fof α z - (Real.sqrt 2 / 3 : ℝ) * (1 + 0.075 * z)) z‖ ≤ Real.sqrt 2 / 3 * 0.06 := by
  have hin : ∀ w ∈ Metric.closedBall z 1, ‖w‖ ≤ 2 := by
    intro w hw
    rw [mem_closedBall_iff_norm] at hw
    have := norm_add_le (w - z) z
    rw [sub_add_cancel] at this
    linarith
  have hd : ∀ w, ‖w‖ ≤ 2 → DifferentiableAt ℂ (fun z => Fof α z - (Real.sqrt 2 / 3 : ℝ) * (1 + 0.075 * z)) w := by
    intro w hw
    exact (F_diffAt hα hw).sub (by fun_prop)
  have := Complex.norm_deriv_le_of_forall_mem_sphere_norm_le (c := z) (R := 1) (C := Real.sqrt 2 / 3 * 0.06)
    (f := fun z => Fof α z - (Real.sqrt 2 / 3 : ℝ) * (1 + 0.075 * z)) one_pos
    ⟨fun w hw => (hd w (hin w (Metric.ball_subset_closedBall hw))).differentiableWithinAt,
      fun w hw => (hd w (hin w (Metric.closure_ball_subset_closedBall hw))).continuousAt.continuousWithinAt⟩
    fun w hw => F_near (hin w (Metric.sphere_subset_closedBall hw)) hα
  rwa [div_one] at this

theorem F_deriv_ne {z : ℂ} (hz : ‖z‖ ≤ 1) : deriv (Fof α) z ≠ 0 := by
  intro h0
  have h1 := F_deriv hα hz
  have hl : HasDerivAt (fun z : ℂ => ((Real.sqrt 2 / 3 : ℝ) : ℂ) * (1 + 0.075 * z)) ((Real.sqrt 2 / 3 : ℝ) * (0.075 * 1)) z :=
    (((hasDerivAt_id z).const_mul _).const_add _).const_mul _
  have hF := (F_diffAt hα (by linarith : ‖z‖ ≤ 2)).hasDerivAt
  have hd : deriv (fun z => Fof α z - (Real.sqrt 2 / 3 : ℝ) * (1 + 0.075 * z)) z = _ := (hF.sub hl).deriv
  rw [hd, h0, zero_sub, norm_neg, norm_mul, Complex.norm_real, Real.norm_of_nonneg (by positivity)] at h1
  have hs2 : 0 < Real.sqrt 2 := by positivity
  norm_num at h1

/-- The time equation is injective on the unit disc. -/
theorem F_inj {z w : ℂ} (hz : ‖z‖ ≤ 1) (hw : ‖w‖ ≤ 1) (h : Fof α z = Fof α w) : z = w := by
  have h1 := Convex.norm_image_sub_le_of_norm_deriv_le (𝕜 := ℂ) (s := Metric.closedBall (0 : ℂ) 1)
    (f := fun z => Fof α z - (Real.sqrt 2 / 3 : ℝ) * (1 + 0.075 * z)) (C := Real.sqrt 2 / 3 * 0.06)
    (fun x hx => (F_diffAt hα (by rw [mem_closedBall_zero_iff] at hx; linarith)).sub (by fun_prop))
    (fun x hx => F_deriv hα (mem_closedBall_zero_iff.1 hx)) (convex_closedBall _ _)
    (mem_closedBall_zero_iff.2 hz) (mem_closedBall_zero_iff.2 hw)
  rw [h, show Fof α w - (Real.sqrt 2 / 3 : ℝ) * (1 + 0.075 * w) - (Fof α w - (Real.sqrt 2 / 3 : ℝ) * (1 + 0.075 * z)) =
    ((-(Real.sqrt 2 / 3) * 0.075 : ℝ) : ℂ) * (w - z) by push_cast; norm_num; ring, norm_mul, Complex.norm_real,
    Real.norm_eq_abs, neg_mul, abs_neg, abs_of_nonneg (by positivity)] at h1
  have hs2 : 0 < Real.sqrt 2 := by positivity
  have h2 := norm_nonneg (w - z)
  have h3 : Real.sqrt 2 / 3 * ‖w - z‖ ≤ 0 := by norm_num at h1 ⊢; nlinarith
  have h4 : ‖w - z‖ = 0 := by
    by_contra hne
    have : 0 < ‖w - z‖ := lt_of_le_of_ne h2 (Ne.symm hne)
    have : 0 < Real.sqrt 2 / 3 * ‖w - z‖ := by positivity
    linarith
  exact (sub_eq_zero.1 (norm_eq_zero.1 h4)).symm

end

section
variable {R1 R2 A : ℝ} (hP : 0 < R1 + R2) (hA : |A| ≤ (R1 + R2) / 400)
include hP hA

theorem alpha_le : |A / (R1 + R2)| ≤ 1 / 400 := by
  rw [abs_div, abs_of_pos hP, div_le_iff₀ hP]; linarith

omit hA in
theorem yAtZ_F {z : ℂ} (hz : ‖z‖ ≤ 2) (hz8 : 1e-8 ≤ ‖z‖) :
    yAtZ z R1 R2 A = .ok ((R1 + R2 : ℝ) * Yof (A / (R1 + R2)) z) := by
  have hS := S2_ge hz
  have hcs : csqrt (S 2 z) ≠ 0 := fun h => by
    have := csqrtS2_ge hz
    rw [h, norm_zero] at this; norm_num at this
  have hP' : ((R1 + R2 : ℝ) : ℂ) ≠ 0 := by exact_mod_cast hP.ne'
  unfold yAtZ
  rw [c3_S hz8, ok_bind, c2_S hz8, ok_bind, cdiv_eq hcs, ok_bind]
  unfold Yof qOf
  congr 1
  push_cast at hP' ⊢
  field_simp

/-- The value under the fraction bar of `_pole_function`. -/
theorem time_F {z : ℂ} (hz : ‖z‖ ≤ 2) :
    csqrt ((R1 + R2 : ℝ) * Yof (A / (R1 + R2)) z / S 2 z) ^ 3 * S 3 z + A * csqrt ((R1 + R2 : ℝ) * Yof (A / (R1 + R2)) z) =
      ((R1 + R2) * Real.sqrt (R1 + R2) : ℝ) * Fof (A / (R1 + R2)) z := by
  have hα := alpha_le hP hA
  generalize hPe : R1 + R2 = P at *
  obtain ⟨α, hαe⟩ : ∃ α, α = A / P := ⟨_, rfl⟩
  have hAe : A = α * P := by rw [hαe]; field_simp
  rw [← hαe] at hα ⊢
  have hS := S2_ge hz
  have hne : S 2 z ≠ 0 := by intro h; rw [h, norm_zero] at hS; norm_num at hS
  have hYr : 0 < (Yof α z).re := by
    have := re_ge (Y_near hz hα)
    norm_num at this; linarith
  have hsP : 0 < Real.sqrt P := Real.sqrt_pos.2 hP
  have hsP2 : Real.sqrt P ^ 2 = P := Real.sq_sqrt hP.le
  have hs2 : 0 < Real.sqrt 2 := by positivity
  have hs22 : Real.sqrt 2 ^ 2 = 2 := Real.sq_sqrt (by norm_num)
  have cP : ((Real.sqrt P : ℝ) : ℂ) ^ 2 = P := by rw [← Complex.ofReal_pow, hsP2]
  have c2' : ((Real.sqrt 2 : ℝ) : ℂ) ^ 2 = 2 := by rw [← Complex.ofReal_pow, hs22]; norm_num
  have e1 : csqrt ((P : ℂ) * Yof α z) = (Real.sqrt P : ℝ) * csqrt (Yof α z) := by
    refine csqrt_unique ?_ ?_
    · rw [mul_pow, csqrt_pow, cP]
    · rw [Complex.re_ofReal_mul]; exact mul_pos hsP (csqrt_re_pos hYr)
  have e2 : csqrt ((P : ℂ) * Yof α z / S 2 z) = (Real.sqrt 2 * Real.sqrt P : ℝ) * Vof α z := by
    refine csqrt_unique ?_ ?_
    · rw [mul_pow, Vof, csqrt_pow, Complex.ofReal_mul, mul_pow, cP, c2']
      field_simp
    · rw [Complex.re_ofReal_mul]; exact mul_pos (by positivity) (csqrt_re_pos (X_re hz hα))
  rw [e1, e2, hAe, Fof]
  push_cast
  linear_combination ((Real.sqrt 2 : ℝ) : ℂ) ^ 3 * ((Real.sqrt P : ℝ) : ℂ) * Vof α z ^ 3 * S 3 z * cP +
    ((Real.sqrt 2 : ℝ) : ℂ) * P * ((Real.sqrt P : ℝ) : ℂ) * Vof α z ^ 3 * S 3 z * c2'

end

end Negrete
end Lamberthub
