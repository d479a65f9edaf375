import Verif.Model.Avanzini
import Verif.Proofs.PyLemmas
import Mathlib.Analysis.Calculus.Deriv.MeanValue
import Mathlib.Analysis.Calculus.ContDiff.RCLike
import Mathlib.Analysis.Calculus.ContDiff.Deriv
import Mathlib.Data.Nat.Fib.Basic

/-! # The order of the secant method -/

set_option autoImplicit false

namespace Lamberthub
namespace Avanzini
open Set Filter Topology

/-- The mean value theorem between two points in any order. -/
theorem mean_value {F F1 : ℝ → ℝ} {x y : ℝ} (hxy : x ≠ y) (hd : ∀ z, min x y ≤ z → z ≤ max x y → HasDerivAt F (F1 z) z) :
    ∃ ξ, min x y < ξ ∧ ξ < max x y ∧ F x - F y = F1 ξ * (x - y) := by
  have key : ∀ a b : ℝ, a < b → (∀ z, a ≤ z → z ≤ b → HasDerivAt F (F1 z) z) → ∃ ξ, a < ξ ∧ ξ < b ∧ F b - F a = F1 ξ * (b - a) := by
    intro a b hab h
    obtain ⟨ξ, hξ, e⟩ := exists_hasDerivAt_eq_slope F F1 hab (fun z hz => (h z hz.1 hz.2).continuousAt.continuousWithinAt)
      fun z hz => h z hz.1.le hz.2.le
    exact ⟨ξ, hξ.1, hξ.2, by rw [e, div_mul_cancel₀ _ (sub_ne_zero.2 hab.ne')]⟩
  rcases lt_or_gt_of_ne hxy with h | h
  · rw [min_eq_left h.le, max_eq_right h.le] at *
    obtain ⟨ξ, a, b, e⟩ := key x y h hd
    exact ⟨ξ, a, b, by linear_combination -e⟩
  · rw [min_eq_right h.le, max_eq_left h.le] at *
    exact key y x h hd

theorem near_of_between {r δ x y z : ℝ} (hx : |x - r| < δ) (hy : |y - r| < δ) (h1 : min x y ≤ z) (h2 : z ≤ max x y) : |z - r| < δ := by
  rw [abs_lt] at *
  rcases min_choice x y with h | h <;> rcases max_choice x y with h' | h' <;> rw [h] at h1 <;> rw [h'] at h2 <;>
    constructor <;> linarith [hx.1, hx.2, hy.1, hy.2]

/-- One step of the secant method from two different points near a simple root. -/
theorem secant_step {F F1 : ℝ → ℝ} {r δ K m : ℝ} (hd : ∀ z, |z - r| < δ → HasDerivAt F (F1 z) z)
    (hK : ∀ u v, |u - r| < δ → |v - r| < δ → |F1 u - F1 v| ≤ K * |u - v|) (hK0 : 0 ≤ K) (hm : ∀ u, |u - r| < δ → m ≤ |F1 u|)
    (hm0 : 0 < m) (h0 : F r = 0) {a b : ℝ} (ha : |a - r| < δ) (hb : |b - r| < δ) (hab : a ≠ b) :
    F b - F a ≠ 0 ∧ |b - F b * (b - a) / (F b - F a) - r| ≤ K / m * |a - r| * |b - r| := by
  have hδ : 0 < δ := (abs_nonneg _).trans_lt ha
  have hr : |r - r| < δ := by simpa using hδ
  obtain ⟨ξ, x1, x2, e⟩ := mean_value (F := F) (F1 := F1) hab.symm fun z z1 z2 => hd z (near_of_between hb ha z1 z2)
  have hmξ := hm ξ (near_of_between hb ha x1.le x2.le)
  have hξ0 : F1 ξ ≠ 0 := abs_pos.1 (hm0.trans_le hmξ)
  have hba : b - a ≠ 0 := sub_ne_zero.2 hab.symm
  have hne : F b - F a ≠ 0 := by rw [e]; exact mul_ne_zero hξ0 hba
  refine ⟨hne, ?_⟩
  have hnn : 0 ≤ K / m * |a - r| * |b - r| := by positivity
  by_cases har : a = r
  · subst har
    rw [h0, sub_zero] at hne ⊢
    rw [mul_div_cancel_left₀ _ hne]
    simpa using hnn
  by_cases hbr : b = r
  · subst hbr
    rw [h0]
    simpa using hnn
  have hat : ∀ x, |x - r| < δ → x ≠ r → ∃ ζ, min x r < ζ ∧ ζ < max x r ∧ F x = F1 ζ * (x - r) := by
    intro x hx hxr
    obtain ⟨ζ, z1, z2, e⟩ := mean_value (F := F) (F1 := F1) hxr fun z z1 z2 => hd z (near_of_between hx hr z1 z2)
    exact ⟨ζ, z1, z2, by rw [← e, h0, sub_zero]⟩
  have har' : a - r ≠ 0 := sub_ne_zero.2 har
  have hbr' : b - r ≠ 0 := sub_ne_zero.2 hbr
  -- the slopes from the root
  have hg : |F b / (b - r) - F a / (a - r)| ≤ K * |b - a| := by
    rcases lt_or_gt_of_ne (mul_ne_zero har' hbr') with hs | hs
    · obtain ⟨ζ, z1, z2, e1⟩ := hat a ha har
      obtain ⟨ζ', w1, w2, e2⟩ := hat b hb hbr
      rw [e1, e2, mul_div_cancel_right₀ _ har', mul_div_cancel_right₀ _ hbr']
      refine (hK _ _ (near_of_between hb hr w1.le w2.le) (near_of_between ha hr z1.le z2.le)).trans
        (mul_le_mul_of_nonneg_left ?_ hK0)
      rcases mul_neg_iff.1 hs with ⟨p1, p2⟩ | ⟨p1, p2⟩
      · rw [min_eq_left (by linarith)] at w1
        rw [max_eq_right (by linarith)] at w2
        rw [min_eq_right (by linarith)] at z1
        rw [max_eq_left (by linarith)] at z2
        rw [abs_of_neg (by linarith), abs_of_neg (by linarith)]
        linarith
      · rw [min_eq_right (by linarith)] at w1
        rw [max_eq_left (by linarith)] at w2
        rw [min_eq_left (by linarith)] at z1
        rw [max_eq_right (by linarith)] at z2
        rw [abs_of_pos (by linarith), abs_of_pos (by linarith)]
        linarith
    · have hoff : ∀ z, min b a ≤ z → z ≤ max b a → z ≠ r := by
        intro z z1 z2 hz
        rcases mul_pos_iff.1 hs with ⟨p1, p2⟩ | ⟨p1, p2⟩
        · have := lt_min (by linarith : r < b) (by linarith : r < a)
          linarith
        · have := max_lt (by linarith : b < r) (by linarith : a < r)
          linarith
      obtain ⟨η, y1, y2, e3⟩ := mean_value (F := fun x => F x / (x - r)) (F1 := fun x => (F1 x * (x - r) - F x * 1) / (x - r) ^ 2)
        hab.symm fun z z1 z2 => (hd z (near_of_between hb ha z1 z2)).div ((hasDerivAt_id z).sub_const r)
          (sub_ne_zero.2 (hoff z z1 z2))
      have hη := near_of_between hb ha y1.le y2.le
      have hηr := hoff η y1.le y2.le
      have hηr' : η - r ≠ 0 := sub_ne_zero.2 hηr
      obtain ⟨ζ, z1, z2, e1⟩ := hat η hη hηr
      rw [e3, e1, show (F1 η * (η - r) - F1 ζ * (η - r) * 1) / (η - r) ^ 2 = (F1 η - F1 ζ) / (η - r) by field_simp, abs_mul, abs_div]
      refine mul_le_mul_of_nonneg_right ?_ (abs_nonneg _)
      rw [div_le_iff₀ (abs_pos.2 hηr')]
      refine (hK _ _ hη (near_of_between hη hr z1.le z2.le)).trans (mul_le_mul_of_nonneg_left ?_ hK0)
      rcases lt_or_gt_of_ne hηr with h | h
      · rw [min_eq_left h.le] at z1
        rw [max_eq_right h.le] at z2
        rw [abs_of_neg (by linarith), abs_of_neg (by linarith)]
        linarith
      · rw [min_eq_right h.le] at z1
        rw [max_eq_left h.le] at z2
        rw [abs_of_pos (by linarith), abs_of_pos (by linarith)]
        linarith
  have eq : b - F b * (b - a) / (F b - F a) - r = (a - r) * (b - r) * (F b / (b - r) - F a / (a - r)) / (F b - F a) := by
    field_simp
    ring
  rw [eq, e, abs_div, abs_mul, abs_mul, abs_mul, div_le_iff₀ (by positivity)]
  have s1 : |a - r| * |b - r| * |F b / (b - r) - F a / (a - r)| ≤ |a - r| * |b - r| * (K * |b - a|) :=
    mul_le_mul_of_nonneg_left hg (by positivity)
  have s2 : K / m * |a - r| * |b - r| * (m * |b - a|) ≤ K / m * |a - r| * |b - r| * (|F1 ξ| * |b - a|) :=
    mul_le_mul_of_nonneg_left (mul_le_mul_of_nonneg_right hmξ (abs_nonneg _)) hnn
  have s3 : K / m * |a - r| * |b - r| * (m * |b - a|) = |a - r| * |b - r| * (K * |b - a|) := by field_simp
  linarith

/-- A twice continuously differentiable function with a non-null derivative. -/
def Regular (h : ℝ → ℝ) (r : ℝ) : Prop := ContDiffAt ℝ 2 h r ∧ ∃ d, d ≠ 0 ∧ HasDerivAt h d r

theorem Regular.comp {g h : ℝ → ℝ} {r : ℝ} (hg : Regular g (h r)) (hh : Regular h r) : Regular (fun x => g (h x)) r := by
  obtain ⟨c1, d1, n1, e1⟩ := hg
  obtain ⟨c2, d2, n2, e2⟩ := hh
  exact ⟨ContDiffAt.comp r c1 c2, d1 * d2, mul_ne_zero n1 n2, e1.comp r e2⟩

/-- The constants of the secant method at a regular root. -/
theorem Regular.secant {F : ℝ → ℝ} {r : ℝ} (h : Regular F r) (h0 : F r = 0) : ∃ C δ : ℝ, 0 < C ∧ 0 < δ ∧
    ∀ a b, |a - r| < δ → |b - r| < δ → a ≠ b →
      F b - F a ≠ 0 ∧ |b - F b * (b - a) / (F b - F a) - r| ≤ C * |a - r| * |b - r| := by
  obtain ⟨c, d, hd0, hd⟩ := h
  have hdiff : ∀ᶠ z in 𝓝 r, HasDerivAt F (deriv F z) z := by
    filter_upwards [c.eventually (by simp)] with z hz
    exact (hz.differentiableAt (by simp)).hasDerivAt
  have c1 : ContDiffAt ℝ 1 (deriv F) r := by
    first
      | exact ContDiffAt.deriv c (by norm_num)
      | exact ContDiffAt.derivWithin c (by norm_num)
      | exact ContDiffAt.deriv_right c (by norm_num)
  obtain ⟨K, t, ht, hlip⟩ := c1.exists_lipschitzOnWith
  have hr0 : deriv F r = d := hd.deriv
  have hlow : ∀ᶠ z in 𝓝 r, |d| / 2 ≤ |deriv F z| := by
    have hc : ContinuousAt (fun z => |deriv F z|) r := c1.continuousAt.abs
    have := hc.eventually (lt_mem_nhds (a := |d| / 2) (show |d| / 2 < |deriv F r| by rw [hr0]; linarith [abs_pos.2 hd0]))
    filter_upwards [this] with z hz using hz.le
  obtain ⟨δ, hδ, hball⟩ := Metric.eventually_nhds_iff.1 (hdiff.and (hlow.and ht))
  have hin : ∀ z, |z - r| < δ → HasDerivAt F (deriv F z) z ∧ |d| / 2 ≤ |deriv F z| ∧ z ∈ t :=
    fun z hz => hball (by rw [Real.dist_eq]; exact hz)
  have hd2 : 0 < |d| / 2 := by have := abs_pos.2 hd0; positivity
  refine ⟨((K : ℝ) + 1) / (|d| / 2), δ, by positivity, hδ, fun a b ha hb hab => ?_⟩
  refine secant_step (F1 := deriv F) (K := (K : ℝ) + 1) (fun z hz => (hin z hz).1) (fun u v hu hv => ?_) (by positivity)
    (fun u hu => (hin u hu).2.1) hd2 h0 ha hb hab
  have := hlip.dist_le_mul u (hin u hu).2.2 v (hin v hv).2.2
  rw [Real.dist_eq, Real.dist_eq] at this
  have h2 := abs_nonneg (u - v)
  nlinarith

/-- The errors of the loop decrease like powers with the Fibonacci numbers as exponents. -/
theorem secantLoop_order {f : ℝ → Py ℝ} {r C δ q atol rtol : ℝ} (hC : 0 < C) (hq0 : 0 ≤ q) (hq1 : q ≤ 1) (hat : 0 ≤ atol) (hrt : 0 ≤ rtol)
    (hstep : ∀ a b fa fb, |a - r| < δ → |b - r| < δ → a ≠ b → f a = .ok fa → f b = .ok fb →
      fb - fa ≠ 0 ∧ |b - fb * (b - a) / (fb - fa) - r| ≤ C * |a - r| * |b - r|) (remaining : ℕ) :
    ∀ {i j : ℕ} {x0 f0 x1 f1 x : ℝ} {n : ℕ}, f x0 = .ok f0 → f x1 = .ok f1 → x0 ≠ x1 → |x0 - r| < δ → |x1 - r| < δ →
      C * |x0 - r| ≤ q ^ Nat.fib j → C * |x1 - r| ≤ q ^ Nat.fib (j + 1) →
      secantLoop f atol rtol remaining i x0 f0 x1 f1 = .ok (x, n) → i ≤ n ∧ C * |x - r| ≤ q ^ Nat.fib (n - i + j + 2) := by
  induction remaining with
  | zero => intro i j x0 f0 x1 f1 x n _ _ _ _ _ _ _ h; cases h
  | succ k ih =>
    intro i j x0 f0 x1 f1 x n e0 e1 hne h0 h1 b0 b1 h
    obtain ⟨hd, herr⟩ := hstep x0 x1 f0 f1 h0 h1 hne e0 e1
    unfold secantLoop at h
    rw [if_neg (fun e => hd (by rw [e, sub_self])), pdiv_eq hd, ok_bind] at h
    simp only [] at h
    generalize x1 - f1 * (x1 - x0) / (f1 - f0) = xN at *
    have hC2 : C * |xN - r| ≤ q ^ Nat.fib (j + 2) := by
      rw [Nat.fib_add_two, pow_add]
      calc C * |xN - r| ≤ C * (C * |x0 - r| * |x1 - r|) := mul_le_mul_of_nonneg_left herr hC.le
        _ = C * |x0 - r| * (C * |x1 - r|) := by ring
        _ ≤ q ^ Nat.fib j * q ^ Nat.fib (j + 1) := mul_le_mul b0 b1 (by positivity) (by positivity)
    have hN : |xN - r| < δ := by
      have : C * |x0 - r| * |x1 - r| ≤ 1 * |x1 - r| :=
        mul_le_mul_of_nonneg_right (b0.trans (pow_le_one₀ hq0 hq1)) (abs_nonneg _)
      linarith
    split_ifs at h with hstop
    · obtain ⟨rfl, rfl⟩ := Prod.mk.inj (Except.ok.inj h)
      exact ⟨le_rfl, by rwa [Nat.sub_self, zero_add]⟩
    · simp only [bind_ok] at h
      obtain ⟨fN, hfN, h⟩ := h
      have hne' : x1 ≠ xN := by
        rintro rfl
        exact hstop (by rw [sub_self, abs_zero]; positivity)
      obtain ⟨a, b⟩ := ih e1 hfN hne' h1 hN b1 hC2 h
      exact ⟨by omega, by rwa [show n - (i + 1) + (j + 1) + 2 = n - i + j + 2 by omega] at b⟩

/-- The loop returns, when the function is defined near the root. -/
theorem secantLoop_returns {f : ℝ → Py ℝ} {r C δ q atol rtol : ℝ} (hq0 : 0 ≤ q) (hq1 : q ≤ 1) (hat : 0 ≤ atol)
    (hrt : 0 ≤ rtol) (hCδ : C * δ ≤ q) (hC : 0 < C)
    (hstep : ∀ a b fa fb, |a - r| < δ → |b - r| < δ → a ≠ b → f a = .ok fa → f b = .ok fb →
      fb - fa ≠ 0 ∧ |b - fb * (b - a) / (fb - fa) - r| ≤ C * |a - r| * |b - r|)
    (hdef : ∀ x, |x - r| < δ → ∃ v, f x = .ok v) (k : ℕ) :
    ∀ {remaining i : ℕ} {x0 f0 x1 f1 : ℝ}, k < remaining → f x0 = .ok f0 → f x1 = .ok f1 → x0 ≠ x1 → |x0 - r| < δ → |x1 - r| < δ →
      2 * |x1 - r| * q ^ k ≤ atol →
      ∃ x n, secantLoop f atol rtol remaining i x0 f0 x1 f1 = .ok (x, n) := by
  induction k with
  | zero =>
    intro remaining i x0 f0 x1 f1 hk e0 e1 hne h0 h1 hsmall
    obtain ⟨m, rfl⟩ : ∃ m, remaining = m + 1 := ⟨remaining - 1, by omega⟩
    obtain ⟨hd, herr⟩ := hstep x0 x1 f0 f1 h0 h1 hne e0 e1
    unfold secantLoop
    rw [if_neg (fun e => hd (by rw [e, sub_self])), pdiv_eq hd, ok_bind]
    simp only []
    generalize x1 - f1 * (x1 - x0) / (f1 - f0) = xN at *
    have hN : |xN - r| ≤ |x1 - r| := by
      have : C * |x0 - r| ≤ 1 := (mul_le_mul_of_nonneg_left h0.le hC.le).trans (hCδ.trans hq1)
      nlinarith [abs_nonneg (x1 - r)]
    have ht := abs_sub_le xN r x1
    rw [abs_sub_comm r x1] at ht
    rw [if_pos (by have : 0 ≤ rtol * |xN| := by positivity
                   rw [pow_zero, mul_one] at hsmall
                   linarith)]
    exact ⟨_, _, rfl⟩
  | succ k ih =>
    intro remaining i x0 f0 x1 f1 hk e0 e1 hne h0 h1 hsmall
    obtain ⟨m, rfl⟩ : ∃ m, remaining = m + 1 := ⟨remaining - 1, by omega⟩
    obtain ⟨hd, herr⟩ := hstep x0 x1 f0 f1 h0 h1 hne e0 e1
    unfold secantLoop
    rw [if_neg (fun e => hd (by rw [e, sub_self])), pdiv_eq hd, ok_bind]
    simp only []
    generalize x1 - f1 * (x1 - x0) / (f1 - f0) = xN at *
    have hN : |xN - r| ≤ q * |x1 - r| := by
      have : C * |x0 - r| ≤ q := (mul_le_mul_of_nonneg_left h0.le hC.le).trans hCδ
      nlinarith [abs_nonneg (x1 - r)]
    have hNδ : |xN - r| < δ := by nlinarith [abs_nonneg (x1 - r)]
    split_ifs with hstop
    · exact ⟨_, _, rfl⟩
    · obtain ⟨fN, hfN⟩ := hdef xN hNδ
      rw [hfN, ok_bind]
      have hne' : x1 ≠ xN := by
        rintro rfl
        exact hstop (by rw [sub_self, abs_zero]; positivity)
      refine ih (by omega) e1 hfN hne' h1 hNδ ?_
      have : 2 * |xN - r| * q ^ k ≤ 2 * (q * |x1 - r|) * q ^ k := mul_le_mul_of_nonneg_right (by linarith) (by positivity)
      rw [pow_succ] at hsmall
      nlinarith

end Avanzini
end Lamberthub
