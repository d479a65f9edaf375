import Verif.Proofs.IzzoDeriv
import Verif.Proofs.PathTime
import Verif.Proofs.Order
import Verif.Props.LowPath
import Mathlib.Analysis.Calculus.Deriv.Slope
import Mathlib.Analysis.Calculus.LocalExtr.Basic

/-! # The roots of the time equation are simple, except for the fastest transfer -/

set_option autoImplicit false

namespace Lamberthub
open Filter Topology Spec LC

/-- On an interval where a function is monotone, a critical point is degenerate. -/
theorem critical_degenerate {f f1 : ℝ → ℝ} {x d : ℝ} {s : Set ℝ} (hs : IsOpen s) (hx : x ∈ s)
    (h1 : ∀ t ∈ s, HasDerivAt f (f1 t) t) (h2 : HasDerivAt f1 d x)
    (hm : MonotoneOn f s ∨ AntitoneOn f s) (h0 : f1 x = 0) : d = 0 := by
  rcases hm with hm | hm
  · have hge : ∀ t ∈ s, 0 ≤ f1 t := by
      intro t ht
      have := hm.derivWithin_nonneg (x := t)
      rwa [(h1 t ht).hasDerivWithinAt.derivWithin (hs.uniqueDiffWithinAt ht)] at this
    have : IsLocalMin f1 x := by
      filter_upwards [hs.mem_nhds hx] with t ht
      rw [h0]; exact hge t ht
    exact this.hasDerivAt_eq_zero h2
  · have hle : ∀ t ∈ s, f1 t ≤ 0 := by
      intro t ht
      have := hm.derivWithin_nonpos (x := t)
      rwa [(h1 t ht).hasDerivWithinAt.derivWithin (hs.uniqueDiffWithinAt ht)] at this
    have : IsLocalMax f1 x := by
      filter_upwards [hs.mem_nhds hx] with t ht
      rw [h0]; exact hle t ht
    exact this.hasDerivAt_eq_zero h2

theorem one_sub_sq_ne {x : ℝ} (h1 : -1 < x) (h2 : x ≠ 1) : 1 - x ^ 2 ≠ 0 := by
  intro h
  have : (1 - x) * (1 + x) = 0 := by linear_combination h
  rcases mul_eq_zero.1 this with h | h
  · exact h2 (by linarith)
  · linarith

theorem Lanc.lam_x_lt {lam x y : ℝ} (h : Lanc lam x y) : |lam * x| < y := by
  apply abs_lt_of_sq_lt_sq _ h.y_pos.le
  rw [h.y_sq]
  have := h.lam_lt
  nlinarith

/-- At a critical point the second derivative does not vanish. -/
theorem lancT2_ne_zero {lam x T : ℝ} (hl : lam ^ 2 < 1) (h1 : -1 < x) (h2 : x ≠ 1)
    (h0 : lancT1 lam x (lancY lam x) T = 0) : lancT2 lam x (lancY lam x) T 0 ≠ 0 := by
  have hL := lanc_lancY hl x
  have hy := hL.y_pos
  have hw := one_sub_sq_ne h1 h2
  have hlt := hL.lam_x_lt
  have hysq := hL.y_sq
  generalize lancY lam x = y at *
  unfold lancT1 at h0
  rw [div_eq_zero_iff] at h0
  have h0 := h0.resolve_right hw
  intro h
  unfold lancT2 at h
  rw [div_eq_zero_iff] at h
  have h := h.resolve_right hw
  have e1 : 3 * T * x * y = 2 * y - 2 * lam ^ 3 * x := by
    have : (3 * T * x - 2 + 2 * lam ^ 3 * x / y) * y = 0 := by rw [h0, zero_mul]
    rw [add_mul, div_mul_cancel₀ _ hy.ne'] at this
    linarith
  have e2 : 3 * T * y ^ 3 + 2 * (1 - lam ^ 2) * lam ^ 3 = 0 := by
    have : (3 * T + 5 * x * 0 + 2 * (1 - lam ^ 2) * lam ^ 3 / y ^ 3) * y ^ 3 = 0 := by rw [h, zero_mul]
    rw [add_mul, div_mul_cancel₀ _ (by positivity)] at this
    linarith
  have e3 : y ^ 3 = lam ^ 5 * x ^ 3 := by
    have : 2 * (y ^ 3 - lam ^ 5 * x ^ 3) = 0 := by
      linear_combination x * e2 - y ^ 2 * e1 + 2 * lam ^ 3 * x * hysq
    linarith
  have h5 : |lam ^ 5 * x ^ 3| < y ^ 3 := by
    rw [show lam ^ 5 * x ^ 3 = lam ^ 2 * (lam * x) ^ 3 by ring, abs_mul, abs_of_nonneg (sq_nonneg lam), abs_pow]
    calc lam ^ 2 * |lam * x| ^ 3 ≤ 1 * |lam * x| ^ 3 := mul_le_mul_of_nonneg_right hl.le (by positivity)
      _ < y ^ 3 := by rw [one_mul]; exact pow_lt_pow_left₀ hlt (abs_nonneg _) (by norm_num)
  rw [← e3, abs_of_pos (by positivity)] at h5
  exact lt_irrefl _ h5

/-- The roots of the time equation are simple, except the double root of the fastest transfer. -/
theorem lancT1_ne_zero {lam x : ℝ} {M : ℕ} (hl : lam ^ 2 < 1) (hl0 : lam ≠ 0) (h1 : -1 < x) (h2 : x ≠ 1)
    (h3 : M = 0 ∨ (x < 1 ∧ ¬ Fastest lam M x)) :
    lancT1 lam x (lancY lam x) (lancT lam x (lancY lam x) M) ≠ 0 := by
  intro h0
  have d2 := lancT1_hasDerivAt hl (one_sub_sq_ne h1 h2) (lancT_hasDerivAt hl h1 h2 M)
  rw [h0] at d2
  have hc : ∀ s : Set ℝ, IsOpen s → x ∈ s → (∀ t ∈ s, -1 < t ∧ t ≠ 1) →
      (MonotoneOn (fun t => lancT lam t (lancY lam t) M) s ∨ AntitoneOn (fun t => lancT lam t (lancY lam t) M) s) → False := by
    intro s hs hxs hst hm
    exact lancT2_ne_zero hl h1 h2 h0 (critical_degenerate (f := fun t => lancT lam t (lancY lam t) M)
      (f1 := fun t => lancT1 lam t (lancY lam t) (lancT lam t (lancY lam t) M)) hs hxs
      (fun t ht => lancT_hasDerivAt hl (hst t ht).1 (hst t ht).2 M) d2 hm h0)
  rcases h3 with rfl | ⟨hx1, hnf⟩
  · exact hc (Set.Ioi (-1) ∩ {1}ᶜ) (isOpen_Ioi.inter isOpen_compl_singleton) ⟨h1, h2⟩ (fun t ht => ⟨ht.1, ht.2⟩)
      (.inr ((lancT_strictAnti hl hl0).antitoneOn.mono Set.inter_subset_left))
  · rcases Nat.eq_zero_or_pos M with rfl | hM
    · exact hc (Set.Ioo (-1) 1) isOpen_Ioo ⟨h1, hx1⟩ (fun t ht => ⟨ht.1, ht.2.ne⟩)
        (.inr ((lancT_strictAnti hl hl0).antitoneOn.mono Set.Ioo_subset_Ioi_self))
    · obtain ⟨m, hm⟩ := exists_fastest hl hM
      obtain ⟨hm0, hm1, ha, hmo⟩ := hm.valley hl hM
      rcases lt_trichotomy x m with h | h | h
      · exact hc (Set.Ioo (-1) m) isOpen_Ioo ⟨h1, h⟩ (fun t ht => ⟨ht.1, (by linarith [ht.2] : t < 1).ne⟩)
          (.inr (ha.antitoneOn.mono Set.Ioo_subset_Ioc_self))
      · exact hnf (h ▸ hm)
      · exact hc (Set.Ioo m 1) isOpen_Ioo ⟨h, hx1⟩ (fun t ht => ⟨by linarith [ht.1], ht.2.ne⟩)
          (.inl (hmo.monotoneOn.mono Set.Ioo_subset_Ico_self))

/-- The third derivative is differentiable. -/
theorem lancT3_hasDerivAt {lam x : ℝ} (hl : lam ^ 2 < 1) (h1 : -1 < x) (h2 : x ≠ 1) (M : ℕ) :
    ∃ d, HasDerivAt (fun t => lancT3 lam t (lancY lam t) (lancT1 lam t (lancY lam t) (lancT lam t (lancY lam t) M))
      (lancT2 lam t (lancY lam t) (lancT lam t (lancY lam t) M)
        (lancT1 lam t (lancY lam t) (lancT lam t (lancY lam t) M)))) d x := by
  have h0 := one_sub_sq_ne h1 h2
  have d1 := lancT_hasDerivAt hl h1 h2 M
  have d2 := lancT1_hasDerivAt hl h0 d1
  have d3 := lancT2_hasDerivAt hl h0 (T1 := fun t => lancT1 lam t (lancY lam t)
    (lancT lam t (lancY lam t) M)) d1 d2
  have dy := lancY_hasDerivAt hl x
  have hy := (lanc_lancY hl x).y_pos
  simp only [lancT3]
  have dx := hasDerivAt_id x
  exact ⟨_, (((((dx.const_mul 7).mul d3).add (d2.const_mul 8)).sub
    ((dx.const_mul (6 * (1 - lam ^ 2) * lam ^ 5)).div (dy.pow 5) (pow_pos hy 5).ne'))).div
    ((dx.pow 2).const_sub 1) h0⟩

end Lamberthub
