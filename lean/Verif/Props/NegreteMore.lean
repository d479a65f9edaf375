import Verif.Props.Negrete
import Verif.Proofs.RiemannSum

/-! # C47: the poles are recovered from the moments, and the moments converge -/

set_option autoImplicit false

namespace Lamberthub
open Spec LC Negrete McElreath

/-- **C47.** If the four moments are those of two distinct poles with non-zero weights,
`I_k = α z1^k + β z2^k`, the quadratic of `_find_z` returns exactly the two poles, in one
order or the other. -/
theorem negrete_moment_roots {α β z1 z2 : ℂ} (hα : α ≠ 0) (hβ : β ≠ 0) (hz : z1 ≠ z2) :
    momentRoots (α * z1 ^ 0 + β * z2 ^ 0) (α * z1 ^ 1 + β * z2 ^ 1) (α * z1 ^ 2 + β * z2 ^ 2)
        (α * z1 ^ 3 + β * z2 ^ 3) = .ok (z1, z2) ∨
      momentRoots (α * z1 ^ 0 + β * z2 ^ 0) (α * z1 ^ 1 + β * z2 ^ 1) (α * z1 ^ 2 + β * z2 ^ 2)
        (α * z1 ^ 3 + β * z2 ^ 3) = .ok (z2, z1) := by
  have hd : z1 - z2 ≠ 0 := sub_ne_zero.2 hz
  have key : ∀ I0 I1 I2 I3 : ℂ, I0 = α * z1 ^ 0 + β * z2 ^ 0 → I1 = α * z1 ^ 1 + β * z2 ^ 1 →
      I2 = α * z1 ^ 2 + β * z2 ^ 2 → I3 = α * z1 ^ 3 + β * z2 ^ 3 →
      (I1 ^ 2 - I0 * I2 = -(α * β * (z1 - z2) ^ 2)) ∧ (I3 * I0 - I1 * I2 = α * β * (z1 - z2) ^ 2 * (z1 + z2)) ∧
      (I3 * I0 - I1 * I2) * (I3 * I0 - I1 * I2) - 4 * (I1 ^ 2 - I0 * I2) * (I2 ^ 2 - I1 * I3) =
        (α * β * (z1 - z2) ^ 3) ^ 2 := by
    rintro _ _ _ _ rfl rfl rfl rfl
    refine ⟨by ring, by ring, by ring⟩
  obtain ⟨ha, hb, hc⟩ := key _ _ _ _ rfl rfl rfl rfl
  have hane : (2 : ℂ) * -(α * β * (z1 - z2) ^ 2) ≠ 0 := by
    refine mul_ne_zero two_ne_zero (neg_ne_zero.2 (mul_ne_zero (mul_ne_zero hα hβ) (pow_ne_zero _ hd)))
  have hw : α * β * (z1 - z2) ^ 2 ≠ 0 := mul_ne_zero (mul_ne_zero hα hβ) (pow_ne_zero _ hd)
  have hs : csqrt ((α * β * (z1 - z2) ^ 3) ^ 2) ^ 2 = (α * β * (z1 - z2) ^ 3) ^ 2 := by
    unfold csqrt
    rw [← Complex.cpow_nat_mul]; norm_num
  unfold momentRoots
  simp only [hc]
  rw [ha, hb, cdiv_eq hane, ok_bind, cdiv_eq hane, ok_bind]
  rcases sq_eq_sq_iff_eq_or_eq_neg.1 hs with h | h <;> rw [h]
  · right
    congr 2 <;> field_simp <;> ring
  · left
    congr 2 <;> field_simp <;> ring

/-- A concrete case of C47: poles `1` and `2` with unit weights. -/
example : momentRoots 2 3 5 9 = .ok (1, 2) ∨ momentRoots 2 3 5 9 = .ok (2, 1) := by
  have := negrete_moment_roots (α := 1) (β := 1) (z1 := 1) (z2 := 2) one_ne_zero one_ne_zero (by norm_num)
  norm_num at this
  exact this

namespace Negrete
open Filter Topology

/-- The node number `i` of the contour. -/
noncomputable def node (c R invN : ℝ) (i : ℕ) : ℂ :=
  c + R * Complex.exp (2 * Complex.I * Real.pi * ((i * invN : ℝ) : ℂ))

theorem node_mem {c R : ℝ} (hR : 0 ≤ R) (invN : ℝ) (i : ℕ) : node c R invN i ∈ Metric.sphere (c : ℂ) R := by
  rw [mem_sphere_iff_norm, node, add_sub_cancel_left, norm_mul, Complex.norm_real, Real.norm_of_nonneg hR,
    show 2 * Complex.I * Real.pi * ((i * invN : ℝ) : ℂ) = ((2 * Real.pi * (i * invN) : ℝ) : ℂ) * Complex.I by
      push_cast; ring, Complex.norm_exp_ofReal_mul_I, mul_one]

theorem contourLoop_eq {f : ℂ → Py ℂ} {g : ℂ → ℂ} {c R : ℝ} (hR : 0 ≤ R)
    (hf : ∀ z ∈ Metric.sphere (c : ℂ) R, f z = .ok (g z)) (invN : ℝ) (d : ℕ) :
    ∀ (m i : ℕ) (out : ℕ → ℂ), ∃ out', contourLoop f c R invN d m i out = .ok out' ∧ ∀ k ≤ d,
      out' k = out k + ∑ j ∈ Finset.range m, node c R invN (i + j) ^ k * (g (node c R invN (i + j)) *
        (2 * Complex.I * Real.pi * R * Complex.exp (2 * Complex.I * Real.pi * (((i + j : ℕ) * invN : ℝ) : ℂ))))
  | 0, i, out => ⟨out, rfl, fun k _ => by simp⟩
  | m + 1, i, out => by
    have hz : f (c + R * Complex.exp (2 * Complex.I * Real.pi * ((i * invN : ℝ) : ℂ))) =
        .ok (g (node c R invN i)) := hf _ (node_mem hR invN i)
    obtain ⟨out', h1, h2⟩ := contourLoop_eq hR hf invN d m (i + 1) (fun k => if k ≤ d then out k + node c R invN i ^ k *
      (g (node c R invN i) * (2 * Complex.I * Real.pi * R * Complex.exp (2 * Complex.I * Real.pi * ((i * invN : ℝ) : ℂ))))
        else out k)
    refine ⟨out', ?_, fun k hk => ?_⟩
    · rw [contourLoop]
      simp only [hz, ok_bind]
      exact h1
    · rw [h2 k hk]
      simp only [if_pos hk]
      rw [Finset.sum_range_succ', add_assoc, add_comm (∑ _ ∈ _, _)]
      simp only [Nat.add_zero, Nat.add_assoc, Nat.add_comm 1]

/-- The moments are the contour sums. -/
theorem contourIntegrals_eq {f : ℂ → Py ℂ} {g : ℂ → ℂ} {c R : ℝ} (hR : 0 ≤ R)
    (hf : ∀ z ∈ Metric.sphere (c : ℂ) R, f z = .ok (g z)) (d : ℕ) {n : ℕ} (hn : 1 ≤ n) :
    ∃ I, contourIntegrals f c R d n = .ok I ∧ ∀ k ≤ d, I k = contourSum (fun z => z ^ k * g z) c R n := by
  have hn0 : (n : ℝ) ≠ 0 := by exact_mod_cast Nat.one_le_iff_ne_zero.1 hn
  obtain ⟨out, h1, h2⟩ := contourLoop_eq hR hf (1 / n) d n 0 (fun _ => 0)
  refine ⟨_, by rw [contourIntegrals, pdiv_eq hn0, ok_bind, h1, ok_bind], fun k hk => ?_⟩
  simp only [h2 k hk, contourSum, node, zero_add]
  push_cast
  rw [mul_one_div]
  congr 1
  refine Finset.sum_congr rfl fun i _ => ?_
  rw [mul_one_div]
  ring

end Negrete

open Filter Topology in
/-- **C47**, convergence.  Let the integrand have a single simple pole, at the real point `p`
inside the contour.  As the number of nodes grows, `_contour_integrals` followed by
`I_1 / I_0` and `_real_solution` returns, and what it returns converges to the pole. -/
theorem negrete_contour_converges {f : ℂ → Py ℂ} {h : ℂ → ℂ} {c R p atol rtol : ℝ}
    (hf : ∀ z ∈ Metric.sphere (c : ℂ) R, f z = .ok (h z / (z - p)))
    (hh : DiffContOnCl ℂ h (Metric.ball (c : ℂ) R)) (hp : |p - c| < R) (hp0 : h p ≠ 0)
    (hat : 0 < atol) (hrt : 0 ≤ rtol) {ε : ℝ} (hε : 0 < ε) :
    ∃ N, ∀ n ≥ N, ∃ z, singleRoot f c R n atol rtol = .ok z ∧ |z - p| < ε := by
  have hR : 0 < R := lt_of_le_of_lt (abs_nonneg _) hp
  have hpb : (p : ℂ) ∈ Metric.ball (c : ℂ) R := by
    rw [mem_ball_iff_norm, ← Complex.ofReal_sub, Complex.norm_real]; exact hp
  have hcont : ContinuousOn (fun z => h z / (z - p)) (Metric.sphere (c : ℂ) R) := by
    refine ContinuousOn.div (hh.continuousOn_ball.mono Metric.sphere_subset_closedBall) (by fun_prop) fun z hz h0 => ?_
    rw [sub_eq_zero.1 h0] at hz
    rw [mem_sphere_iff_norm] at hz
    rw [mem_ball_iff_norm] at hpb
    linarith
  have hmom : ∀ k : ℕ, Tendsto (contourSum (fun z => z ^ k * (h z / (z - p))) c R) atTop
      (𝓝 (2 * Real.pi * Complex.I * ((p : ℂ) ^ k * h p))) := by
    intro k
    rw [← moment_integral k hh hpb]
    exact contourSum_tendsto hR.le ((continuousOn_id.pow k).mul hcont)
  have hne : 2 * Real.pi * Complex.I * ((p : ℂ) ^ 0 * h p) ≠ 0 := by
    rw [pow_zero, one_mul]
    exact mul_ne_zero Complex.two_pi_I_ne_zero hp0
  have hratio := (hmom 1).div (hmom 0) hne
  rw [show 2 * Real.pi * Complex.I * ((p : ℂ) ^ 1 * h p) / (2 * Real.pi * Complex.I * ((p : ℂ) ^ 0 * h p)) = p by
    rw [div_eq_iff hne]; ring] at hratio
  have h1 := (Metric.tendsto_atTop.1 hratio) (min ε atol) (lt_min hε hat)
  obtain ⟨N1, hN1⟩ := h1
  obtain ⟨N2, hN2⟩ := eventually_atTop.1 ((hmom 0).eventually_ne hne)
  refine ⟨max 1 (max N1 N2), fun n hn => ?_⟩
  have hn1 : 1 ≤ n := le_trans (le_max_left _ _) hn
  have hq := hN1 n (le_trans (le_trans (le_max_left _ _) (le_max_right _ _)) hn)
  have h0 := hN2 n (le_trans (le_trans (le_max_right _ _) (le_max_right _ _)) hn)
  obtain ⟨I, hI, hIk⟩ := contourIntegrals_eq hR.le hf 1 hn1
  simp only [Pi.div_apply] at hq
  rw [← hIk 0 zero_le_one, ← hIk 1 le_rfl, dist_eq_norm] at hq
  rw [← hIk 0 zero_le_one] at h0
  refine ⟨(I 1 / I 0).re, ?_, ?_⟩
  · rw [singleRoot, hI, ok_bind, cdiv_eq h0, ok_bind, realSolution, raiseIf_neg, ok_bind]
    have := Complex.abs_im_le_norm (I 1 / I 0 - p)
    rw [Complex.sub_im, Complex.ofReal_im, sub_zero] at this
    have h2 := mul_nonneg hrt (abs_nonneg (I 1 / I 0).re)
    rw [gt_iff_lt, not_lt]
    linarith [lt_of_lt_of_le hq (min_le_right _ _)]
  · have := Complex.abs_re_le_norm (I 1 / I 0 - p)
    rw [Complex.sub_re, Complex.ofReal_re] at this
    linarith [lt_of_lt_of_le hq (min_le_left _ _)]

/-- The hypotheses of `negrete_contour_converges` are met by `exp z / (z - 1)` on the circle
of radius two. -/
example : ∃ N, ∀ n ≥ N, ∃ z, singleRoot (fun z => .ok (Complex.exp z / (z - (1 : ℝ)))) 0 2 n (1 / 100) 0 = .ok z ∧
    |z - 1| < 1 / 1000 :=
  negrete_contour_converges (h := Complex.exp) (fun _ _ => rfl) Complex.differentiable_exp.diffContOnCl (by norm_num)
    (Complex.exp_ne_zero _) (by norm_num) le_rfl (by norm_num)

end Lamberthub
