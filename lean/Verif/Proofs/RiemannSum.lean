import Mathlib.MeasureTheory.Integral.IntervalIntegral.Basic
import Mathlib.MeasureTheory.Integral.CircleIntegral
import Mathlib.Analysis.Complex.CauchyIntegral

/-! # Riemann sums and Cauchy's formula for equally spaced nodes of a circle -/

set_option autoImplicit false

namespace Lamberthub
open Filter Topology

/-- Left Riemann sums with equal steps converge to the integral. -/
theorem riemann_tendsto {F : ℝ → ℂ} (hF : Continuous F) :
    Tendsto (fun n : ℕ => (∑ i ∈ Finset.range n, F (i / n)) / n) atTop (𝓝 (∫ t in (0:ℝ)..1, F t)) := by
  rw [Metric.tendsto_atTop]
  intro ε hε
  have huc : UniformContinuousOn F (Set.Icc 0 1) :=
    isCompact_Icc.uniformContinuousOn_of_continuous hF.continuousOn
  obtain ⟨δ, hδ, hu⟩ := Metric.uniformContinuousOn_iff.1 huc (ε / 2) (by positivity)
  obtain ⟨N, hN⟩ := exists_nat_gt (1 / δ)
  refine ⟨max N 1, fun n hn => ?_⟩
  have hn1 : 1 ≤ n := le_trans (le_max_right _ _) hn
  have hn0 : (0 : ℝ) < n := by exact_mod_cast hn1
  have hnN : (N : ℝ) ≤ n := by exact_mod_cast le_trans (le_max_left _ _) hn
  have hstep : 1 / (n : ℝ) < δ := by
    rw [div_lt_iff₀ hn0]
    rw [div_lt_iff₀ hδ] at hN
    nlinarith
  have hsum : ∑ i ∈ Finset.range n, ∫ t in ((i : ℕ) / n : ℝ)..(((i + 1 : ℕ) : ℝ) / n), F t = ∫ t in (0:ℝ)..1, F t := by
    have := intervalIntegral.sum_integral_adjacent_intervals (μ := MeasureTheory.volume) (f := F)
      (a := fun i : ℕ => (i : ℝ) / n) (n := n) (fun k _ => hF.intervalIntegrable _ _)
    rw [this]
    simp [hn0.ne']
  have hpart : ∀ i ∈ Finset.range n,
      ‖F (i / n) / n - ∫ t in ((i : ℕ) / n : ℝ)..(((i + 1 : ℕ) : ℝ) / n), F t‖ ≤ ε / 2 / n := by
    intro i hi
    have hin : (i : ℝ) + 1 ≤ n := by exact_mod_cast Finset.mem_range.1 hi
    have hw : (((i + 1 : ℕ) : ℝ) / n) - (i : ℝ) / n = 1 / n := by push_cast; ring
    have hle : (i : ℝ) / n ≤ ((i + 1 : ℕ) : ℝ) / n := by
      have : 0 < 1 / (n : ℝ) := by positivity
      linarith
    have hconst : F (i / n) / n = ∫ t in ((i : ℕ) / n : ℝ)..(((i + 1 : ℕ) : ℝ) / n), F (i / n) := by
      rw [intervalIntegral.integral_const, hw, Complex.real_smul]
      push_cast; ring
    rw [hconst, ← intervalIntegral.integral_sub (continuous_const.intervalIntegrable _ _) (hF.intervalIntegrable _ _)]
    have := intervalIntegral.norm_integral_le_of_norm_le_const (a := (i : ℝ) / n) (b := ((i + 1 : ℕ) : ℝ) / n)
      (C := ε / 2) (f := fun t => F (i / n) - F t) (fun t ht => by
        rw [Set.uIoc_of_le hle] at ht
        have h0 : (0 : ℝ) ≤ (i : ℝ) / n := by positivity
        have h1 : ((i + 1 : ℕ) : ℝ) / n ≤ 1 := by rw [div_le_one hn0]; push_cast; exact hin
        have := hu (i / n) ⟨h0, by linarith⟩ t ⟨by linarith [ht.1], by linarith [ht.2]⟩ (by
          rw [Real.dist_eq, abs_sub_comm, abs_of_pos (by linarith [ht.1])]
          linarith [ht.2])
        rw [dist_eq_norm] at this
        exact this.le)
    rw [hw, abs_of_pos (by positivity)] at this
    rw [div_eq_mul_one_div (ε / 2)]
    exact this
  rw [dist_eq_norm, ← hsum, Finset.sum_div, ← Finset.sum_sub_distrib]
  calc _ ≤ ∑ i ∈ Finset.range n, ‖F (i / n) / n - ∫ t in ((i : ℕ) / n : ℝ)..(((i + 1 : ℕ) : ℝ) / n), F t‖ :=
        norm_sum_le _ _
    _ ≤ ∑ i ∈ Finset.range n, ε / 2 / n := Finset.sum_le_sum hpart
    _ = ε / 2 := by rw [Finset.sum_const, Finset.card_range, nsmul_eq_mul]; field_simp
    _ < ε := by linarith

/-- The `k`-th contour sum with `n` equally spaced nodes. -/
noncomputable def contourSum (g : ℂ → ℂ) (c R : ℝ) (n : ℕ) : ℂ :=
  (∑ i ∈ Finset.range n, g (c + R * Complex.exp (2 * Complex.I * Real.pi * ((i / n : ℝ) : ℂ))) *
    (2 * Complex.I * Real.pi * R * Complex.exp (2 * Complex.I * Real.pi * ((i / n : ℝ) : ℂ)))) / n

/-- Contour sums converge to the circle integral. -/
theorem contourSum_tendsto {g : ℂ → ℂ} {c R : ℝ} (hR : 0 ≤ R) (hg : ContinuousOn g (Metric.sphere (c : ℂ) R)) :
    Tendsto (contourSum g c R) atTop (𝓝 (∮ z in C(c, R), g z)) := by
  have hnode : ∀ t : ℝ, (c : ℂ) + R * Complex.exp (2 * Complex.I * Real.pi * (t : ℂ)) =
      circleMap c R (2 * Real.pi * t) := by
    intro t
    simp only [circleMap]
    push_cast
    ring_nf
  have hcont : Continuous fun t : ℝ => g (c + R * Complex.exp (2 * Complex.I * Real.pi * (t : ℂ))) *
      (2 * Complex.I * Real.pi * R * Complex.exp (2 * Complex.I * Real.pi * (t : ℂ))) := by
    refine Continuous.mul ?_ (by fun_prop)
    refine hg.comp_continuous (by fun_prop) fun t => ?_
    rw [hnode]
    exact circleMap_mem_sphere _ hR _
  have := riemann_tendsto hcont
  have he : (∫ t in (0:ℝ)..1, g (c + R * Complex.exp (2 * Complex.I * Real.pi * (t : ℂ))) *
      (2 * Complex.I * Real.pi * R * Complex.exp (2 * Complex.I * Real.pi * (t : ℂ)))) = ∮ z in C(c, R), g z := by
    have hs := intervalIntegral.smul_integral_comp_mul_left (a := 0) (b := 1)
      (fun θ => deriv (circleMap c R) θ • g (circleMap c R θ)) (2 * Real.pi)
    rw [mul_zero, mul_one] at hs
    unfold circleIntegral
    rw [← hs, ← intervalIntegral.integral_smul]
    congr 1
    funext t
    rw [hnode, deriv_circleMap]
    simp only [circleMap, smul_eq_mul, Complex.real_smul, sub_zero, zero_add]
    push_cast
    ring_nf
  rw [he] at this
  exact this

/-- Cauchy's formula for the moments of a function with a single simple pole. -/
theorem moment_integral {h : ℂ → ℂ} {c : ℂ} {R : ℝ} {p : ℂ} (k : ℕ) (hh : DiffContOnCl ℂ h (Metric.ball c R))
    (hp : p ∈ Metric.ball c R) :
    (∮ z in C(c, R), z ^ k * (h z / (z - p))) = 2 * Real.pi * Complex.I * (p ^ k * h p) := by
  have hd : DiffContOnCl ℂ (fun z => z ^ k * h z) (Metric.ball c R) :=
    ((differentiable_id.pow k).diffContOnCl).smul hh
  have := hd.circleIntegral_sub_inv_smul hp
  rw [smul_eq_mul] at this
  rw [← this]
  congr 1
  funext z
  rw [smul_eq_mul]
  ring

end Lamberthub
