import Verif.Proofs.IzzoLemmas
import Mathlib.Analysis.Real.Pi.Bounds

/-!
# Where Izzo's time equation can be satisfied

Outside the domain of the time equation (`-1 < x`, and `x < 1` with complete revolutions) the formulas of
`_tof_equation_y` still return numbers, but these are far from every time of flight that `_find_xy` admits.
-/

set_option autoImplicit false

namespace Lamberthub
namespace Izzo

theorem lam_y_bounds {ll x y : ℝ} (hl : ll ^ 2 < 1) (hx : 1 < x ^ 2) (h : Lanc ll x y) : |ll * y| < |x| := by
  have hy := h.y_sq
  rw [← sq_lt_sq, mul_pow, hy]
  nlinarith [sq_nonneg ll, mul_pos (sub_pos.2 hl) (sub_pos.2 hx), mul_nonneg (sq_nonneg ll) (sub_pos.2 hx).le]

/-- A point at which the residual of the time equation is at most half the time sought is in the domain of
the time equation. -/
theorem in_domain {ll x T e : ℝ} {M : ℕ} (hl : ll ^ 2 < 1) (hT0 : 0 < T) (hT : M * Real.pi ≤ T)
    (h : tofEquation x T ll (M : ℤ) = .ok e) (he : |e| ≤ T / 2) : -1 < x ∧ (M = 0 ∨ x < 1) := by
  obtain ⟨y, hy, hL⟩ := computeY_eq (x := x) hl
  rw [tofEquation, hy, ok_bind] at h
  have hpi := Real.pi_gt_three
  obtain ⟨he1, he2⟩ := abs_le.1 he
  have hMr : (0 : ℝ) ≤ M := Nat.cast_nonneg M
  by_contra hn
  have hx : x ≤ -1 ∨ (1 ≤ M ∧ 1 ≤ x) := by
    by_contra h1
    push Not at h1
    refine hn ⟨h1.1, ?_⟩
    rcases Nat.eq_zero_or_pos M with h2 | h2
    · exact .inl h2
    · exact .inr (h1.2 h2)
  unfold tofEquationY at h
  have hser : ¬ ((M : ℤ) = 0 ∧ Real.sqrt 0.6 < x ∧ x < Real.sqrt 1.4) := by
    rintro ⟨h1, h2, -⟩
    have := Real.sqrt_nonneg 0.6
    rcases hx with h3 | h3
    · linarith
    · omega
  rw [if_neg hser] at h
  simp only [bind_ok, psqrt_ok, pdiv_ok] at h
  obtain ⟨ψ, hψ, d, ⟨-, rfl⟩, a, ⟨hd, rfl⟩, t, ⟨hw, rfl⟩, h⟩ := h
  have h := Except.ok.inj h
  push_cast at h hd
  have hx1 : x ≠ -1 := fun h1 => hw (by rw [h1]; norm_num)
  have hx2 : x ≠ 1 := fun h1 => hw (by rw [h1]; norm_num)
  have hsq : 1 < x ^ 2 := by
    rcases hx with h1 | h1
    · have : x < -1 := lt_of_le_of_ne h1 hx1
      nlinarith
    · have : 1 < x := lt_of_le_of_ne h1.2 (Ne.symm hx2)
      nlinarith
  obtain ⟨b1, b2⟩ := abs_lt.1 (lam_y_bounds hl hsq hL)
  rw [abs_of_neg (by linarith : 1 - x ^ 2 < 0)] at h
  obtain ⟨u, hu⟩ : ∃ u, u = x ^ 2 - 1 := ⟨_, rfl⟩
  have hup : 0 < u := by rw [hu]; linarith
  rw [show -(1 - x ^ 2) = u by rw [hu]; ring, show 1 - x ^ 2 = -u by rw [hu]; ring, div_neg] at h
  have hsp : 0 < Real.sqrt u := Real.sqrt_pos.2 hup
  rcases hx with h1 | ⟨hM, h1⟩
  · have hψ0 : ψ = 0 := by
      have hlt : x < -1 := lt_of_le_of_ne h1 hx1
      rw [computePsi, if_neg (by push Not; intro h; linarith), if_neg (by linarith)] at hψ
      exact (Except.ok.inj hψ).symm
    rw [hψ0, zero_add] at h
    rw [abs_of_neg (by linarith : x < 0)] at b1 b2
    have : 0 < (M * Real.pi / Real.sqrt u - x + ll * y) / u := by
      refine div_pos ?_ hup
      have : 0 ≤ M * Real.pi / Real.sqrt u := by positivity
      linarith
    linarith
  · have hψ0 : 0 ≤ ψ := by
      have hlt : 1 < x := lt_of_le_of_ne h1 (Ne.symm hx2)
      rw [computePsi, if_neg (by push Not; intro; linarith), if_pos hlt] at hψ
      simp only [bind_ok, psqrt_ok] at hψ
      obtain ⟨q, ⟨-, rfl⟩, hq⟩ := hψ
      rw [← Except.ok.inj hq]
      refine Real.arsinh_nonneg_iff.2 (mul_nonneg ?_ (Real.sqrt_nonneg _))
      have := hL.eta_pos
      linarith
    rw [abs_of_pos (by linarith : 0 < x)] at b1 b2
    have hM1 : (1 : ℝ) ≤ M := by exact_mod_cast hM
    have hMT : 3 ≤ T := by nlinarith
    -- the value of the formula is at most (2 x - π / √u) / u
    have k1 : Real.pi / Real.sqrt u ≤ (ψ + M * Real.pi) / Real.sqrt u :=
      div_le_div_of_nonneg_right (by nlinarith) hsp.le
    have k2 : T / 2 ≤ (2 * x - Real.pi / Real.sqrt u) / u := by
      have : T / 2 ≤ -(((ψ + M * Real.pi) / Real.sqrt u - x + ll * y) / u) := by linarith
      refine this.trans ?_
      rw [← neg_div]
      refine div_le_div_of_nonneg_right ?_ hup.le
      linarith
    rw [le_div_iff₀ hup] at k2
    have hs2 := Real.sq_sqrt hup.le
    have k3 : T / 2 * u * Real.sqrt u ≤ 2 * x * Real.sqrt u - Real.pi := by
      have := mul_le_mul_of_nonneg_right k2 hsp.le
      rwa [sub_mul, div_mul_cancel₀ _ hsp.ne'] at this
    have k4 : 2 * x * Real.sqrt u ≤ 2 * u + 1 := by nlinarith [sq_nonneg (x - Real.sqrt u)]
    generalize Real.sqrt u = w at *
    have k5 : 3 / 2 * w ^ 3 ≤ 2 * w ^ 2 - 2 := by
      have : 3 / 2 * (u * w) ≤ T / 2 * (u * w) := mul_le_mul_of_nonneg_right (by linarith) (by positivity)
      rw [← hs2] at this k3 k4
      nlinarith
    nlinarith [sq_nonneg (w - 1), mul_nonneg hsp.le (sq_nonneg (w - 1)), sq_nonneg (3 * w - 2), mul_pos hsp hsp]

end Izzo
end Lamberthub
