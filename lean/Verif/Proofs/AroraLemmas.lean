import Verif.Model.Arora
import Verif.Proofs.PyLemmas
import Verif.Proofs.Path
import Mathlib.Analysis.SpecialFunctions.Arcosh

/-! # Arora's `W` function and Lagrange's time equation -/

set_option autoImplicit false

namespace Lamberthub.Arora
open Spec LC

theorem sqrt2_sq : Real.sqrt 2 ^ 2 = 2 := Real.sq_sqrt (by norm_num)
theorem sqrt2_pos : 0 < Real.sqrt 2 := by positivity
theorem eps_pos : 0 < epsilon := by unfold epsilon; norm_num
theorem sqrt2_lt : Real.sqrt 2 < 1.4143 := by
  rw [Real.sqrt_lt' (by norm_num)]; norm_num
theorem lt_sqrt2 : 1.414 < Real.sqrt 2 := Real.lt_sqrt_of_sq_lt (by norm_num)

/-- Closed form of `W` on the elliptic side, `M` revolutions. -/
noncomputable def ellW (k : ℝ) (M : ℕ) : ℝ :=
  (2 * Real.arccos (k / Real.sqrt 2) + 2 * Real.pi * M) / Real.sqrt (2 - k ^ 2) ^ 3 - k / (2 - k ^ 2)

/-- Closed form of `W` on the hyperbolic side. -/
noncomputable def hypW (k : ℝ) : ℝ :=
  k / (k ^ 2 - 2) - 2 * Real.arcosh (k / Real.sqrt 2) / Real.sqrt (k ^ 2 - 2) ^ 3

theorem ell_angle {k : ℝ} (h1 : -Real.sqrt 2 < k) (h2 : k < Real.sqrt 2) :
    ∃ φ : ℝ, φ = Real.arccos (k / Real.sqrt 2) ∧ 0 < φ ∧ φ < Real.pi ∧ k = Real.sqrt 2 * Real.cos φ ∧
      0 < Real.sin φ ∧ 2 - k ^ 2 = 2 * Real.sin φ ^ 2 ∧ Real.sqrt (2 - k ^ 2) = Real.sqrt 2 * Real.sin φ := by
  have hp := sqrt2_pos
  have a1 : -1 < k / Real.sqrt 2 := by rw [lt_div_iff₀ hp]; linarith
  have a2 : k / Real.sqrt 2 < 1 := by rw [div_lt_iff₀ hp]; linarith
  have hc : k = Real.sqrt 2 * Real.cos (Real.arccos (k / Real.sqrt 2)) := by
    rw [Real.cos_arccos a1.le a2.le]; field_simp
  have h0 : 0 < Real.arccos (k / Real.sqrt 2) := Real.arccos_pos.2 a2
  have hpi : Real.arccos (k / Real.sqrt 2) < Real.pi := by
    rcases (Real.arccos_le_pi (k / Real.sqrt 2)).lt_or_eq with h | h
    · exact h
    · rw [Real.arccos_eq_pi] at h; linarith
  have hs := Real.sin_pos_of_pos_of_lt_pi h0 hpi
  refine ⟨_, rfl, h0, hpi, hc, hs, ?_, ?_⟩
  · generalize Real.arccos (k / Real.sqrt 2) = φ at *
    rw [hc, mul_pow, sqrt2_sq, Real.sin_sq]; ring
  · generalize Real.arccos (k / Real.sqrt 2) = φ at *
    rw [show 2 - k ^ 2 = (Real.sqrt 2 * Real.sin φ) ^ 2 by
      rw [hc, mul_pow, mul_pow, sqrt2_sq, Real.sin_sq]; ring, Real.sqrt_sq (by positivity)]

theorem hyp_angle {k : ℝ} (h : Real.sqrt 2 < k) :
    ∃ φ : ℝ, φ = Real.arcosh (k / Real.sqrt 2) ∧ 0 < φ ∧ k = Real.sqrt 2 * Real.cosh φ ∧
      0 < Real.sinh φ ∧ k ^ 2 - 2 = 2 * Real.sinh φ ^ 2 ∧
      Real.sqrt (k ^ 2 - 2) = Real.sqrt 2 * Real.sinh φ := by
  have hp := sqrt2_pos
  have a1 : 1 < k / Real.sqrt 2 := by rw [lt_div_iff₀ hp]; linarith
  have hc : k = Real.sqrt 2 * Real.cosh (Real.arcosh (k / Real.sqrt 2)) := by
    rw [Real.cosh_arcosh a1.le]; field_simp
  have h0 : 0 < Real.arcosh (k / Real.sqrt 2) := Real.arcosh_pos a1
  have hs := Real.sinh_pos_iff.2 h0
  refine ⟨_, rfl, h0, hc, hs, ?_, ?_⟩
  · generalize Real.arcosh (k / Real.sqrt 2) = φ at *
    rw [hc, mul_pow, sqrt2_sq, Real.cosh_sq]; ring
  · generalize Real.arcosh (k / Real.sqrt 2) = φ at *
    rw [show k ^ 2 - 2 = (Real.sqrt 2 * Real.sinh φ) ^ 2 by
      rw [hc, mul_pow, mul_pow, sqrt2_sq, Real.cosh_sq]; ring, Real.sqrt_sq (by positivity)]

/-- `sqrt (x ^ 3)` for the nonnegative arguments of the code. -/
theorem sqrt_cube {x : ℝ} (h : 0 ≤ x) : Real.sqrt (x ^ 3) = Real.sqrt x ^ 3 := by
  rw [show x ^ 3 = (Real.sqrt x ^ 3) ^ 2 by
    rw [← pow_mul, mul_comm, pow_mul, Real.sq_sqrt h], Real.sqrt_sq (by positivity)]

/-- The three-case numerator of l.510-512 is one angle. -/
theorem numerator_eq {k : ℝ} (h1 : -Real.sqrt 2 < k) (h2 : k < Real.sqrt 2) :
    (1 - sign k) * Real.pi + sign k * Real.arccos (1 - (2 - k ^ 2)) = 2 * Real.arccos (k / Real.sqrt 2) := by
  obtain ⟨φ, hφ, h0, hpi, hk, hs, hm, -⟩ := ell_angle h1 h2
  have hc2 : 1 - (2 - k ^ 2) = Real.cos (2 * φ) := by
    rw [hm, Real.cos_two_mul, Real.sin_sq]; ring
  rw [hc2, ← hφ]
  unfold sign
  split
  · rename_i hp
    have : φ < Real.pi / 2 := by
      by_contra hh; push Not at hh
      have := Real.cos_nonpos_of_pi_div_two_le_of_le hh (by linarith)
      nlinarith [sqrt2_pos]
    rw [Real.arccos_cos (by linarith) (by linarith)]; ring
  · split
    · rename_i hn
      have : Real.pi / 2 < φ := by
        by_contra hh; push Not at hh
        have := Real.cos_nonneg_of_neg_pi_div_two_le_of_le (by linarith) hh
        nlinarith [sqrt2_pos]
      rw [← Real.cos_two_pi_sub, Real.arccos_cos (by linarith) (by linarith)]; ring
    · rename_i hp hn
      have : k = 0 := by linarith
      have : φ = Real.pi / 2 := by rw [hφ, this]; simp
      rw [this]; ring

theorem getW_ell {k : ℝ} {M : ℕ} (h1 : -Real.sqrt 2 < k) (h2 : k < Real.sqrt 2)
    (h3 : k < Real.sqrt 2 - epsilon ∨ 0 < M) : getW k M = .ok (ellW k M) := by
  obtain ⟨φ, hφ, h0, hpi, hk, hs, hm, -⟩ := ell_angle h1 h2
  have hm0 : 0 < 2 - k ^ 2 := by rw [hm]; positivity
  unfold getW
  simp only []
  rw [if_pos (by
    rcases h3 with h | h
    · exact .inl ⟨h1.le, h⟩
    · exact .inr ⟨by exact_mod_cast h, h1.le, h2⟩),
    pacos_eq (by nlinarith [sq_nonneg k]) (by linarith), ok_bind, psqrt_eq (by positivity), ok_bind,
    pdiv_eq (by positivity), ok_bind, pdiv_eq hm0.ne', ok_bind, numerator_eq h1 h2, sqrt_cube hm0.le]
  unfold ellW
  norm_cast

theorem arcosh_double {k : ℝ} (h : Real.sqrt 2 < k) :
    Real.arcosh (1 - (2 - k ^ 2)) = 2 * Real.arcosh (k / Real.sqrt 2) := by
  obtain ⟨φ, hφ, h0, hk, hs, hm, -⟩ := hyp_angle h
  rw [← hφ, show 1 - (2 - k ^ 2) = Real.cosh (2 * φ) by
    rw [Real.cosh_two_mul, Real.cosh_sq]; linarith, Real.arcosh_cosh (by linarith)]

theorem getW_hyp {k : ℝ} {M : ℤ} (h : Real.sqrt 2 + epsilon < k) : getW k M = .ok (hypW k) := by
  have he := eps_pos
  have h' : Real.sqrt 2 < k := by linarith
  obtain ⟨φ, hφ, h0, hk, hs, hm, -⟩ := hyp_angle h'
  have hm0 : 0 < k ^ 2 - 2 := by rw [hm]; positivity
  unfold getW
  simp only []
  rw [if_neg (by
    rintro (h | h)
    · linarith [h.2]
    · linarith [h.2.2]), if_pos h,
    pacosh_ok.2 ⟨by linarith, rfl⟩, ok_bind, show -(2 - k ^ 2) ^ 3 = (k ^ 2 - 2) ^ 3 by ring,
    psqrt_eq (by positivity), ok_bind,
    pdiv_eq (by positivity), ok_bind, pdiv_eq (by linarith), ok_bind, arcosh_double h', sqrt_cube hm0.le]
  unfold hypW
  congr 1
  rw [show (2 : ℝ) - k ^ 2 = -(k ^ 2 - 2) by ring, div_neg]; ring

/-- What `_get_W` can return. -/
theorem getW_ok {k W : ℝ} {M : ℕ} (h : getW k M = .ok W) :
    (-Real.sqrt 2 < k ∧ k < Real.sqrt 2 ∧ (k < Real.sqrt 2 - epsilon ∨ 0 < M) ∧ W = ellW k M) ∨
    (Real.sqrt 2 + epsilon < k ∧ W = hypW k) ∨
    (M = 0 ∧ Real.sqrt 2 - epsilon ≤ k ∧ k ≤ Real.sqrt 2 + epsilon ∧ W = seriesW k) := by
  have he := eps_pos
  by_cases hc : (-Real.sqrt 2 ≤ k ∧ k < Real.sqrt 2 - epsilon) ∨ ((M : ℤ) > 0 ∧ -Real.sqrt 2 ≤ k ∧ k < Real.sqrt 2)
  · have hlt : k < Real.sqrt 2 := by
      rcases hc with h | h
      · linarith [h.2]
      · exact h.2.2
    have hle : -Real.sqrt 2 ≤ k := by
      rcases hc with h | h
      · exact h.1
      · exact h.2.1
    have hor : k < Real.sqrt 2 - epsilon ∨ 0 < M := by
      rcases hc with h | h
      · exact .inl h.2
      · exact .inr (by exact_mod_cast h.1)
    rcases hle.lt_or_eq with hl | hl
    · rw [getW_ell hl hlt hor] at h
      exact .inl ⟨hl, hlt, hor, (Except.ok.inj h).symm⟩
    · exfalso
      unfold getW at h
      simp only [if_pos hc, bind_ok, pdiv_ok] at h
      obtain ⟨_, _, _, _, _, _, p, ⟨hp, -⟩, -⟩ := h
      apply hp
      rw [← hl, neg_sq, sqrt2_sq]; ring
  · by_cases hk : k > Real.sqrt 2 + epsilon
    · rw [getW_hyp hk] at h
      exact .inr (.inl ⟨hk, (Except.ok.inj h).symm⟩)
    · unfold getW at h
      simp only [if_neg hc, if_neg hk] at h
      split at h
      · rename_i hM
        exact .inr (.inr ⟨by exact_mod_cast hM.1, hM.2.1, hM.2.2, (Except.ok.inj h).symm⟩)
      · simp at h

/-- `W` on both sides of the parabola, for zero revolutions. -/
noncomputable def trueW (k : ℝ) : ℝ :=
  if k < Real.sqrt 2 then ellW k 0 else if k = Real.sqrt 2 then Real.sqrt 2 / 3 else hypW k

/-- Arora's time of flight with a given value of `W`, dimensional. -/
noncomputable def timeW (μ P A k W : ℝ) : ℝ :=
  Real.sqrt (P ^ 3 / μ) * Real.sqrt (1 - k * (A / P)) * (A / P + (1 - k * (A / P)) * W)

theorem timeW_eq {μ P A k W V : ℝ} (hμ : 0 < μ) (hP : 0 < P) (hV : V = P - k * A) (hV0 : 0 < V) :
    timeW μ P A k W = Real.sqrt (V / μ) * (V * W + A) := by
  have h1 : 1 - k * (A / P) = V / P := by rw [hV]; field_simp
  unfold timeW
  rw [h1, ← Real.sqrt_mul (by positivity), show P ^ 3 / μ * (V / P) = V / μ * P ^ 2 by field_simp,
    Real.sqrt_mul (by positivity), Real.sqrt_sq hP.le]
  field_simp
  ring

theorem path_ell {μ P A k V : ℝ} {M : ℕ} (hμ : 0 < μ) (hP : 0 < P) (h1 : -Real.sqrt 2 < k)
    (h2 : k < Real.sqrt 2) (hV : V = P - k * A) (hV0 : 0 < V) :
    Path μ P A M V (timeW μ P A k (ellW k M)) := by
  obtain ⟨φ, hφ, h0, hpi, hk, hs, hm, hq⟩ := ell_angle h1 h2
  have hpp := Real.pi_pos
  have e1 : (M : ℝ) * Real.pi < φ + M * Real.pi := by linarith
  have e2 : φ + M * Real.pi < (M + 1) * Real.pi := by linarith
  have hcos : Real.cos (φ + M * Real.pi) = (-1) ^ M * Real.cos φ := Real.cos_add_nat_mul_pi φ M
  have hsin : Real.sin (φ + M * Real.pi) = (-1) ^ M * Real.sin φ := Real.sin_add_nat_mul_pi φ M
  have habs : |Real.sin (φ + M * Real.pi)| = Real.sin φ := by
    rw [abs_sin_eq e1 e2, hsin, ← mul_assoc, neg_one_pow_mul_self, one_mul]
  have hsin2 : Real.sin (2 * (φ + M * Real.pi)) = 2 * Real.sin φ * Real.cos φ := by
    rw [Real.sin_two_mul, hcos, hsin, show 2 * ((-1) ^ M * Real.sin φ) * ((-1) ^ M * Real.cos φ) =
      ((-1) ^ M * (-1) ^ M) * (2 * Real.sin φ * Real.cos φ) by ring, neg_one_pow_mul_self, one_mul]
  have hT : timeW μ P A k (ellW k M) = Tell μ A V (φ + M * Real.pi) := by
    rw [timeW_eq hμ hP hV hV0]
    unfold Tell ellW
    rw [habs, hsin2, ← hφ, hq, hm, mul_pow, show Real.sqrt 2 ^ 3 = 2 * Real.sqrt 2 by
      rw [pow_succ, sqrt2_sq]]
    congr 1
    have hp := sqrt2_pos
    have h2 := sqrt2_sq
    congr 1
    rw [hk]
    generalize Real.sqrt 2 = q at *
    field_simp
    linear_combination (-Real.cos φ * Real.sin φ) * h2
  rw [hT]
  refine .ell e1 e2 hV0 ?_
  rw [hcos, hV, hk, show (-1) ^ M * (Real.sqrt 2 * A) * ((-1) ^ M * Real.cos φ) =
    ((-1) ^ M * (-1) ^ M) * (Real.sqrt 2 * A * Real.cos φ) by ring, neg_one_pow_mul_self]; ring

theorem path_hyp {μ P A k V : ℝ} (hμ : 0 < μ) (hP : 0 < P) (h : Real.sqrt 2 < k)
    (hV : V = P - k * A) (hV0 : 0 < V) : Path μ P A 0 V (timeW μ P A k (hypW k)) := by
  obtain ⟨φ, hφ, h0, hk, hs, hm, hq⟩ := hyp_angle h
  have hT : timeW μ P A k (hypW k) = Thyp μ A V φ := by
    rw [timeW_eq hμ hP hV hV0]
    unfold Thyp hypW
    rw [← hφ, hq, hm, mul_pow, show Real.sqrt 2 ^ 3 = 2 * Real.sqrt 2 by
      rw [pow_succ, sqrt2_sq], Real.sinh_two_mul]
    congr 1
    have hp := sqrt2_pos
    have h2 := sqrt2_sq
    congr 1
    rw [hk]
    generalize Real.sqrt 2 = q at *
    field_simp
    linear_combination (Real.cosh φ * Real.sinh φ) * h2
  rw [hT]
  exact .hyp h0 hV0 (by rw [hV, hk]; ring)

theorem path_par {μ P A V : ℝ} (hμ : 0 < μ) (hP : 0 < P)
    (hV : V = P - Real.sqrt 2 * A) (hV0 : 0 < V) :
    Path μ P A 0 V (timeW μ P A (Real.sqrt 2) (Real.sqrt 2 / 3)) := by
  have hT : timeW μ P A (Real.sqrt 2) (Real.sqrt 2 / 3) = Tpar μ A V := by
    rw [timeW_eq hμ hP hV hV0]; unfold Tpar; ring
  rw [hT]
  exact .par hV0 hV

theorem path_true {μ P A k V : ℝ} (hμ : 0 < μ) (hP : 0 < P) (h : -Real.sqrt 2 < k)
    (hV : V = P - k * A) (hV0 : 0 < V) : Path μ P A 0 V (timeW μ P A k (trueW k)) := by
  unfold trueW
  split
  · exact path_ell hμ hP h (by assumption) hV hV0
  · split
    · rename_i h; subst h; exact path_par hμ hP hV hV0
    · rename_i h1 h2
      exact path_hyp hμ hP (lt_of_le_of_ne (not_lt.1 h1) (Ne.symm h2)) hV hV0

end Lamberthub.Arora
