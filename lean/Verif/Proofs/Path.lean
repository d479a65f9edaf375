import Verif.Proofs.Arc
import Verif.Proofs.StumpffLemmas

/-!
# One predicate for the three families of transfer orbits

`Path μ P A M V T`: with `P = |r1| + |r2|` and `A² = |r1||r2| + r1·r2`, the Lagrange
velocities with parameter `V` belong to an orbit joining the two positions in time `T`
with `M` revolutions.
-/

set_option autoImplicit false

namespace Lamberthub.LC
open Lamberthub Spec

inductive Path (μ P A : ℝ) : ℕ → ℝ → ℝ → Prop
  | ell {M : ℕ} {φ V : ℝ} (h1 : M * Real.pi < φ) (h2 : φ < (M + 1) * Real.pi) (hV0 : 0 < V)
      (hV : V = P - (-1) ^ M * (Real.sqrt 2 * A) * Real.cos φ) : Path μ P A M V (Tell μ A V φ)
  | par {V : ℝ} (hV0 : 0 < V) (hV : V = P - Real.sqrt 2 * A) : Path μ P A 0 V (Tpar μ A V)
  | hyp {φ V : ℝ} (hφ : 0 < φ) (hV0 : 0 < V) (hV : V = P - Real.sqrt 2 * A * Real.cosh φ) :
      Path μ P A 0 V (Thyp μ A V φ)

theorem Path.arc {μ A : ℝ} (hμ : 0 < μ) {r1 r2 : V3} (hG : Geo r1 r2 A) {M : ℕ} {V T : ℝ}
    (h : Path μ (V3.norm r1 + V3.norm r2) A M V T) :
    LambertArc μ r1 r2 (fgV1 μ r1 r2 A V) (fgV2 μ r1 r2 A V) T M := by
  cases h with
  | ell h1 h2 hV0 hV => exact arc_ell hμ hG h1 h2 hV0 hV
  | par hV0 hV => exact arc_par hμ hG hV0 hV
  | hyp hφ hV0 hV => exact arc_hyp hμ hG hφ hV0 hV

theorem Path.V_pos {μ P A : ℝ} {M : ℕ} {V T : ℝ} (h : Path μ P A M V T) : 0 < V := by
  cases h <;> assumption

theorem neg_one_pow_sin {M : ℕ} {φ : ℝ} (h1 : M * Real.pi < φ) (h2 : φ < (M + 1) * Real.pi) :
    0 < (-1) ^ M * Real.sin φ := by
  have hpi := Real.pi_pos
  have : Real.sin φ = (-1) ^ M * Real.sin (φ - M * Real.pi) := by
    rw [Real.sin_sub_nat_mul_pi, ← mul_assoc, ← pow_add, ← two_mul, pow_mul]; simp
  rw [this, ← mul_assoc, ← pow_add, ← two_mul, pow_mul]
  simp only [even_two, Even.neg_pow, one_pow, one_mul]
  exact Real.sin_pos_of_pos_of_lt_pi (by linarith) (by linarith)

theorem abs_sin_eq {M : ℕ} {φ : ℝ} (h1 : M * Real.pi < φ) (h2 : φ < (M + 1) * Real.pi) :
    |Real.sin φ| = (-1) ^ M * Real.sin φ := by
  have h := neg_one_pow_sin h1 h2
  rw [← abs_of_pos h, abs_mul, abs_pow, abs_neg, abs_one, one_pow, one_mul]

theorem neg_one_pow_mul_self (M : ℕ) : ((-1 : ℝ) ^ M) * (-1) ^ M = 1 := by
  rw [← pow_add, ← two_mul, pow_mul]; simp

/-- value of `y` as a function of `psi` -/
noncomputable def uvY (P A psi : ℝ) : ℝ :=
  P + A * (psi * stumpffSeries 3 psi - 1) / Real.sqrt (stumpffSeries 2 psi)

/-- value of the time of flight as a function of `psi` -/
noncomputable def uvT (μ P A psi : ℝ) : ℝ :=
  (Real.sqrt (uvY P A psi / stumpffSeries 2 psi) ^ 3 * stumpffSeries 3 psi
    + A * Real.sqrt (uvY P A psi)) / Real.sqrt μ

theorem sqrt_c2_sq {φ : ℝ} (hφ : 0 < φ) :
    Real.sqrt (stumpffSeries 2 ((2 * φ) ^ 2)) = |Real.sin φ| / (Real.sqrt 2 * φ) := by
  have hr2 : Real.sqrt 2 ^ 2 = 2 := Real.sq_sqrt (by norm_num)
  rw [series2_half hφ.ne', show Real.sin φ ^ 2 / (2 * φ ^ 2) =
    (|Real.sin φ| / (Real.sqrt 2 * φ)) ^ 2 by rw [div_pow, mul_pow, hr2, sq_abs],
    Real.sqrt_sq (by positivity)]

theorem sqrt_c2_neg_sq {φ : ℝ} (hφ : 0 < φ) :
    Real.sqrt (stumpffSeries 2 (-(2 * φ) ^ 2)) = Real.sinh φ / (Real.sqrt 2 * φ) := by
  have hr2 : Real.sqrt 2 ^ 2 = 2 := Real.sq_sqrt (by norm_num)
  have hsp : 0 < Real.sinh φ := Real.sinh_pos_iff.2 hφ
  rw [series2_neg_half hφ.ne', show Real.sinh φ ^ 2 / (2 * φ ^ 2) =
    (Real.sinh φ / (Real.sqrt 2 * φ)) ^ 2 by rw [div_pow, mul_pow, hr2],
    Real.sqrt_sq (by positivity)]

theorem uvY_sq {P A φ : ℝ} {M : ℕ} (hφ : 0 < φ) (e1 : M * Real.pi < φ)
    (e2 : φ < (M + 1) * Real.pi) :
    uvY P A ((2 * φ) ^ 2) = P - (-1) ^ M * (Real.sqrt 2 * A) * Real.cos φ := by
  have hs := neg_one_pow_sin e1 e2
  have has := abs_sin_eq e1 e2
  have hasp : 0 < |Real.sin φ| := by rw [has]; exact hs
  have hr2p : 0 < Real.sqrt 2 := by positivity
  unfold uvY
  rw [sqrt_c2_sq hφ, series3_sq (by positivity)]
  have hsin : Real.sin φ = (-1) ^ M * |Real.sin φ| := by
    rw [has, ← mul_assoc, neg_one_pow_mul_self, one_mul]
  rw [Real.sin_two_mul, hsin, abs_mul, abs_pow, abs_neg, abs_one, one_pow, one_mul, abs_abs]
  field_simp
  ring

theorem uvT_sq {μ P A φ : ℝ} (hμ : 0 < μ) (hφ : 0 < φ) (hs : Real.sin φ ≠ 0)
    (hy : 0 ≤ uvY P A ((2 * φ) ^ 2)) :
    uvT μ P A ((2 * φ) ^ 2) = Tell μ A (uvY P A ((2 * φ) ^ 2)) φ := by
  have hasp : 0 < |Real.sin φ| := abs_pos.2 hs
  have hr2 : Real.sqrt 2 ^ 2 = 2 := Real.sq_sqrt (by norm_num)
  have hr2p : 0 < Real.sqrt 2 := by positivity
  unfold uvT
  generalize uvY P A ((2 * φ) ^ 2) = y at *
  have hX : Real.sqrt (y / stumpffSeries 2 ((2 * φ) ^ 2)) =
      Real.sqrt y * (Real.sqrt 2 * φ) / |Real.sin φ| := by
    rw [Real.sqrt_div hy, sqrt_c2_sq hφ]
    field_simp
  rw [hX, series3_sq (by positivity), Tell, Real.sqrt_div hy]
  have hys : Real.sqrt y ^ 2 = y := Real.sq_sqrt hy
  have hmp : 0 < Real.sqrt μ := by positivity
  have e3 : (Real.sqrt y * (Real.sqrt 2 * φ) / |Real.sin φ|) ^ 3 =
    Real.sqrt y * y * (2 * Real.sqrt 2 * φ ^ 3) / |Real.sin φ| ^ 3 := by
    rw [div_pow, mul_pow, mul_pow, pow_succ (Real.sqrt y) 2, hys, pow_succ (Real.sqrt 2) 2, hr2]
    ring
  rw [e3]
  field_simp
  linear_combination Real.sqrt y * y * (2 * φ - Real.sin (2 * φ)) * hr2

theorem uvY_neg_sq {P A φ : ℝ} (hφ : 0 < φ) :
    uvY P A (-(2 * φ) ^ 2) = P - Real.sqrt 2 * A * Real.cosh φ := by
  have hsp : 0 < Real.sinh φ := Real.sinh_pos_iff.2 hφ
  have hr2p : 0 < Real.sqrt 2 := by positivity
  unfold uvY
  rw [sqrt_c2_neg_sq hφ, series3_neg_sq (by positivity), Real.sinh_two_mul]
  field_simp
  ring

theorem uvT_neg_sq {μ P A φ : ℝ} (hμ : 0 < μ) (hφ : 0 < φ) (hy : 0 ≤ uvY P A (-(2 * φ) ^ 2)) :
    uvT μ P A (-(2 * φ) ^ 2) = Thyp μ A (uvY P A (-(2 * φ) ^ 2)) φ := by
  have hsp : 0 < Real.sinh φ := Real.sinh_pos_iff.2 hφ
  have hr2 : Real.sqrt 2 ^ 2 = 2 := Real.sq_sqrt (by norm_num)
  have hr2p : 0 < Real.sqrt 2 := by positivity
  unfold uvT
  generalize uvY P A (-(2 * φ) ^ 2) = y at *
  have hX : Real.sqrt (y / stumpffSeries 2 (-(2 * φ) ^ 2)) =
      Real.sqrt y * (Real.sqrt 2 * φ) / Real.sinh φ := by
    rw [Real.sqrt_div hy, sqrt_c2_neg_sq hφ]
    field_simp
  rw [hX, series3_neg_sq (by positivity), Thyp, Real.sqrt_div hy]
  have hys : Real.sqrt y ^ 2 = y := Real.sq_sqrt hy
  have hmp : 0 < Real.sqrt μ := by positivity
  have e3 : (Real.sqrt y * (Real.sqrt 2 * φ) / Real.sinh φ) ^ 3 =
    Real.sqrt y * y * (2 * Real.sqrt 2 * φ ^ 3) / Real.sinh φ ^ 3 := by
    rw [div_pow, mul_pow, mul_pow, pow_succ (Real.sqrt y) 2, hys, pow_succ (Real.sqrt 2) 2, hr2]
    ring
  rw [e3]
  field_simp
  linear_combination Real.sqrt y * y * (Real.sinh (2 * φ) - 2 * φ) * hr2

theorem uvY_zero {P A : ℝ} : uvY P A 0 = P - Real.sqrt 2 * A := by
  have hr2p : 0 < Real.sqrt 2 := by positivity
  unfold uvY
  rw [series2_zero, Real.sqrt_div (by norm_num), Real.sqrt_one]
  field_simp
  ring

theorem uvT_zero {μ P A : ℝ} (hμ : 0 < μ) (hy : 0 ≤ uvY P A 0) :
    uvT μ P A 0 = Tpar μ A (uvY P A 0) := by
  have hr2 : Real.sqrt 2 ^ 2 = 2 := Real.sq_sqrt (by norm_num)
  have hr2p : 0 < Real.sqrt 2 := by positivity
  have hs2 : Real.sqrt (1 / 2) = 1 / Real.sqrt 2 := by
    rw [Real.sqrt_div (by norm_num), Real.sqrt_one]
  unfold uvT
  generalize uvY P A 0 = y at *
  rw [series2_zero, series3_zero, Tpar, Real.sqrt_div hy, Real.sqrt_div hy, hs2]
  have hys : Real.sqrt y ^ 2 = y := Real.sq_sqrt hy
  have hmp : 0 < Real.sqrt μ := by positivity
  have e3 : (Real.sqrt y / (1 / Real.sqrt 2)) ^ 3 = Real.sqrt y * y * (2 * Real.sqrt 2) := by
    rw [div_pow, pow_succ (Real.sqrt y) 2, hys, div_pow, pow_succ (Real.sqrt 2) 2, hr2]
    field_simp
  rw [e3]
  field_simp
  ring

theorem half_sqrt {psi : ℝ} (h : 0 < psi) : ∃ φ : ℝ, 0 < φ ∧ psi = (2 * φ) ^ 2 :=
  ⟨Real.sqrt psi / 2, by positivity, by
    rw [mul_div_cancel₀ _ (by norm_num : (2 : ℝ) ≠ 0), Real.sq_sqrt h.le]⟩

theorem half_sqrt_neg {psi : ℝ} (h : psi < 0) : ∃ φ : ℝ, 0 < φ ∧ psi = -(2 * φ) ^ 2 :=
  ⟨Real.sqrt (-psi) / 2, by have := Real.sqrt_pos.2 (neg_pos.2 h); positivity, by
    rw [mul_div_cancel₀ _ (by norm_num : (2 : ℝ) ≠ 0), Real.sq_sqrt (by linarith)]; ring⟩

/-- The universal-variable equations describe an `M`-revolution path for `psi` between
`(2Mπ)²` and `(2(M+1)π)²`. -/
theorem uv_ell {μ P A psi : ℝ} (hμ : 0 < μ) {M : ℕ} (hp0 : 0 < psi)
    (h1 : (2 * M * Real.pi) ^ 2 < psi) (h2 : psi < (2 * (M + 1) * Real.pi) ^ 2)
    (hy : 0 < uvY P A psi) : Path μ P A M (uvY P A psi) (uvT μ P A psi) := by
  have hpi := Real.pi_pos
  obtain ⟨φ, hφ, rfl⟩ := half_sqrt hp0
  have e1 : M * Real.pi < φ := by
    have := lt_of_pow_lt_pow_left₀ 2 (by positivity) h1; linarith
  have e2 : φ < (M + 1) * Real.pi := by
    have := lt_of_pow_lt_pow_left₀ 2 (by positivity) h2; linarith
  have hs : Real.sin φ ≠ 0 := by
    have := neg_one_pow_sin e1 e2
    intro h; rw [h, mul_zero] at this; exact lt_irrefl _ this
  rw [uvT_sq hμ hφ hs hy.le]
  exact .ell e1 e2 hy (uvY_sq hφ e1 e2)

/-- The universal-variable equations describe a zero-revolution path for every
`psi < 4π²`. -/
theorem uv_path {μ P A psi : ℝ} (hμ : 0 < μ) (hpsi : psi < 4 * Real.pi ^ 2)
    (hy : 0 < uvY P A psi) : Path μ P A 0 (uvY P A psi) (uvT μ P A psi) := by
  rcases lt_trichotomy psi 0 with h | rfl | h
  · obtain ⟨φ, hφ, rfl⟩ := half_sqrt_neg h
    rw [uvT_neg_sq hμ hφ hy.le]
    exact .hyp hφ hy (uvY_neg_sq hφ)
  · rw [uvT_zero hμ hy.le]
    exact .par hy uvY_zero
  · exact uv_ell hμ (M := 0) h (by simpa using h) (by push_cast; linarith) hy

end Lamberthub.LC
