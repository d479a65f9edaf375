import Verif.Model.Delatorre
import Verif.Proofs.PForm
import Verif.Proofs.AssertLemmas
import Mathlib.Analysis.Real.Pi.Bounds

/-! # Lemmas about the model of `delatorre2018` -/

set_option autoImplicit false

namespace Lamberthub
open Spec LC

/-! ### Stumpff functions of order 0 and 1 -/

theorem hasSum_cos0 (x : ℝ) : HasSum (stumpffTerm 0 (x ^ 2)) (Real.cos x) := by
  have e1 : stumpffTerm 0 (x ^ 2) =
      fun n => (-1) ^ n * x ^ (2 * n) / ((2 * n).factorial : ℝ) := by
    funext n
    unfold stumpffTerm
    rw [neg_pow, pow_mul x, add_zero]
  rw [e1]; exact Real.hasSum_cos x

theorem hasSum_cosh0 (x : ℝ) : HasSum (stumpffTerm 0 (-x ^ 2)) (Real.cosh x) := by
  have e1 : stumpffTerm 0 (-x ^ 2) = fun n => x ^ (2 * n) / ((2 * n).factorial : ℝ) := by
    funext n
    unfold stumpffTerm
    rw [neg_neg, pow_mul x, add_zero]
  rw [e1]; exact Real.hasSum_cosh x

theorem hasSum_sin1 {x : ℝ} (hx : x ≠ 0) :
    HasSum (stumpffTerm 1 (x ^ 2)) (Real.sin x / x) := by
  have h := (Real.hasSum_sin x).mul_left x⁻¹
  have e1 : stumpffTerm 1 (x ^ 2) =
      fun n => x⁻¹ * ((-1) ^ n * x ^ (2 * n + 1) / ((2 * n + 1).factorial : ℝ)) := by
    funext n
    unfold stumpffTerm
    rw [neg_pow, pow_add x (2 * n) 1, pow_one, pow_mul x]
    field_simp
  rw [e1, div_eq_inv_mul]; exact h

theorem hasSum_sinh1 {x : ℝ} (hx : x ≠ 0) :
    HasSum (stumpffTerm 1 (-x ^ 2)) (Real.sinh x / x) := by
  have h := (Real.hasSum_sinh x).mul_left x⁻¹
  have e1 : stumpffTerm 1 (-x ^ 2) =
      fun n => x⁻¹ * (x ^ (2 * n + 1) / ((2 * n + 1).factorial : ℝ)) := by
    funext n
    unfold stumpffTerm
    rw [neg_neg, pow_add x (2 * n) 1, pow_one, pow_mul x]
    field_simp
  rw [e1, div_eq_inv_mul]; exact h

theorem series0_sq (x : ℝ) : stumpffSeries 0 (x ^ 2) = Real.cos x := (hasSum_cos0 x).tsum_eq
theorem series0_neg_sq (x : ℝ) : stumpffSeries 0 (-x ^ 2) = Real.cosh x := (hasSum_cosh0 x).tsum_eq
theorem series1_sq {x : ℝ} (hx : x ≠ 0) : stumpffSeries 1 (x ^ 2) = Real.sin x / x :=
  (hasSum_sin1 hx).tsum_eq
theorem series1_neg_sq {x : ℝ} (hx : x ≠ 0) : stumpffSeries 1 (-x ^ 2) = Real.sinh x / x :=
  (hasSum_sinh1 hx).tsum_eq
theorem series0_zero : stumpffSeries 0 0 = 1 := by
  have := (hasSum_zero 0).tsum_eq; simpa [stumpffSeries] using this
theorem series1_zero : stumpffSeries 1 0 = 1 := by
  have := (hasSum_zero 1).tsum_eq; simpa [stumpffSeries] using this

namespace Delatorre

theorem stumpff0_eq (z : ℝ) : stumpff0 z = .ok (stumpffSeries 0 z) := by
  unfold stumpff0
  split
  · rename_i h
    have h0 : 0 < z := by norm_num at h ⊢; linarith
    rw [psqrt_eq h0.le, ok_bind]
    congr 1
    conv_rhs => rw [← Real.sq_sqrt h0.le, series0_sq]
  · split
    · rename_i h
      have h0 : 0 < -z := by norm_num at h ⊢; linarith
      rw [psqrt_eq h0.le, ok_bind]
      congr 1
      have h1 : z = -(Real.sqrt (-z)) ^ 2 := by rw [Real.sq_sqrt h0.le]; ring
      conv_rhs => rw [h1, series0_neg_sq]
    · rfl

theorem stumpff1_eq (z : ℝ) : stumpff1 z = .ok (stumpffSeries 1 z) := by
  unfold stumpff1
  split
  · rename_i h
    have h0 : 0 < z := by norm_num at h ⊢; linarith
    have hs := Real.sqrt_pos.2 h0
    rw [psqrt_eq h0.le, ok_bind, pdiv_eq hs.ne']
    congr 1
    conv_rhs => rw [← Real.sq_sqrt h0.le, series1_sq hs.ne']
  · split
    · rename_i h
      have h0 : 0 < -z := by norm_num at h ⊢; linarith
      have hs := Real.sqrt_pos.2 h0
      rw [psqrt_eq h0.le, ok_bind, pdiv_eq hs.ne']
      congr 1
      have h1 : z = -(Real.sqrt (-z)) ^ 2 := by rw [Real.sq_sqrt h0.le]; ring
      conv_rhs => rw [h1, series1_neg_sq hs.ne']
    · rfl

theorem stumpff2_eq (z : ℝ) : stumpff2 z = .ok (stumpffSeries 2 z) := by
  unfold stumpff2
  split
  · rename_i h
    have h0 : 0 < z := by norm_num at h ⊢; linarith
    have hs := Real.sqrt_pos.2 h0
    rw [psqrt_eq h0.le, ok_bind, pdiv_eq h0.ne']
    congr 1
    conv_rhs => rw [← Real.sq_sqrt h0.le, series2_sq hs.ne', Real.sq_sqrt h0.le]
  · split
    · rename_i h
      have h0 : 0 < -z := by norm_num at h ⊢; linarith
      have hs := Real.sqrt_pos.2 h0
      rw [psqrt_eq h0.le, ok_bind, pdiv_eq h0.ne']
      congr 1
      have h1 : z = -(Real.sqrt (-z)) ^ 2 := by rw [Real.sq_sqrt h0.le]; ring
      conv_rhs => rw [h1, series2_neg_sq hs.ne', Real.sq_sqrt h0.le]
    · rfl

theorem stumpff3_eq (z : ℝ) : stumpff3 z = .ok (stumpffSeries 3 z) := by
  unfold stumpff3
  split
  · rename_i h
    have h0 : 0 < z := by norm_num at h ⊢; linarith
    have hs := Real.sqrt_pos.2 h0
    rw [psqrt_eq h0.le, ok_bind, pdiv_eq (by positivity)]
    congr 1
    conv_rhs => rw [← Real.sq_sqrt h0.le, series3_sq hs.ne']
    rw [pow_succ, Real.sq_sqrt h0.le]
  · split
    · rename_i h
      have h0 : 0 < -z := by norm_num at h ⊢; linarith
      have hs := Real.sqrt_pos.2 h0
      rw [psqrt_eq h0.le, ok_bind, pdiv_eq (by positivity)]
      congr 1
      have h1 : z = -(Real.sqrt (-z)) ^ 2 := by rw [Real.sq_sqrt h0.le]; ring
      conv_rhs => rw [h1, series3_neg_sq hs.ne', pow_succ, Real.sq_sqrt h0.le]
    · rfl

/-! ### the time equation -/

/-- `V` as a function of `z` -/
noncomputable def VofZ (P Q z : ℝ) : ℝ := P - Q * stumpffSeries 0 z

/-- the single-revolution part of the time equation -/
noncomputable def T0 (P Q mu z : ℝ) : ℝ :=
  (2 * P * stumpffSeries 3 (4 * z) + Q * (stumpffSeries 1 z * stumpffSeries 2 (4 * z)
    - 2 * stumpffSeries 0 z * stumpffSeries 3 (4 * z))) * Real.sqrt (2 * VofZ P Q z / mu) /
    stumpffSeries 1 z ^ 3

/-- the multi-revolution part -/
noncomputable def T1 (P Q mu z : ℝ) (M : ℤ) : ℝ :=
  M * Real.pi * Real.sqrt (VofZ P Q z ^ 3 / (2 * mu * z ^ 3)) / stumpffSeries 1 z ^ 3

theorem tofEquation_ok {P Q mu z t : ℝ} {M : ℤ} (hmu : 0 < mu)
    (h : tofEquation P Q mu z M = .ok t) :
    0 ≤ VofZ P Q z ∧ stumpffSeries 1 z ≠ 0 ∧
      t = T0 P Q mu z + (if M = 0 then 0 else T1 P Q mu z M) := by
  unfold tofEquation at h
  simp only [stumpff0_eq, stumpff1_eq, stumpff2_eq, stumpff3_eq, ok_bind, bind_ok, pdiv_ok,
    psqrt_ok] at h
  obtain ⟨q, ⟨_, rfl⟩, s, ⟨hs, rfl⟩, first, ⟨hc, rfl⟩, h⟩ := h
  have hV : 0 ≤ VofZ P Q z := by
    have := div_nonneg_iff.1 hs
    rcases this with ⟨h, _⟩ | ⟨_, h⟩
    · unfold VofZ; linarith
    · linarith
  refine ⟨hV, ?_, ?_⟩
  · intro h0; apply hc; rw [h0]; norm_num
  · split at h
    · rename_i hM
      rw [if_pos hM, add_zero]; exact (Except.ok.inj h).symm
    · rename_i hM
      simp only [bind_ok, pdiv_ok, psqrt_ok] at h
      obtain ⟨_, ⟨_, rfl⟩, _, ⟨_, rfl⟩, _, ⟨_, rfl⟩, h⟩ := h
      rw [if_neg hM]; exact (Except.ok.inj h).symm

/-- elliptic form of the first part -/
theorem T0_sq {P A mu φ : ℝ} (hφ : φ ≠ 0) (hs : Real.sin φ ≠ 0) :
    T0 P (Real.sqrt 2 * A) mu (φ ^ 2) =
      Real.sqrt (VofZ P (Real.sqrt 2 * A) (φ ^ 2) / mu) *
        (VofZ P (Real.sqrt 2 * A) (φ ^ 2) * (2 * φ - Real.sin (2 * φ)) /
          (2 * Real.sqrt 2 * Real.sin φ ^ 3) + A) := by
  have e4 : (4 : ℝ) * φ ^ 2 = (2 * φ) ^ 2 := by ring
  have hr2 : Real.sqrt 2 ^ 2 = 2 := Real.sq_sqrt (by norm_num)
  have hr2p : 0 < Real.sqrt 2 := by positivity
  have hVeq : VofZ P (Real.sqrt 2 * A) (φ ^ 2) = P - Real.sqrt 2 * A * Real.cos φ := by
    unfold VofZ; rw [series0_sq]
  unfold T0
  rw [e4, series3_sq (by positivity), series2_half hφ, series1_sq hφ, series0_sq]
  have hsq : Real.sqrt (2 * VofZ P (Real.sqrt 2 * A) (φ ^ 2) / mu) =
      Real.sqrt 2 * Real.sqrt (VofZ P (Real.sqrt 2 * A) (φ ^ 2) / mu) := by
    rw [mul_div_assoc, Real.sqrt_mul (by norm_num)]
  rw [hsq]
  rw [hVeq]
  generalize Real.sqrt ((P - Real.sqrt 2 * A * Real.cos φ) / mu) = G
  have key : (2 * P * ((2 * φ - Real.sin (2 * φ)) / (2 * φ) ^ 3) +
      Real.sqrt 2 * A * (Real.sin φ / φ * (Real.sin φ ^ 2 / (2 * φ ^ 2)) -
        2 * Real.cos φ * ((2 * φ - Real.sin (2 * φ)) / (2 * φ) ^ 3))) * (Real.sqrt 2 * G) /
      (Real.sin φ / φ) ^ 3 =
      G * Real.sqrt 2 * ((P - Real.sqrt 2 * A * Real.cos φ) * (2 * φ - Real.sin (2 * φ)) / 4 +
        Real.sqrt 2 * A * Real.sin φ ^ 3 / 2) / Real.sin φ ^ 3 := by
    field_simp
    ring
  rw [key]
  field_simp
  linear_combination (2 * G * (P - Real.sqrt 2 * A * Real.cos φ) * (2 * φ - Real.sin (2 * φ))
    + 4 * G * Real.sqrt 2 * A * Real.sin φ ^ 3) * hr2

theorem T0_neg_sq {P A mu φ : ℝ} (hφ : 0 < φ) :
    T0 P (Real.sqrt 2 * A) mu (-φ ^ 2) =
      Thyp mu A (VofZ P (Real.sqrt 2 * A) (-φ ^ 2)) φ := by
  have hs : 0 < Real.sinh φ := Real.sinh_pos_iff.2 hφ
  have e4 : (4 : ℝ) * -φ ^ 2 = -(2 * φ) ^ 2 := by ring
  have hr2 : Real.sqrt 2 ^ 2 = 2 := Real.sq_sqrt (by norm_num)
  have hr2p : 0 < Real.sqrt 2 := by positivity
  have hVeq : VofZ P (Real.sqrt 2 * A) (-φ ^ 2) = P - Real.sqrt 2 * A * Real.cosh φ := by
    unfold VofZ; rw [series0_neg_sq]
  unfold T0 Thyp
  rw [e4, series3_neg_sq (by positivity), series2_neg_half hφ.ne', series1_neg_sq hφ.ne',
    series0_neg_sq]
  have hsq : Real.sqrt (2 * VofZ P (Real.sqrt 2 * A) (-φ ^ 2) / mu) =
      Real.sqrt 2 * Real.sqrt (VofZ P (Real.sqrt 2 * A) (-φ ^ 2) / mu) := by
    rw [mul_div_assoc, Real.sqrt_mul (by norm_num)]
  rw [hsq, hVeq]
  generalize Real.sqrt ((P - Real.sqrt 2 * A * Real.cosh φ) / mu) = G
  have key : (2 * P * ((Real.sinh (2 * φ) - 2 * φ) / (2 * φ) ^ 3) +
      Real.sqrt 2 * A * (Real.sinh φ / φ * (Real.sinh φ ^ 2 / (2 * φ ^ 2)) -
        2 * Real.cosh φ * ((Real.sinh (2 * φ) - 2 * φ) / (2 * φ) ^ 3))) * (Real.sqrt 2 * G) /
      (Real.sinh φ / φ) ^ 3 =
      G * Real.sqrt 2 * ((P - Real.sqrt 2 * A * Real.cosh φ) * (Real.sinh (2 * φ) - 2 * φ) / 4 +
        Real.sqrt 2 * A * Real.sinh φ ^ 3 / 2) / Real.sinh φ ^ 3 := by
    field_simp
    ring
  rw [key]
  field_simp
  linear_combination (2 * G * (P - Real.sqrt 2 * A * Real.cosh φ) * (Real.sinh (2 * φ) - 2 * φ)
    + 4 * G * Real.sqrt 2 * A * Real.sinh φ ^ 3) * hr2

theorem T0_zero {P A mu : ℝ} :
    T0 P (Real.sqrt 2 * A) mu 0 = Tpar mu A (VofZ P (Real.sqrt 2 * A) 0) := by
  have hr2 : Real.sqrt 2 ^ 2 = 2 := Real.sq_sqrt (by norm_num)
  have hVeq : VofZ P (Real.sqrt 2 * A) 0 = P - Real.sqrt 2 * A := by
    unfold VofZ; rw [series0_zero]; ring
  unfold T0 Tpar
  have hsq : Real.sqrt (2 * VofZ P (Real.sqrt 2 * A) 0 / mu) =
      Real.sqrt 2 * Real.sqrt (VofZ P (Real.sqrt 2 * A) 0 / mu) := by
    rw [mul_div_assoc, Real.sqrt_mul (by norm_num)]
  rw [hsq, hVeq, mul_zero, series0_zero, series1_zero, series2_zero, series3_zero]
  generalize Real.sqrt ((P - Real.sqrt 2 * A) / mu) = G
  linear_combination (G * A / 2) * hr2

theorem VofZ_sq {P Q φ : ℝ} : VofZ P Q (φ ^ 2) = P - Q * Real.cos φ := by
  unfold VofZ; rw [series0_sq]

theorem pos_sq {z : ℝ} (h : 0 < z) : ∃ φ : ℝ, 0 < φ ∧ z = φ ^ 2 :=
  ⟨Real.sqrt z, Real.sqrt_pos.2 h, (Real.sq_sqrt h.le).symm⟩

theorem neg_sq' {z : ℝ} (h : z < 0) : ∃ φ : ℝ, 0 < φ ∧ z = -φ ^ 2 :=
  ⟨Real.sqrt (-z), Real.sqrt_pos.2 (by linarith), by rw [Real.sq_sqrt (by linarith)]; ring⟩

/-- zero revolutions -/
theorem path_zero {P A mu z : ℝ} (hz : z < Real.pi ^ 2)
    (hV : 0 < VofZ P (Real.sqrt 2 * A) z) :
    Path mu P A 0 (VofZ P (Real.sqrt 2 * A) z) (T0 P (Real.sqrt 2 * A) mu z) := by
  have hpi := Real.pi_pos
  rcases lt_trichotomy z 0 with h | rfl | h
  · obtain ⟨φ, hφ, rfl⟩ := neg_sq' h
    rw [T0_neg_sq hφ]
    refine .hyp hφ hV ?_
    unfold VofZ; rw [series0_neg_sq]
  · rw [T0_zero]
    refine .par hV ?_
    unfold VofZ; rw [series0_zero]; ring
  · obtain ⟨φ, hφ, rfl⟩ := pos_sq h
    have hφ2 : φ < Real.pi := lt_of_pow_lt_pow_left₀ 2 hpi.le hz
    have hs := Real.sin_pos_of_pos_of_lt_pi hφ hφ2
    have : T0 P (Real.sqrt 2 * A) mu (φ ^ 2) = Tell mu A (VofZ P (Real.sqrt 2 * A) (φ ^ 2)) φ := by
      rw [T0_sq hφ.ne' hs.ne', Tell, abs_of_pos hs]
    rw [this]
    refine .ell (by simpa using hφ) (by push_cast; linarith) hV ?_
    rw [VofZ_sq]; ring

/-- `M ≥ 1` revolutions -/
theorem path_multi {P A mu z : ℝ} {M : ℕ} (hmu : 0 < mu) (hz0 : 0 < z)
    (hz : z < Real.pi ^ 2) (hV : 0 < VofZ P (Real.sqrt 2 * A) z) :
    Path mu P A M (VofZ P (Real.sqrt 2 * A) z)
      (T0 P (Real.sqrt 2 * A) mu z + T1 P (Real.sqrt 2 * A) mu z M) := by
  have hpi := Real.pi_pos
  obtain ⟨φ, hφ, rfl⟩ := pos_sq hz0
  have hφ2 : φ < Real.pi := lt_of_pow_lt_pow_left₀ 2 hpi.le hz
  have hs := Real.sin_pos_of_pos_of_lt_pi hφ hφ2
  obtain ⟨V, hVd⟩ : ∃ V, V = VofZ P (Real.sqrt 2 * A) (φ ^ 2) := ⟨_, rfl⟩
  have hr2 : Real.sqrt 2 ^ 2 = 2 := Real.sq_sqrt (by norm_num)
  have hsin : Real.sin (φ + M * Real.pi) = (-1) ^ M * Real.sin φ := Real.sin_add_nat_mul_pi φ M
  have hcos : Real.cos (φ + M * Real.pi) = (-1) ^ M * Real.cos φ := Real.cos_add_nat_mul_pi φ M
  have hsin2 : Real.sin (2 * (φ + M * Real.pi)) = Real.sin (2 * φ) := by
    rw [show 2 * (φ + M * Real.pi) = 2 * φ + M * (2 * Real.pi) by ring,
      Real.sin_add_nat_mul_two_pi]
  have habs : |Real.sin (φ + M * Real.pi)| = Real.sin φ := by
    rw [hsin, abs_mul, abs_pow, abs_neg, abs_one, one_pow, one_mul, abs_of_pos hs]
  have hT1 : T1 P (Real.sqrt 2 * A) mu (φ ^ 2) M =
      Real.sqrt (V / mu) * (V * (2 * (M * Real.pi)) / (2 * Real.sqrt 2 * Real.sin φ ^ 3)) := by
    unfold T1
    rw [← hVd, series1_sq hφ.ne']
    have : Real.sqrt (V ^ 3 / (2 * mu * (φ ^ 2) ^ 3)) =
        Real.sqrt (V / mu) * V / (Real.sqrt 2 * φ ^ 3) := by
      rw [show V ^ 3 / (2 * mu * (φ ^ 2) ^ 3) = (V / mu) * (V / (Real.sqrt 2 * φ ^ 3)) ^ 2 by
        rw [div_pow, mul_pow, hr2]; field_simp]
      rw [Real.sqrt_mul (by rw [hVd]; positivity), Real.sqrt_sq (by rw [hVd]; positivity)]
      ring
    rw [this]
    push_cast
    field_simp
  have : T0 P (Real.sqrt 2 * A) mu (φ ^ 2) + T1 P (Real.sqrt 2 * A) mu (φ ^ 2) M =
      Tell mu A V (φ + M * Real.pi) := by
    rw [hT1, T0_sq hφ.ne' hs.ne', Tell, habs, hsin2, ← hVd]
    ring
  rw [this, ← hVd]
  refine .ell (by linarith) (by linarith) (by rw [hVd]; exact hV) ?_
  rw [hcos, hVd, VofZ_sq]
  linear_combination (Real.sqrt 2 * A * Real.cos φ) * neg_one_pow_mul_self M

/-- Beyond `π²` (up to `4π²`) the time equation is not positive. -/
theorem T0_nonpos {P A mu z : ℝ} (hPQ : |Real.sqrt 2 * A| ≤ P) (h1 : Real.pi ^ 2 < z)
    (h2 : z < 4 * Real.pi ^ 2) : T0 P (Real.sqrt 2 * A) mu z ≤ 0 := by
  have hpi := Real.pi_pos
  have hpi2 := Real.two_le_pi
  obtain ⟨φ, hφ, rfl⟩ := pos_sq (lt_trans (by positivity) h1)
  have hφ1 : Real.pi < φ := lt_of_pow_lt_pow_left₀ 2 hφ.le h1
  have hφ2 : φ < 2 * Real.pi := lt_of_pow_lt_pow_left₀ 2 (by positivity) (by linarith)
  have hs : Real.sin φ < 0 := by
    have := Real.sin_pos_of_pos_of_lt_pi (x := φ - Real.pi) (by linarith) (by linarith)
    rw [Real.sin_sub_pi] at this; linarith
  rw [T0_sq hφ.ne' hs.ne, VofZ_sq]
  apply mul_nonpos_of_nonneg_of_nonpos (Real.sqrt_nonneg _)
  have hr2 : Real.sqrt 2 ^ 2 = 2 := Real.sq_sqrt (by norm_num)
  have hr2p : 0 < Real.sqrt 2 := by positivity
  obtain ⟨Q, hQ⟩ : ∃ Q, Q = Real.sqrt 2 * A := ⟨_, rfl⟩
  have hA : A = Q / Real.sqrt 2 := by rw [hQ]; field_simp
  rw [← hQ] at hPQ
  have hV : |Q| * Real.sin φ ^ 2 / 2 ≤ P - Q * Real.cos φ := by
    have h3 : |Q| * (1 - |Real.cos φ|) ≤ P - Q * Real.cos φ := by
      have := le_abs_self (Q * Real.cos φ)
      rw [abs_mul] at this
      linarith
    have h4 : Real.sin φ ^ 2 / 2 ≤ 1 - |Real.cos φ| := by
      have := Real.abs_cos_le_one φ
      have h5 := Real.sin_sq_add_cos_sq φ
      rw [← sq_abs (Real.cos φ)] at h5
      nlinarith [abs_nonneg (Real.cos φ)]
    have := mul_le_mul_of_nonneg_left h4 (abs_nonneg Q)
    linarith
  have hw : 2 ≤ 2 * φ - Real.sin (2 * φ) := by
    have := Real.sin_le_one (2 * φ); linarith
  have hs1 : -1 ≤ Real.sin φ := Real.neg_one_le_sin φ
  have hnum : 0 ≤ (P - Q * Real.cos φ) * (2 * φ - Real.sin (2 * φ)) + 2 * Q * Real.sin φ ^ 3 := by
    have hsQ : 0 ≤ |Q| * Real.sin φ ^ 2 := by positivity
    have a1 : |Q| * Real.sin φ ^ 2 / 2 * 4 ≤
        (P - Q * Real.cos φ) * (2 * φ - Real.sin (2 * φ)) := by
      have h6 : (3 : ℝ) ≤ 2 * φ - 1 := by linarith
      have h7 : 4 ≤ 2 * φ - Real.sin (2 * φ) ∨ 2 * φ - Real.sin (2 * φ) < 4 := le_or_gt _ _
      rcases h7 with h7 | h7
      · exact mul_le_mul hV h7 (by norm_num) (by linarith)
      · exfalso
        have hpi3 := Real.pi_gt_three
        have := Real.sin_le_one (2 * φ)
        linarith
    have a2 : -(2 * Q * Real.sin φ ^ 3) ≤ 2 * (|Q| * Real.sin φ ^ 2) := by
      have : -(Q * Real.sin φ) ≤ |Q| := by
        have := neg_abs_le (Q * Real.sin φ)
        have h8 : |Q * Real.sin φ| ≤ |Q| := by
          rw [abs_mul]; exact mul_le_of_le_one_right (abs_nonneg _) (Real.abs_sin_le_one φ)
        linarith
      nlinarith [sq_nonneg (Real.sin φ)]
    linarith
  have h3neg : 2 * Real.sqrt 2 * Real.sin φ ^ 3 < 0 := by
    have : Real.sin φ ^ 3 < 0 := by
      have : 0 < (-Real.sin φ) ^ 3 := pow_pos (by linarith) 3
      rw [neg_pow] at this; norm_num at this; exact this
    exact mul_neg_of_pos_of_neg (by positivity) this
  have : (P - Real.sqrt 2 * A * Real.cos φ) * (2 * φ - Real.sin (2 * φ)) /
      (2 * Real.sqrt 2 * Real.sin φ ^ 3) + A =
      ((P - Q * Real.cos φ) * (2 * φ - Real.sin (2 * φ)) + 2 * Q * Real.sin φ ^ 3) /
        (2 * Real.sqrt 2 * Real.sin φ ^ 3) := by
    rw [← hQ, hA]
    have := hs.ne
    field_simp
  rw [this]
  exact div_nonpos_of_nonneg_of_nonpos hnum h3neg.le

/-! ### the loops -/

/-- a set closed under convex combinations of two points -/
def Seg (S : Set ℝ) : Prop := ∀ a ∈ S, ∀ b ∈ S, ∀ t, 0 ≤ t → t ≤ 1 → a + t * (b - a) ∈ S

theorem Seg.mid {S : Set ℝ} (h : Seg S) {a b : ℝ} (ha : a ∈ S) (hb : b ∈ S) :
    0.5 * (a + b) ∈ S := by
  have := h a ha b hb (1 / 2) (by norm_num) (by norm_num)
  rwa [show a + 1 / 2 * (b - a) = 0.5 * (a + b) by norm_num; ring] at this

theorem Seg.between {S : Set ℝ} (h : Seg S) {a b c : ℝ} (ha : a ∈ S) (hb : b ∈ S) (h1 : a < c)
    (h2 : c < b) : c ∈ S := by
  have hab : 0 < b - a := by linarith
  have := h a ha b hb ((c - a) / (b - a)) (div_nonneg (by linarith) hab.le)
    ((div_le_one hab).2 (by linarith))
  rwa [div_mul_cancel₀ _ hab.ne', add_sub_cancel] at this

theorem comb_lt {x y t b : ℝ} (h5 : 0 ≤ t) (h6 : t ≤ 1) (h1 : x < b) (h2 : y < b) :
    x + t * (y - x) < b := by
  rcases le_total x y with h | h
  · have := mul_le_mul_of_nonneg_right h6 (sub_nonneg.2 h); linarith
  · have := mul_nonneg h5 (sub_nonneg.2 h); linarith

theorem lt_comb {x y t a : ℝ} (h5 : 0 ≤ t) (h6 : t ≤ 1) (h1 : a < x) (h2 : a < y) :
    a < x + t * (y - x) := by
  rcases le_total x y with h | h
  · have := mul_nonneg h5 (sub_nonneg.2 h); linarith
  · have := mul_le_mul_of_nonneg_right h6 (sub_nonneg.2 h); linarith

theorem seg_Ioo (a b : ℝ) : Seg (Set.Ioo a b) :=
  fun _ h1 _ h2 _ h5 h6 => ⟨lt_comb h5 h6 h1.1 h2.1, comb_lt h5 h6 h1.2 h2.2⟩

theorem seg_Iio (b : ℝ) : Seg (Set.Iio b) :=
  fun _ h1 _ h2 _ h5 h6 => comb_lt h5 h6 h1 h2

theorem nextZ_mem {S : Set ℝ} (hS : Seg S) (F : ℝ → Py ℝ) {f z zl zh : ℝ} (hl : zl ∈ S)
    (hh : zh ∈ S) : nextZ F f z zl zh ∈ S := by
  unfold nextZ
  split
  · exact hS.mid hl hh
  · split
    · exact hS.mid hl hh
    · split
      · exact hS.mid hl hh
      · rename_i h
        push Not at h
        exact hS.between hl hh h.1 h.2

theorem bracketLoop_ok {S : Set ℝ} (hS : Seg S) {F : ℝ → Py ℝ} {tof atol rtol : ℝ} :
    ∀ {n k : ℕ} {z zl zh fl : ℝ} {zr : ℝ} {kr : ℕ}, z ∈ S → zl ∈ S → zh ∈ S →
      bracketLoop F tof atol rtol n k z zl zh fl = .ok (zr, kr) →
      zr ∈ S ∧ (∃ t, F zr = .ok t ∧ |t - tof| ≤ atol + rtol * tof) ∧ k ≤ kr ∧ kr < k + n := by
  intro n
  induction n with
  | zero => intro k z zl zh fl zr kr _ _ _ h; simp [bracketLoop] at h
  | succ n ih =>
    intro k z zl zh fl zr kr hz hl hh h
    unfold bracketLoop at h
    simp only [bind_ok] at h
    obtain ⟨t, ht, h⟩ := h
    split at h
    · rename_i hle
      obtain ⟨rfl, rfl⟩ : z = zr ∧ k = kr := by simpa using h
      exact ⟨hz, ⟨t, ht, hle⟩, le_refl _, by omega⟩
    · split at h
      · obtain ⟨a, b, c, d⟩ := ih (nextZ_mem hS F hl hz) hl hz h
        exact ⟨a, b, by omega, by omega⟩
      · obtain ⟨a, b, c, d⟩ := ih (nextZ_mem hS F hz hh) hz hh h
        exact ⟨a, b, by omega, by omega⟩

/-- What `_solve_bracketed` returns. -/
theorem solveBracketed_ok {S : Set ℝ} (hS : Seg S) {F : ℝ → Py ℝ} {tof atol rtol zl zh : ℝ}
    {n : ℕ} {zr : ℝ} {kr : ℕ} (hl : zl ∈ S) (hh : zh ∈ S)
    (h : solveBracketed F tof zl zh n atol rtol = .ok (zr, kr)) :
    zr ∈ S ∧ (∃ t, F zr = .ok t ∧ (t = tof ∨ |t - tof| ≤ atol + rtol * tof)) ∧ 1 ≤ kr ∧
      kr ≤ max 1 n := by
  unfold solveBracketed at h
  simp only [bind_ok] at h
  obtain ⟨tl, htl, th, hth, h⟩ := h
  split at h
  · rename_i h0
    obtain ⟨rfl, rfl⟩ : zl = zr ∧ 1 = kr := by simpa using h
    exact ⟨hl, ⟨tl, htl, .inl (by linarith)⟩, le_refl _, le_max_left _ _⟩
  · split at h
    · rename_i h0
      obtain ⟨rfl, rfl⟩ : zh = zr ∧ 1 = kr := by simpa using h
      exact ⟨hh, ⟨th, hth, .inl (by linarith)⟩, le_refl _, le_max_left _ _⟩
    · split at h
      · cases h
      · obtain ⟨a, ⟨t, b, c⟩, d, e⟩ := bracketLoop_ok hS (hS.mid hl hh) hl hh h
        exact ⟨a, ⟨t, b, .inr c⟩, d, le_trans (by omega) (le_max_right _ _)⟩

theorem gr_mem : 0 < gr ∧ gr < 1 := by
  unfold gr
  have h1 : (2 : ℝ) < Real.sqrt 5 := by
    rw [show (2 : ℝ) = Real.sqrt (2 ^ 2) by rw [Real.sqrt_sq (by norm_num)]]
    exact Real.sqrt_lt_sqrt (by norm_num) (by norm_num)
  have h2 : Real.sqrt 5 < 3 := by
    rw [show (3 : ℝ) = Real.sqrt (3 ^ 2) by rw [Real.sqrt_sq (by norm_num)]]
    exact Real.sqrt_lt_sqrt (by norm_num) (by norm_num)
  constructor <;> linarith

theorem goldenStep_mem {S : Set ℝ} (hS : Seg S) {F : ℝ → Py ℝ} {s s' : Golden}
    (h : goldenStep F s = .ok s') (h1 : s.zLow ∈ S) (h2 : s.zHigh ∈ S) (h3 : s.z1 ∈ S)
    (h4 : s.z2 ∈ S) : s'.zLow ∈ S ∧ s'.zHigh ∈ S ∧ s'.z1 ∈ S ∧ s'.z2 ∈ S := by
  have hg := gr_mem
  unfold goldenStep at h
  split at h
  · simp only [bind_ok] at h
    obtain ⟨t, _, h⟩ := h
    have h := (Except.ok.inj h).symm
    subst h
    exact ⟨h3, h2, h4, hS _ h3 _ h2 _ hg.1.le hg.2.le⟩
  · simp only [bind_ok] at h
    obtain ⟨t, _, h⟩ := h
    have h := (Except.ok.inj h).symm
    subst h
    refine ⟨h1, h4, ?_, h3⟩
    have := hS _ h4 _ h1 _ hg.1.le hg.2.le
    rwa [show s.z2 + gr * (s.zLow - s.z2) = s.z2 - gr * (s.z2 - s.zLow) by ring] at this

theorem goldenLoop_mem {S : Set ℝ} (hS : Seg S) {F : ℝ → Py ℝ} {atol rtol : ℝ} :
    ∀ {n : ℕ} {s s' : Golden}, goldenLoop F atol rtol n s = .ok s' → s.zLow ∈ S → s.zHigh ∈ S →
      s.z1 ∈ S → s.z2 ∈ S → s'.zLow ∈ S ∧ s'.zHigh ∈ S := by
  intro n
  induction n with
  | zero => intro s s' h h1 h2 _ _; cases h; exact ⟨h1, h2⟩
  | succ n ih =>
    intro s s' h h1 h2 h3 h4
    unfold goldenLoop at h
    simp only [bind_ok] at h
    obtain ⟨a, ha, h⟩ := h
    obtain ⟨i1, i2, i3, i4⟩ := goldenStep_mem hS ha h1 h2 h3 h4
    split at h
    · cases h; exact ⟨i1, i2⟩
    · exact ih h i1 i2 i3 i4

theorem goldenSearch_mem {S : Set ℝ} (hS : Seg S) {F : ℝ → Py ℝ} {atol rtol zl zh : ℝ} {n : ℕ}
    {zm t : ℝ} (h : goldenSearch F atol rtol zl zh n = .ok (zm, t)) (hl : zl ∈ S) (hh : zh ∈ S) :
    zm ∈ S ∧ F zm = .ok t := by
  have hg := gr_mem
  unfold goldenSearch at h
  simp only [bind_ok] at h
  obtain ⟨t1, _, t2, _, s, hs, t', ht', h⟩ := h
  obtain ⟨rfl, rfl⟩ : 0.5 * (s.zLow + s.zHigh) = zm ∧ t' = t := by simpa using h
  obtain ⟨a, b⟩ := goldenLoop_mem hS hs hl hh (by
    have := hS _ hh _ hl _ hg.1.le hg.2.le
    rwa [show zh + gr * (zl - zh) = zh - gr * (zh - zl) by ring] at this)
    (hS _ hl _ hh _ hg.1.le hg.2.le)
  exact ⟨hS.mid a b, ht'⟩

end Delatorre
end Lamberthub
