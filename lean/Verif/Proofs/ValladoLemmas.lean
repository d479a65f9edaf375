import Verif.Model.Vallado
import Verif.Proofs.AngleLemmas
import Verif.Proofs.Path
import Verif.Proofs.AssertLemmas

/-! # Lemmas about the model of `vallado2013` -/

set_option autoImplicit false

namespace Lamberthub
open Spec LC

namespace Vallado

theorem yAtPsi_ok {psi R1 R2 A y : ℝ} (h : yAtPsi psi R1 R2 A = .ok y) :
    0 < stumpffSeries 2 psi ∧ y = uvY (R1 + R2) A psi := by
  unfold yAtPsi at h
  simp only [c3_eq, c2_eq, ok_bind, bind_ok, psqrt_ok, pdiv_ok] at h
  obtain ⟨sd, ⟨h0, rfl⟩, q, ⟨h1, rfl⟩, h2⟩ := h
  exact ⟨Real.sqrt_pos.1 (lt_of_le_of_ne (Real.sqrt_nonneg _) (Ne.symm h1)),
    (Except.ok.inj h2).symm⟩

theorem yAtPsi_eq {psi R1 R2 A : ℝ} (h : 0 < stumpffSeries 2 psi) :
    yAtPsi psi R1 R2 A = .ok (uvY (R1 + R2) A psi) := by
  unfold yAtPsi
  simp only [c3_eq, c2_eq, ok_bind]
  rw [psqrt_eq h.le, ok_bind, pdiv_eq (Real.sqrt_pos.2 h).ne']; rfl

theorem sum_sq_gt {R1 R2 A : ℝ} (hA2 : A ^ 2 < 2 * (R1 * R2)) : 2 * A ^ 2 < (R1 + R2) ^ 2 := by
  nlinarith [sq_nonneg (R1 - R2)]

/-- For non-negative arguments below `4π²`, `y` is positive. -/
theorem uvY_pos_of {R1 R2 A psi : ℝ} (hR1 : 0 < R1) (hR2 : 0 < R2) (hA2 : 2 * A ^ 2 < (R1 + R2) ^ 2)
    (h0 : 0 ≤ psi) (h1 : psi < 4 * Real.pi ^ 2) : 0 < uvY (R1 + R2) A psi := by
  have hr2 : Real.sqrt 2 ^ 2 = 2 := Real.sq_sqrt (by norm_num)
  have hr2p : 0 < Real.sqrt 2 := by positivity
  have hb : |Real.sqrt 2 * A| < R1 + R2 := by
    apply abs_lt_of_sq_lt_sq _ (by positivity)
    rw [mul_pow, hr2]; exact hA2
  rcases h0.lt_or_eq with h | rfl
  · obtain ⟨φ, hφ, rfl⟩ := half_sqrt h
    have hpi := Real.pi_pos
    have hφ2 : φ < Real.pi := by
      have : (2 * φ) ^ 2 < (2 * Real.pi) ^ 2 := by linarith
      have := lt_of_pow_lt_pow_left₀ 2 (by positivity) this
      linarith
    rw [uvY_sq (M := 0) hφ (by simpa using hφ) (by push_cast; linarith), pow_zero, one_mul]
    have h3 : |Real.sqrt 2 * A * Real.cos φ| ≤ |Real.sqrt 2 * A| := by
      rw [abs_mul]
      exact mul_le_of_le_one_right (abs_nonneg _) (Real.abs_cos_le_one φ)
    have h4 := le_abs_self (Real.sqrt 2 * A * Real.cos φ)
    linarith
  · rw [uvY_zero]
    have h4 := le_abs_self (Real.sqrt 2 * A)
    linarith

theorem uvY_pos {R1 R2 A psi : ℝ} (hR1 : 0 < R1) (hR2 : 0 < R2) (hA2 : A ^ 2 < 2 * (R1 * R2))
    (h0 : 0 ≤ psi) (h1 : psi < 4 * Real.pi ^ 2) : 0 < uvY (R1 + R2) A psi :=
  uvY_pos_of hR1 hR2 (sum_sq_gt hA2) h0 h1

/-- The readjustment keeps `psi` and `psi_low` below `4π²`, and leaves `y = y(psi)`. -/
theorem readjust_inv {R1 R2 A : ℝ} (hR1 : 0 < R1) (hR2 : 0 < R2) (hA2 : 2 * A ^ 2 < (R1 + R2) ^ 2)
    {s s' : Adj} (h : readjust R1 R2 A s = .ok s')
    (h1 : s.psi < 4 * Real.pi ^ 2) (h2 : s.psiLow < 4 * Real.pi ^ 2)
    (h3 : s.y = uvY (R1 + R2) A s.psi) :
    s'.psi < 4 * Real.pi ^ 2 ∧ s'.psiLow < 4 * Real.pi ^ 2 ∧ s'.y = uvY (R1 + R2) A s'.psi := by
  unfold readjust at h
  split at h
  · rename_i hA
    refine (whileLoop_inv (fun s : Adj => s.psi < 4 * Real.pi ^ 2 ∧ s.psiLow < 4 * Real.pi ^ 2 ∧
      s.y = uvY (R1 + R2) A s.psi) h ⟨h1, h2, h3⟩ ?_).1
    rintro a b ⟨i1, i2, i3⟩ hc hb
    unfold readjustBody at hb
    simp only [c3_eq, c2_eq, ok_bind, bind_ok, psqrt_ok, pdiv_ok] at hb
    obtain ⟨ic, ⟨-, rfl⟩, sd, ⟨h0, rfl⟩, q, ⟨hq, rfl⟩, y, hy, hb⟩ := hb
    obtain ⟨hyp, rfl⟩ := yAtPsi_ok hy
    have hb' := (Except.ok.inj hb).symm
    subst hb'
    refine ⟨?_, i1, rfl⟩
    have hneg : a.psi < 0 := by
      by_contra hh
      push Not at hh
      have := uvY_pos_of hR1 hR2 hA2 hh i1
      rw [← i3] at this
      exact absurd hc (not_lt.2 this.le)
    have hge := series3_ge_of_nonpos hneg.le
    have hq0 : 0 ≤ R1 * R2 * Real.sqrt (stumpffSeries 2 a.psi) / A := by
      have : (0 : ℝ) < A := hA
      positivity
    have hic : 1.0 / stumpffSeries 3 a.psi ≤ 6 := by
      rw [div_le_iff₀ (by linarith)]; norm_num; linarith
    have hic0 : 0 ≤ 1.0 / stumpffSeries 3 a.psi := by
      apply div_nonneg <;> [norm_num; linarith]
    have hpi := Real.two_le_pi
    show 0.8 * (1.0 / stumpffSeries 3 a.psi) *
      (1.0 - R1 * R2 * Real.sqrt (stumpffSeries 2 a.psi) / A) < 4 * Real.pi ^ 2
    have : 0.8 * (1.0 / stumpffSeries 3 a.psi) *
      (1.0 - R1 * R2 * Real.sqrt (stumpffSeries 2 a.psi) / A) ≤ 0.8 * 6 := by
      have e : (1.0 : ℝ) - R1 * R2 * Real.sqrt (stumpffSeries 2 a.psi) / A ≤ 1 := by
        norm_num; exact hq0
      calc _ ≤ 0.8 * (1.0 / stumpffSeries 3 a.psi) * 1 := by
            apply mul_le_mul_of_nonneg_left e; apply mul_nonneg <;> [norm_num; exact hic0]
        _ ≤ 0.8 * 6 := by
            rw [mul_one]; apply mul_le_mul_of_nonneg_left hic; norm_num
    nlinarith
  · cases h; exact ⟨h1, h2, h3⟩

/-- What the main loop returns. -/
theorem loop_ok_of {mu R1 R2 A tof rtol : ℝ} (hR1 : 0 < R1) (hR2 : 0 < R2)
    (hA2 : 2 * A ^ 2 < (R1 + R2) ^ 2) :
    ∀ {remaining numiter : ℕ} {psi psiLow psiUp : ℝ} {y p : ℝ} {k : ℕ},
      psi < 4 * Real.pi ^ 2 → psiLow < 4 * Real.pi ^ 2 → psiUp ≤ 4 * Real.pi ^ 2 →
      loop mu R1 R2 A tof rtol remaining numiter psi psiLow psiUp = .ok (y, p, k) →
      p < 4 * Real.pi ^ 2 ∧ y = uvY (R1 + R2) A p ∧ 0 ≤ y ∧
        |(uvT mu (R1 + R2) A p - tof) / tof| < rtol ∧ numiter ≤ k ∧ k < numiter + remaining := by
  intro remaining
  induction remaining with
  | zero => intro numiter psi psiLow psiUp y p k _ _ _ h; simp [loop] at h
  | succ n ih =>
    intro numiter psi psiLow psiUp y p k h1 h2 h3 h
    unfold loop at h
    simp only [bind_ok] at h
    obtain ⟨y0, hy0, s, hs, X, hX, tn, htn, e, he, h⟩ := h
    obtain ⟨-, rfl⟩ := yAtPsi_ok hy0
    obtain ⟨i1, i2, i3⟩ := readjust_inv hR1 hR2 hA2 hs h1 h2 rfl
    have hc2 := series2_pos_of_lt i1
    unfold xAtPsi at hX
    simp only [c2_eq, ok_bind, bind_ok, pdiv_ok, psqrt_ok] at hX
    obtain ⟨q, ⟨-, rfl⟩, hq0, rfl⟩ := hX
    have hy : 0 ≤ s.y := by
      have := (div_nonneg_iff.1 hq0)
      rcases this with ⟨h, _⟩ | ⟨_, h⟩
      · exact h
      · linarith
    unfold tofVallado at htn
    simp only [c3_eq, ok_bind, bind_ok, pdiv_ok, psqrt_ok] at htn
    obtain ⟨_, ⟨_, rfl⟩, _, ⟨_, rfl⟩, _, rfl⟩ := htn
    obtain ⟨-, rfl⟩ := pdiv_ok.1 he
    split at h
    · rename_i hlt
      obtain ⟨rfl, rfl, rfl⟩ : s.y = y ∧ s.psi = p ∧ numiter = k := by simpa using h
      refine ⟨i1, i3, hy, ?_, le_refl _, by omega⟩
      rw [uvT, ← i3]; exact hlt
    · obtain ⟨a, b, c, d, e, f⟩ := ih (by
        split <;> linarith) (by split <;> assumption) (by
          split <;> linarith) h
      exact ⟨a, b, c, d, by omega, by omega⟩

theorem loop_ok {mu R1 R2 A tof rtol : ℝ} (hR1 : 0 < R1) (hR2 : 0 < R2)
    (hA2 : A ^ 2 < 2 * (R1 * R2)) {remaining numiter : ℕ} {psi psiLow psiUp : ℝ} {y p : ℝ} {k : ℕ}
    (h1 : psi < 4 * Real.pi ^ 2) (h2 : psiLow < 4 * Real.pi ^ 2) (h3 : psiUp ≤ 4 * Real.pi ^ 2)
    (h : loop mu R1 R2 A tof rtol remaining numiter psi psiLow psiUp = .ok (y, p, k)) :
      p < 4 * Real.pi ^ 2 ∧ y = uvY (R1 + R2) A p ∧ 0 ≤ y ∧
        |(uvT mu (R1 + R2) A p - tof) / tof| < rtol ∧ numiter ≤ k ∧ k < numiter + remaining :=
  loop_ok_of hR1 hR2 (sum_sq_gt hA2) h1 h2 h3 h

theorem getA_ok {R1 R2 θ A : ℝ} (h : getA R1 R2 θ = .ok A) (h0 : 0 ≤ R1 * R2 * (1 + Real.cos θ)) :
    A ^ 2 = R1 * R2 * (1 + Real.cos θ) ∧ (A ≠ 0 → (0 < A ↔ θ < Real.pi)) := by
  unfold getA at h
  simp only [bind_ok, psqrt_ok] at h
  obtain ⟨s, ⟨_, rfl⟩, h⟩ := h
  have hA := (Except.ok.inj h).symm
  have hs := Real.sqrt_nonneg (R1 * R2 * (1 + Real.cos θ))
  subst hA
  constructor
  · rw [mul_pow, Real.sq_sqrt h0]; split <;> ring
  · intro hne
    split
    · rename_i hlt
      rw [if_pos hlt, one_mul] at hne
      simp only [one_mul, hlt, iff_true]
      exact lt_of_le_of_ne hs (Ne.symm hne)
    · rename_i hlt
      simp only [hlt, iff_false]; linarith

end Vallado
end Lamberthub
