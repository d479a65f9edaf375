import Verif.Proofs.Hyp2F1
import Verif.Proofs.PolarForm
import Verif.Proofs.Path

/-! # Lemmas about the Izzo solver -/

set_option autoImplicit false

namespace Lamberthub
open Spec LC

/-- Lancaster's variables: `y² = 1 - λ²(1 - x²)`. -/
structure Lanc (lam x y : ℝ) : Prop where
  lam_lt : lam ^ 2 < 1
  y_sq : y ^ 2 = 1 - lam ^ 2 * (1 - x ^ 2)
  y_pos : 0 < y

namespace Lanc
variable {lam x y : ℝ} (h : Lanc lam x y)

theorem k_eq : x * y + lam * (1 - x ^ 2) = lam + x * (y - lam * x) := by ring

include h

theorem eta_pos : 0 < y - lam * x := by
  have h1 : (lam * x) ^ 2 < y ^ 2 := by rw [h.y_sq, mul_pow]; nlinarith [h.lam_lt]
  have h2 := abs_lt_of_sq_lt_sq h1 h.y_pos.le
  linarith [(abs_lt.1 h2).2]

theorem add_pos : 0 < y + lam * x := by
  have h1 : (lam * x) ^ 2 < y ^ 2 := by rw [h.y_sq, mul_pow]; nlinarith [h.lam_lt]
  have h2 := abs_lt_of_sq_lt_sq h1 h.y_pos.le
  linarith [(abs_lt.1 h2).1]

theorem prod : (y - lam * x) * (y + lam * x) = 1 - lam ^ 2 := by
  linear_combination h.y_sq

theorem eta_sq : (y - lam * x) ^ 2 = 1 + lam ^ 2 - 2 * lam * (x * y + lam * (1 - x ^ 2)) := by
  linear_combination h.y_sq

theorem sin_sq : 1 - (x * y + lam * (1 - x ^ 2)) ^ 2 = (y - lam * x) ^ 2 * (1 - x ^ 2) := by
  linear_combination (-1 : ℝ) * h.y_sq

theorem time_rel : (y - lam * x) * ((x * y + lam * (1 - x ^ 2)) - 2 * lam * (1 - x ^ 2)) =
    x - lam * y := by
  linear_combination x * h.y_sq

end Lanc

theorem lanc_of_sqrt {lam x y : ℝ} (hl : lam ^ 2 < 1)
    (hy : y = Real.sqrt (1 - lam ^ 2 * (1 - x ^ 2))) : Lanc lam x y := by
  have h0 : 0 < 1 - lam ^ 2 * (1 - x ^ 2) := by nlinarith [sq_nonneg lam, sq_nonneg (lam * x)]
  refine ⟨hl, ?_, ?_⟩
  · rw [hy, Real.sq_sqrt h0.le]
  · rw [hy]; exact Real.sqrt_pos.2 h0

/-- scale factor between time and dimensionless time -/
theorem scale_mul {μ s η X lam : ℝ} (hμ : 0 < μ) (hs : 0 < s) (hη : 0 < η) :
    Real.sqrt (2 * μ / s ^ 3) * (Real.sqrt (s * η ^ 2 / μ) *
      (s * η ^ 2 * X + Real.sqrt 2 * s * lam)) = Real.sqrt 2 * η ^ 3 * X + 2 * lam * η := by
  have hr2 : Real.sqrt 2 ^ 2 = 2 := Real.sq_sqrt (by norm_num)
  have e : Real.sqrt (2 * μ / s ^ 3) * Real.sqrt (s * η ^ 2 / μ) = Real.sqrt 2 * η / s := by
    rw [← Real.sqrt_mul (by positivity), show 2 * μ / s ^ 3 * (s * η ^ 2 / μ) = 2 * (η / s) ^ 2 by
      field_simp, Real.sqrt_mul (by norm_num), Real.sqrt_sq (by positivity)]
    ring
  rw [← mul_assoc, e]
  field_simp
  linear_combination lam * hr2

/-- Dimensionless time of the path of Lancaster parameter `x`: the three classical cases. -/
noncomputable def lancT (lam x y : ℝ) (M : ℕ) : ℝ :=
  if x < 1 then
    ((Real.arccos (x * y + lam * (1 - x ^ 2)) + M * Real.pi) / Real.sqrt (1 - x ^ 2) - x + lam * y) /
      (1 - x ^ 2)
  else if x = 1 then 2 / 3 * (y - lam * x) ^ 3 + 2 * lam * (y - lam * x)
  else (Real.arsinh ((y - x * lam) * Real.sqrt (x ^ 2 - 1)) / Real.sqrt (x ^ 2 - 1) - x + lam * y) /
      (1 - x ^ 2)

/-- elliptic angle -/
theorem Lanc.ell {lam x y : ℝ} (h : Lanc lam x y) (h1 : -1 < x) (h2 : x < 1) :
    ∃ ψ, ψ = Real.arccos (x * y + lam * (1 - x ^ 2)) ∧ 0 < ψ ∧ ψ < Real.pi ∧
      Real.cos ψ = x * y + lam * (1 - x ^ 2) ∧
      Real.sin ψ = (y - lam * x) * Real.sqrt (1 - x ^ 2) := by
  have hw : 0 < 1 - x ^ 2 := by nlinarith
  have hη := h.eta_pos
  have hk : (x * y + lam * (1 - x ^ 2)) ^ 2 < 1 := by
    have := h.sin_sq
    have : 0 < (y - lam * x) ^ 2 * (1 - x ^ 2) := by positivity
    linarith [h.sin_sq]
  have hk' := abs_lt.1 ((sq_lt_one_iff_abs_lt_one _).1 hk)
  have hcos := Real.cos_arccos hk'.1.le hk'.2.le
  refine ⟨_, rfl, Real.arccos_pos.2 hk'.2, ?_, hcos, ?_⟩
  · rcases (Real.arccos_le_pi (x * y + lam * (1 - x ^ 2))).lt_or_eq with h3 | h3
    · exact h3
    · rw [Real.arccos_eq_pi] at h3; linarith
  · rw [Real.sin_arccos, h.sin_sq, Real.sqrt_mul (by positivity), Real.sqrt_sq hη.le]

/-- hyperbolic angle -/
theorem Lanc.hyp {lam x y : ℝ} (h : Lanc lam x y) (h2 : 1 < x) :
    ∃ ψ, ψ = Real.arsinh ((y - x * lam) * Real.sqrt (x ^ 2 - 1)) ∧ 0 < ψ ∧
      Real.cosh ψ = x * y + lam * (1 - x ^ 2) ∧
      Real.sinh ψ = (y - lam * x) * Real.sqrt (x ^ 2 - 1) := by
  have hw : 0 < x ^ 2 - 1 := by nlinarith
  have hη := h.eta_pos
  have hs : Real.sinh (Real.arsinh ((y - x * lam) * Real.sqrt (x ^ 2 - 1))) =
      (y - lam * x) * Real.sqrt (x ^ 2 - 1) := by rw [Real.sinh_arsinh, mul_comm x]
  have hkp : 0 < x * y + lam * (1 - x ^ 2) := by
    rw [k_eq]
    have hl := abs_lt.1 ((sq_lt_one_iff_abs_lt_one _).1 h.lam_lt)
    rcases le_total 0 lam with h3 | h3
    · have : 0 < x * (y - lam * x) := by positivity
      linarith
    · have h4 := h.y_pos
      have h5 : -lam ≤ -(lam * x) := by nlinarith
      have h6 : y - lam * x ≤ x * (y - lam * x) := le_mul_of_one_le_left hη.le h2.le
      linarith
  refine ⟨_, rfl, ?_, ?_, hs⟩
  · apply Real.sinh_pos_iff.1; rw [hs]; positivity
  · rw [Real.cosh_arsinh, ← Real.sqrt_sq hkp.le]
    congr 1
    rw [mul_pow, Real.sq_sqrt hw.le]
    linear_combination h.sin_sq

/-- The path of Lancaster parameter `x`. -/
theorem Lanc.path {lam x y : ℝ} (h : Lanc lam x y) {μ s : ℝ} (hμ : 0 < μ) (hs : 0 < s) {M : ℕ}
    (h1 : -1 < x) (h2 : M = 0 ∨ x < 1) :
    ∃ T, Path μ (s * (1 + lam ^ 2)) (Real.sqrt 2 * s * lam) M (s * (y - lam * x) ^ 2) T ∧
      Real.sqrt (2 * μ / s ^ 3) * T = lancT lam x y M := by
  have hη := h.eta_pos
  have hpi := Real.pi_pos
  have hr2 : Real.sqrt 2 ^ 2 = 2 := Real.sq_sqrt (by norm_num)
  have hr2p : 0 < Real.sqrt 2 := by positivity
  have hV : 0 < s * (y - lam * x) ^ 2 := by positivity
  have htr := h.time_rel
  rcases lt_trichotomy x 1 with hx | hx | hx
  · obtain ⟨ψ, hψ, hψ0, hψ1, hc, hsn⟩ := h.ell h1 hx
    have hw : 0 < 1 - x ^ 2 := by nlinarith
    have e1 : (M : ℝ) * Real.pi < ψ + M * Real.pi := by linarith
    have e2 : ψ + M * Real.pi < (M + 1) * Real.pi := by linarith
    have hsM : |Real.sin (ψ + M * Real.pi)| = (y - lam * x) * Real.sqrt (1 - x ^ 2) := by
      rw [abs_sin_eq e1 e2, Real.sin_add_nat_mul_pi, ← mul_assoc, neg_one_pow_mul_self, one_mul, hsn]
    refine ⟨_, .ell e1 e2 hV ?_, ?_⟩
    · rw [Real.cos_add_nat_mul_pi, hc]
      have := neg_one_pow_mul_self M
      linear_combination s * h.eta_sq + 2 * s * lam * (x * y + lam * (1 - x ^ 2)) * this +
        (-1) ^ M * (-1) ^ M * s * lam * (x * y + lam * (1 - x ^ 2)) * hr2
    · unfold Tell
      rw [hsM, mul_div_assoc (s * (y - lam * x) ^ 2), scale_mul hμ hs hη, lancT, if_pos hx, ← hψ]
      have h2s : Real.sin (2 * (ψ + M * Real.pi)) = 2 * Real.sin ψ * Real.cos ψ := by
        rw [show 2 * (ψ + M * Real.pi) = 2 * ψ + M * (2 * Real.pi) by ring,
          Real.sin_add_nat_mul_two_pi, Real.sin_two_mul]
      rw [h2s, hsn, hc]
      have hwp : 0 < Real.sqrt (1 - x ^ 2) := Real.sqrt_pos.2 hw
      have hw2 : Real.sqrt (1 - x ^ 2) ^ 2 = 1 - x ^ 2 := Real.sq_sqrt hw.le
      generalize Real.sqrt (1 - x ^ 2) = w at *
      rw [← hw2] at htr ⊢
      generalize (y - lam * x) = η at *
      field_simp
      linear_combination (-w) * htr
  · subst hx
    have hM : M = 0 := by rcases h2 with h2 | h2; exact h2; exact absurd h2 (lt_irrefl _)
    subst hM
    refine ⟨_, .par hV ?_, ?_⟩
    · have hy1 : y = 1 := by
        have h3 := h.y_sq
        have h4 := h.y_pos
        have : (y - 1) * (y + 1) = 0 := by linear_combination h3
        rcases mul_eq_zero.1 this with h5 | h5 <;> linarith
      rw [hy1]
      linear_combination s * lam * hr2
    · unfold Tpar
      rw [show Real.sqrt 2 * (s * (y - lam * 1) ^ 2) / 3 = s * (y - lam * 1) ^ 2 * (Real.sqrt 2 / 3)
        by ring, scale_mul hμ hs hη, lancT, if_neg (lt_irrefl _), if_pos rfl]
      linear_combination (y - lam * 1) ^ 3 / 3 * hr2
  · have hM : M = 0 := by
      rcases h2 with h2 | h2
      · exact h2
      · exact absurd h2 (not_lt.2 hx.le)
    subst hM
    obtain ⟨ψ, hψ, hψ0, hc, hsn⟩ := h.hyp hx
    have hw : 0 < x ^ 2 - 1 := by nlinarith
    refine ⟨_, .hyp hψ0 hV ?_, ?_⟩
    · rw [hc]
      linear_combination s * h.eta_sq + s * lam * (x * y + lam * (1 - x ^ 2)) * hr2
    · unfold Thyp
      rw [mul_div_assoc (s * (y - lam * x) ^ 2), scale_mul hμ hs hη, lancT, if_neg (not_lt.2 hx.le), if_neg hx.ne', ← hψ,
        Real.sinh_two_mul, hsn, hc]
      have hwp : 0 < Real.sqrt (x ^ 2 - 1) := Real.sqrt_pos.2 hw
      have hw2 : Real.sqrt (x ^ 2 - 1) ^ 2 = x ^ 2 - 1 := Real.sq_sqrt hw.le
      generalize Real.sqrt (x ^ 2 - 1) = w at *
      rw [show 1 - x ^ 2 = - w ^ 2 by linarith] at htr ⊢
      generalize (y - lam * x) = η at *
      field_simp
      linear_combination w * htr

namespace Izzo

theorem sqrt_lt_one : Real.sqrt 0.6 < 1 := by
  rw [Real.sqrt_lt' one_pos]; norm_num

/-- What `_tof_equation_y` computes on its domain is the dimensionless Kepler time. -/
theorem tofEquationY_eq {lam x y T0 : ℝ} (h : Lanc lam x y) {M : ℕ} (h1 : -1 < x)
    (h2 : M = 0 ∨ x < 1) :
    tofEquationY x y T0 lam (M : ℤ) = .ok (lancT lam x y M - T0) := by
  have hη := h.eta_pos
  have htr := h.time_rel
  unfold tofEquationY
  split
  · rename_i hc
    obtain ⟨hM, hx1, hx2⟩ := hc
    have hM : M = 0 := by exact_mod_cast hM
    subst hM
    have harg : (1 - lam - x * (y - lam * x)) * 0.5 = (1 - (x * y + lam * (1 - x ^ 2))) / 2 := by
      rw [Lanc.k_eq]; ring
    simp only [harg]
    have hhyp : ∀ z : ℝ, |z| < 1 → hyp2f1b z = .ok (hypF z) := by
      intro z hz
      have hz := abs_lt.1 hz
      rw [hyp2f1b, if_neg (not_le.2 hz.2), if_neg (not_le.2 hz.1)]; rfl
    have hx14 : x ^ 2 < 1.4 := by
      have h0 : 0 ≤ x := (Real.sqrt_nonneg _).trans hx1.le
      exact (Real.lt_sqrt h0).1 hx2
    rcases lt_trichotomy x 1 with hx | hx | hx
    · obtain ⟨ψ, hψ, hψ0, hψ1, hcψ, hsn⟩ := h.ell h1 hx
      have hw : 0 < 1 - x ^ 2 := by nlinarith
      rw [← hcψ]
      have hc1 : -1 < Real.cos ψ := by
        rw [← Real.cos_pi]; exact Real.cos_lt_cos_of_nonneg_of_le_pi hψ0.le le_rfl hψ1
      rw [hhyp _ (by rw [abs_lt]; constructor <;> linarith [Real.cos_le_one ψ]), ok_bind]
      have hF := hypF_sin hψ0.le hψ1
      have hsp : 0 < Real.sin ψ := Real.sin_pos_of_pos_of_lt_pi hψ0 hψ1
      rw [lancT, if_pos hx, ← hψ]
      congr 2
      have hF' : hypF ((1 - Real.cos ψ) / 2) = 3 / 4 * (2 * ψ - Real.sin (2 * ψ)) / Real.sin ψ ^ 3 := by
        rw [eq_div_iff (by positivity), mul_comm]; exact hF
      rw [hF', Real.sin_two_mul, hsn, hcψ]
      have hwp : 0 < Real.sqrt (1 - x ^ 2) := Real.sqrt_pos.2 hw
      have hw2 : Real.sqrt (1 - x ^ 2) ^ 2 = 1 - x ^ 2 := Real.sq_sqrt hw.le
      generalize Real.sqrt (1 - x ^ 2) = w at *
      rw [← hw2] at htr ⊢
      generalize (y - lam * x) = η at *
      norm_num
      field_simp
      linear_combination (-2 * w) * htr
    · subst hx
      rw [show (1 - (1 * y + lam * (1 - 1 ^ 2))) / 2 = 0 by
        have hy1 : y = 1 := by
          have h3 := h.y_sq
          have h4 := h.y_pos
          have : (y - 1) * (y + 1) = 0 := by linear_combination h3
          rcases mul_eq_zero.1 this with h5 | h5 <;> linarith
        rw [hy1]; norm_num, hhyp 0 (by norm_num), ok_bind, hypF_zero, lancT,
        if_neg (lt_irrefl _), if_pos rfl]
      congr 1; ring
    · obtain ⟨ψ, hψ, hψ0, hcψ, hsn⟩ := h.hyp hx
      have hw : 0 < x ^ 2 - 1 := by nlinarith
      have hc3 : Real.cosh ψ < 3 := by
        have hsq : Real.cosh ψ ^ 2 < 9 := by
          have e1 : Real.cosh ψ ^ 2 = 1 + (y - lam * x) ^ 2 * (x ^ 2 - 1) := by
            rw [hcψ]; linear_combination (-1 : ℝ) * h.sin_sq
          have hl := h.lam_lt
          have e2 : (y - lam * x) ^ 2 ≤ 2 * (y ^ 2 + (lam * x) ^ 2) := by
            nlinarith [sq_nonneg (y + lam * x)]
          have e3 : y ^ 2 < 1.4 := by rw [h.y_sq]; nlinarith
          have e4 : (lam * x) ^ 2 ≤ 1.4 := by rw [mul_pow]; nlinarith [sq_nonneg x]
          rw [e1]; nlinarith [sq_nonneg (y - lam * x)]
        nlinarith [Real.one_le_cosh ψ]
      rw [← hcψ]
      rw [hhyp _ (by rw [abs_lt]; constructor <;> linarith [Real.one_le_cosh ψ]), ok_bind]
      have hF := hypF_sinh hψ0.le hc3
      have hsp : 0 < Real.sinh ψ := Real.sinh_pos_iff.2 hψ0
      rw [lancT, if_neg (not_lt.2 hx.le), if_neg hx.ne', ← hψ]
      congr 2
      have hF' : hypF ((1 - Real.cosh ψ) / 2) =
          3 / 4 * (Real.sinh (2 * ψ) - 2 * ψ) / Real.sinh ψ ^ 3 := by
        rw [eq_div_iff (by positivity), mul_comm]; exact hF
      rw [hF', Real.sinh_two_mul, hsn, hcψ]
      have hwp : 0 < Real.sqrt (x ^ 2 - 1) := Real.sqrt_pos.2 hw
      have hw2 : Real.sqrt (x ^ 2 - 1) ^ 2 = x ^ 2 - 1 := Real.sq_sqrt hw.le
      generalize Real.sqrt (x ^ 2 - 1) = w at *
      rw [show 1 - x ^ 2 = - w ^ 2 by linarith] at htr ⊢
      generalize (y - lam * x) = η at *
      norm_num
      field_simp
      linear_combination (2 * w) * htr
  · rename_i hnc
    rcases lt_trichotomy x 1 with hx | hx | hx
    · obtain ⟨ψ, hψ, hψ0, hψ1, hcψ, hsn⟩ := h.ell h1 hx
      have hw : 0 < 1 - x ^ 2 := by nlinarith
      have hwp : 0 < Real.sqrt (1 - x ^ 2) := Real.sqrt_pos.2 hw
      have hk1 := Real.neg_one_le_cos ψ
      have hk2 := Real.cos_le_one ψ
      rw [hcψ] at hk1 hk2
      rw [computePsi, if_pos ⟨h1.le, hx⟩, pacos, if_pos ⟨hk1, hk2⟩, ok_bind, abs_of_pos hw,
        psqrt_eq hw.le, ok_bind, pdiv_eq hwp.ne', ok_bind, pdiv_eq hw.ne', ok_bind, lancT, if_pos hx]
      simp
    · exfalso
      subst hx
      apply hnc
      refine ⟨?_, sqrt_lt_one, ?_⟩
      · rcases h2 with h2 | h2
        · exact_mod_cast h2
        · exact absurd h2 (lt_irrefl _)
      · rw [Real.lt_sqrt (by norm_num)]; norm_num
    · obtain ⟨ψ, hψ, hψ0, hcψ, hsn⟩ := h.hyp hx
      have hM : M = 0 := by
        rcases h2 with h2 | h2
        · exact h2
        · exact absurd h2 (not_lt.2 hx.le)
      have hw : 0 < x ^ 2 - 1 := by nlinarith
      have hwp : 0 < Real.sqrt (x ^ 2 - 1) := Real.sqrt_pos.2 hw
      have hw' : 1 - x ^ 2 ≠ 0 := by linarith
      rw [computePsi, if_neg (by rintro ⟨_, h⟩; linarith), if_pos hx, psqrt_eq hw.le, ok_bind, ok_bind,
        show |1 - x ^ 2| = x ^ 2 - 1 by rw [abs_of_neg (by linarith)]; ring,
        psqrt_eq hw.le, ok_bind, pdiv_eq hwp.ne', ok_bind, pdiv_eq hw', ok_bind, lancT,
        if_neg (not_lt.2 hx.le), if_neg hx.ne', hM]
      simp

theorem computeY_ok {x ll y : ℝ} (h : computeY x ll = .ok y) (hl : ll ^ 2 < 1) : Lanc ll x y :=
  lanc_of_sqrt hl (psqrt_ok.1 h).2

theorem computeY_eq {x ll : ℝ} (hl : ll ^ 2 < 1) :
    ∃ y, computeY x ll = .ok y ∧ Lanc ll x y := by
  have h0 : 0 ≤ 1 - ll ^ 2 * (1 - x ^ 2) := by nlinarith [sq_nonneg ll, sq_nonneg (ll * x)]
  exact ⟨_, psqrt_eq h0, lanc_of_sqrt hl rfl⟩

/-- Geometry block. -/
theorem geometry_ok {r1 r2 : V3} {pro : Bool} {s ll : ℝ} {it1 it2 : V3}
    (h : geometry r1 r2 pro = .ok (s, ll, it1, it2)) :
    ∃ ε : ℝ, ε ^ 2 = 1 ∧ Geo r1 r2 (Real.sqrt 2 * s * ll) ∧
      Semi (V3.norm r1) (V3.norm r2) (V3.norm (r2 - r1)) s ll ∧ 0 < ε * ll ∧
      it1 = ε • trans1 r1 r2 ∧ it2 = ε • trans2 r1 r2 ∧
      (NotPolar r1 r2 → (0 < ε ↔ ShortWay pro r1 r2)) := by
  unfold geometry at h
  simp only [bind_ok, vdiv_ok, pdiv_ok, psqrt_ok] at h
  obtain ⟨_, ⟨h1, rfl⟩, _, ⟨h2, rfl⟩, ih, ⟨h3, rfl⟩, _, ⟨h4, rfl⟩, l0, ⟨h5, rfl⟩, h⟩ := h
  have hR1 : 0 < V3.norm r1 := (norm_nonneg _).lt_of_ne' h1
  have hR2 : 0 < V3.norm r2 := (norm_nonneg _).lt_of_ne' h2
  have hna : NotAligned r1 r2 := by
    by_contra hna
    apply h3
    rw [cross_smul_smul, norm_smul, cross_eq_zero_iff.2 hna]
    simp [V3.norm, V3.dot]
  rw [unit_normal hR1 hR2] at h
  have hW := cross_norm_pos hna
  have hd := abs_lt.1 (abs_dot_lt hna)
  set a := Real.sqrt (V3.norm r1 * V3.norm r2 + V3.dot r1 r2) with ha
  have hd0 : 0 < V3.norm r1 * V3.norm r2 + V3.dot r1 r2 := by linarith
  have hap : 0 < a := Real.sqrt_pos.2 hd0
  have hGa : Geo r1 r2 a := ⟨hap.ne', Real.sq_sqrt hd0.le, hna⟩
  obtain ⟨s', lam, hS, hA⟩ := hGa.semi
  have hr2p : 0 < Real.sqrt 2 := by positivity
  have hs' : (V3.norm r1 + V3.norm r2 + V3.norm (r2 - r1)) * 0.5 = s' := by rw [hS.hs]; ring
  rw [hs'] at h h4 h5
  have hsp := hS.spos
  have hlam : 0 < lam := by
    have h6 : 0 < Real.sqrt 2 * s' * lam := by rw [← hA]; exact hap
    exact pos_of_mul_pos_right h6 (by positivity)
  have hcs : V3.norm (r2 - r1) / s' = 1 - lam ^ 2 := by rw [hS.chord]; field_simp
  have hl0 : Real.sqrt (1 - min 1 (V3.norm (r2 - r1) / s')) = lam := by
    rw [hcs, min_eq_right (by nlinarith [sq_nonneg lam]), sub_sub_cancel, Real.sqrt_sq hlam.le]
  rw [hl0] at h
  have hz : ((V3.norm (V3.cross r1 r2))⁻¹ • V3.cross r1 r2).z < 0 ↔ crossZ r1 r2 < 0 := by
    have hinv : 0 < (V3.norm (V3.cross r1 r2))⁻¹ := inv_pos.2 hW
    change (V3.norm (V3.cross r1 r2))⁻¹ * crossZ r1 r2 < 0 ↔ _
    constructor
    · intro h
      by_contra h'
      push Not at h'
      have := mul_nonneg hinv.le h'
      linarith
    · intro h; exact mul_neg_of_pos_of_neg hinv h
  simp only [hz, cross_unit_trans1, cross_unit_trans2,
    cross_swap ((V3.norm r1)⁻¹ • r1), cross_swap ((V3.norm r2)⁻¹ • r2)] at h
  simp only [Except.ok.injEq, Prod.mk.injEq] at h
  obtain ⟨rfl, hll, hi1, hi2⟩ := h
  have main : ∀ ε : ℝ, ε ^ 2 = 1 → ll = ε * lam → it1 = ε • trans1 r1 r2 → it2 = ε • trans2 r1 r2 →
      (NotPolar r1 r2 → (0 < ε ↔ ShortWay pro r1 r2)) →
      ∃ ε : ℝ, ε ^ 2 = 1 ∧ Geo r1 r2 (Real.sqrt 2 * s' * ll) ∧
      Semi (V3.norm r1) (V3.norm r2) (V3.norm (r2 - r1)) s' ll ∧ 0 < ε * ll ∧
      it1 = ε • trans1 r1 r2 ∧ it2 = ε • trans2 r1 r2 ∧
      (NotPolar r1 r2 → (0 < ε ↔ ShortWay pro r1 r2)) := by
    intro ε hε hl e1 e2 e3
    have hl2 : ll ^ 2 = lam ^ 2 := by rw [hl, mul_pow, hε, one_mul]
    refine ⟨ε, hε, ⟨?_, ?_, hna⟩, ⟨hS.hs, hS.spos, hS.cpos, ?_, ?_, ?_⟩, ?_, e1, e2, e3⟩
    · rw [hl]
      have : ε ≠ 0 := by rintro rfl; norm_num at hε
      positivity
    · rw [← hGa.hA2, hA, mul_pow, mul_pow, hl2]; ring
    · rw [hl2]; exact hS.sum
    · rw [hl2]; exact hS.chord
    · rw [hl2]; exact hS.lam_lt
    · rw [hl, ← mul_assoc, ← sq, hε, one_mul]; exact hlam
  have hneg : ∀ v : V3, -v = (-1 : ℝ) • v := fun v => by ext <;> simp
  have hone : ∀ v : V3, v = (1 : ℝ) • v := fun v => by ext <;> simp
  by_cases hc : crossZ r1 r2 < 0 <;> cases pro <;>
    simp only [hc, if_true, if_false, Bool.true_eq_false, neg_neg] at hll hi1 hi2
  · exact main 1 (by norm_num) (by rw [← hll]; ring)
      (by rw [← hi1, ← hone]; ext <;> simp) (by rw [← hi2, ← hone]; ext <;> simp)
      (fun _ => by simp [ShortWay, hc])
  · exact main (-1) (by norm_num) (by rw [← hll]; ring)
      (by rw [← hi1, ← hneg]) (by rw [← hi2, ← hneg])
      (fun _ => by simp only [ShortWay, if_true]; constructor <;> intro h <;> linarith)
  · exact main (-1) (by norm_num) (by rw [← hll]; ring)
      (by rw [← hi1, ← hneg]) (by rw [← hi2, ← hneg])
      (fun _ => by simp [ShortWay, hc])
  · refine main 1 (by norm_num) (by rw [← hll]; ring)
      (by rw [← hi1, ← hone]) (by rw [← hi2, ← hone]) (fun hnp => ?_)
    have : crossZ r1 r2 ≠ 0 := hnp
    simp only [ShortWay, if_true, zero_lt_one, true_iff]
    push Not at hc
    exact lt_of_le_of_ne hc (Ne.symm this)

/-- The reconstructed velocities are the Lagrange velocities with `V = s (y - λx)²`. -/
theorem reconstruct_ok {μ s ll x y ε gamma rho sigma vr1 vr2 vt1 vt2 : ℝ} {r1 r2 : V3}
    (hμ : 0 < μ) (hε : ε ^ 2 = 1) (hG : Geo r1 r2 (Real.sqrt 2 * s * ll))
    (hS : Semi (V3.norm r1) (V3.norm r2) (V3.norm (r2 - r1)) s ll) (hεl : 0 < ε * ll)
    (hL : Lanc ll x y) (hg : gamma = Real.sqrt (μ * s / 2))
    (hr : rho = (V3.norm r1 - V3.norm r2) / V3.norm (r2 - r1))
    (hσ0 : 0 ≤ 1 - rho ^ 2) (hσ : sigma = Real.sqrt (1 - rho ^ 2))
    (h : reconstruct x y (V3.norm r1) (V3.norm r2) ll gamma rho sigma = .ok (vr1, vr2, vt1, vt2)) :
    vr1 • ((V3.norm r1)⁻¹ • r1) + vt1 • (ε • trans1 r1 r2) =
      fgV1 μ r1 r2 (Real.sqrt 2 * s * ll) (s * (y - ll * x) ^ 2) ∧
    vr2 • ((V3.norm r2)⁻¹ • r2) + vt2 • (ε • trans2 r1 r2) =
      fgV2 μ r1 r2 (Real.sqrt 2 * s * ll) (s * (y - ll * x) ^ 2) := by
  unfold reconstruct at h
  simp only [bind_ok, pdiv_ok, Except.ok.injEq, Prod.mk.injEq] at h
  obtain ⟨_, ⟨_, rfl⟩, _, ⟨_, rfl⟩, _, ⟨_, rfl⟩, _, ⟨_, rfl⟩, rfl, rfl, rfl, rfl⟩ := h
  have hR1 := hG.R1
  have hR2 := hG.R2
  have hs := hS.spos
  have hc := hS.cpos
  have hη := hL.eta_pos
  have hd : V3.dot r1 r2 = (Real.sqrt 2 * s * ll) ^ 2 - V3.norm r1 * V3.norm r2 := by
    rw [hG.hA2]; ring
  have hW2 := cross_norm_sq r1 r2
  have hW := cross_norm_pos hG.hna
  have hsub := sub_norm_sq r1 r2
  have hsum := hS.sum
  have hch := hS.chord
  have hr2 : Real.sqrt 2 ^ 2 = 2 := Real.sq_sqrt (by norm_num)
  have hr2p : 0 < Real.sqrt 2 := by positivity
  obtain ⟨q, hq⟩ : ∃ q, q = Real.sqrt (s / μ) := ⟨_, rfl⟩
  have hqp : 0 < q := by rw [hq]; positivity
  have hq2 : μ * q ^ 2 = s := by rw [hq, Real.sq_sqrt (by positivity)]; field_simp
  have hγ : gamma = μ * q / Real.sqrt 2 := by
    rw [hg, hq, show μ * s / 2 = (s / μ) * μ ^ 2 / 2 by field_simp, Real.sqrt_div (by positivity),
      Real.sqrt_mul (by positivity), Real.sqrt_sq hμ.le]; ring
  have hlag : lagG μ (Real.sqrt 2 * s * ll) (s * (y - ll * x) ^ 2) =
      Real.sqrt 2 * s * ll * ((y - ll * x) * q) := by
    rw [lagG, hq, show s * (y - ll * x) ^ 2 / μ = (y - ll * x) ^ 2 * (s / μ) by ring,
      Real.sqrt_mul (by positivity), Real.sqrt_sq hη.le]
  have hll : ll ≠ 0 := by rintro rfl; simp at hεl
  have hρc : rho * V3.norm (r2 - r1) = V3.norm r1 - V3.norm r2 := by
    rw [hr]; field_simp
  have hσp : 0 ≤ sigma := by rw [hσ]; positivity
  have hσ2 : sigma ^ 2 = 1 - rho ^ 2 := by rw [hσ, Real.sq_sqrt hσ0]
  have hWσ : sigma * V3.norm (r2 - r1) * s * (ε * ll) = V3.norm (V3.cross r1 r2) := by
    refine (sq_eq_sq₀ (by positivity) hW.le).1 ?_
    rw [hW2, mul_pow, mul_pow, mul_pow, mul_pow, hε, hσ2]
    have e1 : (1 - rho ^ 2) * V3.norm (r2 - r1) ^ 2 =
        V3.norm (r2 - r1) ^ 2 - (V3.norm r1 - V3.norm r2) ^ 2 := by rw [← hρc]; ring
    rw [e1, hsub, hd, mul_pow, mul_pow, hr2]
    ring
  clear hg hr hσ hσ0 hW2 hq hσ2
  set R1 := V3.norm r1
  set R2 := V3.norm r2
  set c := V3.norm (r2 - r1)
  set W := V3.norm (V3.cross r1 r2)
  have hY1 : s * (y - ll * x) ^ 2 * R1 - R1 ^ 2 + V3.dot r1 r2 =
      s ^ 2 * ll * (y - ll * x) * ((ll * y - x) - rho * (ll * y + x)) := by
    have hR1' : R1 = (s * (1 + ll ^ 2) + rho * (s * (1 - ll ^ 2))) / 2 := by
      rw [← hch, ← hsum, hρc]; ring
    have hR2' : R2 = (s * (1 + ll ^ 2) - rho * (s * (1 - ll ^ 2))) / 2 := by
      rw [← hch, ← hsum, hρc]; ring
    rw [hd, mul_pow, mul_pow, hr2, hR1', hR2']
    have hy := hL.y_sq
    generalize rho = ρ
    linear_combination (s ^ 2 / 2 * ((1 + ll ^ 2) + ρ * (1 - ll ^ 2)) - s ^ 2 * ll * (ll - ρ * ll)) * hy
  have hY2 : R2 ^ 2 - s * (y - ll * x) ^ 2 * R2 - V3.dot r1 r2 =
      -(s ^ 2 * ll * (y - ll * x) * ((ll * y - x) + rho * (ll * y + x))) := by
    have hR1' : R1 = (s * (1 + ll ^ 2) + rho * (s * (1 - ll ^ 2))) / 2 := by
      rw [← hch, ← hsum, hρc]; ring
    have hR2' : R2 = (s * (1 + ll ^ 2) - rho * (s * (1 - ll ^ 2))) / 2 := by
      rw [← hch, ← hsum, hρc]; ring
    rw [hd, mul_pow, mul_pow, hr2, hR1', hR2']
    have hy := hL.y_sq
    generalize rho = ρ
    linear_combination (-(s ^ 2 / 2 * ((1 + ll ^ 2) - ρ * (1 - ll ^ 2)) - s ^ 2 * ll * (ll + ρ * ll))) * hy
  have hVt : gamma * sigma * (y + ll * x) * lagG μ (Real.sqrt 2 * s * ll) (s * (y - ll * x) ^ 2) =
      ε * W := by
    rw [hlag, hγ, ← hWσ]
    have hp := hL.prod
    have e : μ * q / Real.sqrt 2 * sigma * (y + ll * x) * (Real.sqrt 2 * s * ll * ((y - ll * x) * q)) =
        (μ * q ^ 2) * sigma * s * ll * ((y - ll * x) * (y + ll * x)) := by field_simp
    rw [e, hq2, hp]
    have e3 : ε * (sigma * c * s * (ε * ll)) = ε ^ 2 * (sigma * c * s * ll) := by ring
    rw [e3, hε, hch]; ring
  have hlag0 : lagG μ (Real.sqrt 2 * s * ll) (s * (y - ll * x) ^ 2) ≠ 0 := by
    rw [hlag]; positivity
  constructor
  · apply fgV1_of_polar hG hε
    · rw [div_eq_div_iff hR1.ne' hlag0, hlag, hγ]
      field_simp
      linear_combination (s * ll * (y - ll * x) * ((ll * y - x) - rho * (ll * y + x))) * hq2 - hY1 -
        mul_div_cancel₀ (V3.dot r1 r2) hR1.ne'
    · rw [div_eq_div_iff hR1.ne' (mul_ne_zero hR1.ne' hlag0), ← hVt]; ring
  · apply fgV2_of_polar hG hε
    · rw [div_eq_div_iff hR2.ne' hlag0, hlag, hγ]
      field_simp
      linear_combination (-(s * ll * (y - ll * x) * ((ll * y - x) + rho * (ll * y + x)))) * hq2 - hY2 +
        mul_div_cancel₀ (V3.dot r1 r2) hR2.ne'
    · rw [div_eq_div_iff hR2.ne' (mul_ne_zero hR2.ne' hlag0), ← hVt]; ring

end Izzo
end Lamberthub
