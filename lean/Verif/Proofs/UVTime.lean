import Verif.Proofs.Path
import Verif.Proofs.TimeMono
import Verif.Proofs.StumpffCont
import Mathlib.Analysis.SpecialFunctions.Arcosh
import Mathlib.Topology.Order.IntermediateValue

/-! # The zero-revolution time of flight is a bijection of the path parameter

`uvT` is continuous and strictly increasing in the universal variable, from `0` to `∞`.
-/

set_option autoImplicit false

namespace Lamberthub.LC
open Lamberthub Spec

/-- The zero-revolution domain of the universal variable. -/
def uvDom (P A : ℝ) : Set ℝ := {ψ | ψ < 4 * Real.pi ^ 2 ∧ 0 < uvY P A ψ}

variable {μ P A : ℝ}

theorem phi_lt_pi {φ : ℝ} (hφ : 0 < φ) (h : (2 * φ) ^ 2 < 4 * Real.pi ^ 2) : φ < Real.pi := by
  have hpi := Real.pi_pos
  have : (2 * φ) ^ 2 < (2 * Real.pi) ^ 2 := by nlinarith
  have := lt_of_pow_lt_pow_left₀ 2 (by positivity) this
  linarith

theorem c2_pos {ψ : ℝ} (h : ψ < 4 * Real.pi ^ 2) : 0 < stumpffSeries 2 ψ := by
  rcases lt_trichotomy ψ 0 with h0 | rfl | h0
  · obtain ⟨φ, hφ, rfl⟩ := half_sqrt_neg h0
    rw [series2_neg_half hφ.ne']
    have := Real.sinh_pos_iff.2 hφ
    positivity
  · rw [series2_zero]; norm_num
  · obtain ⟨φ, hφ, rfl⟩ := half_sqrt h0
    have := Real.sin_pos_of_pos_of_lt_pi hφ (phi_lt_pi hφ h)
    rw [series2_half hφ.ne']
    positivity

theorem uvY_continuousAt {ψ : ℝ} (h : ψ < 4 * Real.pi ^ 2) : ContinuousAt (uvY P A) ψ := by
  have h2 := (stumpffSeries_continuous 2).continuousAt (x := ψ)
  have h3 := (stumpffSeries_continuous 3).continuousAt (x := ψ)
  have hp := Real.sqrt_pos.2 (c2_pos h)
  unfold uvY
  exact continuousAt_const.add
    ((continuousAt_const.mul ((continuousAt_id.mul h3).sub continuousAt_const)).div h2.sqrt hp.ne')

theorem uvT_continuousAt {ψ : ℝ} (h : ψ < 4 * Real.pi ^ 2) : ContinuousAt (uvT μ P A) ψ := by
  have h2 := (stumpffSeries_continuous 2).continuousAt (x := ψ)
  have h3 := (stumpffSeries_continuous 3).continuousAt (x := ψ)
  have hy := uvY_continuousAt (P := P) (A := A) h
  unfold uvT
  exact ((((hy.div h2 (c2_pos h).ne').sqrt.pow 3).mul h3).add (continuousAt_const.mul hy.sqrt)).div_const _

theorem scale_ell {V φ : ℝ} (hμ : 0 < μ) (hφ : 0 < φ) (hφ' : φ < Real.pi)
    (hV : V = P - Real.sqrt 2 * A * Real.cos φ) (hV0 : 0 ≤ V) :
    Real.sqrt 2 * Real.sqrt μ * Tell μ A V φ = tE P (Real.sqrt 2 * A) φ := by
  have hs := Real.sin_pos_of_pos_of_lt_pi hφ hφ'
  have hm : 0 < Real.sqrt μ := Real.sqrt_pos.2 hμ
  have hr2p : 0 < Real.sqrt 2 := by positivity
  have hr2 : Real.sqrt 2 ^ 2 = 2 := Real.sq_sqrt (by norm_num)
  unfold Tell tE
  rw [← hV, abs_of_pos hs, Real.sqrt_div hV0]
  field_simp

theorem scale_hyp {V φ : ℝ} (hμ : 0 < μ) (hφ : 0 < φ)
    (hV : V = P - Real.sqrt 2 * A * Real.cosh φ) (hV0 : 0 ≤ V) :
    Real.sqrt 2 * Real.sqrt μ * Thyp μ A V φ = tH P (Real.sqrt 2 * A) φ := by
  have hs := Real.sinh_pos_iff.2 hφ
  have hm : 0 < Real.sqrt μ := Real.sqrt_pos.2 hμ
  have hr2p : 0 < Real.sqrt 2 := by positivity
  unfold Thyp tH
  rw [← hV, Real.sqrt_div hV0]
  field_simp

theorem V_pos_ell (hP : |Real.sqrt 2 * A| < P) (φ : ℝ) : 0 < P - Real.sqrt 2 * A * Real.cos φ := by
  have h1 : |Real.sqrt 2 * A * Real.cos φ| ≤ |Real.sqrt 2 * A| := by
    rw [abs_mul]; exact mul_le_of_le_one_right (abs_nonneg _) (Real.abs_cos_le_one φ)
  have := le_abs_self (Real.sqrt 2 * A * Real.cos φ)
  linarith

theorem uvY_ell {φ : ℝ} (hφ : 0 < φ) (hφ' : φ < Real.pi) :
    uvY P A ((2 * φ) ^ 2) = P - Real.sqrt 2 * A * Real.cos φ := by
  rw [uvY_sq (M := 0) hφ (by simpa using hφ) (by simpa using hφ')]; ring

theorem uvT_ell {φ : ℝ} (hμ : 0 < μ) (hP : |Real.sqrt 2 * A| < P) (hφ : 0 < φ) (hφ' : φ < Real.pi) :
    Real.sqrt 2 * Real.sqrt μ * uvT μ P A ((2 * φ) ^ 2) = tE P (Real.sqrt 2 * A) φ := by
  have hs := Real.sin_pos_of_pos_of_lt_pi hφ hφ'
  have hY := uvY_ell (P := P) (A := A) hφ hφ'
  have hV := V_pos_ell hP φ
  rw [uvT_sq hμ hφ hs.ne' (by rw [hY]; exact hV.le), hY]
  exact scale_ell hμ hφ hφ' rfl hV.le

theorem uvT_hyp {φ : ℝ} (hμ : 0 < μ) (hφ : 0 < φ) (hV : 0 ≤ P - Real.sqrt 2 * A * Real.cosh φ) :
    Real.sqrt 2 * Real.sqrt μ * uvT μ P A (-(2 * φ) ^ 2) = tH P (Real.sqrt 2 * A) φ := by
  have hY := uvY_neg_sq (P := P) (A := A) hφ
  rw [uvT_neg_sq hμ hφ (by rw [hY]; exact hV), hY]
  exact scale_hyp hμ hφ rfl hV

/-- The domain is upward closed below `4π²`. -/
theorem uvDom_up (hP : |Real.sqrt 2 * A| < P) {ψ ψ' : ℝ} (h : ψ ∈ uvDom P A) (hle : ψ ≤ ψ')
    (h' : ψ' < 4 * Real.pi ^ 2) : ψ' ∈ uvDom P A := by
  refine ⟨h', ?_⟩
  rcases lt_trichotomy ψ' 0 with h0 | rfl | h0
  · obtain ⟨φ', hφ', rfl⟩ := half_sqrt_neg h0
    obtain ⟨φ, hφ, rfl⟩ := half_sqrt_neg (lt_of_le_of_lt hle h0)
    have hY := h.2
    rw [uvY_neg_sq hφ] at hY
    rw [uvY_neg_sq hφ']
    have : φ' ≤ φ := by
      have : (2 * φ') ^ 2 ≤ (2 * φ) ^ 2 := by linarith
      have := le_of_sq_le_sq this (by positivity)
      linarith
    exact hypDom_down hP hφ'.le this hY
  · rw [uvY_zero]
    linarith [le_abs_self (Real.sqrt 2 * A)]
  · obtain ⟨φ, hφ, rfl⟩ := half_sqrt h0
    rw [uvY_ell hφ (phi_lt_pi hφ h')]
    exact V_pos_ell hP φ

theorem kappa_pos (hμ : 0 < μ) : 0 < Real.sqrt 2 * Real.sqrt μ := by
  have := Real.sqrt_pos.2 hμ
  positivity

/-- The time of flight increases with the universal variable. -/
theorem uvT_strictMonoOn (hμ : 0 < μ) (hP : |Real.sqrt 2 * A| < P) :
    StrictMonoOn (uvT μ P A) (uvDom P A) := by
  have hk := kappa_pos hμ
  have hpi := Real.pi_pos
  have hpos : ∀ {a b : ℝ}, 0 < a → a < b → b < 4 * Real.pi ^ 2 → uvT μ P A a < uvT μ P A b := by
    intro a b ha hab hb
    obtain ⟨x, hx, rfl⟩ := half_sqrt ha
    obtain ⟨y, hy, rfl⟩ := half_sqrt (ha.trans hab)
    have hxy : x < y := by
      have := lt_of_pow_lt_pow_left₀ 2 (by positivity) hab
      linarith
    have hyp := phi_lt_pi hy hb
    have := tE_strictMono (P := P) (B := Real.sqrt 2 * A) hP ⟨hx, hxy.trans hyp⟩ ⟨hy, hyp⟩ hxy
    rw [← uvT_ell hμ hP hx (hxy.trans hyp), ← uvT_ell hμ hP hy hyp] at this
    exact lt_of_mul_lt_mul_left this hk.le
  have hneg : ∀ {a b : ℝ}, a < b → b < 0 → a ∈ uvDom P A → uvT μ P A a < uvT μ P A b := by
    intro a b hab hb ha
    obtain ⟨x, hx, rfl⟩ := half_sqrt_neg hb
    obtain ⟨y, hy, rfl⟩ := half_sqrt_neg (hab.trans hb)
    have hxy : x < y := by
      have : (2 * x) ^ 2 < (2 * y) ^ 2 := by linarith
      have := lt_of_pow_lt_pow_left₀ 2 (by positivity) this
      linarith
    have hY := ha.2
    rw [uvY_neg_sq hy] at hY
    have hYx := hypDom_down hP hx.le hxy.le hY
    have := tH_strictAnti (P := P) (B := Real.sqrt 2 * A) hP hY ⟨hx, hxy.le⟩ ⟨hy, le_rfl⟩ hxy
    rw [← uvT_hyp hμ hx hYx.le, ← uvT_hyp hμ hy hY.le] at this
    exact lt_of_mul_lt_mul_left this hk.le
  have h0 : (0 : ℝ) < 4 * Real.pi ^ 2 := by positivity
  have hcont := uvT_continuousAt (μ := μ) (P := P) (A := A) h0
  have hneg0 : ∀ {a : ℝ}, a < 0 → a ∈ uvDom P A → uvT μ P A a < uvT μ P A 0 := by
    intro a ha haD
    have h1 := hneg (a := a) (b := a / 2) (by linarith) (by linarith) haD
    have h2 : a / 2 ∈ uvDom P A := uvDom_up hP haD (by linarith) (by linarith)
    have ht : Filter.Tendsto (uvT μ P A) (nhdsWithin 0 (Set.Iio 0)) (nhds (uvT μ P A 0)) :=
      hcont.tendsto.mono_left nhdsWithin_le_nhds
    refine lt_of_lt_of_le h1 (ge_of_tendsto ht ?_)
    filter_upwards [Ioo_mem_nhdsLT (show a / 2 < 0 by linarith)] with t ht
    exact (hneg ht.1 ht.2 h2).le
  have hpos0 : ∀ {b : ℝ}, 0 < b → b < 4 * Real.pi ^ 2 → uvT μ P A 0 < uvT μ P A b := by
    intro b hb hb'
    have h1 := hpos (a := b / 2) (b := b) (by linarith) (by linarith) hb'
    have ht : Filter.Tendsto (uvT μ P A) (nhdsWithin 0 (Set.Ioi 0)) (nhds (uvT μ P A 0)) :=
      hcont.tendsto.mono_left nhdsWithin_le_nhds
    refine lt_of_le_of_lt (le_of_tendsto ht ?_) h1
    filter_upwards [Ioo_mem_nhdsGT (show (0 : ℝ) < b / 2 by linarith)] with t ht
    exact (hpos ht.1 ht.2 (by linarith)).le
  intro a ha b hb hab
  rcases lt_trichotomy b 0 with hb0 | rfl | hb0
  · exact hneg hab hb0 ha
  · exact hneg0 hab ha
  · rcases lt_trichotomy a 0 with ha0 | rfl | ha0
    · exact (hneg0 ha0 ha).trans (hpos0 hb0 hb.1)
    · exact hpos0 hb0 hb.1
    · exact hpos ha0 hab hb.1

/-- Arbitrarily long times. -/
theorem uvT_large (hμ : 0 < μ) (hP : |Real.sqrt 2 * A| < P) (T : ℝ) :
    ∃ ψ ∈ uvDom P A, 0 < ψ ∧ T < uvT μ P A ψ := by
  have hk := kappa_pos hμ
  have hpi := Real.pi_pos
  obtain ⟨B, hB⟩ : ∃ B, B = Real.sqrt 2 * A := ⟨_, rfl⟩
  rw [← hB] at hP
  obtain ⟨d, hd⟩ : ∃ d, d = P - |B| := ⟨_, rfl⟩
  have hd0 : 0 < d := by rw [hd]; linarith
  have hsd : 0 < Real.sqrt d := Real.sqrt_pos.2 hd0
  obtain ⟨K, hK⟩ : ∃ K, K = |B| + |Real.sqrt 2 * Real.sqrt μ * T| / Real.sqrt d + 1 := ⟨_, rfl⟩
  have hK1 : 1 ≤ K := by
    rw [hK]
    have h1 := abs_nonneg B
    have h2 : 0 ≤ |Real.sqrt 2 * Real.sqrt μ * T| / Real.sqrt d := by positivity
    linarith
  obtain ⟨ε, hε⟩ : ∃ ε, ε = min 1 (d / K) := ⟨_, rfl⟩
  have hε0 : 0 < ε := by rw [hε]; exact lt_min one_pos (by positivity)
  have hε1 : ε ≤ 1 := by rw [hε]; exact min_le_left _ _
  have hεK : K * ε ≤ d := by
    have : ε ≤ d / K := by rw [hε]; exact min_le_right _ _
    rw [le_div_iff₀ (by linarith)] at this
    linarith
  obtain ⟨φ, hφd⟩ : ∃ φ, φ = Real.pi - Real.arcsin ε := ⟨_, rfl⟩
  have has0 : 0 < Real.arcsin ε := Real.arcsin_pos.2 hε0
  have has1 := Real.arcsin_le_pi_div_two ε
  have hφ1 : Real.pi / 2 ≤ φ := by rw [hφd]; linarith
  have hφ2 : φ < Real.pi := by rw [hφd]; linarith
  have hφ0 : 0 < φ := by linarith
  have hsin : Real.sin φ = ε := by
    rw [hφd, Real.sin_pi_sub, Real.sin_arcsin (by linarith) hε1]
  refine ⟨(2 * φ) ^ 2, ⟨by nlinarith, ?_⟩, by positivity, ?_⟩
  · rw [uvY_ell hφ0 hφ2]; exact V_pos_ell (by rw [← hB]; exact hP) φ
  refine lt_of_mul_lt_mul_left ?_ hk.le
  rw [uvT_ell hμ (by rw [← hB]; exact hP) hφ0 hφ2, ← hB]
  unfold tE
  have hVd : d ≤ P - B * Real.cos φ := by
    have h1 : |B * Real.cos φ| ≤ |B| := by
      rw [abs_mul]; exact mul_le_of_le_one_right (abs_nonneg _) (Real.abs_cos_le_one φ)
    have := le_abs_self (B * Real.cos φ)
    rw [hd]; linarith
  generalize P - B * Real.cos φ = V at hVd ⊢
  have hs2 : Real.sin (2 * φ) ≤ 0 := by
    rw [Real.sin_two_mul]
    have : Real.cos φ ≤ 0 := Real.cos_nonpos_of_pi_div_two_le_of_le hφ1 (by linarith)
    rw [hsin]; nlinarith
  have hnum : 2 ≤ 2 * φ - Real.sin (2 * φ) := by linarith [Real.two_le_pi]
  have hfrac : K ≤ V * (2 * φ - Real.sin (2 * φ)) / (2 * Real.sin φ ^ 3) := by
    rw [hsin, le_div_iff₀ (by positivity)]
    have h1 : ε ^ 3 ≤ ε := by nlinarith [mul_pos hε0 hε0]
    nlinarith
  have hbr : |Real.sqrt 2 * Real.sqrt μ * T| / Real.sqrt d + 1 ≤
      V * (2 * φ - Real.sin (2 * φ)) / (2 * Real.sin φ ^ 3) + B := by
    have := neg_abs_le B
    linarith
  have hsV : Real.sqrt d ≤ Real.sqrt V := Real.sqrt_le_sqrt hVd
  have h0 : 0 ≤ |Real.sqrt 2 * Real.sqrt μ * T| / Real.sqrt d := by positivity
  calc Real.sqrt 2 * Real.sqrt μ * T ≤ |Real.sqrt 2 * Real.sqrt μ * T| := le_abs_self _
    _ = Real.sqrt d * (|Real.sqrt 2 * Real.sqrt μ * T| / Real.sqrt d) := by field_simp
    _ < Real.sqrt d * (|Real.sqrt 2 * Real.sqrt μ * T| / Real.sqrt d + 1) := by
      apply mul_lt_mul_of_pos_left _ hsd; linarith
    _ ≤ Real.sqrt V * (V * (2 * φ - Real.sin (2 * φ)) / (2 * Real.sin φ ^ 3) + B) := by
      apply mul_le_mul hsV hbr (by linarith) (Real.sqrt_nonneg _)

/-- Arbitrarily short times, short way. -/
theorem uvT_small_pos (hμ : 0 < μ) (hA : 0 < A) (hP : |Real.sqrt 2 * A| < P) {T : ℝ} (hT : 0 < T) :
    ∃ ψ ∈ uvDom P A, ψ < 0 ∧ uvT μ P A ψ < T := by
  have hk := kappa_pos hμ
  obtain ⟨B, hB⟩ : ∃ B, B = Real.sqrt 2 * A := ⟨_, rfl⟩
  have hB0 : 0 < B := by rw [hB]; positivity
  have hP' : B < P := by rw [← hB, abs_of_pos hB0] at hP; exact hP
  have hq : 1 < P / B := by rw [lt_div_iff₀ hB0]; linarith
  obtain ⟨m, hm⟩ : ∃ m, m = Real.arcosh (P / B) := ⟨_, rfl⟩
  have hm0 : 0 < m := by rw [hm]; exact Real.arcosh_pos hq
  have hcm : Real.cosh m = P / B := by rw [hm]; exact Real.cosh_arcosh hq.le
  have hVm : P - B * Real.cosh m = 0 := by rw [hcm]; field_simp; ring
  have hcont : ContinuousAt (tH P B) m := by
    have hs := Real.sinh_pos_iff.2 hm0
    unfold tH
    refine ContinuousAt.mul ?_ (ContinuousAt.add (ContinuousAt.div ?_ ?_ ?_) continuousAt_const)
    · exact (by fun_prop : Continuous fun φ => Real.sqrt (P - B * Real.cosh φ)).continuousAt
    · exact (by fun_prop : Continuous fun φ => (P - B * Real.cosh φ) * (Real.sinh (2 * φ) - 2 * φ)).continuousAt
    · exact (by fun_prop : Continuous fun φ => 2 * Real.sinh φ ^ 3).continuousAt
    · positivity
  have h0 : tH P B m = 0 := by unfold tH; rw [hVm]; simp
  have hev : ∀ᶠ φ in nhdsWithin m (Set.Iio m), tH P B φ < Real.sqrt 2 * Real.sqrt μ * T := by
    have := hcont.tendsto.mono_left (nhdsWithin_le_nhds (s := Set.Iio m))
    rw [h0] at this
    exact this.eventually (gt_mem_nhds (by positivity))
  obtain ⟨φ, hφT, hφ⟩ := (hev.and (Ioo_mem_nhdsLT hm0)).exists
  have hV : 0 < P - B * Real.cosh φ := by
    have : Real.cosh φ < Real.cosh m := by
      rw [Real.cosh_lt_cosh, abs_of_pos hφ.1, abs_of_pos hm0]; exact hφ.2
    nlinarith
  refine ⟨-(2 * φ) ^ 2, ⟨?_, ?_⟩, ?_, ?_⟩
  · have := Real.pi_pos; nlinarith [sq_nonneg (2 * φ), sq_nonneg Real.pi]
  · rw [uvY_neg_sq hφ.1, ← hB]; exact hV
  · have := hφ.1; nlinarith
  · refine lt_of_mul_lt_mul_left ?_ hk.le
    rw [uvT_hyp hμ hφ.1 (by rw [← hB]; exact hV.le), ← hB]
    exact hφT

/-- Arbitrarily short times, long way. -/
theorem uvT_small_neg (hμ : 0 < μ) (hA : A < 0) (hP : |Real.sqrt 2 * A| < P) {T : ℝ} (hT : 0 < T) :
    ∃ ψ ∈ uvDom P A, ψ < 0 ∧ uvT μ P A ψ < T := by
  have hk := kappa_pos hμ
  obtain ⟨b, hb⟩ : ∃ b, b = -(Real.sqrt 2 * A) := ⟨_, rfl⟩
  have hb0 : 0 < b := by
    have : 0 < Real.sqrt 2 * (-A) := mul_pos (by positivity) (by linarith)
    rw [hb]; linarith
  have hB : Real.sqrt 2 * A = -b := by rw [hb]; ring
  have hPp : 0 < P := lt_of_le_of_lt (abs_nonneg _) hP
  obtain ⟨Q, hQ⟩ : ∃ Q, Q = P + b := ⟨_, rfl⟩
  have hQ0 : 0 < Q := by rw [hQ]; linarith
  obtain ⟨t, ht⟩ : ∃ t, t = Real.sqrt 2 * Real.sqrt μ * T := ⟨_, rfl⟩
  have ht0 : 0 < t := by rw [ht]; positivity
  -- C = r², r large
  obtain ⟨r, hr⟩ : ∃ r, r = 2 + 2 * Real.sqrt Q * Q / t := ⟨_, rfl⟩
  have hsQ : 0 < Real.sqrt Q := Real.sqrt_pos.2 hQ0
  have hrx : 0 < 2 * Real.sqrt Q * Q / t := by positivity
  have hr2 : 2 < r := by rw [hr]; linarith
  have hrt : 2 * Real.sqrt Q * Q < t * r := by
    rw [hr, mul_add, mul_div_cancel₀ _ ht0.ne']; linarith
  obtain ⟨φ, hφd⟩ : ∃ φ, φ = Real.arcosh (r ^ 2) := ⟨_, rfl⟩
  have hr21 : 1 < r ^ 2 := by nlinarith
  have hφ : 0 < φ := by rw [hφd]; exact Real.arcosh_pos hr21
  have hC : Real.cosh φ = r ^ 2 := by rw [hφd]; exact Real.cosh_arcosh hr21.le
  have hS := Real.sinh_pos_iff.2 hφ
  have hS2 : Real.sinh φ ^ 2 = r ^ 4 - 1 := by rw [Real.sinh_sq, hC]; ring
  have hV : 0 < P - -b * Real.cosh φ := by rw [hC]; nlinarith
  refine ⟨-(2 * φ) ^ 2, ⟨?_, ?_⟩, ?_, ?_⟩
  · have := Real.pi_pos; nlinarith [sq_nonneg (2 * φ), sq_nonneg Real.pi]
  · rw [uvY_neg_sq hφ, hB]; exact hV
  · nlinarith
  refine lt_of_mul_lt_mul_left ?_ hk.le
  rw [uvT_hyp hμ hφ (by rw [hB]; exact hV.le), hB, ← ht]
  unfold tH
  have hVle : P - -b * Real.cosh φ ≤ Q * r ^ 2 := by rw [hC, hQ]; nlinarith
  have hbr : (P - -b * Real.cosh φ) * (Real.sinh (2 * φ) - 2 * φ) / (2 * Real.sinh φ ^ 3) + -b ≤
      2 * Q / r ^ 2 := by
    have e1 : (P - -b * Real.cosh φ) * (Real.sinh (2 * φ) - 2 * φ) / (2 * Real.sinh φ ^ 3) ≤
        (P - -b * Real.cosh φ) * Real.cosh φ / Real.sinh φ ^ 2 := by
      rw [div_le_div_iff₀ (by positivity) (by positivity), Real.sinh_two_mul]
      have : 0 ≤ (P - -b * Real.cosh φ) * (2 * φ) * Real.sinh φ ^ 2 := by positivity
      nlinarith
    have hS2p : 0 < r ^ 4 - 1 := by rw [← hS2]; positivity
    have e2 : (P - -b * Real.cosh φ) * Real.cosh φ / Real.sinh φ ^ 2 + -b = (P * r ^ 2 + b) / (r ^ 4 - 1) := by
      rw [hS2, hC, eq_div_iff hS2p.ne']; field_simp; ring
    have e3 : (P * r ^ 2 + b) / (r ^ 4 - 1) ≤ 2 * Q / r ^ 2 := by
      rw [div_le_div_iff₀ hS2p (by positivity), hQ]
      have h4 : 4 < r ^ 2 := by nlinarith
      have h5 : 2 ≤ r ^ 4 := by nlinarith
      nlinarith [mul_pos hPp (by linarith : (0 : ℝ) < r ^ 2), mul_pos hb0 (by linarith : (0 : ℝ) < r ^ 2)]
    linarith
  have hsV : Real.sqrt (P - -b * Real.cosh φ) ≤ Real.sqrt Q * r := by
    calc Real.sqrt (P - -b * Real.cosh φ) ≤ Real.sqrt (Q * r ^ 2) := Real.sqrt_le_sqrt hVle
      _ = Real.sqrt Q * r := by rw [Real.sqrt_mul hQ0.le, Real.sqrt_sq (by linarith)]
  have hsV0 := Real.sqrt_pos.2 hV
  calc Real.sqrt (P - -b * Real.cosh φ) *
        ((P - -b * Real.cosh φ) * (Real.sinh (2 * φ) - 2 * φ) / (2 * Real.sinh φ ^ 3) + -b)
      ≤ Real.sqrt (P - -b * Real.cosh φ) * (2 * Q / r ^ 2) := mul_le_mul_of_nonneg_left hbr hsV0.le
    _ ≤ Real.sqrt Q * r * (2 * Q / r ^ 2) := mul_le_mul_of_nonneg_right hsV (by positivity)
    _ = 2 * Real.sqrt Q * Q / r := by field_simp
    _ < t := by rw [div_lt_iff₀ (by linarith)]; exact hrt

/-- Every positive time of flight is reached by exactly one value of the universal variable. -/
theorem uvT_exists_unique (hμ : 0 < μ) (hA : A ≠ 0) (hP : |Real.sqrt 2 * A| < P) {T : ℝ} (hT : 0 < T) :
    ∃! ψ, ψ ∈ uvDom P A ∧ uvT μ P A ψ = T := by
  obtain ⟨a, haD, ha0, haT⟩ : ∃ ψ ∈ uvDom P A, ψ < 0 ∧ uvT μ P A ψ < T := by
    rcases lt_or_gt_of_ne hA with h | h
    · exact uvT_small_neg hμ h hP hT
    · exact uvT_small_pos hμ h hP hT
  obtain ⟨b, hbD, hb0, hbT⟩ := uvT_large hμ hP T
  have hsub : Set.Icc a b ⊆ uvDom P A := fun x hx => uvDom_up hP haD hx.1 (lt_of_le_of_lt hx.2 hbD.1)
  have hcont : ContinuousOn (uvT μ P A) (Set.Icc a b) := fun x hx =>
    (uvT_continuousAt (hsub hx).1).continuousWithinAt
  obtain ⟨ψ, hψ, hψT⟩ := intermediate_value_Icc (by linarith) hcont ⟨haT.le, hbT.le⟩
  refine ⟨ψ, ⟨hsub hψ, hψT⟩, ?_⟩
  rintro ψ' ⟨h1, h2⟩
  exact (uvT_strictMonoOn hμ hP).injOn h1 (hsub hψ) (h2.trans hψT.symm)

end Lamberthub.LC
