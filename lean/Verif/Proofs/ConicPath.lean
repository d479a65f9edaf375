import Verif.Proofs.PForm
import Verif.Proofs.PyLemmas
import Mathlib.Analysis.SpecialFunctions.Trigonometric.Angle
import Mathlib.Analysis.SpecialFunctions.Trigonometric.DerivHyp
import Mathlib.Analysis.SpecialFunctions.Trigonometric.Bounds
import Mathlib.Analysis.SpecialFunctions.Artanh

/-! # From Kepler's equation between two true anomalies to the transfer -/

set_option autoImplicit false

namespace Lamberthub
open Spec LC

/-- A conic `r (1 + e cos f) = p` through two radii `R1`, `R2` at the true anomalies `f1`,
`f2`, which differ by `θ` up to full turns (`σ = ±1` counts their parity). -/
structure TwoPoints (p e R1 R2 f1 f2 θ σ : ℝ) : Prop where
  hp : 0 < p
  he : 0 ≤ e
  hR1 : 0 < R1
  hR2 : 0 < R2
  e1 : R1 * (1 + e * Real.cos f1) = p
  e2 : R2 * (1 + e * Real.cos f2) = p
  hs : 0 < Real.sin (θ / 2)
  hσ : σ = 1 ∨ σ = -1
  hsin : Real.sin (f2 / 2) * Real.cos (f1 / 2) - Real.cos (f2 / 2) * Real.sin (f1 / 2) = σ * Real.sin (θ / 2)
  hcos : Real.cos (f2 / 2) * Real.cos (f1 / 2) + Real.sin (f2 / 2) * Real.sin (f1 / 2) = σ * Real.cos (θ / 2)

/-- The Lagrange parameter of the conic. -/
noncomputable def conicV (p R1 R2 θ : ℝ) : ℝ := R1 * R2 * (1 - Real.cos θ) / p

namespace TwoPoints
variable {p e R1 R2 f1 f2 θ σ : ℝ}

theorem one_sub_cos (θ : ℝ) : 1 - Real.cos θ = 2 * Real.sin (θ / 2) ^ 2 := by
  have : Real.cos θ = 2 * Real.cos (θ / 2) ^ 2 - 1 := by rw [← Real.cos_two_mul]; congr 1; ring
  rw [this, Real.cos_sq']; ring

theorem cos_half (f : ℝ) : Real.cos f = Real.cos (f / 2) ^ 2 - Real.sin (f / 2) ^ 2 := by
  rw [← Real.cos_two_mul']; congr 1; ring

theorem V_pos (h : TwoPoints p e R1 R2 f1 f2 θ σ) : 0 < conicV p R1 R2 θ := by
  have := h.hs; have := h.hR1; have := h.hR2; have := h.hp
  unfold conicV; rw [one_sub_cos]; positivity

theorem sigma_sq (h : TwoPoints p e R1 R2 f1 f2 θ σ) : σ * σ = 1 := by
  rcases h.hσ with rfl | rfl <;> norm_num

/-- The half-angle form of the radius. -/
theorem half1 (h : TwoPoints p e R1 R2 f1 f2 θ σ) :
    (1 + e) * Real.cos (f1 / 2) ^ 2 + (1 - e) * Real.sin (f1 / 2) ^ 2 = p / R1 := by
  rw [eq_div_iff h.hR1.ne', ← h.e1, cos_half f1]
  have := Real.sin_sq_add_cos_sq (f1 / 2)
  linear_combination R1 * this

theorem half2 (h : TwoPoints p e R1 R2 f1 f2 θ σ) :
    (1 + e) * Real.cos (f2 / 2) ^ 2 + (1 - e) * Real.sin (f2 / 2) ^ 2 = p / R2 := by
  rw [eq_div_iff h.hR2.ne', ← h.e2, cos_half f2]
  have := Real.sin_sq_add_cos_sq (f2 / 2)
  linear_combination R2 * this

end TwoPoints

/-- The representative in `(0, π)` of an angle with positive sine. -/
theorem angle_repr {x : ℝ} (h : 0 < Real.sin x) :
    ∃ (φ : ℝ) (k : ℤ), 0 < φ ∧ φ < Real.pi ∧ φ = x + k * (2 * Real.pi) := by
  have hc : Real.cos (Real.arccos (Real.cos x)) = Real.cos x :=
    Real.cos_arccos (Real.neg_one_le_cos x) (Real.cos_le_one x)
  have hs : Real.sin (Real.arccos (Real.cos x)) = Real.sin x := by
    rw [Real.sin_arccos, ← Real.sin_sq, Real.sqrt_sq h.le]
  have hlt : Real.cos x ^ 2 < 1 := by nlinarith [Real.sin_sq_add_cos_sq x]
  have habs := abs_lt.1 ((sq_lt_one_iff_abs_lt_one _).1 hlt)
  have he := Real.Angle.cos_sin_inj hc hs
  rw [Real.Angle.angle_eq_iff_two_pi_dvd_sub] at he
  obtain ⟨k, hk⟩ := he
  refine ⟨Real.arccos (Real.cos x), k, Real.arccos_pos.2 habs.2, ?_, by linarith⟩
  refine lt_of_le_of_ne (Real.arccos_le_pi _) fun h' => ?_
  rw [h', Real.sin_pi] at hs
  linarith

namespace TwoPoints
variable {p e R1 R2 f1 f2 θ σ : ℝ}

set_option maxHeartbeats 1000000 in
/-- Elliptic case: eccentric anomalies `E1`, `E2` known up to full turns give the elliptic
transfer, and Kepler's equation gives its time. -/
theorem ell (h : TwoPoints p e R1 R2 f1 f2 θ σ) (he1 : e < 1) {E1 E2 mu : ℝ} (hmu : 0 < mu)
    (s1 : Real.sqrt (1 - e) * Real.sin (f1 / 2) = Real.sqrt (p / R1) * Real.sin (E1 / 2))
    (c1 : Real.sqrt (1 + e) * Real.cos (f1 / 2) = Real.sqrt (p / R1) * Real.cos (E1 / 2))
    (s2 : Real.sqrt (1 - e) * Real.sin (f2 / 2) = Real.sqrt (p / R2) * Real.sin (E2 / 2))
    (c2 : Real.sqrt (1 + e) * Real.cos (f2 / 2) = Real.sqrt (p / R2) * Real.cos (E2 / 2)) :
    ∃ (d : ℝ) (k : ℤ), 0 < d ∧ d < 2 * Real.pi ∧
      (E2 - e * Real.sin E2) - (E1 - e * Real.sin E1) = d + k * (2 * Real.pi) ∧
      Path mu (R1 + R2) (halfA R1 R2 θ) 0 (conicV p R1 R2 θ) (Real.sqrt ((p / (1 - e ^ 2)) ^ 3 / mu) * d) := by
  have hpi := Real.pi_pos
  have hp := h.hp
  have hR1 := h.hR1
  have hR2 := h.hR2
  have he0 := h.he
  have hσ := h.sigma_sq
  have hs := h.hs
  have h1e : 0 < 1 - e := by linarith
  have h1e' : 0 < 1 + e := by linarith
  have h2e : 0 < 1 - e ^ 2 := by nlinarith
  have a1 : Real.sqrt (1 - e) ^ 2 = 1 - e := Real.sq_sqrt h1e.le
  have a2 : Real.sqrt (1 + e) ^ 2 = 1 + e := Real.sq_sqrt h1e'.le
  have a1p : 0 < Real.sqrt (1 - e) := Real.sqrt_pos.2 h1e
  have a2p : 0 < Real.sqrt (1 + e) := Real.sqrt_pos.2 h1e'
  have b1 : Real.sqrt (p / R1) ^ 2 = p / R1 := Real.sq_sqrt (by positivity)
  have b2 : Real.sqrt (p / R2) ^ 2 = p / R2 := Real.sq_sqrt (by positivity)
  have b1p : 0 < Real.sqrt (p / R1) := by positivity
  have b2p : 0 < Real.sqrt (p / R2) := by positivity
  have hRR : Real.sqrt (R1 * R2) * (Real.sqrt (p / R1) * Real.sqrt (p / R2)) = p := by
    rw [← Real.sqrt_mul (by positivity), ← Real.sqrt_mul (by positivity),
      show R1 * R2 * (p / R1 * (p / R2)) = p ^ 2 by field_simp, Real.sqrt_sq hp.le]
  have hRRp : 0 < Real.sqrt (R1 * R2) := by positivity
  have hRR2 : Real.sqrt (R1 * R2) ^ 2 = R1 * R2 := Real.sq_sqrt (by positivity)
  generalize hu : Real.sqrt (1 - e) = u at *
  generalize hw : Real.sqrt (1 + e) = w at *
  generalize hρ1 : Real.sqrt (p / R1) = ρ1 at *
  generalize hρ2 : Real.sqrt (p / R2) = ρ2 at *
  generalize hq : Real.sqrt (R1 * R2) = q at *
  have hs1 := h.hsin
  have hc1 := h.hcos
  -- half difference and half sum
  have eD : Real.sin ((E2 - E1) / 2) = Real.sin (E2 / 2) * Real.cos (E1 / 2) - Real.cos (E2 / 2) * Real.sin (E1 / 2) := by
    rw [← Real.sin_sub]; congr 1; ring
  have eDc : Real.cos ((E2 - E1) / 2) = Real.cos (E2 / 2) * Real.cos (E1 / 2) + Real.sin (E2 / 2) * Real.sin (E1 / 2) := by
    rw [← Real.cos_sub]; congr 1; ring
  have eSc : Real.cos ((E2 + E1) / 2) = Real.cos (E2 / 2) * Real.cos (E1 / 2) - Real.sin (E2 / 2) * Real.sin (E1 / 2) := by
    rw [← Real.cos_add]; congr 1; ring
  have f1' : ρ1 * ρ2 * Real.sin ((E2 - E1) / 2) = u * w * (σ * Real.sin (θ / 2)) := by
    rw [eD, ← hs1]
    linear_combination (-(ρ1 * Real.cos (E1 / 2)) * s2 - (u * Real.sin (f2 / 2)) * c1 + (ρ1 * Real.sin (E1 / 2)) * c2
      + w * Real.cos (f2 / 2) * s1)
  have f2' : ρ1 * ρ2 * (Real.cos ((E2 - E1) / 2) - e * Real.cos ((E2 + E1) / 2)) =
      (1 - e ^ 2) * (σ * Real.cos (θ / 2)) := by
    rw [eDc, eSc, ← hc1]
    have k1 : ρ1 * ρ2 * (Real.cos (E2 / 2) * Real.cos (E1 / 2)) = (1 + e) * (Real.cos (f2 / 2) * Real.cos (f1 / 2)) := by
      rw [← a2]
      linear_combination (-(ρ2 * Real.cos (E2 / 2)) * c1 - w * Real.cos (f1 / 2) * c2)
    have k2 : ρ1 * ρ2 * (Real.sin (E2 / 2) * Real.sin (E1 / 2)) = (1 - e) * (Real.sin (f2 / 2) * Real.sin (f1 / 2)) := by
      rw [← a1]
      linear_combination (-(ρ2 * Real.sin (E2 / 2)) * s1 - u * Real.sin (f1 / 2) * s2)
    linear_combination (1 - e) * k1 + (1 + e) * k2
  -- the representative
  obtain ⟨φ, S, m, hφ0, hφ1, hφs, hφc, hScos, hprod, h2φ⟩ : ∃ (φ S : ℝ) (m : ℤ), 0 < φ ∧ φ < Real.pi ∧
      Real.sin φ = σ * Real.sin ((E2 - E1) / 2) ∧ Real.cos φ = σ * Real.cos ((E2 - E1) / 2) ∧
      Real.cos S = σ * Real.cos ((E2 + E1) / 2) ∧
      Real.sin φ * Real.cos S = Real.sin ((E2 - E1) / 2) * Real.cos ((E2 + E1) / 2) ∧
      E2 - E1 = 2 * φ + m * (2 * Real.pi) := by
    rcases h.hσ with rfl | rfl
    · have : 0 < Real.sin ((E2 - E1) / 2) := by
        have : 0 < ρ1 * ρ2 * Real.sin ((E2 - E1) / 2) := by rw [f1', one_mul]; positivity
        exact pos_of_mul_pos_right this (by positivity)
      obtain ⟨φ, k, h0, h1, hk⟩ := angle_repr this
      refine ⟨φ, (E2 + E1) / 2, -2 * k, h0, h1, ?_, ?_, by ring, ?_, ?_⟩
      · rw [hk, Real.sin_add_int_mul_two_pi, one_mul]
      · rw [hk, Real.cos_add_int_mul_two_pi, one_mul]
      · rw [hk, Real.sin_add_int_mul_two_pi]
      · push_cast; rw [hk]; ring
    · have : 0 < Real.sin ((E2 - E1) / 2 + Real.pi) := by
        rw [Real.sin_add_pi]
        have : ρ1 * ρ2 * Real.sin ((E2 - E1) / 2) < 0 := by
          rw [f1']
          have : 0 < u * w * Real.sin (θ / 2) := by positivity
          linarith
        have := neg_of_mul_neg_right this (by positivity)
        linarith
      obtain ⟨φ, k, h0, h1, hk⟩ := angle_repr this
      have hsn : Real.sin φ = -Real.sin ((E2 - E1) / 2) := by
        rw [hk, Real.sin_add_int_mul_two_pi, Real.sin_add_pi]
      refine ⟨φ, (E2 + E1) / 2 + Real.pi, -2 * k - 1, h0, h1, by rw [hsn]; ring, ?_, ?_, ?_, ?_⟩
      · rw [hk, Real.cos_add_int_mul_two_pi, Real.cos_add_pi]; ring
      · rw [Real.cos_add_pi]; ring
      · rw [hsn, Real.cos_add_pi]; ring
      · push_cast; rw [hk]; ring
  have hsφ : 0 < Real.sin φ := Real.sin_pos_of_pos_of_lt_pi hφ0 hφ1
  have g1 : ρ1 * ρ2 * Real.sin φ = u * w * Real.sin (θ / 2) := by
    rw [hφs]; linear_combination σ * f1' + u * w * Real.sin (θ / 2) * hσ
  have g2 : ρ1 * ρ2 * (Real.cos φ - e * Real.cos S) = (1 - e ^ 2) * Real.cos (θ / 2) := by
    rw [hφc, hScos]; linear_combination σ * f2' + (1 - e ^ 2) * Real.cos (θ / 2) * hσ
  obtain ⟨a, ha⟩ : ∃ a, a = p / (1 - e ^ 2) := ⟨_, rfl⟩
  have hap : 0 < a := by rw [ha]; positivity
  have hpa : p = a * (1 - e ^ 2) := by rw [ha]; field_simp
  have hr2 : Real.sqrt 2 ^ 2 = 2 := Real.sq_sqrt (by norm_num)
  have hr2p : 0 < Real.sqrt 2 := by positivity
  -- the geometry constant
  have hA : halfA R1 R2 θ = Real.sqrt 2 * (a * (Real.cos φ - e * Real.cos S)) := by
    unfold halfA
    rw [hq]
    have : q * Real.cos (θ / 2) = a * (Real.cos φ - e * Real.cos S) := by
      have h0 : p * (q * Real.cos (θ / 2)) = p * (a * (Real.cos φ - e * Real.cos S)) := by
        linear_combination (a * q) * -g2 + (a * (Real.cos φ - e * Real.cos S)) * hRR + q * Real.cos (θ / 2) * hpa
      exact mul_left_cancel₀ hp.ne' h0
    rw [mul_assoc, this]
  -- V
  have huw : (u * w) ^ 2 = 1 - e ^ 2 := by rw [mul_pow, a1, a2]; ring
  have hV : conicV p R1 R2 θ = 2 * a * Real.sin φ ^ 2 := by
    unfold conicV
    rw [one_sub_cos, ← hRR2, div_eq_iff hp.ne']
    have g1sq : (ρ1 * ρ2) ^ 2 * Real.sin φ ^ 2 = (1 - e ^ 2) * Real.sin (θ / 2) ^ 2 := by
      rw [← huw, ← mul_pow, g1]; ring
    have hRRsq : q ^ 2 * (ρ1 * ρ2) ^ 2 = p ^ 2 := by rw [← mul_pow, hRR]
    have h0 : (1 - e ^ 2) * (q ^ 2 * (2 * Real.sin (θ / 2) ^ 2)) = (1 - e ^ 2) * (2 * a * Real.sin φ ^ 2 * p) := by
      linear_combination (-2 * q ^ 2) * g1sq + 2 * Real.sin φ ^ 2 * hRRsq + 2 * Real.sin φ ^ 2 * p * hpa
    exact mul_left_cancel₀ h2e.ne' h0
  -- the sum of radii
  have hR1a : R1 = a * (1 - e * Real.cos E1) := by
    have hcE : Real.cos E1 = Real.cos (E1 / 2) ^ 2 - Real.sin (E1 / 2) ^ 2 := cos_half E1
    have k : p / R1 * Real.cos E1 = Real.cos f1 + e := by
      rw [hcE, ← b1, cos_half f1]
      have hcc := congrArg (· ^ 2) c1
      have hss := congrArg (· ^ 2) s1
      simp only [mul_pow, a1, a2] at hcc hss
      have := Real.sin_sq_add_cos_sq (f1 / 2)
      linear_combination -hcc + hss + e * this
    have h0 : p * R1 = p * (a * (1 - e * Real.cos E1)) := by
      have k' : p * Real.cos E1 = R1 * (Real.cos f1 + e) := by rw [← k]; field_simp
      have := h.e1
      linear_combination a * this + a * e * k' + R1 * hpa
    exact mul_left_cancel₀ hp.ne' h0
  have hR2a : R2 = a * (1 - e * Real.cos E2) := by
    have hcE : Real.cos E2 = Real.cos (E2 / 2) ^ 2 - Real.sin (E2 / 2) ^ 2 := cos_half E2
    have k : p / R2 * Real.cos E2 = Real.cos f2 + e := by
      rw [hcE, ← b2, cos_half f2]
      have hcc := congrArg (· ^ 2) c2
      have hss := congrArg (· ^ 2) s2
      simp only [mul_pow, a1, a2] at hcc hss
      have := Real.sin_sq_add_cos_sq (f2 / 2)
      linear_combination -hcc + hss + e * this
    have h0 : p * R2 = p * (a * (1 - e * Real.cos E2)) := by
      have k' : p * Real.cos E2 = R2 * (Real.cos f2 + e) := by rw [← k]; field_simp
      have := h.e2
      linear_combination a * this + a * e * k' + R2 * hpa
    exact mul_left_cancel₀ hp.ne' h0
  have hsum : Real.cos E1 + Real.cos E2 = 2 * (Real.cos φ * Real.cos S) := by
    have : Real.cos φ * Real.cos S = Real.cos ((E2 - E1) / 2) * Real.cos ((E2 + E1) / 2) := by
      rw [hφc, hScos]; linear_combination Real.cos ((E2 - E1) / 2) * Real.cos ((E2 + E1) / 2) * hσ
    rw [this, Real.cos_add_cos E1 E2]
    rw [show (E1 - E2) / 2 = -((E2 - E1) / 2) by ring, Real.cos_neg, show (E1 + E2) / 2 = (E2 + E1) / 2 by ring]
    ring
  have hsin2 : Real.sin E2 - Real.sin E1 = 2 * (Real.sin φ * Real.cos S) := by
    rw [hprod, Real.sin_sub_sin]; ring
  have hP : conicV p R1 R2 θ = R1 + R2 - (-1) ^ 0 * (Real.sqrt 2 * halfA R1 R2 θ) * Real.cos φ := by
    rw [hV, hA, show R1 + R2 = a * (2 - e * (Real.cos E1 + Real.cos E2)) by linear_combination hR1a + hR2a, hsum,
      Real.sin_sq]
    linear_combination a * (Real.cos φ - e * Real.cos S) * Real.cos φ * hr2
  have hbound : |e * Real.cos S| < 1 := by
    rw [abs_mul, abs_of_nonneg he0]
    calc e * |Real.cos S| ≤ e * 1 := by gcongr; exact Real.abs_cos_le_one S
      _ < 1 := by linarith
  have hb := abs_lt.1 hbound
  have hlt1 : Real.sin φ < φ := Real.sin_lt hφ0
  have hlt2 : Real.sin φ < Real.pi - φ := by
    have := Real.sin_lt (x := Real.pi - φ) (by linarith)
    rwa [Real.sin_pi_sub] at this
  refine ⟨2 * φ - 2 * (e * (Real.sin φ * Real.cos S)), m, ?_, ?_, ?_, ?_⟩
  · linarith [mul_pos hsφ (sub_pos.2 hb.2)]
  · linarith [mul_pos hsφ (sub_pos.2 hb.1)]
  · linear_combination h2φ - e * hsin2
  · have hpath := Path.ell (μ := mu) (M := 0) (φ := φ) (by simpa using hφ0) (by simpa using hφ1) h.V_pos hP
    have hT : Tell mu (halfA R1 R2 θ) (conicV p R1 R2 θ) φ =
        Real.sqrt ((p / (1 - e ^ 2)) ^ 3 / mu) * (2 * φ - 2 * (e * (Real.sin φ * Real.cos S))) := by
      rw [← ha]
      unfold Tell
      rw [hV, hA, abs_of_pos hsφ, Real.sin_two_mul,
        show 2 * a * Real.sin φ ^ 2 / mu = (a / mu) * (Real.sin φ ^ 2 * 2) by ring, Real.sqrt_mul (by positivity),
        Real.sqrt_mul (by positivity), Real.sqrt_sq hsφ.le, show a ^ 3 / mu = a ^ 2 * (a / mu) by ring,
        Real.sqrt_mul (by positivity), Real.sqrt_sq hap.le]
      field_simp
      rw [hr2]
      ring
    rw [hT] at hpath
    exact hpath

set_option maxHeartbeats 1000000 in
/-- Hyperbolic case: increasing hyperbolic anomalies give the hyperbolic transfer, and
Kepler's equation gives its time. -/
theorem hyp (h : TwoPoints p e R1 R2 f1 f2 θ σ) (he1 : 1 < e) {F1 F2 t1 t2 mu : ℝ} (hmu : 0 < mu)
    (ht1 : t1 = 1 ∨ t1 = -1) (ht2 : t2 = 1 ∨ t2 = -1)
    (s1 : Real.sqrt (e - 1) * Real.sin (f1 / 2) = t1 * (Real.sqrt (p / R1) * Real.sinh (F1 / 2)))
    (c1 : Real.sqrt (e + 1) * Real.cos (f1 / 2) = t1 * (Real.sqrt (p / R1) * Real.cosh (F1 / 2)))
    (s2 : Real.sqrt (e - 1) * Real.sin (f2 / 2) = t2 * (Real.sqrt (p / R2) * Real.sinh (F2 / 2)))
    (c2 : Real.sqrt (e + 1) * Real.cos (f2 / 2) = t2 * (Real.sqrt (p / R2) * Real.cosh (F2 / 2))) (hF : F1 < F2) :
    Path mu (R1 + R2) (halfA R1 R2 θ) 0 (conicV p R1 R2 θ)
      (Real.sqrt ((p / (e ^ 2 - 1)) ^ 3 / mu) * ((e * Real.sinh F2 - F2) - (e * Real.sinh F1 - F1))) := by
  have hp := h.hp
  have hR1 := h.hR1
  have hR2 := h.hR2
  have hσ := h.sigma_sq
  have hs := h.hs
  have h1e : 0 < e - 1 := by linarith
  have h1e' : 0 < e + 1 := by linarith
  have h2e : 0 < e ^ 2 - 1 := by nlinarith
  have a1 : Real.sqrt (e - 1) ^ 2 = e - 1 := Real.sq_sqrt h1e.le
  have a2 : Real.sqrt (e + 1) ^ 2 = e + 1 := Real.sq_sqrt h1e'.le
  have a1p : 0 < Real.sqrt (e - 1) := Real.sqrt_pos.2 h1e
  have a2p : 0 < Real.sqrt (e + 1) := Real.sqrt_pos.2 h1e'
  have b1 : Real.sqrt (p / R1) ^ 2 = p / R1 := Real.sq_sqrt (by positivity)
  have b2 : Real.sqrt (p / R2) ^ 2 = p / R2 := Real.sq_sqrt (by positivity)
  have b1p : 0 < Real.sqrt (p / R1) := by positivity
  have b2p : 0 < Real.sqrt (p / R2) := by positivity
  have hRR : Real.sqrt (R1 * R2) * (Real.sqrt (p / R1) * Real.sqrt (p / R2)) = p := by
    rw [← Real.sqrt_mul (by positivity), ← Real.sqrt_mul (by positivity),
      show R1 * R2 * (p / R1 * (p / R2)) = p ^ 2 by field_simp, Real.sqrt_sq hp.le]
  have hRRp : 0 < Real.sqrt (R1 * R2) := by positivity
  have hRR2 : Real.sqrt (R1 * R2) ^ 2 = R1 * R2 := Real.sq_sqrt (by positivity)
  generalize hu : Real.sqrt (e - 1) = u at *
  generalize hw : Real.sqrt (e + 1) = w at *
  generalize hρ1 : Real.sqrt (p / R1) = ρ1 at *
  generalize hρ2 : Real.sqrt (p / R2) = ρ2 at *
  generalize hq : Real.sqrt (R1 * R2) = q at *
  have hs1 := h.hsin
  have hc1 := h.hcos
  have q1 : t1 * t1 = 1 := by rcases ht1 with rfl | rfl <;> norm_num
  have q2 : t2 * t2 = 1 := by rcases ht2 with rfl | rfl <;> norm_num
  obtain ⟨φ, hφ⟩ : ∃ φ, φ = (F2 - F1) / 2 := ⟨_, rfl⟩
  obtain ⟨S, hS⟩ : ∃ S, S = (F2 + F1) / 2 := ⟨_, rfl⟩
  have hφ0 : 0 < φ := by rw [hφ]; linarith
  have hsφ : 0 < Real.sinh φ := Real.sinh_pos_iff.2 hφ0
  have eD : Real.sinh φ = Real.sinh (F2 / 2) * Real.cosh (F1 / 2) - Real.cosh (F2 / 2) * Real.sinh (F1 / 2) := by
    rw [← Real.sinh_sub, hφ]; congr 1; ring
  have eDc : Real.cosh φ = Real.cosh (F2 / 2) * Real.cosh (F1 / 2) - Real.sinh (F2 / 2) * Real.sinh (F1 / 2) := by
    rw [← Real.cosh_sub, hφ]; congr 1; ring
  have eSc : Real.cosh S = Real.cosh (F2 / 2) * Real.cosh (F1 / 2) + Real.sinh (F2 / 2) * Real.sinh (F1 / 2) := by
    rw [← Real.cosh_add, hS]; congr 1; ring
  have f1' : t1 * t2 * (ρ1 * ρ2 * Real.sinh φ) = u * w * (σ * Real.sin (θ / 2)) := by
    rw [eD, ← hs1]
    linear_combination (-(t1 * ρ1 * Real.cosh (F1 / 2)) * s2 - (u * Real.sin (f2 / 2)) * c1
      + (t1 * ρ1 * Real.sinh (F1 / 2)) * c2 + w * Real.cos (f2 / 2) * s1)
  have hτ : t1 * t2 = σ := by
    have hpos : 0 < ρ1 * ρ2 * Real.sinh φ := by positivity
    have hpos' : 0 < u * w * Real.sin (θ / 2) := by positivity
    rcases ht1 with rfl | rfl <;> rcases ht2 with rfl | rfl <;> rcases h.hσ with hh | hh <;> rw [hh] at f1' <;>
      first
      | (rw [hh]; norm_num; done)
      | (exfalso; linarith)
  have g1 : ρ1 * ρ2 * Real.sinh φ = u * w * Real.sin (θ / 2) := by
    rw [hτ] at f1'
    linear_combination σ * f1' + (u * w * Real.sin (θ / 2) - ρ1 * ρ2 * Real.sinh φ) * hσ
  have g2 : ρ1 * ρ2 * (e * Real.cosh S - Real.cosh φ) = (e ^ 2 - 1) * Real.cos (θ / 2) := by
    have k1 : t1 * t2 * (ρ1 * ρ2 * (Real.cosh (F2 / 2) * Real.cosh (F1 / 2))) =
        (e + 1) * (Real.cos (f2 / 2) * Real.cos (f1 / 2)) := by
      rw [← a2]
      linear_combination (-(t2 * ρ2 * Real.cosh (F2 / 2)) * c1 - w * Real.cos (f1 / 2) * c2)
    have k2 : t1 * t2 * (ρ1 * ρ2 * (Real.sinh (F2 / 2) * Real.sinh (F1 / 2))) =
        (e - 1) * (Real.sin (f2 / 2) * Real.sin (f1 / 2)) := by
      rw [← a1]
      linear_combination (-(t2 * ρ2 * Real.sinh (F2 / 2)) * s1 - u * Real.sin (f1 / 2) * s2)
    have k3 : σ * (ρ1 * ρ2 * (e * Real.cosh S - Real.cosh φ)) = (e ^ 2 - 1) * (σ * Real.cos (θ / 2)) := by
      rw [eDc, eSc, ← hc1, ← hτ]
      linear_combination (e - 1) * k1 + (e + 1) * k2
    linear_combination σ * k3 + ((e ^ 2 - 1) * Real.cos (θ / 2) - ρ1 * ρ2 * (e * Real.cosh S - Real.cosh φ)) * hσ
  obtain ⟨a, ha⟩ : ∃ a, a = p / (e ^ 2 - 1) := ⟨_, rfl⟩
  have hap : 0 < a := by rw [ha]; positivity
  have hpa : p = a * (e ^ 2 - 1) := by rw [ha]; field_simp
  have hr2 : Real.sqrt 2 ^ 2 = 2 := Real.sq_sqrt (by norm_num)
  have hr2p : 0 < Real.sqrt 2 := by positivity
  have hA : halfA R1 R2 θ = Real.sqrt 2 * (a * (e * Real.cosh S - Real.cosh φ)) := by
    unfold halfA
    rw [hq]
    have : q * Real.cos (θ / 2) = a * (e * Real.cosh S - Real.cosh φ) := by
      have h0 : p * (q * Real.cos (θ / 2)) = p * (a * (e * Real.cosh S - Real.cosh φ)) := by
        linear_combination (a * q) * -g2 + (a * (e * Real.cosh S - Real.cosh φ)) * hRR + q * Real.cos (θ / 2) * hpa
      exact mul_left_cancel₀ hp.ne' h0
    rw [mul_assoc, this]
  have huw : (u * w) ^ 2 = e ^ 2 - 1 := by rw [mul_pow, a1, a2]; ring
  have hV : conicV p R1 R2 θ = 2 * a * Real.sinh φ ^ 2 := by
    unfold conicV
    rw [one_sub_cos, ← hRR2, div_eq_iff hp.ne']
    have g1sq : (ρ1 * ρ2) ^ 2 * Real.sinh φ ^ 2 = (e ^ 2 - 1) * Real.sin (θ / 2) ^ 2 := by
      rw [← huw, ← mul_pow, g1]; ring
    have hRRsq : q ^ 2 * (ρ1 * ρ2) ^ 2 = p ^ 2 := by rw [← mul_pow, hRR]
    have h0 : (e ^ 2 - 1) * (q ^ 2 * (2 * Real.sin (θ / 2) ^ 2)) = (e ^ 2 - 1) * (2 * a * Real.sinh φ ^ 2 * p) := by
      linear_combination (-2 * q ^ 2) * g1sq + 2 * Real.sinh φ ^ 2 * hRRsq + 2 * Real.sinh φ ^ 2 * p * hpa
    exact mul_left_cancel₀ h2e.ne' h0
  have hcosh : ∀ F : ℝ, Real.cosh F = Real.cosh (F / 2) ^ 2 + Real.sinh (F / 2) ^ 2 := fun F => by
    rw [← Real.cosh_two_mul]; congr 1; ring
  have hR1a : R1 = a * (e * Real.cosh F1 - 1) := by
    have k : p / R1 * Real.cosh F1 = Real.cos f1 + e := by
      rw [hcosh, ← b1, cos_half f1]
      have hcc := congrArg (· ^ 2) c1
      have hss := congrArg (· ^ 2) s1
      simp only [mul_pow, a1, a2] at hcc hss
      have := Real.sin_sq_add_cos_sq (f1 / 2)
      linear_combination -hcc - hss + e * this - ρ1 ^ 2 * (Real.cosh (F1 / 2) ^ 2 + Real.sinh (F1 / 2) ^ 2) * q1
    have h0 : p * R1 = p * (a * (e * Real.cosh F1 - 1)) := by
      have k' : p * Real.cosh F1 = R1 * (Real.cos f1 + e) := by rw [← k]; field_simp
      have := h.e1
      linear_combination -a * this - a * e * k' + R1 * hpa
    exact mul_left_cancel₀ hp.ne' h0
  have hR2a : R2 = a * (e * Real.cosh F2 - 1) := by
    have k : p / R2 * Real.cosh F2 = Real.cos f2 + e := by
      rw [hcosh, ← b2, cos_half f2]
      have hcc := congrArg (· ^ 2) c2
      have hss := congrArg (· ^ 2) s2
      simp only [mul_pow, a1, a2] at hcc hss
      have := Real.sin_sq_add_cos_sq (f2 / 2)
      linear_combination -hcc - hss + e * this - ρ2 ^ 2 * (Real.cosh (F2 / 2) ^ 2 + Real.sinh (F2 / 2) ^ 2) * q2
    have h0 : p * R2 = p * (a * (e * Real.cosh F2 - 1)) := by
      have k' : p * Real.cosh F2 = R2 * (Real.cos f2 + e) := by rw [← k]; field_simp
      have := h.e2
      linear_combination -a * this - a * e * k' + R2 * hpa
    exact mul_left_cancel₀ hp.ne' h0
  have e1 : F1 = S - φ := by rw [hS, hφ]; ring
  have e2 : F2 = S + φ := by rw [hS, hφ]; ring
  have hsum : Real.cosh F1 + Real.cosh F2 = 2 * (Real.cosh φ * Real.cosh S) := by
    rw [e1, e2, Real.cosh_sub, Real.cosh_add]; ring
  have hsin2 : Real.sinh F2 - Real.sinh F1 = 2 * (Real.sinh φ * Real.cosh S) := by
    rw [e1, e2, Real.sinh_sub, Real.sinh_add]; ring
  have hP : conicV p R1 R2 θ = R1 + R2 - Real.sqrt 2 * halfA R1 R2 θ * Real.cosh φ := by
    rw [hV, hA, show R1 + R2 = a * (e * (Real.cosh F1 + Real.cosh F2) - 2) by linear_combination hR1a + hR2a, hsum]
    have := Real.cosh_sq φ
    linear_combination a * (e * Real.cosh S - Real.cosh φ) * Real.cosh φ * hr2 - 2 * a * this
  have hpath := Path.hyp (μ := mu) hφ0 h.V_pos hP
  have hT : Thyp mu (halfA R1 R2 θ) (conicV p R1 R2 θ) φ =
      Real.sqrt ((p / (e ^ 2 - 1)) ^ 3 / mu) * ((e * Real.sinh F2 - F2) - (e * Real.sinh F1 - F1)) := by
    rw [← ha, show (e * Real.sinh F2 - F2) - (e * Real.sinh F1 - F1) = 2 * (e * (Real.sinh φ * Real.cosh S)) - 2 * φ by
      rw [hφ] at hsin2 ⊢; linear_combination e * hsin2]
    unfold Thyp
    rw [hV, hA, Real.sinh_two_mul,
      show 2 * a * Real.sinh φ ^ 2 / mu = (a / mu) * (Real.sinh φ ^ 2 * 2) by ring, Real.sqrt_mul (by positivity),
      Real.sqrt_mul (by positivity), Real.sqrt_sq hsφ.le, show a ^ 3 / mu = a ^ 2 * (a / mu) by ring,
      Real.sqrt_mul (by positivity), Real.sqrt_sq hap.le]
    field_simp
    rw [hr2]
    ring
  rw [hT] at hpath
  exact hpath

/-- Hyperbolic case, from the tangents of the half anomalies. -/
theorem hyp_tan (h : TwoPoints p e R1 R2 f1 f2 θ σ) (he1 : 1 < e) {mu : ℝ} (hmu : 0 < mu)
    (ht : Real.tan (f1 / 2) < Real.tan (f2 / 2)) :
    ∃ F1 F2 : ℝ, F1 = 2 * Real.artanh (Real.sqrt ((e - 1) / (e + 1)) * Real.tan (f1 / 2)) ∧
      F2 = 2 * Real.artanh (Real.sqrt ((e - 1) / (e + 1)) * Real.tan (f2 / 2)) ∧
      Path mu (R1 + R2) (halfA R1 R2 θ) 0 (conicV p R1 R2 θ)
        (Real.sqrt ((p / (e ^ 2 - 1)) ^ 3 / mu) * ((e * Real.sinh F2 - F2) - (e * Real.sinh F1 - F1))) := by
  have h1e : 0 < e - 1 := by linarith
  have h1e' : 0 < e + 1 := by linarith
  have key : ∀ {f R : ℝ}, 0 < R → (1 + e) * Real.cos (f / 2) ^ 2 + (1 - e) * Real.sin (f / 2) ^ 2 = p / R →
      (-1 < Real.sqrt ((e - 1) / (e + 1)) * Real.tan (f / 2) ∧ Real.sqrt ((e - 1) / (e + 1)) * Real.tan (f / 2) < 1) ∧
      ∃ t : ℝ, (t = 1 ∨ t = -1) ∧
        Real.sqrt (e - 1) * Real.sin (f / 2) = t * (Real.sqrt (p / R) *
          Real.sinh (2 * Real.artanh (Real.sqrt ((e - 1) / (e + 1)) * Real.tan (f / 2)) / 2)) ∧
        Real.sqrt (e + 1) * Real.cos (f / 2) = t * (Real.sqrt (p / R) *
          Real.cosh (2 * Real.artanh (Real.sqrt ((e - 1) / (e + 1)) * Real.tan (f / 2)) / 2)) := by
    intro f R hR hf
    have hpR : 0 < p / R := div_pos h.hp hR
    have hc : Real.cos (f / 2) ≠ 0 := by
      intro h0
      rw [h0] at hf
      nlinarith [sq_nonneg (Real.sin (f / 2))]
    obtain ⟨x, hx⟩ : ∃ x, x = Real.sqrt ((e - 1) / (e + 1)) * Real.tan (f / 2) := ⟨_, rfl⟩
    have a1 : Real.sqrt (e - 1) ^ 2 = e - 1 := Real.sq_sqrt h1e.le
    have a2 : Real.sqrt (e + 1) ^ 2 = e + 1 := Real.sq_sqrt h1e'.le
    have a2p : 0 < Real.sqrt (e + 1) := Real.sqrt_pos.2 h1e'
    have hx' : x * (Real.sqrt (e + 1) * Real.cos (f / 2)) = Real.sqrt (e - 1) * Real.sin (f / 2) := by
      rw [hx, Real.sqrt_div h1e.le, Real.tan_eq_sin_div_cos]; field_simp
    have hx2 : (1 - x ^ 2) * (Real.sqrt (e + 1) * Real.cos (f / 2)) ^ 2 = p / R := by
      have := congrArg (· ^ 2) hx'
      simp only [mul_pow, a1, a2] at this ⊢
      linear_combination -this + hf
    have hW : 0 < (Real.sqrt (e + 1) * Real.cos (f / 2)) ^ 2 := by positivity
    have hx1 : 0 < 1 - x ^ 2 := by
      by_contra hcon
      have := mul_nonpos_of_nonpos_of_nonneg (not_lt.1 hcon) hW.le
      linarith
    have hx3 := abs_lt.1 ((sq_lt_one_iff_abs_lt_one _).1 (by linarith : x ^ 2 < 1))
    rw [← hx]
    refine ⟨hx3, ?_⟩
    have hth : Real.tanh (Real.artanh x) = x := Real.tanh_artanh hx3
    have hch : Real.cosh (Real.artanh x) ^ 2 * (1 - x ^ 2) = 1 := by
      have h1 := Real.cosh_sq (Real.artanh x)
      have h2 : Real.sinh (Real.artanh x) = x * Real.cosh (Real.artanh x) := by
        rw [Real.tanh_eq_sinh_div_cosh, div_eq_iff (Real.cosh_pos _).ne'] at hth; exact hth
      rw [h2] at h1; linear_combination h1
    have hsh : Real.sinh (Real.artanh x) = x * Real.cosh (Real.artanh x) := by
      rw [Real.tanh_eq_sinh_div_cosh, div_eq_iff (Real.cosh_pos _).ne'] at hth; exact hth
    have hcp := Real.cosh_pos (Real.artanh x)
    have hsq : (Real.sqrt (p / R) * Real.cosh (Real.artanh x)) ^ 2 = (Real.sqrt (e + 1) * Real.cos (f / 2)) ^ 2 := by
      rw [mul_pow, Real.sq_sqrt hpR.le, ← hx2]
      linear_combination (Real.sqrt (e + 1) * Real.cos (f / 2)) ^ 2 * hch
    rw [mul_div_cancel_left₀ _ (two_ne_zero' ℝ)]
    rcases sq_eq_sq_iff_eq_or_eq_neg.1 hsq with h2 | h2
    · refine ⟨1, .inl rfl, ?_, by rw [one_mul, h2]⟩
      rw [hsh, ← hx', ← h2]; ring
    · refine ⟨-1, .inr rfl, ?_, by rw [h2]; ring⟩
      rw [hsh, ← hx']
      linear_combination x * h2
  obtain ⟨k1, t1, ht1, s1, c1⟩ := key h.hR1 h.half1
  obtain ⟨k2, t2, ht2, s2, c2⟩ := key h.hR2 h.half2
  refine ⟨_, _, rfl, rfl, h.hyp he1 hmu ht1 ht2 s1 c1 s2 c2 ?_⟩
  have hκ : 0 < Real.sqrt ((e - 1) / (e + 1)) := Real.sqrt_pos.2 (by positivity)
  have := Real.strictMonoOn_artanh k1 k2 (mul_lt_mul_of_pos_left ht hκ)
  linarith

/-- Parabolic case: Barker's equation. -/
theorem par (h : TwoPoints p 1 R1 R2 f1 f2 θ σ) {mu : ℝ} (hmu : 0 < mu)
    (ht : Real.tan (f1 / 2) < Real.tan (f2 / 2)) :
    conicV p R1 R2 θ = R1 + R2 - Real.sqrt 2 * halfA R1 R2 θ ∧
    Path mu (R1 + R2) (halfA R1 R2 θ) 0 (conicV p R1 R2 θ) (Real.sqrt (p ^ 3 / mu) / 2 *
      (Real.tan (f2 / 2) + Real.tan (f2 / 2) ^ 3 / 3 - Real.tan (f1 / 2) - Real.tan (f1 / 2) ^ 3 / 3)) := by
  have hp := h.hp
  have hR1 := h.hR1
  have hR2 := h.hR2
  have hσ := h.sigma_sq
  have h1 := h.half1
  have h2 := h.half2
  have hr2 : Real.sqrt 2 ^ 2 = 2 := Real.sq_sqrt (by norm_num)
  have hr2p : 0 < Real.sqrt 2 := by positivity
  have hc1 : Real.cos (f1 / 2) ≠ 0 := by
    intro h0; rw [h0] at h1; norm_num at h1
    exact (div_pos hp hR1).ne h1
  have hc2 : Real.cos (f2 / 2) ≠ 0 := by
    intro h0; rw [h0] at h2; norm_num at h2
    exact (div_pos hp hR2).ne h2
  have hs := h.hsin
  have hc := h.hcos
  obtain ⟨D1, hD1⟩ : ∃ D, D = Real.tan (f1 / 2) := ⟨_, rfl⟩
  obtain ⟨D2, hD2⟩ : ∃ D, D = Real.tan (f2 / 2) := ⟨_, rfl⟩
  have e1 : Real.sin (f1 / 2) = D1 * Real.cos (f1 / 2) := by rw [hD1, Real.tan_eq_sin_div_cos]; field_simp
  have e2 : Real.sin (f2 / 2) = D2 * Real.cos (f2 / 2) := by rw [hD2, Real.tan_eq_sin_div_cos]; field_simp
  rw [← hD1, ← hD2] at ht ⊢
  have u1 := Real.sin_sq_add_cos_sq (f1 / 2)
  have u2 := Real.sin_sq_add_cos_sq (f2 / 2)
  rw [e1] at u1 hs hc h1
  rw [e2] at u2 hs hc h2
  generalize Real.cos (f1 / 2) = C1 at *
  generalize Real.cos (f2 / 2) = C2 at *
  have hR1e : R1 = p * (1 + D1 ^ 2) / 2 := by
    rw [eq_div_iff hR1.ne'] at h1
    have hC : C1 ^ 2 ≠ 0 := pow_ne_zero _ hc1
    apply mul_left_cancel₀ hC
    linear_combination h1 / 2 - p / 2 * u1
  have hR2e : R2 = p * (1 + D2 ^ 2) / 2 := by
    rw [eq_div_iff hR2.ne'] at h2
    have hC : C2 ^ 2 ≠ 0 := pow_ne_zero _ hc2
    apply mul_left_cancel₀ hC
    linear_combination h2 / 2 - p / 2 * u2
  have hd : 0 < D2 - D1 := by linarith
  have hsp := h.hs
  have hCC : 0 < σ * (C1 * C2) := by
    have : σ * (C1 * C2) * (D2 - D1) = Real.sin (θ / 2) := by
      linear_combination σ * hs + Real.sin (θ / 2) * hσ
    by_contra hcon
    have := mul_nonpos_of_nonpos_of_nonneg (not_lt.1 hcon) hd.le
    linarith
  have hq : Real.sqrt (R1 * R2) * (σ * (C1 * C2)) = p / 2 := by
    have hsq : R1 * R2 * (σ * (C1 * C2)) ^ 2 = (p / 2) ^ 2 := by
      rw [hR1e, hR2e]
      linear_combination p ^ 2 / 4 * ((D1 * C1) ^ 2 + C1 ^ 2) * ((D2 * C2) ^ 2 + C2 ^ 2) * hσ +
        p ^ 2 / 4 * ((D2 * C2) ^ 2 + C2 ^ 2) * u1 + p ^ 2 / 4 * u2
    have := congrArg Real.sqrt hsq
    rwa [Real.sqrt_mul (by positivity), Real.sqrt_sq hCC.le, Real.sqrt_sq (by positivity)] at this
  have hA : halfA R1 R2 θ = Real.sqrt 2 * (p / 2 * (1 + D1 * D2)) := by
    unfold halfA
    have : Real.cos (θ / 2) = σ * (C1 * C2) * (1 + D1 * D2) := by
      linear_combination -σ * hc - Real.cos (θ / 2) * hσ
    rw [this]
    linear_combination Real.sqrt 2 * (1 + D1 * D2) * hq
  have hV : conicV p R1 R2 θ = p / 2 * (D2 - D1) ^ 2 := by
    unfold conicV
    rw [one_sub_cos, div_eq_iff hp.ne']
    have : Real.sin (θ / 2) = σ * (C1 * C2) * (D2 - D1) := by
      linear_combination -σ * hs - Real.sin (θ / 2) * hσ
    rw [this, hR1e, hR2e]
    linear_combination p ^ 2 / 2 * (D2 - D1) ^ 2 * ((D1 * C1) ^ 2 + C1 ^ 2) * ((D2 * C2) ^ 2 + C2 ^ 2) * hσ +
        p ^ 2 / 2 * (D2 - D1) ^ 2 * ((D2 * C2) ^ 2 + C2 ^ 2) * u1 + p ^ 2 / 2 * (D2 - D1) ^ 2 * u2
  have hP : conicV p R1 R2 θ = R1 + R2 - Real.sqrt 2 * halfA R1 R2 θ := by
    rw [hV, hA, hR1e, hR2e]
    linear_combination p / 2 * (1 + D1 * D2) * hr2
  have hpath := Path.par (μ := mu) h.V_pos hP
  have hT : Tpar mu (halfA R1 R2 θ) (conicV p R1 R2 θ) =
      Real.sqrt (p ^ 3 / mu) / 2 * (D2 + D2 ^ 3 / 3 - D1 - D1 ^ 3 / 3) := by
    unfold Tpar
    rw [hV, hA, show p / 2 * (D2 - D1) ^ 2 / mu = (p / mu) * (D2 - D1) ^ 2 / 2 by ring,
      Real.sqrt_div (by positivity), Real.sqrt_mul (by positivity), Real.sqrt_sq hd.le,
      show p ^ 3 / mu = p ^ 2 * (p / mu) by ring, Real.sqrt_mul (by positivity), Real.sqrt_sq hp.le]
    field_simp
    ring
  rw [hT] at hpath
  exact ⟨hP, hpath⟩

end TwoPoints
end Lamberthub
