import Verif.Proofs.Path
import Mathlib.Analysis.Calculus.Deriv.MeanValue
import Mathlib.Analysis.SpecialFunctions.Trigonometric.Deriv
import Mathlib.Analysis.SpecialFunctions.Trigonometric.DerivHyp
import Mathlib.Analysis.SpecialFunctions.Sqrt

/-!
# The zero-revolution time of flight is strictly monotone

`key_ell` and `key_hyp` are the two transcendental inequalities everything rests on.
-/

set_option autoImplicit false

namespace Lamberthub.LC
open Lamberthub

/-! ### elliptic branch -/

theorem key_ell_half {u : ℝ} (h0 : 0 < u) (h1 : u < Real.pi / 2) :
    4 * u - Real.sin (4 * u) <
      8 / 3 * (Real.sin u ^ 3 / Real.cos u + 3 * Real.sin u ^ 3 * Real.cos u) := by
  have hpi := Real.pi_pos
  obtain ⟨G, hG⟩ : ∃ G : ℝ → ℝ, G = fun u => 8 / 3 * (Real.sin u ^ 3 / Real.cos u +
      3 * Real.sin u ^ 3 * Real.cos u) - (4 * u - Real.sin (4 * u)) := ⟨_, rfl⟩
  have hcos : ∀ x ∈ Set.Ico 0 (Real.pi / 2), 0 < Real.cos x := fun x hx =>
    Real.cos_pos_of_mem_Ioo ⟨by linarith [hx.1], hx.2⟩
  have hder : ∀ x ∈ Set.Ico 0 (Real.pi / 2),
      HasDerivAt G (8 / 3 * (Real.sin x ^ 4 / Real.cos x ^ 2)) x := by
    intro x hx
    have hc := (hcos x hx).ne'
    rw [hG]
    have d1 := (((Real.hasDerivAt_sin x).pow 3).div (Real.hasDerivAt_cos x) hc)
    have d2 := (((Real.hasDerivAt_sin x).pow 3).const_mul 3).mul (Real.hasDerivAt_cos x)
    have d3 := ((hasDerivAt_id x).const_mul 4).sub
      ((Real.hasDerivAt_sin (4 * x)).comp x ((hasDerivAt_id x).const_mul 4))
    have d := ((d1.add d2).const_mul (8 / 3)).sub d3
    refine (d.congr_deriv ?_).congr_of_eventuallyEq ?_
    · have h4 : Real.cos (4 * x) = 1 - 8 * Real.sin x ^ 2 * Real.cos x ^ 2 := by
        rw [show 4 * x = 2 * (2 * x) by ring, Real.cos_two_mul', Real.sin_two_mul]
        have := Real.sin_sq_add_cos_sq (2 * x)
        rw [Real.sin_two_mul] at this
        linear_combination this
      have hs := Real.sin_sq_add_cos_sq x
      have hs2 : Real.cos x ^ 2 = 1 - Real.sin x ^ 2 := by linarith
      rw [h4]
      simp only [Nat.cast_ofNat, Nat.add_one_sub_one, Pi.pow_apply, mul_one]
      field_simp
      rw [hs2]
      ring
    · exact Filter.Eventually.of_forall fun y => rfl
  have hmono : StrictMonoOn G (Set.Ico 0 (Real.pi / 2)) := by
    apply strictMonoOn_of_deriv_pos (convex_Ico _ _)
    · exact fun x hx => (hder x hx).continuousAt.continuousWithinAt
    · intro x hx
      rw [interior_Ico] at hx
      rw [(hder x ⟨hx.1.le, hx.2⟩).deriv]
      have := hcos x ⟨hx.1.le, hx.2⟩
      have := Real.sin_pos_of_pos_of_lt_pi hx.1 (by linarith [hx.2])
      positivity
  have := hmono ⟨le_refl 0, by linarith⟩ ⟨h0.le, h1⟩ h0
  rw [hG] at this
  simp at this
  linarith

theorem key_ell {φ : ℝ} (h0 : 0 < φ) (h1 : φ < Real.pi) :
    3 * (2 * φ - Real.sin (2 * φ)) * (1 + Real.cos φ) <
      2 * Real.sin φ * (1 - Real.cos φ) * (5 + 3 * Real.cos φ) := by
  have h := key_ell_half (u := φ / 2) (by linarith) (by linarith)
  have hc : 0 < Real.cos (φ / 2) :=
    Real.cos_pos_of_mem_Ioo ⟨by linarith, by linarith⟩
  have e1 : Real.cos φ = 2 * Real.cos (φ / 2) ^ 2 - 1 := by
    rw [← Real.cos_two_mul]; congr 1; ring
  have e2 : Real.sin φ = 2 * Real.sin (φ / 2) * Real.cos (φ / 2) := by
    rw [← Real.sin_two_mul]; congr 1; ring
  have hs := Real.sin_sq_add_cos_sq (φ / 2)
  rw [show 4 * (φ / 2) = 2 * φ by ring] at h
  have h2 := mul_lt_mul_of_pos_right h (by positivity : 0 < 6 * Real.cos (φ / 2) ^ 2)
  rw [e1, e2]
  have e3 : 8 / 3 * (Real.sin (φ / 2) ^ 3 / Real.cos (φ / 2) + 3 * Real.sin (φ / 2) ^ 3 *
      Real.cos (φ / 2)) * (6 * Real.cos (φ / 2) ^ 2) =
      16 * Real.sin (φ / 2) ^ 3 * Real.cos (φ / 2) * (1 + 3 * Real.cos (φ / 2) ^ 2) := by
    field_simp; ring
  rw [e3] at h2
  have e4 : Real.sin (φ / 2) ^ 3 = Real.sin (φ / 2) * (1 - Real.cos (φ / 2) ^ 2) := by
    rw [← hs]; ring
  rw [e4] at h2
  nlinarith

/-- Positivity of the quadratic form that gives the sign of the derivative. -/
theorem quad_ell {φ V B : ℝ} (h0 : 0 < φ) (h1 : φ < Real.pi) (hV : 0 < V)
    (hVB : |B| - B * Real.cos φ ≤ V) :
    0 < (4 * Real.sin φ ^ 3 - 3 * (2 * φ - Real.sin (2 * φ)) * Real.cos φ) * V ^ 2 +
      3 / 2 * (2 * φ - Real.sin (2 * φ)) * Real.sin φ ^ 2 * V * B + Real.sin φ ^ 5 * B ^ 2 := by
  have hk := key_ell h0 h1
  have hw : 0 < 2 * φ - Real.sin (2 * φ) := by
    have := Real.sin_lt (x := 2 * φ) (by linarith); linarith
  have hs := Real.sin_pos_of_pos_of_lt_pi h0 h1
  have hsc := Real.sin_sq_add_cos_sq φ
  have hc1 : Real.cos φ < 1 := by nlinarith [Real.cos_le_one φ]
  have hc2 : -1 < Real.cos φ := by nlinarith [Real.neg_one_le_cos φ]
  generalize Real.sin φ = s at *
  generalize Real.cos φ = c at *
  generalize 2 * φ - Real.sin (2 * φ) = w at *
  have hs2 : s ^ 2 = (1 - c) * (1 + c) := by linarith
  have hα : 0 < 4 * s ^ 3 - 3 * w * c := by
    have e : s ^ 3 = s * ((1 - c) * (1 + c)) := by rw [← hs2]; ring
    rcases le_or_gt c 0 with h | h
    · have : 0 < s ^ 3 := by positivity
      nlinarith
    · have h2 : 3 * w * c * (1 + c) < 4 * s * (1 - c) * (1 + c) * (1 + c) := by
        have a1 := mul_lt_mul_of_pos_right hk h
        have a2 : 0 ≤ s * (1 - c) * ((1 - c) * (c + 2)) := by
          have : 0 < 1 - c := by linarith
          positivity
        nlinarith
      have h3 : 0 < 1 + c := by linarith
      have : 3 * w * c < 4 * s * (1 - c) * (1 + c) := lt_of_mul_lt_mul_right h2 h3.le
      rw [e]; linarith
  have h1c : 0 < 1 - c := by linarith
  have h1c' : 0 < 1 + c := by linarith
  rcases le_or_gt 0 B with hB | hB
  · have : 0 < (4 * s ^ 3 - 3 * w * c) * V ^ 2 := by positivity
    positivity
  · rw [abs_of_neg hB] at hVB
    obtain ⟨b, rfl⟩ : ∃ b, B = -b := ⟨-B, by ring⟩
    have hb : 0 < b := by linarith
    obtain ⟨d, hd⟩ : ∃ d, V = b * (1 + c) + d := ⟨V - b * (1 + c), by ring⟩
    have hd0 : 0 ≤ d := by linarith
    have hβ : 0 < 8 * s ^ 3 - 3 / 2 * w * (1 + 3 * c) := by
      have e : s ^ 3 = s * ((1 - c) * (1 + c)) := by rw [← hs2]; ring
      rcases le_or_gt (1 + 3 * c) 0 with h | h
      · have : 0 < s ^ 3 := by positivity
        nlinarith
      · have h2 : 3 * w * (1 + 3 * c) * (1 + c) < 16 * s * (1 - c) * (1 + c) * (1 + c) := by
          have a1 := mul_lt_mul_of_pos_right hk h
          have a2 : 0 ≤ s * (1 - c) * ((1 - c) * (c + 3)) := by
            have : 0 < c + 3 := by linarith
            positivity
          nlinarith
        have : 3 * w * (1 + 3 * c) < 16 * s * (1 - c) * (1 + c) :=
          lt_of_mul_lt_mul_right h2 h1c'.le
        rw [e]; linarith
    have hs5 : s ^ 5 = s * ((1 - c) * (1 + c)) ^ 2 := by rw [← hs2]; ring
    have hs3 : s ^ 3 = s * ((1 - c) * (1 + c)) := by rw [← hs2]; ring
    have id1 : (4 * s ^ 3 - 3 * w * c) * V ^ 2 + 3 / 2 * w * s ^ 2 * V * (-b) +
        s ^ 5 * (-b) ^ 2 =
        b ^ 2 * (1 + c) ^ 2 / 2 * (2 * s * (1 - c) * (5 + 3 * c) - 3 * w * (1 + c)) +
        b * (1 + c) * d * (8 * s ^ 3 - 3 / 2 * w * (1 + 3 * c)) +
        (4 * s ^ 3 - 3 * w * c) * d ^ 2 := by
      rw [hd, hs5, hs3, hs2]; ring
    rw [id1]
    have t1 : 0 < b ^ 2 * (1 + c) ^ 2 / 2 *
        (2 * s * (1 - c) * (5 + 3 * c) - 3 * w * (1 + c)) := by
      have : 0 < 2 * s * (1 - c) * (5 + 3 * c) - 3 * w * (1 + c) := by linarith
      positivity
    have t2 : 0 ≤ b * (1 + c) * d * (8 * s ^ 3 - 3 / 2 * w * (1 + 3 * c)) := by positivity
    have t3 : 0 ≤ (4 * s ^ 3 - 3 * w * c) * d ^ 2 := by positivity
    linarith

/-- The elliptic time as a function of `φ` (with `√μ` removed), `B = √2 A`. -/
noncomputable def tE (P B φ : ℝ) : ℝ :=
  Real.sqrt (P - B * Real.cos φ) *
    ((P - B * Real.cos φ) * (2 * φ - Real.sin (2 * φ)) / (2 * Real.sin φ ^ 3) + B)

theorem tE_deriv {P B φ : ℝ} (hs : Real.sin φ ≠ 0) (hV : 0 < P - B * Real.cos φ) :
    HasDerivAt (tE P B)
      (((4 * Real.sin φ ^ 3 - 3 * (2 * φ - Real.sin (2 * φ)) * Real.cos φ) *
          (P - B * Real.cos φ) ^ 2 +
        3 / 2 * (2 * φ - Real.sin (2 * φ)) * Real.sin φ ^ 2 * (P - B * Real.cos φ) * B +
        Real.sin φ ^ 5 * B ^ 2) / (2 * Real.sin φ ^ 4 * Real.sqrt (P - B * Real.cos φ))) φ := by
  have dV : HasDerivAt (fun x => P - B * Real.cos x) (B * Real.sin φ) φ :=
    (((Real.hasDerivAt_cos φ).const_mul B).const_sub P).congr_deriv (by ring)
  have dS := dV.sqrt hV.ne'
  have dw : HasDerivAt (fun x => 2 * x - Real.sin (2 * x)) (4 * Real.sin φ ^ 2) φ := by
    have := ((hasDerivAt_id φ).const_mul 2).sub
      ((Real.hasDerivAt_sin (2 * φ)).comp φ ((hasDerivAt_id φ).const_mul 2))
    refine (this.congr_deriv ?_).congr_of_eventuallyEq (Filter.Eventually.of_forall fun y => rfl)
    have := Real.sin_sq_add_cos_sq φ
    simp only [mul_one]
    rw [Real.cos_two_mul]
    linear_combination (-4) * this
  have dd : HasDerivAt (fun x => 2 * Real.sin x ^ 3) (6 * Real.sin φ ^ 2 * Real.cos φ) φ :=
    (((Real.hasDerivAt_sin φ).pow 3).const_mul 2).congr_deriv (by push_cast; ring)
  have hne : 2 * Real.sin φ ^ 3 ≠ 0 := by positivity
  have d := dS.mul (((dV.mul dw).div dd hne).add_const B)
  refine (d.congr_deriv ?_).congr_of_eventuallyEq (Filter.Eventually.of_forall fun y => rfl)
  have hsq := Real.sq_sqrt hV.le
  have hsp := Real.sqrt_pos.2 hV
  simp only [Pi.mul_apply, Pi.div_apply]
  generalize Real.sqrt (P - B * Real.cos φ) = R at *
  generalize 2 * φ - Real.sin (2 * φ) = w at *
  have hV2 : P - B * Real.cos φ = R ^ 2 := hsq.symm
  rw [hV2]
  field_simp
  ring

theorem tE_strictMono {P B : ℝ} (hP : |B| < P) : StrictMonoOn (tE P B) (Set.Ioo 0 Real.pi) := by
  have hV : ∀ x, 0 < P - B * Real.cos x := by
    intro x
    have h1 : |B * Real.cos x| ≤ |B| := by
      rw [abs_mul]; exact mul_le_of_le_one_right (abs_nonneg _) (Real.abs_cos_le_one x)
    have := le_abs_self (B * Real.cos x)
    linarith
  apply strictMonoOn_of_deriv_pos (convex_Ioo _ _)
  · intro x hx
    exact (tE_deriv (Real.sin_pos_of_pos_of_lt_pi hx.1 hx.2).ne' (hV x)).continuousAt.continuousWithinAt
  · intro x hx
    rw [interior_Ioo] at hx
    have hs := Real.sin_pos_of_pos_of_lt_pi hx.1 hx.2
    rw [(tE_deriv hs.ne' (hV x)).deriv]
    have := quad_ell hx.1 hx.2 (hV x) (by linarith : |B| - B * Real.cos x ≤ _)
    have := Real.sqrt_pos.2 (hV x)
    positivity

/-! ### hyperbolic branch -/

theorem key_hyp_half {u : ℝ} (h0 : 0 < u) :
    8 / 3 * (Real.sinh u ^ 3 / Real.cosh u + 3 * Real.sinh u ^ 3 * Real.cosh u) <
      Real.sinh (4 * u) - 4 * u := by
  obtain ⟨G, hG⟩ : ∃ G : ℝ → ℝ, G = fun u => (Real.sinh (4 * u) - 4 * u) -
      8 / 3 * (Real.sinh u ^ 3 / Real.cosh u + 3 * Real.sinh u ^ 3 * Real.cosh u) := ⟨_, rfl⟩
  have hder : ∀ x, HasDerivAt G (8 / 3 * (Real.sinh x ^ 4 / Real.cosh x ^ 2)) x := by
    intro x
    have hc := (Real.cosh_pos x).ne'
    rw [hG]
    have d1 := (((Real.hasDerivAt_sinh x).pow 3).div (Real.hasDerivAt_cosh x) hc)
    have d2 := (((Real.hasDerivAt_sinh x).pow 3).const_mul 3).mul (Real.hasDerivAt_cosh x)
    have d3 := ((Real.hasDerivAt_sinh (4 * x)).comp x ((hasDerivAt_id x).const_mul 4)).sub
      ((hasDerivAt_id x).const_mul 4)
    have d := d3.sub ((d1.add d2).const_mul (8 / 3))
    refine (d.congr_deriv ?_).congr_of_eventuallyEq ?_
    · have h4 : Real.cosh (4 * x) = 1 + 8 * Real.sinh x ^ 2 * Real.cosh x ^ 2 := by
        rw [show 4 * x = 2 * (2 * x) by ring, Real.cosh_two_mul, Real.sinh_two_mul]
        have := Real.cosh_sq (2 * x)
        rw [Real.sinh_two_mul] at this
        linear_combination this
      have hs2 : Real.cosh x ^ 2 = Real.sinh x ^ 2 + 1 := Real.cosh_sq x
      rw [h4]
      simp only [Nat.cast_ofNat, Nat.add_one_sub_one, Pi.pow_apply, mul_one]
      field_simp
      rw [hs2]
      ring
    · exact Filter.Eventually.of_forall fun y => rfl
  have hmono : StrictMonoOn G (Set.Ici 0) := by
    apply strictMonoOn_of_deriv_pos (convex_Ici _)
    · exact fun x _ => (hder x).continuousAt.continuousWithinAt
    · intro x hx
      rw [interior_Ici] at hx
      rw [(hder x).deriv]
      have := Real.cosh_pos x
      have := Real.sinh_pos_iff.2 hx
      positivity
  have := hmono (Set.mem_Ici.2 (le_refl 0)) (Set.mem_Ici.2 h0.le) h0
  rw [hG] at this
  simp at this
  linarith

theorem key_hyp {φ : ℝ} (h0 : 0 < φ) :
    2 * Real.sinh φ * (Real.cosh φ - 1) * (5 + 3 * Real.cosh φ) <
      3 * (Real.sinh (2 * φ) - 2 * φ) * (1 + Real.cosh φ) := by
  have h := key_hyp_half (u := φ / 2) (by linarith)
  have hc := Real.cosh_pos (φ / 2)
  have hs := Real.cosh_sq (φ / 2)
  have e1 : Real.cosh φ = 2 * Real.cosh (φ / 2) ^ 2 - 1 := by
    have := Real.cosh_two_mul (φ / 2)
    rw [show 2 * (φ / 2) = φ by ring] at this
    rw [this]; linarith
  have e2 : Real.sinh φ = 2 * Real.sinh (φ / 2) * Real.cosh (φ / 2) := by
    rw [← Real.sinh_two_mul]; congr 1; ring
  rw [show 4 * (φ / 2) = 2 * φ by ring] at h
  have h2 := mul_lt_mul_of_pos_right h (by positivity : 0 < 6 * Real.cosh (φ / 2) ^ 2)
  rw [e1, e2]
  have e3 : 8 / 3 * (Real.sinh (φ / 2) ^ 3 / Real.cosh (φ / 2) + 3 * Real.sinh (φ / 2) ^ 3 *
      Real.cosh (φ / 2)) * (6 * Real.cosh (φ / 2) ^ 2) =
      16 * Real.sinh (φ / 2) ^ 3 * Real.cosh (φ / 2) * (1 + 3 * Real.cosh (φ / 2) ^ 2) := by
    field_simp; ring
  rw [e3] at h2
  have e4 : Real.sinh (φ / 2) ^ 3 = Real.sinh (φ / 2) * (Real.cosh (φ / 2) ^ 2 - 1) := by
    rw [hs]; ring
  rw [e4] at h2
  nlinarith

theorem quad_hyp {φ V B : ℝ} (h0 : 0 < φ) (hV : 0 < V)
    (hVB : |B| - B * Real.cosh φ ≤ V) :
    0 < (3 * (Real.sinh (2 * φ) - 2 * φ) * Real.cosh φ - 4 * Real.sinh φ ^ 3) * V ^ 2 +
      3 / 2 * (Real.sinh (2 * φ) - 2 * φ) * Real.sinh φ ^ 2 * V * B + Real.sinh φ ^ 5 * B ^ 2 := by
  have hk := key_hyp h0
  have hw : 0 < Real.sinh (2 * φ) - 2 * φ := by
    have := Real.self_lt_sinh_iff.2 (by linarith : 0 < 2 * φ); linarith
  have hs := Real.sinh_pos_iff.2 h0
  have hsc := Real.cosh_sq φ
  have hc1 : 1 < Real.cosh φ := Real.one_lt_cosh.2 h0.ne'
  generalize Real.sinh φ = s at *
  generalize Real.cosh φ = c at *
  generalize Real.sinh (2 * φ) - 2 * φ = w at *
  have hs2 : s ^ 2 = (c - 1) * (1 + c) := by linarith
  have h1c : 0 < c - 1 := by linarith
  have h1c' : 0 < 1 + c := by linarith
  have hs3 : s ^ 3 = s * ((c - 1) * (1 + c)) := by rw [← hs2]; ring
  have hα : 0 < 3 * w * c - 4 * s ^ 3 := by
    have h2 : 4 * s * (c - 1) * (1 + c) * (1 + c) < 3 * w * c * (1 + c) := by
      have a1 := mul_lt_mul_of_pos_right hk (by linarith : 0 < c)
      have a2 : 0 ≤ s * (c - 1) * ((c - 1) * (c + 2)) := by positivity
      nlinarith
    have : 4 * s * (c - 1) * (1 + c) < 3 * w * c := lt_of_mul_lt_mul_right h2 h1c'.le
    rw [hs3]; linarith
  rcases le_or_gt 0 B with hB | hB
  · have : 0 < (3 * w * c - 4 * s ^ 3) * V ^ 2 := by positivity
    positivity
  · rw [abs_of_neg hB] at hVB
    obtain ⟨b, rfl⟩ : ∃ b, B = -b := ⟨-B, by ring⟩
    have hb : 0 < b := by linarith
    obtain ⟨d, hd⟩ : ∃ d, V = b * (1 + c) + d := ⟨V - b * (1 + c), by ring⟩
    have hd0 : 0 ≤ d := by linarith
    have hβ : 0 < 3 / 2 * w * (1 + 3 * c) - 8 * s ^ 3 := by
      have h2 : 16 * s * (c - 1) * (1 + c) * (1 + c) < 3 * w * (1 + 3 * c) * (1 + c) := by
        have a1 := mul_lt_mul_of_pos_right hk (by linarith : 0 < 1 + 3 * c)
        have a2 : 0 ≤ s * (c - 1) * ((c - 1) * (c + 3)) := by positivity
        nlinarith
      have : 16 * s * (c - 1) * (1 + c) < 3 * w * (1 + 3 * c) :=
        lt_of_mul_lt_mul_right h2 h1c'.le
      rw [hs3]; linarith
    have hs5 : s ^ 5 = s * ((c - 1) * (1 + c)) ^ 2 := by rw [← hs2]; ring
    have id1 : (3 * w * c - 4 * s ^ 3) * V ^ 2 + 3 / 2 * w * s ^ 2 * V * (-b) +
        s ^ 5 * (-b) ^ 2 =
        b ^ 2 * (1 + c) ^ 2 / 2 * (3 * w * (1 + c) - 2 * s * (c - 1) * (5 + 3 * c)) +
        b * (1 + c) * d * (3 / 2 * w * (1 + 3 * c) - 8 * s ^ 3) +
        (3 * w * c - 4 * s ^ 3) * d ^ 2 := by
      rw [hd, hs5, hs3, hs2]; ring
    rw [id1]
    have t1 : 0 < b ^ 2 * (1 + c) ^ 2 / 2 *
        (3 * w * (1 + c) - 2 * s * (c - 1) * (5 + 3 * c)) := by
      have : 0 < 3 * w * (1 + c) - 2 * s * (c - 1) * (5 + 3 * c) := by linarith
      positivity
    have t2 : 0 ≤ b * (1 + c) * d * (3 / 2 * w * (1 + 3 * c) - 8 * s ^ 3) := by positivity
    have t3 : 0 ≤ (3 * w * c - 4 * s ^ 3) * d ^ 2 := by positivity
    linarith

/-- The hyperbolic time as a function of `φ` (with `√μ` removed), `B = √2 A`. -/
noncomputable def tH (P B φ : ℝ) : ℝ :=
  Real.sqrt (P - B * Real.cosh φ) *
    ((P - B * Real.cosh φ) * (Real.sinh (2 * φ) - 2 * φ) / (2 * Real.sinh φ ^ 3) + B)

theorem tH_deriv {P B φ : ℝ} (hs : Real.sinh φ ≠ 0) (hV : 0 < P - B * Real.cosh φ) :
    HasDerivAt (tH P B)
      (-(((3 * (Real.sinh (2 * φ) - 2 * φ) * Real.cosh φ - 4 * Real.sinh φ ^ 3) *
          (P - B * Real.cosh φ) ^ 2 +
        3 / 2 * (Real.sinh (2 * φ) - 2 * φ) * Real.sinh φ ^ 2 * (P - B * Real.cosh φ) * B +
        Real.sinh φ ^ 5 * B ^ 2) /
          (2 * Real.sinh φ ^ 4 * Real.sqrt (P - B * Real.cosh φ)))) φ := by
  have dV : HasDerivAt (fun x => P - B * Real.cosh x) (-(B * Real.sinh φ)) φ :=
    (((Real.hasDerivAt_cosh φ).const_mul B).const_sub P)
  have dS := dV.sqrt hV.ne'
  have dw : HasDerivAt (fun x => Real.sinh (2 * x) - 2 * x) (4 * Real.sinh φ ^ 2) φ := by
    have := ((Real.hasDerivAt_sinh (2 * φ)).comp φ ((hasDerivAt_id φ).const_mul 2)).sub
      ((hasDerivAt_id φ).const_mul 2)
    refine (this.congr_deriv ?_).congr_of_eventuallyEq (Filter.Eventually.of_forall fun y => rfl)
    have := Real.cosh_sq φ
    simp only [mul_one]
    rw [Real.cosh_two_mul]
    linear_combination 2 * this
  have dd : HasDerivAt (fun x => 2 * Real.sinh x ^ 3) (6 * Real.sinh φ ^ 2 * Real.cosh φ) φ :=
    (((Real.hasDerivAt_sinh φ).pow 3).const_mul 2).congr_deriv (by push_cast; ring)
  have hne : 2 * Real.sinh φ ^ 3 ≠ 0 := by positivity
  have d := dS.mul (((dV.mul dw).div dd hne).add_const B)
  refine (d.congr_deriv ?_).congr_of_eventuallyEq (Filter.Eventually.of_forall fun y => rfl)
  have hsq := Real.sq_sqrt hV.le
  have hsp := Real.sqrt_pos.2 hV
  simp only [Pi.mul_apply, Pi.div_apply]
  generalize Real.sqrt (P - B * Real.cosh φ) = R at *
  generalize Real.sinh (2 * φ) - 2 * φ = w at *
  have hV2 : P - B * Real.cosh φ = R ^ 2 := hsq.symm
  rw [hV2]
  field_simp
  ring

/-- The set of hyperbolic parameters with `V > 0` is a segment starting at 0. -/
theorem hypDom_down {P B φ φ' : ℝ} (hP : |B| < P) (h0 : 0 ≤ φ) (h1 : φ ≤ φ')
    (hV : 0 < P - B * Real.cosh φ') : 0 < P - B * Real.cosh φ := by
  rcases le_or_gt B 0 with hB | hB
  · have := Real.cosh_pos φ
    have hP0 : 0 < P := lt_of_le_of_lt (abs_nonneg B) hP
    nlinarith
  · have : Real.cosh φ ≤ Real.cosh φ' := by
      rw [Real.cosh_le_cosh, abs_of_nonneg h0, abs_of_nonneg (h0.trans h1)]; exact h1
    nlinarith

theorem tH_strictAnti {P B φmax : ℝ} (hP : |B| < P) (hmax : 0 < P - B * Real.cosh φmax) :
    StrictAntiOn (tH P B) (Set.Ioc 0 φmax) := by
  have hV : ∀ x ∈ Set.Ioc 0 φmax, 0 < P - B * Real.cosh x := fun x hx =>
    hypDom_down hP hx.1.le hx.2 hmax
  apply strictAntiOn_of_deriv_neg (convex_Ioc _ _)
  · intro x hx
    exact (tH_deriv (Real.sinh_pos_iff.2 hx.1).ne' (hV x hx)).continuousAt.continuousWithinAt
  · intro x hx
    rw [interior_Ioc] at hx
    have hs := Real.sinh_pos_iff.2 hx.1
    have hVx := hV x ⟨hx.1, hx.2.le⟩
    rw [(tH_deriv hs.ne' hVx).deriv]
    have := quad_hyp hx.1 hVx (by linarith : |B| - B * Real.cosh x ≤ _)
    have := Real.sqrt_pos.2 hVx
    rw [neg_lt_zero]
    positivity

end Lamberthub.LC
