import Verif.Spec.Geometry
import Verif.Proofs.AngleLemmas
import Mathlib.Analysis.Calculus.MeanValue
import Mathlib.Analysis.SpecialFunctions.Sqrt

/-! # Conserved quantities of a Kepler motion -/

set_option autoImplicit false

namespace Lamberthub.LC
open Lamberthub Spec

variable {μ : ℝ} {pos vel : ℝ → V3}

theorem len_pos {v : V3} (h : v ≠ 0) : 0 < len v := by
  unfold len
  apply Real.sqrt_pos.2
  by_contra hn
  apply h
  ext <;> simp <;> nlinarith [sq_nonneg v.x, sq_nonneg v.y, sq_nonneg v.z]

theorem len_sq (v : V3) : len v ^ 2 = v.x ^ 2 + v.y ^ 2 + v.z ^ 2 := by
  unfold len; exact Real.sq_sqrt (by positivity)

theorem const_of_deriv_zero {f : ℝ → ℝ} (h : ∀ t, HasDerivAt f 0 t) (t s : ℝ) : f t = f s :=
  is_const_of_deriv_eq_zero (fun t => (h t).differentiableAt) (fun t => (h t).deriv) t s

/-- Angular momentum is conserved. -/
theorem angMom_const (h : KeplerMotion μ pos vel) (t s : ℝ) :
    outer (pos t) (vel t) = outer (pos s) (vel s) := by
  ext
  · refine const_of_deriv_zero (f := fun t => (outer (pos t) (vel t)).x) (fun t => ?_) t s
    obtain ⟨_, p2, p3⟩ := h.velocity t
    obtain ⟨_, v2, v3⟩ := h.newton t
    refine ((p2.mul v3).sub (p3.mul v2)).congr_deriv ?_
    simp; ring
  · refine const_of_deriv_zero (f := fun t => (outer (pos t) (vel t)).y) (fun t => ?_) t s
    obtain ⟨p1, p2, p3⟩ := h.velocity t
    obtain ⟨v1, v2, v3⟩ := h.newton t
    refine ((p3.mul v1).sub (p1.mul v3)).congr_deriv ?_
    simp; ring
  · refine const_of_deriv_zero (f := fun t => (outer (pos t) (vel t)).z) (fun t => ?_) t s
    obtain ⟨p1, p2, p3⟩ := h.velocity t
    obtain ⟨v1, v2, v3⟩ := h.newton t
    refine ((p1.mul v2).sub (p2.mul v1)).congr_deriv ?_
    simp; ring

theorem len_deriv (h : KeplerMotion μ pos vel) (t : ℝ) :
    HasDerivAt (fun t => len (pos t)) (inner (pos t) (vel t) / len (pos t)) t := by
  obtain ⟨p1, p2, p3⟩ := h.velocity t
  have hl := len_pos (h.no_collision t)
  have hp : (pos t).x ^ 2 + (pos t).y ^ 2 + (pos t).z ^ 2 ≠ 0 := by
    rw [← len_sq]; positivity
  have := (((p1.pow 2).add (p2.pow 2)).add (p3.pow 2)).sqrt hp
  refine (this.congr_deriv ?_).congr_of_eventuallyEq (Filter.Eventually.of_forall fun y => rfl)
  unfold inner len
  simp only [Pi.add_apply, Pi.pow_apply]
  field_simp
  push_cast
  ring

/-- The eccentricity vector `(v × h)/μ - r/|r|`. -/
noncomputable def eccVec (μ : ℝ) (r v : V3) : V3 :=
  (1 / μ) • outer v (outer r v) - (1 / len r) • r

theorem eccVec_const (hμ : μ ≠ 0) (h : KeplerMotion μ pos vel) (t s : ℝ) :
    eccVec μ (pos t) (vel t) = eccVec μ (pos s) (vel s) := by
  have hcomp : ∀ t, eccVec μ (pos t) (vel t) =
      (1 / μ) • outer (vel t) (outer (pos s) (vel s)) - (1 / len (pos t)) • pos t := by
    intro t; unfold eccVec; rw [angMom_const h t s]
  have hl : ∀ t, 0 < len (pos t) := fun t => len_pos (h.no_collision t)
  have hinv : ∀ t, HasDerivAt (fun t => 1 / len (pos t))
      (-(inner (pos t) (vel t)) / len (pos t) ^ 3) t := by
    intro t
    have := (hasDerivAt_const t (1 : ℝ)).div (len_deriv h t) (hl t).ne'
    refine (this.congr_deriv ?_).congr_of_eventuallyEq (Filter.Eventually.of_forall fun y => rfl)
    have := (hl t).ne'
    field_simp
    ring
  rw [hcomp t, hcomp s]
  ext
  · refine const_of_deriv_zero (f := fun t =>
      ((1 / μ) • outer (vel t) (outer (pos s) (vel s)) - (1 / len (pos t)) • pos t).x)
      (fun t => ?_) t s
    obtain ⟨p1, p2, p3⟩ := h.velocity t
    obtain ⟨v1, v2, v3⟩ := h.newton t
    have := (((v2.mul_const (outer (pos s) (vel s)).z).sub
      (v3.mul_const (outer (pos s) (vel s)).y)).const_mul (1 / μ)).sub ((hinv t).mul p1)
    refine (this.congr_deriv ?_).congr_of_eventuallyEq (Filter.Eventually.of_forall fun y => rfl)
    rw [angMom_const h s t]
    simp only [outer, inner, V3.smul_x, V3.smul_y, V3.smul_z]
    have h2 := len_sq (pos t)
    have := (hl t).ne'
    field_simp
    linear_combination (-(vel t).x) * h2
  · refine const_of_deriv_zero (f := fun t =>
      ((1 / μ) • outer (vel t) (outer (pos s) (vel s)) - (1 / len (pos t)) • pos t).y)
      (fun t => ?_) t s
    obtain ⟨p1, p2, p3⟩ := h.velocity t
    obtain ⟨v1, v2, v3⟩ := h.newton t
    have := (((v3.mul_const (outer (pos s) (vel s)).x).sub
      (v1.mul_const (outer (pos s) (vel s)).z)).const_mul (1 / μ)).sub ((hinv t).mul p2)
    refine (this.congr_deriv ?_).congr_of_eventuallyEq (Filter.Eventually.of_forall fun y => rfl)
    rw [angMom_const h s t]
    simp only [outer, inner, V3.smul_x, V3.smul_y, V3.smul_z]
    have h2 := len_sq (pos t)
    have := (hl t).ne'
    field_simp
    linear_combination (-(vel t).y) * h2
  · refine const_of_deriv_zero (f := fun t =>
      ((1 / μ) • outer (vel t) (outer (pos s) (vel s)) - (1 / len (pos t)) • pos t).z)
      (fun t => ?_) t s
    obtain ⟨p1, p2, p3⟩ := h.velocity t
    obtain ⟨v1, v2, v3⟩ := h.newton t
    have := (((v1.mul_const (outer (pos s) (vel s)).y).sub
      (v2.mul_const (outer (pos s) (vel s)).x)).const_mul (1 / μ)).sub ((hinv t).mul p3)
    refine (this.congr_deriv ?_).congr_of_eventuallyEq (Filter.Eventually.of_forall fun y => rfl)
    rw [angMom_const h s t]
    simp only [outer, inner, V3.smul_x, V3.smul_y, V3.smul_z]
    have h2 := len_sq (pos t)
    have := (hl t).ne'
    field_simp
    linear_combination (-(vel t).z) * h2

/-- A vector orthogonal to `e1 × e2` is a combination of `e1` and `e2`. -/
theorem comb_of_orthogonal {e1 e2 q : V3} (hf : Orthonormal e1 e2) (h : inner q (outer e1 e2) = 0) :
    q = inner q e1 • e1 + inner q e2 • e2 := by
  obtain ⟨h11, h22, h12⟩ := hf
  have hd : ∀ q : V3, inner q q = inner q e1 ^ 2 + inner q e2 ^ 2 + inner q (outer e1 e2) ^ 2 := by
    intro q
    have : inner q (outer e1 e2) ^ 2 = inner q q * (inner e1 e1 * inner e2 e2 - inner e1 e2 ^ 2) -
        inner q e1 ^ 2 * inner e2 e2 - inner q e2 ^ 2 * inner e1 e1 +
        2 * inner q e1 * inner q e2 * inner e1 e2 := by
      unfold inner outer; ring
    rw [this, h11, h22, h12]; ring
  have hz : ∀ v : V3, inner v v = 0 → v = 0 := by
    intro v hv
    unfold inner at hv
    ext <;> simp <;> nlinarith [sq_nonneg v.x, sq_nonneg v.y, sq_nonneg v.z]
  have key : q - (inner q e1 • e1 + inner q e2 • e2) = 0 := by
    apply hz
    rw [hd]
    have a1 : inner (q - (inner q e1 • e1 + inner q e2 • e2)) e1 = 0 := by
      have : inner (q - (inner q e1 • e1 + inner q e2 • e2)) e1 =
        inner q e1 - inner q e1 * inner e1 e1 - inner q e2 * inner e1 e2 := by
        simp [inner]; ring
      rw [this, h11, h12]; ring
    have a2 : inner (q - (inner q e1 • e1 + inner q e2 • e2)) e2 = 0 := by
      have : inner (q - (inner q e1 • e1 + inner q e2 • e2)) e2 =
        inner q e2 - inner q e1 * inner e1 e2 - inner q e2 * inner e2 e2 := by
        simp [inner]; ring
      rw [this, h22, h12]; ring
    have a3 : inner (q - (inner q e1 • e1 + inner q e2 • e2)) (outer e1 e2) = 0 := by
      have : inner (q - (inner q e1 • e1 + inner q e2 • e2)) (outer e1 e2) =
        inner q (outer e1 e2) := by
        simp [inner, outer]; ring
      rw [this, h]
    rw [a1, a2, a3]; ring
  have := congrArg (· + (inner q e1 • e1 + inner q e2 • e2)) key
  ext
  · have h := congrArg V3.x key; simp at h ⊢; linarith
  · have h := congrArg V3.y key; simp at h ⊢; linarith
  · have h := congrArg V3.z key; simp at h ⊢; linarith

end Lamberthub.LC
