import Verif.Spec.TwoBody
import Mathlib.Analysis.ODE.ExistUnique
import Mathlib.Analysis.Calculus.ContDiff.RCLike
import Mathlib.Analysis.SpecialFunctions.Sqrt
import Mathlib.Analysis.Calculus.ContDiff.Operations

/-! # A Kepler motion is determined by its initial position and velocity -/

set_option autoImplicit false

namespace Lamberthub.Spec
open Lamberthub Topology

/-- Phase space. -/
abbrev Ph := ℝ × ℝ × ℝ × ℝ × ℝ × ℝ

/-- Newton's law as a first order system. -/
noncomputable def field (μ : ℝ) (p : Ph) : Ph :=
  let ρ := -μ / Real.sqrt (p.1 ^ 2 + p.2.1 ^ 2 + p.2.2.1 ^ 2) ^ 3
  (p.2.2.2.1, p.2.2.2.2.1, p.2.2.2.2.2, ρ * p.1, ρ * p.2.1, ρ * p.2.2.1)

def phase (pos vel : ℝ → V3) (t : ℝ) : Ph :=
  ((pos t).x, (pos t).y, (pos t).z, (vel t).x, (vel t).y, (vel t).z)

theorem field_contDiffAt (μ : ℝ) {p : Ph} (h : p.1 ^ 2 + p.2.1 ^ 2 + p.2.2.1 ^ 2 ≠ 0) :
    ContDiffAt ℝ 1 (field μ) p := by
  have hp : 0 < p.1 ^ 2 + p.2.1 ^ 2 + p.2.2.1 ^ 2 := lt_of_le_of_ne (by positivity) h.symm
  have h0 : ContDiffAt ℝ 1 (fun p : Ph => p.1 ^ 2 + p.2.1 ^ 2 + p.2.2.1 ^ 2) p := by fun_prop
  have h1 : ContDiffAt ℝ 1 (fun p : Ph => -μ / Real.sqrt (p.1 ^ 2 + p.2.1 ^ 2 + p.2.2.1 ^ 2) ^ 3) p :=
    contDiffAt_const.div ((h0.sqrt h).pow 3) (by positivity)
  unfold field
  simp only []
  refine ContDiffAt.prodMk (by fun_prop) (ContDiffAt.prodMk (by fun_prop) (ContDiffAt.prodMk (by fun_prop)
    (ContDiffAt.prodMk (h1.mul (by fun_prop)) (ContDiffAt.prodMk (h1.mul (by fun_prop)) (h1.mul (by fun_prop))))))

theorem KeplerMotion.phase_deriv {μ : ℝ} {pos vel : ℝ → V3} (h : KeplerMotion μ pos vel) (t : ℝ) :
    HasDerivAt (phase pos vel) (field μ (phase pos vel t)) t := by
  obtain ⟨a1, a2, a3⟩ := h.velocity t
  obtain ⟨b1, b2, b3⟩ := h.newton t
  exact a1.prodMk (a2.prodMk (a3.prodMk (b1.prodMk (b2.prodMk b3))))

theorem KeplerMotion.phase_ne {μ : ℝ} {pos vel : ℝ → V3} (h : KeplerMotion μ pos vel) (t : ℝ) :
    (phase pos vel t).1 ^ 2 + (phase pos vel t).2.1 ^ 2 + (phase pos vel t).2.2.1 ^ 2 ≠ 0 := by
  intro h0
  apply h.no_collision t
  simp only [phase] at h0
  refine V3.ext ?_ ?_ ?_ <;> simp only [V3.zero_x, V3.zero_y, V3.zero_z] <;>
    nlinarith [sq_nonneg (pos t).x, sq_nonneg (pos t).y, sq_nonneg (pos t).z]

/-- Two Kepler motions that agree at one instant agree for ever. -/
theorem KeplerMotion.phase_unique {μ : ℝ} {p1 v1 p2 v2 : ℝ → V3} (h1 : KeplerMotion μ p1 v1)
    (h2 : KeplerMotion μ p2 v2) {t₀ : ℝ} (h0 : phase p1 v1 t₀ = phase p2 v2 t₀) :
    phase p1 v1 = phase p2 v2 := by
  have c1 : Continuous (phase p1 v1) := continuous_iff_continuousAt.2 fun t => (h1.phase_deriv t).continuousAt
  have c2 : Continuous (phase p2 v2) := continuous_iff_continuousAt.2 fun t => (h2.phase_deriv t).continuousAt
  have hcl : IsClosed {t | phase p1 v1 t = phase p2 v2 t} := isClosed_eq c1 c2
  have hop : IsOpen {t | phase p1 v1 t = phase p2 v2 t} := by
    rw [isOpen_iff_mem_nhds]
    intro t ht
    obtain ⟨K, s, hs, hK⟩ := (field_contDiffAt μ (h1.phase_ne t)).exists_lipschitzOnWith
    have e1 : ∀ᶠ u in 𝓝 t, phase p1 v1 u ∈ s := c1.continuousAt hs
    have e2 : ∀ᶠ u in 𝓝 t, phase p2 v2 u ∈ s := by
      apply c2.continuousAt
      have ht' : phase p1 v1 t = phase p2 v2 t := ht
      rw [← ht']; exact hs
    exact ODE_solution_unique_of_eventually (v := fun _ => field μ) (s := fun _ => s) (K := K)
      (Filter.Eventually.of_forall fun _ => hK)
      (e1.mono fun u hu => ⟨h1.phase_deriv u, hu⟩) (e2.mono fun u hu => ⟨h2.phase_deriv u, hu⟩) ht
  have huniv := IsClopen.eq_univ ⟨hcl, hop⟩ ⟨t₀, h0⟩
  funext t
  have : t ∈ {t | phase p1 v1 t = phase p2 v2 t} := by rw [huniv]; trivial
  exact this

/-- Two Kepler motions with the same initial position and velocity are the same motion. -/
theorem KeplerMotion.unique {μ : ℝ} {p1 v1 p2 v2 : ℝ → V3} (h1 : KeplerMotion μ p1 v1)
    (h2 : KeplerMotion μ p2 v2) {t₀ : ℝ} (hp : p1 t₀ = p2 t₀) (hv : v1 t₀ = v2 t₀) : p1 = p2 ∧ v1 = v2 := by
  have h := h1.phase_unique h2 (t₀ := t₀) (by simp only [phase, hp, hv])
  constructor <;> funext t
  · have := congrFun h t
    simp only [phase, Prod.mk.injEq] at this
    exact V3.ext this.1 this.2.1 this.2.2.1
  · have := congrFun h t
    simp only [phase, Prod.mk.injEq] at this
    exact V3.ext this.2.2.2.1 this.2.2.2.2.1 this.2.2.2.2.2

/-- The number of revolutions of a transfer is determined by its initial velocity and
duration. -/
theorem LambertArc.revolutions_unique {μ : ℝ} {r1 r2 r2' v1 v2 v2' : V3} {T : ℝ} {M M' : ℕ}
    (h : LambertArc μ r1 r2 v1 v2 T M) (h' : LambertArc μ r1 r2' v1 v2' T M') : M = M' ∧ r2 = r2' ∧ v2 = v2' := by
  obtain ⟨-, p, v, hk, hp0, hv0, hpT, hvT, hc⟩ := h
  obtain ⟨-, p', v', hk', hp0', hv0', hpT', hvT', hc'⟩ := h'
  obtain ⟨rfl, rfl⟩ := hk.unique hk' (t₀ := 0) (by rw [hp0, hp0']) (by rw [hv0, hv0'])
  refine ⟨?_, by rw [← hpT, ← hpT'], by rw [← hvT, ← hvT']⟩
  rw [hc] at hc'
  exact_mod_cast hc'

end Lamberthub.Spec
