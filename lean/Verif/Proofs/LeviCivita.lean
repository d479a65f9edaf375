import Verif.Spec.TwoBody
import Mathlib.Analysis.SpecialFunctions.Trigonometric.Deriv
import Mathlib.Analysis.Calculus.Deriv.MeanValue
import Mathlib.Analysis.Calculus.Deriv.Inverse
import Mathlib.Topology.Order.IntermediateValue

/-!
# Levi-Civita regularisation: building Kepler motions

If `u = p + i q` is a solution of the linear equation `u'' = κ u` with
`2|u'|² - 2κ|u|² = μ` and non-zero angular momentum, then `u²`, reparametrised by
`dt = |u|² ds`, is a Kepler motion.
-/

namespace Lamberthub.LC
open Lamberthub Spec

/-- The data of a regularised orbit. -/
structure Reg (μ κ c : ℝ) (p q pd qd tm : ℝ → ℝ) : Prop where
  hp : ∀ s, HasDerivAt p (pd s) s
  hq : ∀ s, HasDerivAt q (qd s) s
  hpd : ∀ s, HasDerivAt pd (κ * p s) s
  hqd : ∀ s, HasDerivAt qd (κ * q s) s
  energy : ∀ s, 2 * (pd s ^ 2 + qd s ^ 2) - 2 * κ * (p s ^ 2 + q s ^ 2) = μ
  ang : ∀ s, p s * qd s - q s * pd s = c
  hc : c ≠ 0
  ht : ∀ s, HasDerivAt tm (p s ^ 2 + q s ^ 2) s
  ht0 : tm 0 = 0

variable {μ κ c : ℝ} {p q pd qd tm : ℝ → ℝ}

theorem Reg.r_lower (h : Reg μ κ c p q pd qd tm) :
    ∃ δ > 0, ∀ s, δ ≤ p s ^ 2 + q s ^ 2 := by
  have hc2 : 0 < c ^ 2 := by have := h.hc; positivity
  have hK : 0 < |μ| + 2 * |κ| + 1 := by positivity
  refine ⟨min 1 (2 * c ^ 2 / (|μ| + 2 * |κ| + 1)), by positivity, fun s => ?_⟩
  by_cases h1 : 1 ≤ p s ^ 2 + q s ^ 2
  · exact le_trans (min_le_left _ _) h1
  · push Not at h1
    refine le_trans (min_le_right _ _) ?_
    rw [div_le_iff₀ hK]
    set r := p s ^ 2 + q s ^ 2 with hr
    have hr0 : 0 ≤ r := by positivity
    have e := h.energy s
    have a := h.ang s
    have cs : c ^ 2 ≤ r * (pd s ^ 2 + qd s ^ 2) := by
      rw [← a, hr]; nlinarith [sq_nonneg (p s * pd s + q s * qd s)]
    have e2 : 2 * (pd s ^ 2 + qd s ^ 2) ≤ |μ| + 2 * |κ| := by
      have h3 : κ * r ≤ |κ| := by
        calc κ * r ≤ |κ| * r := by gcongr; exact le_abs_self κ
          _ ≤ |κ| * 1 := by gcongr
          _ = |κ| := mul_one _
      have := le_abs_self μ
      linarith
    nlinarith

theorem Reg.r_pos (h : Reg μ κ c p q pd qd tm) (s : ℝ) : 0 < p s ^ 2 + q s ^ 2 := by
  obtain ⟨δ, h0, h1⟩ := h.r_lower
  exact lt_of_lt_of_le h0 (h1 s)

theorem Reg.strictMono (h : Reg μ κ c p q pd qd tm) : StrictMono tm :=
  strictMono_of_hasDerivAt_pos (fun s => h.ht s) (fun s => h.r_pos s)

theorem Reg.surj (h : Reg μ κ c p q pd qd tm) : Function.Surjective tm := by
  obtain ⟨δ, h0, h1⟩ := h.r_lower
  have hcont : Continuous tm := continuous_iff_continuousAt.2 fun s => (h.ht s).continuousAt
  -- `tm s - δ s` is monotone
  have hm : Monotone fun s => tm s - δ * s := by
    apply monotone_of_hasDerivAt_nonneg (f' := fun s => p s ^ 2 + q s ^ 2 - δ * 1)
    · intro s; exact (h.ht s).sub ((hasDerivAt_id s).const_mul δ)
    · intro s; have := h1 s; simp; linarith
  refine hcont.surjective ?_ ?_
  · refine Filter.tendsto_atTop_mono' _ (f₁ := fun s => δ * s) ?_ ?_
    · filter_upwards [Filter.eventually_ge_atTop (0 : ℝ)] with s hs
      have := hm hs; simp [h.ht0] at this; linarith
    · exact Filter.Tendsto.const_mul_atTop h0 Filter.tendsto_id
  · refine Filter.tendsto_atBot_mono' Filter.atBot (f₁ := fun s => δ * s) ?_ ?_
    · filter_upwards [Filter.eventually_le_atBot (0 : ℝ)] with s hs
      have := hm hs; simp [h.ht0] at this; linarith
    · exact Filter.Tendsto.const_mul_atBot h0 Filter.tendsto_id

/-- The inverse of the time map. -/
theorem Reg.inverse (h : Reg μ κ c p q pd qd tm) :
    ∃ σ : ℝ → ℝ, (∀ t, tm (σ t) = t) ∧ (∀ s, σ (tm s) = s) ∧
      ∀ t, HasDerivAt σ (p (σ t) ^ 2 + q (σ t) ^ 2)⁻¹ t := by
  let e : ℝ ≃o ℝ := h.strictMono.orderIsoOfSurjective tm h.surj
  have he : ∀ s, e s = tm s := fun s => rfl
  have h1 : ∀ t, tm (e.symm t) = t := fun t => e.apply_symm_apply t
  have h2 : ∀ s, e.symm (tm s) = s := fun s => e.symm_apply_apply s
  refine ⟨e.symm, h1, h2, fun t => ?_⟩
  exact HasDerivAt.of_local_left_inverse (e.symm.continuous.continuousAt)
    (h.ht (e.symm t)) (h.r_pos _).ne' (Filter.Eventually.of_forall h1)

/-- Planar coordinates of position and velocity. -/
def X (p q : ℝ → ℝ) (s : ℝ) : ℝ := p s ^ 2 - q s ^ 2
def Y (p q : ℝ → ℝ) (s : ℝ) : ℝ := 2 * p s * q s
noncomputable def VX (p q pd qd : ℝ → ℝ) (s : ℝ) : ℝ :=
  2 * (p s * pd s - q s * qd s) / (p s ^ 2 + q s ^ 2)
noncomputable def VY (p q pd qd : ℝ → ℝ) (s : ℝ) : ℝ :=
  2 * (p s * qd s + q s * pd s) / (p s ^ 2 + q s ^ 2)

theorem Reg.dX (h : Reg μ κ c p q pd qd tm) (s : ℝ) :
    HasDerivAt (X p q) (VX p q pd qd s * (p s ^ 2 + q s ^ 2)) s := by
  have := ((h.hp s).pow 2).sub ((h.hq s).pow 2)
  have hr := (h.r_pos s).ne'
  refine this.congr_deriv ?_
  unfold VX; field_simp; push_cast; ring

theorem Reg.dY (h : Reg μ κ c p q pd qd tm) (s : ℝ) :
    HasDerivAt (Y p q) (VY p q pd qd s * (p s ^ 2 + q s ^ 2)) s := by
  have := ((h.hp s).const_mul 2).mul (h.hq s)
  have hr := (h.r_pos s).ne'
  refine this.congr_deriv ?_
  unfold VY; field_simp; ring

theorem Reg.dr (h : Reg μ κ c p q pd qd tm) (s : ℝ) :
    HasDerivAt (fun s => p s ^ 2 + q s ^ 2) (2 * (p s * pd s + q s * qd s)) s := by
  have := ((h.hp s).pow 2).add ((h.hq s).pow 2)
  refine this.congr_deriv ?_
  push_cast; ring

theorem Reg.dVX (h : Reg μ κ c p q pd qd tm) (s : ℝ) :
    HasDerivAt (VX p q pd qd) (-μ * X p q s / (p s ^ 2 + q s ^ 2) ^ 2) s := by
  have hr := (h.r_pos s).ne'
  have := ((((h.hp s).mul (h.hpd s)).sub ((h.hq s).mul (h.hqd s))).const_mul 2).div (h.dr s) hr
  refine this.congr_deriv ?_
  rw [← h.energy s]; unfold X
  simp only [Pi.mul_apply, Pi.sub_apply]
  congr 1
  ring

theorem Reg.dVY (h : Reg μ κ c p q pd qd tm) (s : ℝ) :
    HasDerivAt (VY p q pd qd) (-μ * Y p q s / (p s ^ 2 + q s ^ 2) ^ 2) s := by
  have hr := (h.r_pos s).ne'
  have := ((((h.hp s).mul (h.hqd s)).add ((h.hq s).mul (h.hpd s))).const_mul 2).div (h.dr s) hr
  refine this.congr_deriv ?_
  rw [← h.energy s]; unfold Y
  simp only [Pi.mul_apply, Pi.add_apply]
  congr 1
  ring

/-- An orthonormal pair of vectors. -/
structure Frame (e1 e2 : V3) : Prop where
  h11 : e1.x ^ 2 + e1.y ^ 2 + e1.z ^ 2 = 1
  h22 : e2.x ^ 2 + e2.y ^ 2 + e2.z ^ 2 = 1
  h12 : e1.x * e2.x + e1.y * e2.y + e1.z * e2.z = 0

theorem Frame.len_comb {e1 e2 : V3} (hf : Frame e1 e2) (a b : ℝ) :
    len (a • e1 + b • e2) = Real.sqrt (a ^ 2 + b ^ 2) := by
  unfold len
  congr 1
  simp
  linear_combination a ^ 2 * hf.h11 + b ^ 2 * hf.h22 + 2 * a * b * hf.h12

/-- A regularised orbit, seen in the plane of a frame, is a Kepler motion. -/
theorem Reg.keplerMotion (h : Reg μ κ c p q pd qd tm) {e1 e2 : V3} (hf : Frame e1 e2)
    {σ : ℝ → ℝ} (hσ : ∀ t, HasDerivAt σ (p (σ t) ^ 2 + q (σ t) ^ 2)⁻¹ t) :
    KeplerMotion μ (fun t => X p q (σ t) • e1 + Y p q (σ t) • e2)
      (fun t => VX p q pd qd (σ t) • e1 + VY p q pd qd (σ t) • e2) := by
  have hlen : ∀ s, len (X p q s • e1 + Y p q s • e2) = p s ^ 2 + q s ^ 2 := by
    intro s
    rw [hf.len_comb]
    have : X p q s ^ 2 + Y p q s ^ 2 = (p s ^ 2 + q s ^ 2) ^ 2 := by unfold X Y; ring
    rw [this, Real.sqrt_sq (h.r_pos s).le]
  have hX : ∀ t, HasDerivAt (fun t => X p q (σ t)) (VX p q pd qd (σ t)) t := by
    intro t
    have hr := (h.r_pos (σ t)).ne'
    have := (h.dX (σ t)).comp t (hσ t)
    refine this.congr_deriv ?_
    field_simp
  have hY : ∀ t, HasDerivAt (fun t => Y p q (σ t)) (VY p q pd qd (σ t)) t := by
    intro t
    have hr := (h.r_pos (σ t)).ne'
    have := (h.dY (σ t)).comp t (hσ t)
    refine this.congr_deriv ?_
    field_simp
  have hVX : ∀ t, HasDerivAt (fun t => VX p q pd qd (σ t))
      (-μ / (p (σ t) ^ 2 + q (σ t) ^ 2) ^ 3 * X p q (σ t)) t := by
    intro t
    have hr := (h.r_pos (σ t)).ne'
    have := (h.dVX (σ t)).comp t (hσ t)
    refine this.congr_deriv ?_
    field_simp
  have hVY : ∀ t, HasDerivAt (fun t => VY p q pd qd (σ t))
      (-μ / (p (σ t) ^ 2 + q (σ t) ^ 2) ^ 3 * Y p q (σ t)) t := by
    intro t
    have hr := (h.r_pos (σ t)).ne'
    have := (h.dVY (σ t)).comp t (hσ t)
    refine this.congr_deriv ?_
    field_simp
  constructor
  · intro t h0
    have := hlen (σ t)
    rw [h0] at this
    have hp := h.r_pos (σ t)
    simp [len] at this
    linarith
  · intro t
    refine ⟨?_, ?_, ?_⟩ <;> simp only [V3.add_x, V3.add_y, V3.add_z, V3.smul_x, V3.smul_y, V3.smul_z] <;>
      exact ((hX t).mul_const _).add ((hY t).mul_const _)
  · intro t
    rw [hlen]
    refine ⟨?_, ?_, ?_⟩ <;> simp only [V3.add_x, V3.add_y, V3.add_z, V3.smul_x, V3.smul_y, V3.smul_z]
    all_goals
      refine (((hVX t).mul_const _).add ((hVY t).mul_const _)).congr_deriv ?_
      ring

end Lamberthub.LC
