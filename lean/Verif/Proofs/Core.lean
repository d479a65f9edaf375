import Verif.Proofs.LeviCivita
import Mathlib.Analysis.SpecialFunctions.Trigonometric.DerivHyp

/-!
# The bridge between Lagrange coefficients and Kepler motions

For every value of the regularised path parameter, the velocities built from the
Lagrange coefficients `f = 1 - V/|r1|`, `ġ = 1 - V/|r2|`, `g = A √(V/μ)` belong to a
Kepler motion from `r1` to `r2`, in the time given by Lagrange's equation.
-/

namespace Lamberthub.LC
open Lamberthub Spec

/-- Generalised cosine, sine and `∫ sine²` for the equation `u'' = κ u`. -/
structure Trip (κ : ℝ) (C S D : ℝ → ℝ) : Prop where
  dC : ∀ s, HasDerivAt C (κ * S s) s
  dS : ∀ s, HasDerivAt S (C s) s
  dD : ∀ s, HasDerivAt D (S s ^ 2) s
  C0 : C 0 = 1
  S0 : S 0 = 0
  D0 : D 0 = 0
  pyth : ∀ s, C s ^ 2 - κ * S s ^ 2 = 1
  time : ∀ s, 2 * κ * D s = C s * S s - s

theorem trip_neg {w : ℝ} (hw : 0 < w) :
    Trip (-w ^ 2) (fun s => Real.cos (w * s)) (fun s => Real.sin (w * s) / w)
      (fun s => (s - Real.cos (w * s) * (Real.sin (w * s) / w)) / (2 * w ^ 2)) := by
  have hw' := hw.ne'
  have hl : ∀ s, HasDerivAt (fun s => w * s) w s := fun s => by
    simpa using (hasDerivAt_id s).const_mul w
  have hC : ∀ s, HasDerivAt (fun s => Real.cos (w * s)) (-w ^ 2 * (Real.sin (w * s) / w)) s := by
    intro s
    refine ((Real.hasDerivAt_cos (w * s)).comp s (hl s)).congr_deriv ?_
    field_simp
  have hS : ∀ s, HasDerivAt (fun s => Real.sin (w * s) / w) (Real.cos (w * s)) s := by
    intro s
    refine (((Real.hasDerivAt_sin (w * s)).comp s (hl s)).div_const w).congr_deriv ?_
    field_simp
  refine ⟨hC, hS, ?_, by simp, by simp, by simp, ?_, ?_⟩
  · intro s
    refine (((hasDerivAt_id s).sub ((hC s).mul (hS s))).div_const (2 * w ^ 2)).congr_deriv ?_
    have := Real.sin_sq_add_cos_sq (w * s)
    field_simp
    linear_combination (-1 : ℝ) * this
  · intro s
    have := Real.sin_sq_add_cos_sq (w * s)
    field_simp
    linear_combination this
  · intro s; field_simp; ring

theorem trip_zero : Trip 0 (fun _ => 1) (fun s => s) (fun s => s ^ 3 / 3) := by
  refine ⟨?_, ?_, ?_, rfl, rfl, by norm_num, by simp, by simp⟩
  · intro s; simpa using hasDerivAt_const s (1 : ℝ)
  · intro s; exact hasDerivAt_id s
  · intro s
    refine ((hasDerivAt_pow 3 s).div_const 3).congr_deriv ?_
    ring

theorem trip_pos {w : ℝ} (hw : 0 < w) :
    Trip (w ^ 2) (fun s => Real.cosh (w * s)) (fun s => Real.sinh (w * s) / w)
      (fun s => (Real.cosh (w * s) * (Real.sinh (w * s) / w) - s) / (2 * w ^ 2)) := by
  have hw' := hw.ne'
  have hl : ∀ s, HasDerivAt (fun s => w * s) w s := fun s => by
    simpa using (hasDerivAt_id s).const_mul w
  have hC : ∀ s, HasDerivAt (fun s => Real.cosh (w * s)) (w ^ 2 * (Real.sinh (w * s) / w)) s := by
    intro s
    refine ((Real.hasDerivAt_cosh (w * s)).comp s (hl s)).congr_deriv ?_
    field_simp
  have hS : ∀ s, HasDerivAt (fun s => Real.sinh (w * s) / w) (Real.cosh (w * s)) s := by
    intro s
    refine (((Real.hasDerivAt_sinh (w * s)).comp s (hl s)).div_const w).congr_deriv ?_
    field_simp
  refine ⟨hC, hS, ?_, by simp, by simp, by simp, ?_, ?_⟩
  · intro s
    refine ((((hC s).mul (hS s)).sub (hasDerivAt_id s)).div_const (2 * w ^ 2)).congr_deriv ?_
    have := Real.cosh_sq (w * s)
    field_simp
    linear_combination this
  · intro s
    have := Real.cosh_sq (w * s)
    field_simp
    linear_combination this
  · intro s; field_simp

/-- Planar boundary-value problem: `a0² = |r1|`, `(a2 + i b2)² = r2` in the frame of `r1`. -/
structure Bvp (μ κ : ℝ) (C S D : ℝ → ℝ) (a0 a2 b2 σ sf : ℝ) : Prop where
  trip : Trip κ C S D
  ha0 : 0 < a0
  ha2 : a2 ≠ 0
  hb2 : 0 < b2
  hσ : σ ^ 2 = 1
  hsf : 0 < sf
  hS : 0 < σ * S sf
  scale : μ * S sf ^ 2 = 2 * (a0 ^ 2 + a2 ^ 2 + b2 ^ 2 - 2 * σ * a0 * a2 * C sf)

variable {μ κ a0 a2 b2 σ sf : ℝ} {C S D : ℝ → ℝ}

theorem Bvp.S_ne (h : Bvp μ κ C S D a0 a2 b2 σ sf) : S sf ≠ 0 := by
  intro h0; have := h.hS; rw [h0] at this; simp at this

theorem Bvp.reg (h : Bvp μ κ C S D a0 a2 b2 σ sf) (a1 b1 : ℝ)
    (ha1 : a1 = (σ * a2 - a0 * C sf) / S sf) (hb1 : b1 = σ * b2 / S sf) :
    Reg μ κ (a0 * b1) (fun s => a0 * C s + a1 * S s) (fun s => b1 * S s)
      (fun s => a0 * (κ * S s) + a1 * C s) (fun s => b1 * C s)
      (fun s => a0 ^ 2 * (s + κ * D s) + a0 * a1 * S s ^ 2 + (a1 ^ 2 + b1 ^ 2) * D s) := by
  have hT := h.trip
  have hs := h.S_ne
  have hσ := h.hσ
  refine ⟨?_, ?_, ?_, ?_, ?_, ?_, ?_, ?_, ?_⟩
  · intro s; exact ((hT.dC s).const_mul a0).add ((hT.dS s).const_mul a1)
  · intro s; exact (hT.dS s).const_mul b1
  · intro s
    refine ((((hT.dS s).const_mul κ).const_mul a0).add ((hT.dC s).const_mul a1)).congr_deriv ?_
    ring
  · intro s
    refine ((hT.dC s).const_mul b1).congr_deriv ?_
    ring
  · intro s
    have hp := hT.pyth s
    have hpf := hT.pyth sf
    have e1 : 2 * (a1 ^ 2 + b1 ^ 2) - 2 * κ * a0 ^ 2 = μ := by
      have hsc := h.scale
      rw [ha1, hb1]
      field_simp
      linear_combination (2 * a2 ^ 2 + 2 * b2 ^ 2) * hσ + 2 * a0 ^ 2 * hpf - hsc
    linear_combination (2 * a1 ^ 2 + 2 * b1 ^ 2 - 2 * κ * a0 ^ 2) * hp + e1
  · intro s
    have hp := hT.pyth s
    linear_combination a0 * b1 * hp
  · have : σ ≠ 0 := by rintro rfl; norm_num at hσ
    have := h.ha0.ne'
    have := h.hb2.ne'
    rw [hb1]
    positivity
  · intro s
    have hp := hT.pyth s
    have := (((hasDerivAt_id s).add ((hT.dD s).const_mul κ)).const_mul (a0 ^ 2)).add
      ((((hT.dS s).pow 2).const_mul (a0 * a1)))
    have := this.add ((hT.dD s).const_mul (a1 ^ 2 + b1 ^ 2))
    refine this.congr_deriv ?_
    push_cast
    linear_combination (- a0 ^ 2) * hp
  · simp [hT.S0, hT.D0]

theorem comb_congr {e1 e2 : V3} {a b a' b' : ℝ} (ha : a = a') (hb : b = b') :
    a • e1 + b • e2 = a' • e1 + b' • e2 := by rw [ha, hb]

theorem sameDir_iff {e1 e2 : V3} (hf : Frame e1 e2) {a0 p q : ℝ} (ha0 : 0 < a0)
    (hr : 0 < p ^ 2 + q ^ 2) :
    SameDirection (a0 ^ 2 • e1) ((p ^ 2 - q ^ 2) • e1 + (2 * p * q) • e2) ↔ q = 0 := by
  constructor
  · rintro ⟨k, hk, hkq⟩
    have hx := congrArg V3.x hkq
    have hy := congrArg V3.y hkq
    have hz := congrArg V3.z hkq
    simp only [V3.add_x, V3.add_y, V3.add_z, V3.smul_x, V3.smul_y, V3.smul_z] at hx hy hz
    have hY0 : 2 * p * q = 0 := by
      linear_combination e2.x * hx + e2.y * hy + e2.z * hz - (2 * p * q) * hf.h22 -
        (p ^ 2 - q ^ 2 - k * a0 ^ 2) * hf.h12
    have hX0 : p ^ 2 - q ^ 2 = k * a0 ^ 2 := by
      linear_combination e1.x * hx + e1.y * hy + e1.z * hz -
        (p ^ 2 - q ^ 2 - k * a0 ^ 2) * hf.h11 - (2 * p * q) * hf.h12
    have hXpos : 0 < k * a0 ^ 2 := by positivity
    rcases mul_eq_zero.1 hY0 with h' | h'
    · have hps : p = 0 := by linarith
      rw [hps] at hX0
      have := sq_nonneg q
      linarith
    · exact h'
  · rintro rfl
    have hr' : 0 < p ^ 2 := by simpa using hr
    refine ⟨p ^ 2 / a0 ^ 2, by positivity, ?_⟩
    ext <;> simp <;> field_simp

/-- Core theorem in planar form. -/
theorem Bvp.arc (h : Bvp μ κ C S D a0 a2 b2 σ sf) {e1 e2 : V3} (hf : Frame e1 e2)
    {M : ℕ} (hM : {s : ℝ | 0 < s ∧ s < sf ∧ S s = 0}.encard = M) {V : ℝ}
    (hV : V = a0 ^ 2 + a2 ^ 2 + b2 ^ 2 - 2 * σ * a0 * a2 * C sf) :
    LambertArc μ (a0 ^ 2 • e1) ((a2 ^ 2 - b2 ^ 2) • e1 + (2 * a2 * b2) • e2)
      (((a2 ^ 2 - b2 ^ 2 - a0 ^ 2 + V) / (a0 * a2 * (σ * S sf))) • e1 +
        ((2 * a2 * b2) / (a0 * a2 * (σ * S sf))) • e2)
      ((((1 - V / (a2 ^ 2 + b2 ^ 2)) * (a2 ^ 2 - b2 ^ 2) - a0 ^ 2) / (a0 * a2 * (σ * S sf))) • e1 +
        (((1 - V / (a2 ^ 2 + b2 ^ 2)) * (2 * a2 * b2)) / (a0 * a2 * (σ * S sf))) • e2)
      ((μ * D sf + 2 * a0 * a2 * (σ * S sf)) / 2) M := by
  obtain ⟨a1, ha1⟩ : ∃ a1, a1 = (σ * a2 - a0 * C sf) / S sf := ⟨_, rfl⟩
  obtain ⟨b1, hb1⟩ : ∃ b1, b1 = σ * b2 / S sf := ⟨_, rfl⟩
  have hR := h.reg a1 b1 ha1 hb1
  have hT := h.trip
  have hs := h.S_ne
  have hσ := h.hσ
  have hσ0 : σ ≠ 0 := by rintro rfl; norm_num at hσ
  have ha0 := h.ha0
  have hb2 := h.hb2
  have ha2 := h.ha2
  have hpf := hT.pyth sf
  have htf := hT.time sf
  have hR2 : 0 < a2 ^ 2 + b2 ^ 2 := by positivity
  obtain ⟨τ, hτ1, hτ2, hτ3⟩ := hR.inverse
  set p : ℝ → ℝ := fun s => a0 * C s + a1 * S s with hp
  set q : ℝ → ℝ := fun s => b1 * S s with hq
  set pd : ℝ → ℝ := fun s => a0 * (κ * S s) + a1 * C s with hpd
  set qd : ℝ → ℝ := fun s => b1 * C s with hqd
  set tm : ℝ → ℝ := fun s => a0 ^ 2 * (s + κ * D s) + a0 * a1 * S s ^ 2 + (a1 ^ 2 + b1 ^ 2) * D s
    with htm
  have hτ0 : τ 0 = 0 := by have := hτ2 0; simpa [hT.S0, hT.D0] using this
  have hend : 2 * (a1 ^ 2 + b1 ^ 2) - 2 * κ * a0 ^ 2 = μ := by
    have := hR.energy 0
    simp [hp, hq, hpd, hqd, hT.C0, hT.S0] at this
    linarith
  have hT1 : tm sf = (μ * D sf + 2 * a0 * a2 * (σ * S sf)) / 2 := by
    have hx : a1 * S sf = σ * a2 - a0 * C sf := by rw [ha1]; field_simp
    simp only [htm]
    linear_combination (D sf / 2) * hend + a0 * S sf * hx + a0 ^ 2 * htf
  have hτT : τ ((μ * D sf + 2 * a0 * a2 * (σ * S sf)) / 2) = sf := by rw [← hT1, hτ2]
  have hpsf : p sf = σ * a2 := by simp only [hp]; rw [ha1]; field_simp; ring
  have hqsf : q sf = σ * b2 := by simp only [hq]; rw [hb1]; field_simp
  have hp0 : p 0 = a0 := by simp [hp, hT.C0, hT.S0]
  have hq0 : q 0 = 0 := by simp [hq, hT.S0]
  have hpd0 : pd 0 = a1 := by simp [hpd, hT.C0, hT.S0]
  have hqd0 : qd 0 = b1 := by simp [hqd, hT.C0]
  have hmono := hR.strictMono
  have htmpos : 0 < tm sf := by
    have := hmono h.hsf; rwa [hR.ht0] at this
  refine ⟨by rw [← hT1]; exact htmpos, _, _, hR.keplerMotion hf hτ3, ?_, ?_, ?_, ?_, ?_⟩
  · simp only [hτ0, X, Y, hp0, hq0]
    ext <;> simp
  · simp only [hτ0, VX, VY, hp0, hq0, hpd0, hqd0]
    refine comb_congr ?_ ?_
    · rw [ha1, hV]
      field_simp
      linear_combination (2 * a0 ^ 2 * a2 ^ 2) * hσ
    · rw [hb1]
      field_simp
      linear_combination (a0 ^ 2 * b2) * hσ
  · simp only [hτT, X, Y, hpsf, hqsf]
    refine comb_congr ?_ ?_
    · linear_combination (a2 ^ 2 - b2 ^ 2) * hσ
    · linear_combination (2 * a2 * b2) * hσ
  · simp only [hτT, VX, VY, hpsf, hqsf]
    have hx : a1 * S sf = σ * a2 - a0 * C sf := by rw [ha1]; field_simp
    have hPD : S sf * pd sf = σ * a2 * C sf - a0 := by
      simp only [hpd]; linear_combination (C sf) * hx - a0 * hpf
    have hQD : S sf * qd sf = σ * b2 * C sf := by
      simp only [hqd]; rw [hb1]; field_simp
    have hden : (σ * a2) ^ 2 + (σ * b2) ^ 2 = a2 ^ 2 + b2 ^ 2 := by
      linear_combination (a2 ^ 2 + b2 ^ 2) * hσ
    have hR2' := hR2.ne'
    have hone : (1 - V / (a2 ^ 2 + b2 ^ 2)) * (a2 ^ 2 + b2 ^ 2) = a2 ^ 2 + b2 ^ 2 - V := by
      field_simp
    have hG : a0 * a2 * (σ * S sf) ≠ 0 := by positivity
    rw [hden]
    refine comb_congr ?_ ?_
    · have key : 2 * (σ * a2 * pd sf - σ * b2 * qd sf) * (a0 * a2 * (σ * S sf)) =
          (a2 ^ 2 + b2 ^ 2 - V) * (a2 ^ 2 - b2 ^ 2) - a0 ^ 2 * (a2 ^ 2 + b2 ^ 2) := by
        rw [hV]
        linear_combination (2 * a0 * a2 ^ 2 * σ ^ 2) * hPD - (2 * a0 * a2 * b2 * σ ^ 2) * hQD +
          (2 * a0 * a2 * (σ * C sf * (a2 ^ 2 - b2 ^ 2) - a0 * a2)) * hσ
      rw [div_eq_div_iff hR2' hG]
      linear_combination key - (a2 ^ 2 - b2 ^ 2) * hone
    · have key : 2 * (σ * a2 * qd sf + σ * b2 * pd sf) * (a0 * a2 * (σ * S sf)) =
          (a2 ^ 2 + b2 ^ 2 - V) * (2 * a2 * b2) := by
        rw [hV]
        linear_combination (2 * a0 * a2 * b2 * σ ^ 2) * hPD + (2 * a0 * a2 ^ 2 * σ ^ 2) * hQD +
          (2 * a0 * a2 * (2 * σ * C sf * a2 * b2 - a0 * b2)) * hσ
      rw [div_eq_div_iff hR2' hG]
      linear_combination key - (2 * a2 * b2) * hone
  · rw [← hT1, ← hM]
    have hb1' : b1 ≠ 0 := by rw [hb1]; positivity
    have hdir : ∀ s, SameDirection (a0 ^ 2 • e1) (X p q s • e1 + Y p q s • e2) ↔ S s = 0 := by
      intro s
      have h1 := sameDir_iff hf ha0 (hR.r_pos s)
      unfold X Y
      rw [h1]
      simp only [hq, mul_eq_zero, hb1', false_or]
    have hset : {t : ℝ | 0 < t ∧ t < tm sf ∧ SameDirection (a0 ^ 2 • e1)
        (X p q (τ t) • e1 + Y p q (τ t) • e2)} = tm '' {s : ℝ | 0 < s ∧ s < sf ∧ S s = 0} := by
      ext t
      constructor
      · rintro ⟨h1, h2, h3⟩
        rw [← hτ1 t, ← hR.ht0] at h1
        rw [← hτ1 t] at h2
        exact ⟨τ t, ⟨hmono.lt_iff_lt.1 h1, hmono.lt_iff_lt.1 h2, (hdir _).1 h3⟩, hτ1 t⟩
      · rintro ⟨s, ⟨h1, h2, h3⟩, rfl⟩
        refine ⟨?_, hmono h2, ?_⟩
        · have := hmono h1; rwa [hR.ht0] at this
        · rw [hτ2]; exact (hdir s).2 h3
    rw [hset]
    exact hmono.injective.encard_image _

end Lamberthub.LC
