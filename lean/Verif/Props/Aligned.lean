import Verif.Props.Angles
import Verif.Props.Battin
import Verif.Props.Vallado
import Verif.Proofs.Radial
import Verif.Model.Jiang
import Verif.Model.Gauss
import Verif.Model.Pan
import Verif.Model.Der
import Verif.Model.Thorne
import Verif.Model.Delatorre
import Verif.Model.Avanzini
import Verif.Model.Arora
import Verif.Model.Gooding
import Verif.Model.McElreath
import Verif.Model.Negrete
import Verif.Model.Izzo

/-! # C74: positions on one line with the attractor

Such positions do not determine a plane of motion. -/

set_option autoImplicit false

namespace Lamberthub
open Spec LC

theorem cross_of_aligned {r1 : V3} {k : ℝ} : V3.cross r1 (k • r1) = 0 :=
  cross_eq_zero_iff.2 (not_notAligned_smul r1 k)

theorem norm_cross_of_aligned {r1 : V3} {k : ℝ} : V3.norm (V3.cross r1 (k • r1)) = 0 := by
  rw [cross_of_aligned]; simp [V3.norm, V3.dot]

theorem transferAngle_opposite {r1 r2 : V3} (h1 : r1 ≠ 0) (h : OppositeDirection r1 r2) (pro : Bool) :
    getTransferAngle r1 r2 pro = .ok Real.pi := by
  obtain ⟨k, hk, rfl⟩ := h
  rw [transferAngle_aligned h1 hk.ne, if_neg (not_lt.2 hk.le)]

theorem transferAngle_ray {r1 r2 : V3} (h1 : r1 ≠ 0) (h : SameDirection r1 r2) (pro : Bool) :
    getTransferAngle r1 r2 pro = .ok 0 := by
  obtain ⟨k, hk, rfl⟩ := h
  rw [transferAngle_aligned h1 hk.ne', if_pos hk]

theorem orbitNormal_aligned {r1 : V3} {k : ℝ} (pro : Bool) :
    getOrbitNormalVector r1 (k • r1) pro = .error .undefined := by
  unfold getOrbitNormalVector
  simp only [vdiv, norm_cross_of_aligned, if_true, error_bind]

theorem ne_of_opposite {r1 r2 : V3} (h1 : r1 ≠ 0) (h : OppositeDirection r1 r2) : r1 ≠ r2 := by
  obtain ⟨k, hk, rfl⟩ := h
  intro he
  apply h1
  have hx := congrArg V3.x he
  have hy := congrArg V3.y he
  have hz := congrArg V3.z he
  simp only [V3.smul_x, V3.smul_y, V3.smul_z] at hx hy hz
  have hk1 : (1 - k) ≠ 0 := by linarith
  ext
  · exact (mul_eq_zero.1 (by linear_combination hx : (1 - k) * r1.x = 0)).resolve_left hk1
  · exact (mul_eq_zero.1 (by linear_combination hy : (1 - k) * r1.y = 0)).resolve_left hk1
  · exact (mul_eq_zero.1 (by linear_combination hz : (1 - k) * r1.z = 0)).resolve_left hk1

/-- The message of the guard against the angle zero. -/
def angleZero : PyErr := .valueError "Transfer angle was found to be zero!"
/-- The message of the guard against half a turn. -/
def anglePi : PyErr := .valueError "Transfer angle was found to be 180 degrees!"
/-- The message of the solvers that check their geometric constant. -/
def phase180 : PyErr := .runtimeError "Cannot compute orbit, phase angle is 180 degrees"

section opposite
variable {mu tof : ℝ} {r1 r2 : V3}

/-- **C74, opposite positions, the solvers that check.**  Seven solvers raise the error that names the reason. -/
theorem opposite_refused (hmu : 0 < mu) (h1 : r1 ≠ 0) (ht : 0 < tof) (h : OppositeDirection r1 r2)
    (M : ℕ) (pro low : Bool) (n : ℕ) (atol rtol : ℝ) (fo : Bool) (clock : ℝ) (brentq : Brent) :
    jiang2016 mu r1 r2 tof 0 pro low n atol rtol fo clock = .error anglePi ∧
    pan2016 brentq mu r1 r2 tof 0 pro low n atol rtol fo clock = .error anglePi ∧
    gauss1809 mu r1 r2 tof M pro low n atol rtol fo clock = .error anglePi ∧
    der2011 brentq mu r1 r2 tof M pro low n atol rtol fo clock = .error anglePi ∧
    vallado2013 mu r1 r2 tof M pro low n atol rtol fo clock = .error phase180 ∧
    negrete2024 mu r1 r2 tof M pro low n atol rtol fo clock = .error phase180 ∧
    mcelreath2025 mu r1 r2 tof M pro low n atol rtol fo clock = .error phase180 := by
  have h12 := ne_of_opposite h1 h
  have ha := transferAngle_opposite h1 h pro
  have hp : Real.pi ≠ 0 := Real.pi_ne_zero
  have hv : ∀ M : ℕ, assertParametersAreValid mu r1 r2 tof M = .ok () := fun M =>
    assertParameters_eq hmu h1 h12 ht (by positivity)
  have hv0 : assertParametersAreValid mu r1 r2 tof 0 = .ok () := hv 0
  have hA : Vallado.getA (V3.norm r1) (V3.norm r2) Real.pi = .ok 0 := by
    unfold Vallado.getA
    rw [Real.cos_pi, psqrt_eq (by norm_num)]
    simp
  have hA' : Negrete.getA (V3.norm r1) (V3.norm r2) Real.pi = .ok 0 := by
    unfold Negrete.getA
    rw [Real.cos_pi, psqrt_eq (by norm_num)]
    simp
  refine ⟨?_, ?_, ?_, ?_, ?_, ?_, ?_⟩
  · unfold jiang2016
    simp only [raiseIf_neg _ (lt_irrefl (0 : ℤ)), hv0, ha, ok_bind, assertTransferAngleNotZero, assertTransferAngleNotPi,
      raiseIf_neg _ hp]
    rfl
  · unfold pan2016
    simp only [raiseIf_neg _ (lt_irrefl (0 : ℤ)), hv0, ha, ok_bind, assertTransferAngleNotZero, assertTransferAngleNotPi,
      raiseIf_neg _ hp]
    rfl
  · unfold gauss1809
    simp only [hv, ha, ok_bind, assertTransferAngleNotZero, assertTransferAngleNotPi,
      raiseIf_neg _ hp]
    rfl
  · unfold der2011
    simp only [hv, ha, ok_bind, assertTransferAngleNotZero, assertTransferAngleNotPi,
      raiseIf_neg _ hp]
    rfl
  · unfold vallado2013
    simp only [hv, ha, ok_bind, hA]
    rw [raiseIf_pos _ (by norm_num), error_bind]
    rfl
  · unfold negrete2024
    simp only [hv, ha, ok_bind, hA', assertTransferAngleNotZero, raiseIf_neg _ hp]
    rw [raiseIf_pos _ (by norm_num), error_bind]
    rfl
  · unfold mcelreath2025
    simp only [hv, ha, ok_bind, assertTransferAngleNotZero, raiseIf_neg _ hp]
    rw [raiseIf_pos _ (by rw [Real.sin_pi]; norm_num), error_bind]
    rfl

end opposite
section never
variable {mu tof : ℝ} {r1 r2 : V3}

theorem unit_cross_aligned {r1 u1 u2 : V3} {k : ℝ} (h1 : vdiv r1 (V3.norm r1) = .ok u1)
    (h2 : vdiv (k • r1) (V3.norm (k • r1)) = .ok u2) : V3.norm (V3.cross u1 u2) = 0 := by
  rw [vdiv_ok] at h1 h2
  obtain ⟨-, rfl⟩ := h1
  obtain ⟨-, rfl⟩ := h2
  have : V3.cross ((V3.norm r1)⁻¹ • r1) ((V3.norm (k • r1))⁻¹ • (k • r1)) = 0 := by
    ext <;> simp [V3.cross] <;> ring
  rw [this]
  simp [V3.norm, V3.dot]

/-- **C74, both kinds of alignment**: `izzo2015` and `thorne2004` never return velocities, whatever the other arguments. -/
theorem izzo_aligned_never {k : ℝ} (M : ℤ) (pro low : Bool) (n : ℕ) (atol rtol : ℝ) (v : V3 × V3) :
    izzo2015 mu r1 (k • r1) tof M pro low n atol rtol ≠ .ok v := by
  intro h
  unfold izzo2015 Izzo.geometry at h
  simp only [bind_ok] at h
  obtain ⟨-, ⟨u1, h1, u2, h2, u3, h3, -⟩, -⟩ := h
  exact (vdiv_ok.1 h3).1 (unit_cross_aligned h1 h2)

theorem thorne_aligned_never {k : ℝ} (brentq : Brent) (M : ℤ) (pro low : Bool) (n : ℕ) (atol rtol : ℝ) (fo : Bool)
    (clock : ℝ) (out : Output) :
    thorne2004 brentq mu r1 (k • r1) tof M pro low n atol rtol fo clock ≠ .ok out := by
  intro h
  unfold thorne2004 Thorne.reconstruct at h
  simp only [bind_ok] at h
  obtain ⟨_, -, _, -, _, -, _, -, _, -, _, -, _, -, _, -, _, -, _, ⟨u1, h1, u2, h2, u3, h3, -⟩, -⟩ := h
  exact (vdiv_ok.1 h3).1 (unit_cross_aligned h1 h2)

/-- **C74, both kinds of alignment**: `delatorre2018` never returns velocities. -/
theorem delatorre_aligned_never (h1 : r1 ≠ 0) (h : SameDirection r1 r2 ∨ OppositeDirection r1 r2) (M : ℤ) (pro low : Bool)
    (n : ℕ) (atol rtol : ℝ) (fo : Bool) (clock : ℝ) (out : Output) :
    delatorre2018 mu r1 r2 tof M pro low n atol rtol fo clock ≠ .ok out := by
  intro ho
  unfold delatorre2018 at ho
  simp only [bind_ok, pdiv_ok, psqrt_ok, vdiv_ok] at ho
  obtain ⟨_, -, θ, hθ, _, -, _, -, _, -, _, ⟨-, rfl⟩, _, ⟨hp, -⟩, _, -, _, ⟨-, rfl⟩, _, -, _, ⟨hg, -⟩, -⟩ := ho
  rcases h with h | h
  · rw [transferAngle_ray h1 h pro] at hθ
    obtain rfl := Except.ok.inj hθ
    simp at hp
  · rw [transferAngle_opposite h1 h pro] at hθ
    obtain rfl := Except.ok.inj hθ
    simp at hg

/-- **C74, opposite positions**: `arora2013` never returns velocities (its variable `tau` is zero and a divisor). -/
theorem arora_opposite_never (h1 : r1 ≠ 0) (h : OppositeDirection r1 r2) (minimize : Minimizer) (brentq : Brent) (M : ℤ)
    (pro low : Bool) (n : ℕ) (atol rtol : ℝ) (fo : Bool) (clock : ℝ) (out : Output) :
    arora2013 minimize brentq mu r1 r2 tof M pro low n atol rtol fo clock ≠ .ok out := by
  intro ho
  unfold arora2013 at ho
  simp only [bind_ok] at ho
  obtain ⟨_, -, _, -, _, -, θ, hθ, _, -, _, -, _, -, _, -, _, -, _, -, _, -, _, -, _, -, root, hr, tau, htau, _, -, _, -,
    x, hi, -⟩ := ho
  rw [transferAngle_opposite h1 h pro] at hθ
  obtain rfl := Except.ok.inj hθ
  rw [psqrt_ok, Real.cos_pi, add_neg_cancel, mul_zero, Real.sqrt_zero] at hr
  rw [pdiv_ok, hr.2, mul_zero, zero_div] at htau
  obtain ⟨-, rfl⟩ := htau
  cases n with
  | zero => simp [Arora.iterate] at hi
  | succ n =>
    simp only [Arora.iterate, bind_ok] at hi
    obtain ⟨_, -, _, -, _, -, _, hc, -⟩ := hi
    exact (pdiv_ok.1 hc).1 rfl

/-- **C74, opposite positions**: `battin1984` never returns velocities (it divides by `lambda = 0` at the end). -/
theorem battin_opposite_never (h : OppositeDirection r1 r2) (M : ℤ)
    (pro low : Bool) (n : ℕ) (atol rtol : ℝ) (fo : Bool) (clock : ℝ) (out : Output) :
    battin1984 mu r1 r2 tof M pro low n atol rtol fo clock ≠ .ok out := by
  intro ho
  unfold battin1984 Battin.velocities at ho
  simp only [bind_ok] at ho
  obtain ⟨_, -, θ, hθ, lam, hl, _, -, _, -, _, -, _, -, _, -, _, -, _, ⟨_, hv, -⟩, -⟩ := ho
  apply (pdiv_ok.1 hv).1
  obtain ⟨k, hk, rfl⟩ := h
  unfold Battin.getLambda at hl
  simp only [bind_ok, psqrt_ok, pdiv_ok] at hl
  obtain ⟨_, ⟨-, rfl⟩, _, ⟨-, rfl⟩, hl⟩ := hl
  have e : k • r1 - r1 = (k - 1) • r1 := by ext <;> simp <;> ring
  have hc : (V3.norm r1 + V3.norm (k • r1) + V3.norm (k • r1 - r1)) / 2 - V3.norm (k • r1 - r1) = 0 := by
    rw [e, norm_smul, norm_smul, abs_of_neg hk, abs_of_neg (by linarith : k - 1 < 0)]
    ring
  rw [hc] at hl
  have hl0 : lam = 0 := by
    have := Except.ok.inj hl
    rw [← this]
    simp
  rw [hl0, mul_zero]

/-- **C74, opposite positions, the solvers that divide by zero at once.** -/
theorem opposite_undefined (hmu : 0 < mu) (h1 : r1 ≠ 0) (ht : 0 < tof) (h : OppositeDirection r1 r2)
    (M : ℕ) (pro low : Bool) (n : ℕ) (atol rtol : ℝ) (fo : Bool) (clock : ℝ) :
    gooding1990 mu r1 r2 tof M pro low n atol rtol fo clock = .error .undefined ∧
    avanzini2008 mu r1 r2 tof 0 pro low n atol rtol fo clock = .error .undefined ∧
    izzo2015 mu r1 r2 tof M pro low n atol rtol = .error .undefined := by
  have h12 := ne_of_opposite h1 h
  have ha := transferAngle_opposite h1 h pro
  have hp : Real.pi ≠ 0 := Real.pi_ne_zero
  have hv : ∀ M : ℕ, assertParametersAreValid mu r1 r2 tof M = .ok () := fun M =>
    assertParameters_eq hmu h1 h12 ht (by positivity)
  have hv0 : assertParametersAreValid mu r1 r2 tof 0 = .ok () := hv 0
  obtain ⟨k, hk, rfl⟩ := h
  have n1 : V3.norm r1 ≠ 0 := (norm_pos_iff.2 h1).ne'
  have n2 : V3.norm (k • r1) ≠ 0 := by
    rw [norm_smul]; exact mul_ne_zero (abs_pos.2 hk.ne).ne' n1
  refine ⟨?_, ?_, ?_⟩
  · unfold gooding1990
    simp only [hv, ha, ok_bind, vdiv_eq n1, vdiv_eq n2, assertTransferAngleNotZero, raiseIf_neg _ hp,
      orbitNormal_aligned, error_bind]
  · have e : k • r1 - r1 = (k - 1) • r1 := by ext <;> simp <;> ring
    have hw := transferAngle_aligned h1 (by linarith : k - 1 ≠ 0) pro
    have hc : V3.norm ((k - 1) • r1) ≠ 0 := by
      rw [norm_smul]; exact mul_ne_zero (abs_pos.2 (by linarith)).ne' n1
    unfold avanzini2008
    simp only [raiseIf_neg _ (lt_irrefl (0 : ℤ)), hv0, Avanzini.getGeometry, ha, ok_bind, assertTransferAngleNotZero,
      raiseIf_neg _ hp, e, hw, Avanzini.getEccTAtX, Avanzini.getEccTLimits, Avanzini.fundamental, Avanzini.getEccF,
      pdiv_eq hc, Real.cos_pi_div_two]
    simp [pdiv]
  · unfold izzo2015 Izzo.geometry
    simp only [vdiv_eq n1, vdiv_eq n2, ok_bind]
    have := unit_cross_aligned (vdiv_eq n1) (vdiv_eq n2)
    rw [this]
    simp [vdiv]

/-- **C74, positions in the same direction, the solvers that check.**  Nine solvers raise the error that names the
reason. -/
theorem ray_refused (hmu : 0 < mu) (h1 : r1 ≠ 0) (h12 : r1 ≠ r2) (ht : 0 < tof) (h : SameDirection r1 r2)
    (M : ℕ) (pro low : Bool) (n : ℕ) (atol rtol : ℝ) (fo : Bool) (clock : ℝ) (brentq : Brent) (minimize : Minimizer) :
    jiang2016 mu r1 r2 tof 0 pro low n atol rtol fo clock = .error angleZero ∧
    pan2016 brentq mu r1 r2 tof 0 pro low n atol rtol fo clock = .error angleZero ∧
    avanzini2008 mu r1 r2 tof 0 pro low n atol rtol fo clock = .error angleZero ∧
    gauss1809 mu r1 r2 tof M pro low n atol rtol fo clock = .error angleZero ∧
    der2011 brentq mu r1 r2 tof M pro low n atol rtol fo clock = .error angleZero ∧
    gooding1990 mu r1 r2 tof M pro low n atol rtol fo clock = .error angleZero ∧
    arora2013 minimize brentq mu r1 r2 tof M pro low n atol rtol fo clock = .error angleZero ∧
    negrete2024 mu r1 r2 tof M pro low n atol rtol fo clock = .error angleZero ∧
    mcelreath2025 mu r1 r2 tof M pro low n atol rtol fo clock = .error angleZero := by
  have ha := transferAngle_ray h1 h pro
  have hv : ∀ M : ℕ, assertParametersAreValid mu r1 r2 tof M = .ok () := fun M =>
    assertParameters_eq hmu h1 h12 ht (by positivity)
  have hv0 : assertParametersAreValid mu r1 r2 tof 0 = .ok () := hv 0
  have n1 : V3.norm r1 ≠ 0 := (norm_pos_iff.2 h1).ne'
  have n2 : V3.norm r2 ≠ 0 := by
    obtain ⟨k, hk, rfl⟩ := h
    rw [norm_smul]; exact mul_ne_zero (abs_pos.2 hk.ne').ne' n1
  refine ⟨?_, ?_, ?_, ?_, ?_, ?_, ?_, ?_, ?_⟩
  · unfold jiang2016
    simp only [raiseIf_neg _ (lt_irrefl (0 : ℤ)), hv0, ha, ok_bind, assertTransferAngleNotZero]
    rfl
  · unfold pan2016
    simp only [raiseIf_neg _ (lt_irrefl (0 : ℤ)), hv0, ha, ok_bind, assertTransferAngleNotZero]
    rfl
  · unfold avanzini2008
    simp only [raiseIf_neg _ (lt_irrefl (0 : ℤ)), hv0, Avanzini.getGeometry, ha, ok_bind, assertTransferAngleNotZero]
    rfl
  · unfold gauss1809
    simp only [hv, ha, ok_bind, assertTransferAngleNotZero]
    rfl
  · unfold der2011
    simp only [hv, ha, ok_bind, assertTransferAngleNotZero]
    rfl
  · unfold gooding1990
    simp only [hv, ha, ok_bind, vdiv_eq n1, vdiv_eq n2, assertTransferAngleNotZero]
    rfl
  · unfold arora2013
    simp only [hv, ha, ok_bind, vdiv_eq n1, vdiv_eq n2, assertTransferAngleNotZero]
    rfl
  · unfold negrete2024
    simp only [hv, ha, ok_bind, assertTransferAngleNotZero]
    rfl
  · unfold mcelreath2025
    simp only [hv, ha, ok_bind, assertTransferAngleNotZero]
    rfl

end never

section ray
variable {mu tof : ℝ} {r1 r2 : V3}

theorem getA_ray {R1 R2 : ℝ} (h : 0 ≤ R1 * R2) : Vallado.getA R1 R2 0 = .ok (Real.sqrt (2 * (R1 * R2))) := by
  unfold Vallado.getA
  rw [Real.cos_zero, if_pos Real.pi_pos, psqrt_eq (by linarith)]
  simp only [ok_bind]
  rw [one_mul]
  congr 2
  ring

theorem ray_sum {R1 R2 : ℝ} (h1 : 0 < R1) (h2 : 0 < R2) (h : R1 ≠ R2) :
    2 * Real.sqrt (2 * (R1 * R2)) ^ 2 < (R1 + R2) ^ 2 := by
  rw [Real.sq_sqrt (by positivity)]
  have : 0 < (R1 - R2) ^ 2 := by have := sub_ne_zero.2 h; positivity
  linarith

theorem ray_norms {k : ℝ} (h1 : r1 ≠ 0) (hk : 0 < k) (h12 : r1 ≠ k • r1) :
    0 < V3.norm r1 ∧ 0 < V3.norm (k • r1) ∧ V3.norm r1 ≠ V3.norm (k • r1) := by
  have n1 := norm_pos_iff.2 h1
  rw [norm_smul, abs_of_pos hk]
  refine ⟨n1, by positivity, fun h => h12 ?_⟩
  have : k = 1 := by
    apply mul_right_cancel₀ n1.ne'
    linarith
  rw [this]; ext <;> simp

/-- **C74, positions in the same direction**: `vallado2013` does not refuse them.  What it returns is a motion along the
common ray that does not meet the attractor, and its flight time agrees with the requested one up to the relative
tolerance. -/
theorem vallado_ray_radial (h : SameDirection r1 r2) {M : ℤ} {pro low : Bool} {n : ℕ} {atol rtol : ℝ} {fo : Bool}
    {clock : ℝ} {out : Output} (ho : vallado2013 mu r1 r2 tof M pro low n atol rtol fo clock = .ok out) :
    ∃ T, RadialTransfer mu r1 r2 out.v1 out.v2 T ∧ |T - tof| < rtol * tof := by
  unfold vallado2013 at ho
  simp only [bind_ok, raiseIf_ok] at ho
  obtain ⟨_, ha, θ, hθ, A, hA, _, hA0, ⟨y, p, j⟩, hl, ho⟩ := ho
  obtain ⟨hmu, h1, h12, htof, -⟩ := assertParameters_ok ha
  rw [transferAngle_ray h1 h pro] at hθ
  obtain rfl := Except.ok.inj hθ
  obtain ⟨k, hk, rfl⟩ := h
  obtain ⟨n1, n2, n12⟩ := ray_norms h1 hk h12
  rw [getA_ray (by positivity)] at hA
  obtain rfl := Except.ok.inj hA
  have hpi := Real.pi_pos
  have hpi2 : 0 < Real.pi ^ 2 := by positivity
  obtain ⟨hp, hy, hy0, he, -, -⟩ := Vallado.loop_ok_of n1 n2 (ray_sum n1 n2 n12) (by norm_num; linarith)
    (by linarith) le_rfl hl
  simp only [pdiv_ok, psqrt_ok, vdiv_ok] at ho
  obtain ⟨_, ⟨_, rfl⟩, _, ⟨_, rfl⟩, _, ⟨_, rfl⟩, _, ⟨_, rfl⟩, v1, ⟨hg, rfl⟩, v2, ⟨_, rfl⟩, ho⟩ := ho
  have hyp : 0 < y := by
    rcases hy0.lt_or_eq with h1 | h1
    · exact h1
    · exfalso; apply hg; rw [← h1]; simp
  have hout := (Except.ok.inj ho).symm
  subst hout
  simp only [mkOutput_v1, mkOutput_v2]
  refine ⟨uvT mu (V3.norm r1 + V3.norm (k • r1)) (Real.sqrt (2 * (V3.norm r1 * V3.norm (k • r1)))) p, ?_, ?_⟩
  · rw [hy] at hyp ⊢; exact (uv_path hmu hp hyp).radial hmu h1 hk rfl
  · rw [abs_div, abs_of_pos htof, div_lt_iff₀ htof] at he; exact he

/-- **C74, positions in the same direction**: `battin1984` does not refuse them either; what it returns is a motion along
the common ray, in some time (not the requested one, see `battin_time_wrong` for positions that are not aligned). -/
theorem battin_ray_radial (hd : SameDirection r1 r2) {M : ℤ} {pro low : Bool} {n : ℕ} {atol rtol : ℝ} {full : Bool}
    {clock : ℝ} {out : Output} (h : battin1984 mu r1 r2 tof M pro low n atol rtol full clock = .ok out) :
    ∃ T, RadialTransfer mu r1 r2 out.v1 out.v2 T := by
  obtain ⟨hmu, htof, -, hR1, hc, θ, s, lam, ll, m, x, y, n, tpi, v1, v2, hθ, hs, hlam, hl1, hl2, hll, hm, hm0, -, -,
    hy, hx, hxl, hxy, hvel, -, rfl⟩ := Battin.ok_split h
  have h1 := norm_pos_iff.1 hR1
  rw [transferAngle_ray h1 hd pro] at hθ
  obtain rfl := Except.ok.inj hθ
  have hR2 : 0 < V3.norm r2 := by
    obtain ⟨k, hk, rfl⟩ := hd
    rw [norm_smul]; exact mul_pos (abs_pos.2 hk.ne') hR1
  have hc2 : V3.norm (r2 - r1) ^ 2 = (V3.norm r1 - V3.norm r2) ^ 2 := by
    obtain ⟨k, hk, rfl⟩ := hd
    rw [show k • r1 - r1 = (k - 1) • r1 by ext <;> simp <;> ring, norm_smul, norm_smul, mul_pow, sq_abs, abs_of_pos hk]
    ring
  have hs0 : 0 < s := by rw [hs]; positivity
  obtain ⟨hlsq, -, -, hn⟩ := Battin.getLambda_ok hs0 hc hlam
  -- the velocities
  unfold Battin.velocities at hvel
  simp only [bind_ok, pdiv_ok, vdiv_ok] at hvel
  obtain ⟨_, ⟨hl0, rfl⟩, t11, ⟨hs11, rfl⟩, _, ⟨-, rfl⟩, _, ⟨-, rfl⟩, hvel⟩ := hvel
  simp only [Except.ok.injEq, Prod.mk.injEq] at hvel
  have hlne : lam ≠ 0 := fun h0 => hl0 (by rw [h0, mul_zero])
  have hlp : 0 < lam := by
    rcases lt_or_gt_of_ne hlne with h2 | h2
    · exact absurd Real.pi_pos (hn h2)
    · exact h2
  have hsl : s * lam ^ 2 = s - V3.norm (r2 - r1) := by rw [hlsq]; field_simp
  have hsum : V3.norm r1 + V3.norm r2 = s * (1 + lam ^ 2) := by linear_combination -hsl - 2 * hs
  have hr2 : Real.sqrt 2 ^ 2 = 2 := Real.sq_sqrt (by norm_num)
  have hrp : 0 < Real.sqrt 2 := by positivity
  obtain ⟨A, hAs⟩ : ∃ A, A = Real.sqrt 2 * s * lam := ⟨_, rfl⟩
  have hAr : A = Real.sqrt (2 * (V3.norm r1 * V3.norm r2)) := by
    rw [hAs, show 2 * (V3.norm r1 * V3.norm r2) = (Real.sqrt 2 * s * lam) ^ 2 by
      have e : s * (s - V3.norm (r2 - r1)) = V3.norm r1 * V3.norm r2 := by rw [hs]; linear_combination -hc2 / 4
      linear_combination -2 * e - 2 * s * hsl - s ^ 2 * lam ^ 2 * hr2]
    exact (Real.sqrt_sq (by positivity)).symm
  have hkA : Real.sqrt 2 * A = 2 * s * lam := by rw [hAs]; linear_combination s * lam * hr2
  have h1x : 0 < 1 + x := by linarith
  have h1l : 0 < 1 + lam := by linarith
  have hV : V3.norm r1 + V3.norm r2 - Real.sqrt 2 * A * ((1 - x) / (1 + x)) = s * (1 + lam) ^ 2 * (x + ll) / (1 + x) := by
    rw [hkA, hsum, hll]; field_simp; ring
  have hV0 : 0 < V3.norm r1 + V3.norm r2 - Real.sqrt 2 * A * ((1 - x) / (1 + x)) := by rw [hV]; positivity
  obtain ⟨T, hT⟩ := Battin.path (mu := mu) hx hV0
  rw [hV] at hT hV0
  obtain ⟨V, hVV⟩ : ∃ V, V = s * (1 + lam) ^ 2 * (x + ll) / (1 + x) := ⟨_, rfl⟩
  rw [← hVV] at hT hV0
  have hys : 0 < y * (1 + x) := by positivity
  have ht : m * s * (1 + lam) ^ 2 / (y * (1 + x)) = V * (y * (1 + x)) := by
    have hmy : m = (x + ll) * (1 + x) * y ^ 2 := by rw [hxy]; field_simp
    rw [hVV]; field_simp; rw [hmy]; ring
  have hmu' : V / mu = 8 * tof ^ 2 / (s * (1 + lam) ^ 2 * (y * (1 + x))) ^ 2 := by
    have : V * (y * (1 + x)) ^ 2 = m * s * (1 + lam) ^ 2 := by
      rw [div_eq_iff hys.ne'] at ht
      linear_combination -ht
    rw [hm] at this
    field_simp at this ⊢
    linear_combination this
  have hsq : Real.sqrt (V / mu) = 2 * Real.sqrt 2 * tof / (s * (1 + lam) ^ 2 * (y * (1 + x))) := by
    rw [hmu', Real.sqrt_div (by positivity), Real.sqrt_sq (by positivity),
      show 8 * tof ^ 2 = (2 * Real.sqrt 2 * tof) ^ 2 by rw [mul_pow, mul_pow, hr2]; ring, Real.sqrt_sq (by positivity)]
  have hg : (A * Real.sqrt (V / mu))⁻¹ = (1 + lam) ^ 2 / (4 * tof * lam) * (y * (1 + x)) := by
    have : A * Real.sqrt (V / mu) = 4 * tof * lam / ((1 + lam) ^ 2 * (y * (1 + x))) := by
      rw [hsq, hAs]; field_simp; rw [hr2]; ring
    rw [this, inv_div]; field_simp
  have hv1 : v1 = fgV1 mu r1 r2 A V := by
    rw [← hvel.1, fgV1, hg, ht]
    generalize (1 + lam) ^ 2 / (4 * tof * lam) = k
    generalize y * (1 + x) = z
    ext <;> simp only [V3.smul_x, V3.smul_y, V3.smul_z, V3.sub_x, V3.sub_y, V3.sub_z] <;>
      field_simp <;> ring
  have hv2 : v2 = fgV2 mu r1 r2 A V := by
    rw [← hvel.2, fgV2, hg, ht]
    generalize (1 + lam) ^ 2 / (4 * tof * lam) = k
    generalize y * (1 + x) = z
    ext <;> simp only [V3.add_x, V3.add_y, V3.add_z, V3.smul_x, V3.smul_y, V3.smul_z, V3.sub_x, V3.sub_y, V3.sub_z] <;>
      field_simp <;> ring
  simp only [mkOutput_v1, mkOutput_v2, hv1, hv2]
  obtain ⟨k, hk, rfl⟩ := hd
  exact ⟨T, hT.radial hmu h1 hk hAr⟩

/-- `vallado2013` does return for all positions in the same direction: the flight time of the parabolic motion along the
ray is accepted at the first pass. -/
theorem vallado_returns_ray (hmu : 0 < mu) {k : ℝ} (h1 : r1 ≠ 0) (hk : 0 < k) (h12 : r1 ≠ k • r1) (pro low : Bool) (n : ℕ)
    (atol : ℝ) {rtol : ℝ} (hr : 0 < rtol) (fo : Bool) (clock : ℝ) : ∃ tof, 0 < tof ∧
    ∃ out, vallado2013 mu r1 (k • r1) tof 0 pro low (n + 1) atol rtol fo clock = .ok out := by
  obtain ⟨n1, n2, n12⟩ := ray_norms h1 hk h12
  have hA2 := ray_sum n1 n2 n12
  have hpi := Real.pi_pos
  have hT := ((uv_path hmu (by positivity) (Vallado.uvY_pos_of n1 n2 hA2 le_rfl (by positivity))).radial hmu h1 hk rfl).1
  exact ⟨_, hT, vallado_first_pass hmu n1 n2 h12 (transferAngle_ray h1 ⟨k, hk, rfl⟩ pro) (getA_ray (by positivity))
    (by positivity) hA2 hT low n atol hr fo clock⟩

end ray

/-! Positions to which the theorems apply. -/
example : OppositeDirection ⟨1, 0, 0⟩ ⟨-2, 0, 0⟩ ∧ SameDirection ⟨1, 0, 0⟩ ⟨2, 0, 0⟩ ∧ (⟨1, 0, 0⟩ : V3) ≠ 0 ∧
    (⟨1, 0, 0⟩ : V3) ≠ ⟨2, 0, 0⟩ :=
  ⟨⟨-2, by norm_num, by ext <;> simp⟩, ⟨2, by norm_num, by ext <;> simp⟩, by intro h; simpa using congrArg V3.x h,
    by intro h; simpa using congrArg V3.x h⟩

/-- The opposite positions (1,0,0) and (-2,0,0): `gauss1809` and `mcelreath2025` name the reason, `gooding1990` divides by
zero, `battin1984` never returns. -/
example (tof : ℝ) (ht : 0 < tof) : gauss1809 1 ⟨1, 0, 0⟩ ⟨-2, 0, 0⟩ tof 0 true true 35 1e-5 1e-7 false 0 = .error anglePi ∧
    mcelreath2025 1 ⟨1, 0, 0⟩ ⟨-2, 0, 0⟩ tof 0 true true 35 1e-5 1e-7 false 0 = .error phase180 ∧
    gooding1990 1 ⟨1, 0, 0⟩ ⟨-2, 0, 0⟩ tof 0 true true 35 1e-5 1e-7 false 0 = .error .undefined ∧
    ∀ out, battin1984 1 ⟨1, 0, 0⟩ ⟨-2, 0, 0⟩ tof 0 true true 35 1e-5 1e-7 false 0 ≠ .ok out := by
  have h1 : (⟨1, 0, 0⟩ : V3) ≠ 0 := by intro h; simpa using congrArg V3.x h
  have h : OppositeDirection ⟨1, 0, 0⟩ ⟨-2, 0, 0⟩ := ⟨-2, by norm_num, by ext <;> simp⟩
  obtain ⟨-, -, a, -, -, -, b⟩ := opposite_refused one_pos h1 ht h 0 true true 35 1e-5 1e-7 false 0
    (fun _ _ _ _ _ _ => .error .undefined)
  exact ⟨a, b, (opposite_undefined one_pos h1 ht h 0 true true 35 1e-5 1e-7 false 0).1, battin_opposite_never h 0 _ _ _ _ _ _ _⟩

/-- The positions (1,0,0) and (2,0,0), on one ray: `gooding1990` names the reason, `vallado2013` returns a motion along the
ray. -/
example : (∀ tof, 0 < tof → gooding1990 1 ⟨1, 0, 0⟩ ⟨2, 0, 0⟩ tof 0 true true 35 1e-5 1e-7 false 0 = .error angleZero) ∧
    ∃ tof out T, vallado2013 1 ⟨1, 0, 0⟩ ⟨2, 0, 0⟩ tof 0 true true 35 1e-5 1e-7 false 0 = .ok out ∧
      RadialTransfer 1 ⟨1, 0, 0⟩ ⟨2, 0, 0⟩ out.v1 out.v2 T ∧ |T - tof| < 1e-7 * tof := by
  have h1 : (⟨1, 0, 0⟩ : V3) ≠ 0 := by intro h; simpa using congrArg V3.x h
  have h12 : (⟨1, 0, 0⟩ : V3) ≠ ⟨2, 0, 0⟩ := by intro h; simpa using congrArg V3.x h
  have e : (⟨2, 0, 0⟩ : V3) = (2 : ℝ) • ⟨1, 0, 0⟩ := by ext <;> simp
  have h : SameDirection ⟨1, 0, 0⟩ ⟨2, 0, 0⟩ := ⟨2, two_pos, e⟩
  refine ⟨fun tof ht => (ray_refused one_pos h1 h12 ht h 0 true true 35 1e-5 1e-7 false 0
    (fun _ _ _ _ _ _ => .error .undefined) (fun _ _ _ _ => .error .undefined)).2.2.2.2.2.1, ?_⟩
  obtain ⟨tof, -, out, ho⟩ := vallado_returns_ray one_pos h1 two_pos (e ▸ h12) true true 34 1e-5 (rtol := 1e-7) (by norm_num)
    false 0
  rw [← e] at ho
  obtain ⟨T, a, b⟩ := vallado_ray_radial h ho
  exact ⟨tof, out, T, ho, a, b⟩

end Lamberthub
