import Verif.Props.Reversal
import Verif.Props.Gauss
import Verif.Props.Izzo
import Verif.Props.Vallado
import Verif.Props.Unique
import Verif.Proofs.PathConverse

/-!
# Reversal of the motion, continued (property C59)

The specification itself is invariant under the reversal, `gauss1809` respects it exactly when the two
positions are at the same distance, and `izzo2015` violates it in every plane through the polar axis.
-/

set_option autoImplicit false

namespace Lamberthub
open Spec LC

theorem NotAligned.symm {r1 r2 : V3} (h : NotAligned r1 r2) : NotAligned r2 r1 := by
  rintro ⟨h1, h2, h3⟩
  exact h ⟨by linarith, by linarith, by linarith⟩

theorem LC.Geo.symm {r1 r2 : V3} {A : ℝ} (h : Geo r1 r2 A) : Geo r2 r1 A :=
  ⟨h.hA, by rw [h.hA2, V3.dot_swap r2 r1]; ring, NotAligned.symm h.hna⟩

theorem fgV1_swap (μ : ℝ) (r1 r2 : V3) (A V : ℝ) : fgV1 μ r2 r1 A V = -fgV2 μ r1 r2 A V := by
  unfold fgV1 fgV2; ext <;> simp <;> ring

theorem fgV2_swap (μ : ℝ) (r1 r2 : V3) (A V : ℝ) : fgV2 μ r2 r1 A V = -fgV1 μ r1 r2 A V := by
  unfold fgV1 fgV2; ext <;> simp <;> ring

/-- **C59**, the specification: a Kepler transfer run backwards is a Kepler transfer in the same time, with
the same number of complete revolutions, in the opposite sense. -/
theorem arc_reversal {μ : ℝ} (hμ : 0 < μ) {r1 r2 v1 v2 : V3} {T : ℝ} {M : ℕ} (hna : NotAligned r1 r2)
    (h : LambertArc μ r1 r2 v1 v2 T M) :
    LambertArc μ r2 r1 (-v2) (-v1) T M ∧ ∀ pro, Sense (!pro) r2 (-v2) ↔ Sense pro r1 v1 := by
  obtain ⟨A, V, hG, hP, rfl, rfl⟩ := path_of_arc hμ hna h
  constructor
  · rw [← fgV1_swap, ← fgV2_swap]
    refine Path.arc hμ (LC.Geo.symm hG) ?_
    rwa [add_comm]
  · intro pro
    have e : angMomZ r2 (-fgV2 μ r1 r2 A V) = -angMomZ r1 (fgV1 μ r1 r2 A V) := by
      rw [← fgV1_swap, fgV1_angMomZ, fgV1_angMomZ]; ring
    unfold Sense
    rw [e]
    cases pro <;> simp

/-- The transfers of either sense between `(1,0,0)` and `(0,1,0)` in any time, run backwards. -/
example {T : ℝ} (hT : 0 < T) (pro : Bool) : ∃ v1 v2, LambertArc 1 ⟨1, 0, 0⟩ ⟨0, 1, 0⟩ v1 v2 T 0 ∧
    Sense pro ⟨1, 0, 0⟩ v1 ∧ LambertArc 1 ⟨0, 1, 0⟩ ⟨1, 0, 0⟩ (-v2) (-v1) T 0 ∧ Sense (!pro) ⟨0, 1, 0⟩ (-v2) := by
  obtain ⟨⟨v1, v2⟩, ⟨h1, h2⟩, -⟩ := zero_rev_exists_unique (mu := 1) (r1 := ⟨1, 0, 0⟩) (r2 := ⟨0, 1, 0⟩) one_pos hT
    (by simp [NotPolar]) pro
  obtain ⟨h3, h4⟩ := arc_reversal one_pos (by simp [NotAligned]) h1
  exact ⟨v1, v2, h1, h2, h3, (h4 pro).2 h2⟩

section Gauss
open Gauss

theorem halfA_comm (a b θ : ℝ) : halfA b a θ = halfA a b θ := by unfold halfA; rw [mul_comm b a]

/-- `velocities` of the two problems stop together. -/
theorem Gauss.velocities_reversed {r1 r2 : V3} (h1 : r1 ≠ 0) (h2 : r2 ≠ 0) (mu θ x : ℝ) :
    Agree (fun _ _ => True) (velocities mu r1 r2 θ x) (velocities mu r2 r1 θ x) := by
  have n1 := (norm_pos_iff.2 h1).ne'
  have n2 := (norm_pos_iff.2 h2).ne'
  unfold velocities
  simp only [mul_comm (V3.norm r2) (V3.norm r1), add_comm (V3.norm r2) (V3.norm r1), pdiv_eq n1, pdiv_eq n2, ok_bind]
  refine .same fun _ _ => .same fun _ _ => .same fun p _ => ?_
  by_cases hp : p = 0
  · subst hp; simp only [pdiv_zero']; exact .inl ⟨_, rfl, rfl⟩
  simp only [pdiv_eq hp, ok_bind]
  refine .same fun _ _ => .same fun g _ => .same fun _ _ => .same fun _ _ => ?_
  by_cases hg : g = 0
  · subst hg; refine .inl ⟨.undefined, ?_, ?_⟩ <;> simp [vdiv]
  · rw [vdiv_eq hg, vdiv_eq hg]; exact .ok trivial

/-- **C59 (partial)**, `gauss1809`: the reversed problem stops with the same error or returns after the
same number of iterations.  What it returns is the reversal of what the direct problem returns when the two
positions are at the same distance, and only then: `gauss.py` l.158 subtracts `1 / r1_norm` twice, so that the
final velocity is wrong.  The two initial velocities are right: when the orbit is an ellipse they are the
initial velocity and the opposite of the final velocity of one transfer. -/
theorem gauss_reversal_partial {r1 r2 : V3} (h1 : r1 ≠ 0) (h2 : r2 ≠ 0) (mu tof : ℝ) (M : ℤ) (pro low : Bool) (N : ℕ)
    (atol rtol : ℝ) (full : Bool) (clock : ℝ) :
    (∀ e, gauss1809 mu r1 r2 tof M pro low N atol rtol full clock = .error e ↔
      gauss1809 mu r2 r1 tof M (!pro) low N atol rtol full clock = .error e) ∧
    ∀ out, gauss1809 mu r1 r2 tof M pro low N atol rtol full clock = .ok out →
      ∃ rev, gauss1809 mu r2 r1 tof M (!pro) low N atol rtol full clock = .ok rev ∧
        rev.iterations = out.iterations ∧ (rev = out.reversed ↔ len r1 = len r2) ∧
        (len out.v1 ^ 2 / 2 - mu / len r1 < 0 → ∃ T, LambertArc mu r1 r2 out.v1 (-rev.v1) T 0) := by
  have hag : Agree (fun a b => ∃ θ x n t u v, getTransferAngle r1 r2 pro = .ok θ ∧ velocities mu r1 r2 θ x = .ok u ∧
      velocities mu r2 r1 θ x = .ok v ∧ a = mkOutput full u.1 u.2 n t ∧ b = mkOutput full v.1 v.2 n t)
      (gauss1809 mu r1 r2 tof M pro low N atol rtol full clock)
      (gauss1809 mu r2 r1 tof M (!pro) low N atol rtol full clock) := by
    have hS : ∀ a b θ, getS b a θ = getS a b θ := fun a b θ => by unfold getS; rw [mul_comm b a, add_comm b a]
    have hW : ∀ a b θ, getW mu tof b a θ = getW mu tof a b θ := fun a b θ => by unfold getW; rw [mul_comm b a]
    unfold gauss1809
    rw [assert_reversed h1 h2, transferAngle_reversed]
    simp only [hS (V3.norm r1), hW (V3.norm r1)]
    refine .same fun _ _ => .same fun θ hθ => .same fun _ _ => .same fun _ _ => .same fun _ _ => .same fun _ _ =>
      .same fun ⟨x, n⟩ _ => .same fun t _ => (velocities_reversed h1 h2 mu θ x).bind fun u v hu hv _ => .ok ?_
    exact ⟨θ, x, n, t, u, v, hθ, hu, hv, rfl, rfl⟩
  constructor
  · intro e
    rcases hag with ⟨e', ha, hb⟩ | ⟨a, b, ha, hb, -⟩ <;> rw [ha, hb]
    simp
  · intro out ho
    rcases hag with ⟨e', ha, hb⟩ | ⟨a, rev, ha, hb, θ, x, n, t, u, v, hθ, hu, hv, rfl, rfl⟩
    · rw [ha] at ho; cases ho
    rw [ha] at ho
    obtain rfl := Except.ok.inj ho
    obtain ⟨hmu, htof, -, hna, -⟩ := gauss_ok_split ha
    have hA := angle_of_eq hna hθ
    have hθ' : getTransferAngle r2 r1 (!pro) = .ok θ := by rw [transferAngle_reversed, hθ]
    have hA' := angle_of_eq (NotAligned.symm hna) hθ'
    obtain ⟨hG, -⟩ := hA.halfGeo hna
    obtain ⟨u1, u2⟩ := u
    obtain ⟨w1, w2⟩ := v
    obtain ⟨d, V, δ, hd, hV, hV0, e1, hδ, e2⟩ := velocities_ok hmu hA hna hu
    obtain ⟨d', V', δ', hd', hV', hV0', e1', hδ', e2'⟩ := velocities_ok hmu hA' (NotAligned.symm hna) hv
    rw [hd] at hd'
    obtain rfl := Except.ok.inj hd'
    rw [halfA_comm (V3.norm r1), add_comm (V3.norm r2), ← hV] at hV'
    obtain rfl : V = V' := hV'.symm
    rw [halfA_comm (V3.norm r1)] at e1' e2'
    rw [fgV1_swap] at e1'
    rw [fgV2_swap] at e2'
    have hlen : ∀ v : V3, len v = V3.norm v := fun v => by
      unfold len V3.norm V3.dot; congr 1; ring
    refine ⟨_, hb, by cases full <;> rfl, ?_, ?_⟩
    · rw [mkOutput_reversed, hlen, hlen]
      constructor
      · intro h
        have h3 := congrArg Output.v1 h
        simp only [mkOutput_v1] at h3
        rw [e1', e2] at h3
        by_contra hne
        have hk : δ * (1 / V3.norm r2 - 1 / V3.norm r1) ≠ 0 := by
          refine mul_ne_zero hδ fun h4 => hne ?_
          rw [sub_eq_zero, div_eq_div_iff hG.R2.ne' hG.R1.ne', one_mul, one_mul] at h4
          exact h4
        refine h1 ((smul_eq_zero_iff hk).1 ?_)
        have hx := congrArg V3.x h3
        have hy := congrArg V3.y h3
        have hz := congrArg V3.z h3
        simp only [V3.neg_x, V3.neg_y, V3.neg_z, V3.add_x, V3.add_y, V3.add_z] at hx hy hz
        ext
        · simp only [V3.zero_x]; linarith
        · simp only [V3.zero_y]; linarith
        · simp only [V3.zero_z]; linarith
      · intro h
        have z1 : δ * (1 / V3.norm r2 - 1 / V3.norm r1) = 0 := by rw [h]; ring
        have z2 : δ' * (1 / V3.norm r1 - 1 / V3.norm r2) = 0 := by rw [h]; ring
        rw [z1] at e2
        rw [z2] at e2'
        have q1 : w1 = -u2 := by rw [e1', e2]; congr 1; ext <;> simp
        have q2 : w2 = -u1 := by rw [e2', e1]; ext <;> simp
        rw [q1, q2]
    · intro hE
      simp only [mkOutput_v1] at hE ⊢
      have hsq : ∀ v : V3, len v ^ 2 = V3.dot v v := by
        intro v; rw [len, Real.sq_sqrt (by positivity)]; unfold V3.dot; ring
      have hr2 : Real.sqrt 2 ^ 2 = 2 := Real.sq_sqrt (by norm_num)
      rw [e1, e1', show ∀ v : V3, - -v = v from fun v => by ext <;> simp]
      rw [hlen r1, hsq, e1, fgV1_energy hmu hV0 hG] at hE
      generalize halfA (V3.norm r1) (V3.norm r2) θ = A at *
      have hAne := hG.hA
      have hEq : (V3.norm r1 + V3.norm r2 - V) ^ 2 - 2 * A ^ 2 = -(2 * A ^ 2) * (1 - Real.cos (d / 2) ^ 2) := by
        rw [hV]; linear_combination A ^ 2 * Real.cos (d / 2) ^ 2 * hr2
      rw [hEq] at hE
      have hc1 : Real.cos (d / 2) ^ 2 < 1 := by
        refine lt_of_le_of_ne (Real.cos_sq_le_one _) fun hc => ?_
        rw [hc] at hE
        simp at hE
      have hab := abs_lt.1 ((sq_lt_one_iff_abs_lt_one _).1 hc1)
      have hφ0 : 0 < Real.arccos (Real.cos (d / 2)) := Real.arccos_pos.2 hab.2
      have hφ1 : Real.arccos (Real.cos (d / 2)) < Real.pi :=
        lt_of_le_of_ne (Real.arccos_le_pi _) (fun h0 => by rw [Real.arccos_eq_pi] at h0; linarith)
      have hpath : Path mu (V3.norm r1 + V3.norm r2) A 0 V (Tell mu A V (Real.arccos (Real.cos (d / 2)))) := by
        refine Path.ell (by simpa using hφ0) (by simpa using hφ1) hV0 ?_
        rw [Real.cos_arccos hab.1.le hab.2.le, hV]; ring
      exact ⟨_, hpath.arc hmu hG⟩

/-- Runs of `gauss1809` on an ellipse between positions at different distances: the reversed problem returns too,
something else than the reversal. -/
example : ∃ tof atol out rev, gauss1809 1 ⟨1, 0, 0⟩ ⟨0, 2, 0⟩ tof 0 true true 250 atol 1e-7 false 0 = .ok out ∧
    gauss1809 1 ⟨0, 2, 0⟩ ⟨1, 0, 0⟩ tof 0 false true 250 atol 1e-7 false 0 = .ok rev ∧ rev ≠ out.reversed ∧
    len out.v1 ^ 2 / 2 - 1 / len ⟨1, 0, 0⟩ < 0 := by
  obtain ⟨tof, atol, out, h1, h2, h3⟩ := gauss_returns (mu := 1) one_pos (r1 := ⟨1, 0, 0⟩) (r2 := ⟨0, 2, 0⟩)
    (by simp [NotAligned]) true true 249 1e-7 false 0 (x := 1 / 2) (by norm_num) (by norm_num)
  obtain ⟨rev, h4, -, h5, -⟩ := (gauss_reversal_partial (r1 := ⟨1, 0, 0⟩) (r2 := ⟨0, 2, 0⟩) (by simp [V3.ext_iff])
    (by simp [V3.ext_iff]) _ _ _ _ _ _ _ _ _ _).2 out h2
  refine ⟨tof, atol, out, rev, h2, h4, fun he => ?_, h3⟩
  have := congrArg (· ^ 2) (h5.1 he)
  simp only [len_sq] at this
  norm_num [V3.dot] at this

end Gauss

section Polar
open Izzo

/-- The motion leaves `r1` on the side of `r2`: its angular momentum `r1 × v1` points along `r1 × r2`. -/
def TurnsShort (r1 r2 v1 : V3) : Prop := 0 < V3.dot (V3.cross r1 v1) (V3.cross r1 r2)

/-- The motion leaves `r1` on the side away from `r2`. -/
def TurnsLong (r1 r2 v1 : V3) : Prop := V3.dot (V3.cross r1 v1) (V3.cross r1 r2) < 0

theorem fgV1_turns {μ : ℝ} (hμ : 0 < μ) {r1 r2 : V3} {A V : ℝ} (hG : Geo r1 r2 A) (hV : 0 < V) :
    (TurnsShort r1 r2 (fgV1 μ r1 r2 A V) ↔ 0 < A) ∧ (TurnsLong r1 r2 (fgV1 μ r1 r2 A V) ↔ A < 0) := by
  have e : V3.dot (V3.cross r1 (fgV1 μ r1 r2 A V)) (V3.cross r1 r2) =
      (A * Real.sqrt (V / μ))⁻¹ * V3.dot (V3.cross r1 r2) (V3.cross r1 r2) := by
    unfold fgV1 V3.cross V3.dot; simp; ring
  have hc : 0 < V3.dot (V3.cross r1 r2) (V3.cross r1 r2) := by
    have := cross_norm_pos hG.hna
    have h2 : V3.norm (V3.cross r1 r2) ^ 2 = V3.dot (V3.cross r1 r2) (V3.cross r1 r2) := by
      rw [V3.norm, Real.sq_sqrt]; unfold V3.dot; nlinarith [sq_nonneg (V3.cross r1 r2).x, sq_nonneg (V3.cross r1 r2).y, sq_nonneg (V3.cross r1 r2).z]
    rw [← h2]; positivity
  have hq : 0 < Real.sqrt (V / μ) := by positivity
  unfold TurnsShort TurnsLong
  rw [e]
  constructor
  · rw [mul_pos_iff_of_pos_right hc, inv_pos, mul_pos_iff_of_pos_right hq]
  · rw [← neg_pos, ← neg_mul, mul_pos_iff_of_pos_right hc, neg_pos, inv_neg'', ← neg_pos, ← neg_mul, mul_pos_iff_of_pos_right hq, neg_pos]

/-- The side chosen by l.99-109 of `izzo.py` in a plane through the polar axis. -/
theorem Izzo.geometry_polar {r1 r2 : V3} (hp : ¬ NotPolar r1 r2) {pro : Bool} {s ll : ℝ} {it1 it2 : V3}
    (h : geometry r1 r2 pro = .ok (s, ll, it1, it2)) : (0 < ll ↔ pro = true) := by
  obtain ⟨ε, hε, hG, hS, hεl, -, -, -⟩ := geometry_ok h
  have hl0 : ll ≠ 0 := fun h0 => by rw [h0] at hεl; simp at hεl
  have hz : r1.x * r2.y - r1.y * r2.x = 0 := not_not.1 hp
  unfold geometry at h
  simp only [bind_ok, vdiv_ok, pdiv_ok, psqrt_ok] at h
  obtain ⟨_, ⟨h1, rfl⟩, _, ⟨h2, rfl⟩, ih, ⟨h3, rfl⟩, _, ⟨h4, rfl⟩, l0, ⟨h5, rfl⟩, h⟩ := h
  have hn : ¬ ((V3.norm (V3.cross ((V3.norm r1)⁻¹ • r1) ((V3.norm r2)⁻¹ • r2)))⁻¹ •
      V3.cross ((V3.norm r1)⁻¹ • r1) ((V3.norm r2)⁻¹ • r2)).z < 0 := by
    rw [cross_smul_smul]
    simp only [V3.smul_z, V3.cross, hz, mul_zero, lt_irrefl, not_false_eq_true]
  simp only [if_neg hn, Except.ok.injEq, Prod.mk.injEq] at h
  obtain ⟨-, rfl, -, -⟩ := h
  have h6 := Real.sqrt_nonneg (1 - min 1 (V3.norm (r2 - r1) / ((V3.norm r1 + V3.norm r2 + V3.norm (r2 - r1)) * 0.5)))
  cases pro
  · simp only [if_true, Bool.false_eq_true, iff_false] at hl0 ⊢; linarith
  · simp only [Bool.true_eq_false, if_false, iff_true] at hl0 ⊢
    exact lt_of_le_of_ne h6 (Ne.symm hl0)

/-- The velocities returned by `izzo2015` in a plane through the polar axis. -/
theorem izzo_velocities {mu : ℝ} {r1 r2 : V3} {tof : ℝ} {M : ℕ} {pro low : Bool}
    {maxiter : ℕ} {atol rtol : ℝ} {v1 v2 : V3}
    (h : izzo2015 mu r1 r2 tof (M : ℤ) pro low maxiter atol rtol = .ok (v1, v2)) :
    0 < mu ∧ ∃ A V, Geo r1 r2 A ∧ 0 < V ∧ v1 = fgV1 mu r1 r2 A V ∧ v2 = fgV2 mu r1 r2 A V ∧
      (¬ NotPolar r1 r2 → (0 < A ↔ pro = true)) := by
  unfold izzo2015 at h
  simp only [bind_ok, pdiv_ok, psqrt_ok, vdiv_ok] at h
  obtain ⟨⟨s, ll, it1, it2⟩, hgeo, _, ⟨-, rfl⟩, _, ⟨hts, rfl⟩, ⟨x, y⟩, hxy, gamma, ⟨hg0, hg⟩, rho,
    ⟨-, hr⟩, sigma, ⟨hs0, hsg⟩, ⟨vr1, vr2, vt1, vt2⟩, hrec, _, ⟨-, rfl⟩, _, ⟨-, rfl⟩, h⟩ := h
  obtain ⟨ε, hε, hG, hS, hεl, rfl, rfl, -⟩ := geometry_ok hgeo
  have hs := hS.spos
  have hmu : 0 < mu := by
    have h1 : 0 ≤ mu := by
      have h2 : mu = 2 * mu / s ^ 3 * s ^ 3 / 2 := by field_simp
      rw [h2]; positivity
    rcases h1.lt_or_eq with h2 | h2
    · exact h2
    · exfalso
      rw [← h2] at hxy
      simp only [mul_zero, zero_div, Real.sqrt_zero, zero_mul] at hxy
      exact findXY_zero hxy
  have hxy' := hxy
  unfold findXY at hxy'
  simp only [bind_ok, raiseIf_ok, Except.ok.injEq, Prod.mk.injEq] at hxy'
  obtain ⟨_, -, a, -, q, -, m, hmm, _, hMm, x0, -, x', hx', y', hy', rfl, rfl⟩ := hxy'
  have hL := computeY_ok hy' hS.lam_lt
  obtain ⟨hv1, hv2⟩ := reconstruct_ok hmu hε hG hS hεl hL hg hr hs0 hsg hrec
  simp only [Except.ok.injEq, Prod.mk.injEq] at h
  obtain ⟨e1, e2⟩ := h
  rw [hv1] at e1
  rw [hv2] at e2
  have := hL.eta_pos
  refine ⟨hmu, _, _, hG, by positivity, e1.symm, e2.symm, fun hp => ?_⟩
  rw [← geometry_polar hp hgeo, mul_pos_iff_of_pos_left (by positivity)]

/-- **C59, the convention of `izzo2015` in planes through the polar axis**: prograde is the short way,
retrograde the long way. -/
theorem izzo_polar_side {mu : ℝ} {r1 r2 : V3} (hp : ¬ NotPolar r1 r2) {tof : ℝ} {M : ℕ} {pro low : Bool}
    {maxiter : ℕ} {atol rtol : ℝ} {v1 v2 : V3}
    (h : izzo2015 mu r1 r2 tof (M : ℤ) pro low maxiter atol rtol = .ok (v1, v2)) :
    if pro then TurnsShort r1 r2 v1 else TurnsLong r1 r2 v1 := by
  obtain ⟨hmu, A, V, hG, hV, rfl, -, hs⟩ := izzo_velocities h
  obtain ⟨t1, t2⟩ := fgV1_turns hmu hG hV
  have hA := hG.hA
  cases pro
  · simp only [Bool.false_eq_true, if_false, iff_false, not_lt] at hs ⊢
    exact t2.2 (lt_of_le_of_ne (hs hp) hA)
  · simp only [if_true, iff_true] at hs ⊢
    exact t1.2 (hs hp)

/-- **C59, negation for `izzo2015` in planes through the polar axis**: the solution of the reversed problem is
never the reversed solution, for any two problems solved with any controls. -/
theorem izzo_polar_not_reversible {mu : ℝ} {r1 r2 : V3} (hp : ¬ NotPolar r1 r2) {tof tof' : ℝ} {M M' : ℕ}
    {pro low low' : Bool} {N N' : ℕ} {atol rtol atol' rtol' : ℝ} {v1 v2 : V3}
    (h : izzo2015 mu r1 r2 tof (M : ℤ) pro low N atol rtol = .ok (v1, v2)) :
    izzo2015 mu r2 r1 tof' (M' : ℤ) (!pro) low' N' atol' rtol' ≠ .ok (-v2, -v1) := by
  intro h'
  have hp' : ¬ NotPolar r2 r1 := by
    unfold NotPolar at hp ⊢
    have := not_not.1 hp
    exact not_not.2 (by linarith)
  obtain ⟨hmu, A, V, hG, hV, -, e2, hs⟩ := izzo_velocities h
  have h1 := izzo_polar_side hp' h'
  have hA := hG.hA
  rw [e2, ← fgV1_swap] at h1
  obtain ⟨t1, t2⟩ := fgV1_turns hmu (LC.Geo.symm hG) hV
  have hs := hs hp
  cases pro
  · simp only [Bool.not_false, if_true] at h1
    simpa using hs.1 (t1.1 h1)
  · simp only [Bool.not_true, Bool.false_eq_true, if_false] at h1
    have := hs.2 rfl
    linarith [t2.1 h1]

/-- In planes through the polar axis `vallado2013` goes the long way in both senses. -/
theorem vallado_polar_side {mu : ℝ} {r1 r2 : V3} (hna : NotAligned r1 r2) (hp : ¬ NotPolar r1 r2) {tof : ℝ} {M : ℤ}
    {pro low : Bool} {maxiter : ℕ} {atol rtol : ℝ} {fo : Bool} {clock : ℝ} {out : Output}
    (h : vallado2013 mu r1 r2 tof M pro low maxiter atol rtol fo clock = .ok out) : TurnsLong r1 r2 out.v1 := by
  unfold vallado2013 at h
  simp only [bind_ok, raiseIf_ok] at h
  obtain ⟨_, ha, θ, hθ, A, hA, _, hA0, ⟨y, p, k⟩, hl, h⟩ := h
  obtain ⟨hmu, -, -, htof, -⟩ := assertParameters_ok ha
  have hang := angle_of_eq hna hθ
  have hR1 := norm_pos_of_notAligned_left hna
  have hR2 := norm_pos_of_notAligned_right hna
  have hpi2 : 0 < Real.pi ^ 2 := by have := Real.pi_pos; positivity
  obtain ⟨hA', hG⟩ := Lamberthub.getA_signedA hang hna
  rw [hA'] at hA
  obtain rfl := Except.ok.inj hA
  obtain ⟨-, -, hy0, -, -, -⟩ := Vallado.loop_ok hR1 hR2 hG.A2_lt (by norm_num; linarith)
    (by linarith) le_rfl hl
  simp only [bind_ok, pdiv_ok, psqrt_ok, vdiv_ok] at h
  obtain ⟨_, ⟨_, rfl⟩, _, ⟨_, rfl⟩, _, ⟨_, rfl⟩, _, ⟨_, rfl⟩, v1, ⟨hg, rfl⟩, v2, ⟨_, rfl⟩, h⟩ := h
  have hyp : 0 < y := by
    rcases hy0.lt_or_eq with h1 | h1
    · exact h1
    · exfalso; apply hg; rw [← h1]; simp
  have hout := (Except.ok.inj h).symm
  subst hout
  simp only [mkOutput_v1]
  refine (fgV1_turns hmu hG hyp).2.2 (lt_of_le_of_ne ?_ hG.hA)
  have hz : crossZ r1 r2 = 0 := not_not.1 hp
  have hsh : ¬ ShortWay pro r1 r2 := by cases pro <;> simp [ShortWay, hz]
  rw [signedA, if_neg hsh]
  linarith [Real.sqrt_nonneg (V3.norm r1 * V3.norm r2 + V3.dot r1 r2)]

/-- **Negation of the agreement of the solvers (C44) in planes through the polar axis**: for prograde
motion `izzo2015` and `vallado2013` never return the same initial velocity. -/
theorem izzo_vallado_polar_disagree {mu : ℝ} {r1 r2 : V3} (hp : ¬ NotPolar r1 r2) {tof : ℝ} {low low' : Bool}
    {N N' : ℕ} {atol rtol atol' rtol' : ℝ} {fo : Bool} {clock : ℝ} {out : Output} {v : V3 × V3}
    (hi : izzo2015 mu r1 r2 tof 0 true low N atol rtol = .ok v)
    (hv : vallado2013 mu r1 r2 tof 0 true low' N' atol' rtol' fo clock = .ok out) : v.1 ≠ out.v1 := by
  have hG := (izzo_velocities (M := 0) (by exact_mod_cast hi)).2
  obtain ⟨A, V, hG, -⟩ := hG
  have h1 := izzo_polar_side (M := 0) hp (by exact_mod_cast hi)
  have h2 := vallado_polar_side hG.hna hp hv
  simp only [if_true] at h1
  intro e
  rw [e] at h1
  exact absurd h1 (lt_asymm h2)

/-- Prograde runs from the equator to the pole that return. -/
example : (∃ tof v1 v2, 0 < tof ∧ izzo2015 1 ⟨1, 0, 0⟩ ⟨0, 0, 1⟩ tof 0 true true 35 1e-5 1e-7 = .ok (v1, v2)) ∧
    (∃ tof out, vallado2013 1 ⟨1, 0, 0⟩ ⟨0, 0, 1⟩ tof 0 true true 35 1e-5 1e-7 false 0 = .ok out) ∧
    ¬ NotPolar ⟨1, 0, 0⟩ ⟨0, 0, 1⟩ := by
  have hna : NotAligned ⟨1, 0, 0⟩ ⟨0, 0, 1⟩ := by simp [NotAligned]
  refine ⟨izzo_returns_minimum_energy one_pos hna true true 34 (by norm_num) _, ?_, by simp [NotPolar]⟩
  obtain ⟨_, out, h⟩ := vallado_returns_parabolic one_pos hna true true 34 1e-5 (rtol := 1e-7) (by norm_num) false 0
  exact ⟨_, out, h⟩

end Polar

/-- A run of `vallado2013` and its reversal, both returning. -/
example : ∃ tof out, vallado2013 1 ⟨1, 0, 0⟩ ⟨0, 2, 0⟩ tof 0 true true 35 1e-5 1e-7 true 3 = .ok out ∧
    vallado2013 1 ⟨0, 2, 0⟩ ⟨1, 0, 0⟩ tof 0 false true 35 1e-5 1e-7 true 3 = .ok out.reversed := by
  obtain ⟨_, out, h⟩ := vallado_returns_parabolic (mu := 1) (r1 := ⟨1, 0, 0⟩) (r2 := ⟨0, 2, 0⟩) one_pos (by simp [NotAligned]) true true 34
    1e-5 (rtol := 1e-7) (by norm_num) true 3
  refine ⟨_, out, h, ?_⟩
  have := vallado_reversal (r1 := ⟨1, 0, 0⟩) (r2 := ⟨0, 2, 0⟩) (by simp [V3.ext_iff]) (by simp [V3.ext_iff]) 1
    (uvT 1 (V3.norm ⟨1, 0, 0⟩ + V3.norm ⟨0, 2, 0⟩) (signedA true ⟨1, 0, 0⟩ ⟨0, 2, 0⟩) 0) 0 true true 35 1e-5 1e-7 true 3
  rw [h] at this
  exact this

end Lamberthub
