import Verif.Props.Symmetry
import Verif.Props.ReversalMore
import Verif.Props.ReversalAvanzini
import Verif.Props.RotationAvanzini

/-!
# The symmetry group of the Lambert problem, continued (property C61)

The maps of `Spec.polarMap` are all the isometries that keep the polar axis, the transfers themselves are
carried to transfers, `avanzini2008` respects the symmetries outside the equatorial plane, and `izzo2015` violates
the ones that exchange prograde and retrograde in every plane through the polar axis.
-/

set_option autoImplicit false

namespace Lamberthub
open Spec LC

/-- Every map that keeps the inner products and the polar axis, as a line, is one of the maps considered. -/
theorem polarMap_complete (Q : V3 → V3) (hdot : ∀ u v, V3.dot (Q u) (Q v) = V3.dot u v)
    (haxis : Q ⟨0, 0, 1⟩ = ⟨0, 0, 1⟩ ∨ Q ⟨0, 0, 1⟩ = ⟨0, 0, -1⟩) : ∃ a my mz, Q = polarMap a my mz := by
  obtain ⟨p, hp⟩ : ∃ p, p = Q ⟨1, 0, 0⟩ := ⟨_, rfl⟩
  obtain ⟨q, hq⟩ : ∃ q, q = Q ⟨0, 1, 0⟩ := ⟨_, rfl⟩
  obtain ⟨k, hk⟩ : ∃ k, k = Q ⟨0, 0, 1⟩ := ⟨_, rfl⟩
  have pp := hdot ⟨1, 0, 0⟩ ⟨1, 0, 0⟩
  have pq := hdot ⟨1, 0, 0⟩ ⟨0, 1, 0⟩
  have pk := hdot ⟨1, 0, 0⟩ ⟨0, 0, 1⟩
  have qq := hdot ⟨0, 1, 0⟩ ⟨0, 1, 0⟩
  have qk := hdot ⟨0, 1, 0⟩ ⟨0, 0, 1⟩
  have kk := hdot ⟨0, 0, 1⟩ ⟨0, 0, 1⟩
  rw [← hk] at haxis
  rw [← hp] at pp
  rw [← hp, ← hq] at pq
  rw [← hp, ← hk] at pk
  rw [← hq] at qq
  rw [← hq, ← hk] at qk
  rw [← hk] at kk
  have hlin : ∀ v, Q v = v.x • p + v.y • q + v.z • k := by
    intro v
    have vp := hdot v ⟨1, 0, 0⟩
    have vq := hdot v ⟨0, 1, 0⟩
    have vk := hdot v ⟨0, 0, 1⟩
    have vv := hdot v v
    rw [← hp] at vp
    rw [← hq] at vq
    rw [← hk] at vk
    have h0 : V3.dot (Q v - (v.x • p + v.y • q + v.z • k)) (Q v - (v.x • p + v.y • q + v.z • k)) = 0 := by
      simp only [V3.dot, V3.sub_x, V3.sub_y, V3.sub_z, V3.add_x, V3.add_y, V3.add_z, V3.smul_x, V3.smul_y,
        V3.smul_z] at *
      linear_combination vv - 2 * v.x * vp - 2 * v.y * vq - 2 * v.z * vk + v.x ^ 2 * pp + v.y ^ 2 * qq + v.z ^ 2 * kk +
        2 * v.x * v.y * pq + 2 * v.x * v.z * pk + 2 * v.y * v.z * qk
    generalize hw : v.x • p + v.y • q + v.z • k = w at h0 ⊢
    simp only [V3.dot, V3.sub_x, V3.sub_y, V3.sub_z] at h0
    ext <;> nlinarith [sq_nonneg ((Q v).x - w.x), sq_nonneg ((Q v).y - w.y), sq_nonneg ((Q v).z - w.z)]
  have hz : p.z = 0 ∧ q.z = 0 := by
    rcases haxis with h | h <;> rw [h] at pk qk <;> simpa [V3.dot] using And.intro pk qk
  obtain ⟨pz, qz⟩ := hz
  simp only [V3.dot, pz, qz] at pp pq qq
  obtain ⟨a, hc, hs⟩ : ∃ a, Real.cos a = p.x ∧ Real.sin a = p.y := by
    refine ⟨Complex.arg ⟨p.x, p.y⟩, ?_, ?_⟩
    all_goals
      have hn : ‖(⟨p.x, p.y⟩ : ℂ)‖ = 1 := by
        rw [Complex.norm_def, Complex.normSq_mk, show p.x * p.x + p.y * p.y = 1 by linarith, Real.sqrt_one]
    · have h0 : (⟨p.x, p.y⟩ : ℂ) ≠ 0 := by intro h; rw [h, norm_zero] at hn; exact zero_ne_one hn
      rw [Complex.cos_arg h0, hn, div_one]
    · rw [Complex.sin_arg, hn, div_one]
  have hcs : p.x * q.y - p.y * q.x = 1 ∨ p.x * q.y - p.y * q.x = -1 := by
    have : (p.x * q.y - p.y * q.x - 1) * (p.x * q.y - p.y * q.x + 1) = 0 := by
      linear_combination (q.x ^ 2 + q.y ^ 2) * pp + qq - (p.x * q.x + p.y * q.y) * pq
    rcases mul_eq_zero.1 this with h | h
    · left; linarith
    · right; linarith
  have hqx : q.x = -(p.x * q.y - p.y * q.x) * p.y := by linear_combination p.x * pq - q.x * pp
  have hqy : q.y = (p.x * q.y - p.y * q.x) * p.x := by linear_combination p.y * pq - q.y * pp
  classical
  refine ⟨a, decide (p.x * q.y - p.y * q.x = -1), decide (k = ⟨0, 0, -1⟩), ?_⟩
  funext v
  rw [hlin v]
  have hne : (⟨0, 0, 1⟩ : V3) ≠ ⟨0, 0, -1⟩ := by
    intro h
    have := congrArg V3.z h
    norm_num at this
  unfold polarMap rotZ
  rw [hc, hs]
  rcases haxis with h | h <;> rcases hcs with h' | h' <;> rw [h'] at hqx hqy <;> rw [h, h'] <;>
    ext <;> simp [hne, hqx, hqy, pz, qz, show (1 : ℝ) ≠ -1 by norm_num] <;> try ring

theorem polarMap_hasVelocity (a : ℝ) (my mz : Bool) {q : ℝ → V3} {w : V3} {t : ℝ} (h : HasVelocity q w t) :
    HasVelocity (fun τ => polarMap a my mz (q τ)) (polarMap a my mz w) t := by
  obtain ⟨h1, h2, h3⟩ := h
  have h2' : HasDerivAt (fun τ => if my then -(q τ).y else (q τ).y) (if my then -w.y else w.y) t := by
    cases my
    · simpa using h2
    · simp only [if_true]; exact h2.neg
  refine ⟨?_, ?_, ?_⟩
  · exact (h1.const_mul (Real.cos a)).sub (h2'.const_mul (Real.sin a))
  · exact (h1.const_mul (Real.sin a)).add (h2'.const_mul (Real.cos a))
  · cases mz
    · simpa [polarMap, rotZ] using h3
    · simp only [polarMap, rotZ, if_true]; exact h3.neg

/-- **C61 for the transfers themselves**: isometries that keep the polar axis carry transfers to transfers, with the
same time and number of revolutions; the ones that contain a reflection in a plane through the axis exchange
prograde and retrograde. -/
theorem arc_symmetry (a : ℝ) (my mz : Bool) {μ : ℝ} {r1 r2 v1 v2 : V3} {T : ℝ} {M : ℕ}
    (h : LambertArc μ r1 r2 v1 v2 T M) :
    LambertArc μ (polarMap a my mz r1) (polarMap a my mz r2) (polarMap a my mz v1) (polarMap a my mz v2) T M ∧
      ∀ pro, Sense (xor my pro) (polarMap a my mz r1) (polarMap a my mz v1) ↔ Sense pro r1 v1 := by
  have hQ := sym_polarMap a my mz
  constructor
  · obtain ⟨hT, pos, vel, hK, rfl, rfl, rfl, rfl, hM⟩ := h
    refine ⟨hT, fun t => polarMap a my mz (pos t), fun t => polarMap a my mz (vel t), ⟨?_, ?_, ?_⟩, rfl, rfl, rfl, rfl, ?_⟩
    · exact fun t h => hK.no_collision t (hQ.eq_zero.1 h)
    · exact fun t => polarMap_hasVelocity a my mz (hK.velocity t)
    · intro t
      rw [len_eq_norm, hQ.norm, hQ.smul, ← len_eq_norm]
      exact polarMap_hasVelocity a my mz (hK.newton t)
    · rw [← hM]
      congr 1
      ext t
      have e : SameDirection (polarMap a my mz (pos 0)) (polarMap a my mz (pos t)) ↔ SameDirection (pos 0) (pos t) := by
        unfold SameDirection
        simp only [hQ.smul, hQ.inj]
      simp only [Set.mem_setOf_eq, e]
  · intro pro
    have e : ∀ r v, angMomZ r v = (V3.cross r v).z := fun r v => rfl
    unfold Sense
    rw [e, hQ.cross, hQ.normal_z, ← e]
    cases my <;> cases pro <;> simp

section
variable {Q : V3 → V3} {σ κ : ℝ} {flip : Bool} (hQ : Sym Q σ κ flip)
include hQ

theorem Sym.fgV1 (mu : ℝ) (r1 r2 : V3) (A V : ℝ) : LC.fgV1 mu (Q r1) (Q r2) A V = Q (LC.fgV1 mu r1 r2 A V) := by
  unfold LC.fgV1; rw [hQ.norm, hQ.smul, hQ.sub, hQ.smul]

theorem Sym.fgV2 (mu : ℝ) (r1 r2 : V3) (A V : ℝ) : LC.fgV2 mu (Q r1) (Q r2) A V = Q (LC.fgV2 mu r1 r2 A V) := by
  unfold LC.fgV2; rw [hQ.norm, hQ.smul, hQ.sub, hQ.smul]

theorem Avanzini.sym_getGeometry (r1 r2 : V3) (pro : Bool) :
    getGeometry (Q r1) (Q r2) (xor flip pro) = getGeometry r1 r2 pro := by
  unfold getGeometry
  simp only [hQ.sub, hQ.transferAngle, hQ.norm]

/-- The elements that fix the shape of the orbit and the anomalies are the same. -/
def Avanzini.SameShape (el el' : Elements) : Prop :=
  el'.p = el.p ∧ el'.ecc = el.ecc ∧ el'.nu1 = el.nu1 ∧ el'.nu2 = el.nu2

theorem Avanzini.sym_incRaan (r1 r2 : V3) (pro : Bool) (hne : ¬ (r1.z = 0 ∧ r2.z = 0)) :
    Agree (fun _ _ => True) (getOrbitIncAndRaan r1 r2 pro) (getOrbitIncAndRaan (Q r1) (Q r2) (xor flip pro)) := by
  unfold getOrbitIncAndRaan
  refine (hQ.orbitNormal r1 r2 pro).bind fun ih ih' h1 h2 h => ?_
  subst h
  have hκ : κ ≠ 0 := by
    intro h
    have := hQ.turn
    rw [h] at this
    cases flip <;> simp at this
  have hne' : ¬ ((Q r1).z = 0 ∧ (Q r2).z = 0) := by
    simpa [hQ.z, hκ] using hne
  rw [if_neg ((not_congr (orbitNormal_equatorial h1)).2 hne), if_neg ((not_congr (orbitNormal_equatorial h2)).2 hne'),
    hQ.norm, hQ.normσ, hQ.normal_z]
  refine Agree.bind (R := fun x y => y = (if flip then -1 else 1) * x)
    ((agree_pdiv (c := if flip then -1 else 1) (d := 1) one_ne_zero (by ring) (by ring)).mono fun x y h => by rw [h]; ring)
    fun q _ _ _ h => ?_
  subst h
  refine Agree.bind (R := fun _ _ => True) ?_ fun _ _ _ _ _ => .ok trivial
  unfold pacos
  cases flip
  · simp only [Bool.false_eq_true, if_false, one_mul]
    split_ifs
    · exact .ok trivial
    · exact .inl ⟨_, rfl, rfl⟩
  · simp only [if_true]
    by_cases h : -1 ≤ q ∧ q ≤ 1
    · rw [if_pos h, if_pos ⟨by linarith [h.2], by linarith [h.1]⟩]
      exact .ok trivial
    · rw [if_neg h, if_neg fun h' => h ⟨by linarith [h'.2], by linarith [h'.1]⟩]
      exact .inl ⟨_, rfl, rfl⟩

theorem Avanzini.sym_coeAtEccT (e : ℝ) (r1 r2 : V3) (pro : Bool) (hne : ¬ (r1.z = 0 ∧ r2.z = 0)) :
    Agree SameShape (coeAtEccT e r1 r2 pro) (coeAtEccT e (Q r1) (Q r2) (xor flip pro)) := by
  unfold coeAtEccT
  rw [sym_getGeometry hQ]
  refine .same fun g _ => .same fun ⟨ecc, _, p⟩ _ => .same fun ⟨eF, _, _⟩ _ => (hQ.agree_vdiv _ _).bind fun _ _ _ _ _ =>
    (hQ.agree_vdiv _ _).bind fun _ _ _ _ _ => (hQ.orbitNormal r1 r2 pro).bind fun ih _ _ _ h => ?_
  subst h
  refine (sym_incRaan hQ r1 r2 pro hne).bind fun ⟨inc, raan⟩ ⟨inc', raan'⟩ _ _ h => ?_
  simp only [hQ.norm, hQ.normσ]
  refine Agree.bind (R := fun _ _ => True) ?_ fun _ _ _ _ _ => .ok ⟨rfl, rfl, rfl, rfl⟩
  unfold pdiv
  split_ifs
  · exact .inl ⟨_, rfl, rfl⟩
  · exact .ok trivial

omit hQ in
theorem Avanzini.coe2rv_agree (mu p ecc nu inc raan argp inc' raan' argp' : ℝ) :
    Agree (fun _ _ => True) (coe2rv mu p ecc inc raan argp nu) (coe2rv mu p ecc inc' raan' argp' nu) := by
  unfold coe2rv
  refine .same fun pqw _ => ?_
  unfold coeRotationMatrix rotationMatrix
  simp only [show ((2 : ℤ) = 0) = False by simp, show ((2 : ℤ) = 1) = False by simp, if_false, if_true, ok_bind]
  exact .ok trivial

/-- **C61, `avanzini2008` (partial)**: for positions that are not both in the equatorial plane.  In the equatorial
plane even the rotations fail (`avanzini_rotation_fails`). -/
theorem avanzini_symmetry_partial (mu : ℝ) (r1 r2 : V3) (tof : ℝ) (M : ℤ) (pro low : Bool) (N : ℕ) (atol rtol : ℝ)
    (full : Bool) (clock : ℝ) (hne : ¬ (r1.z = 0 ∧ r2.z = 0)) :
    avanzini2008 mu (Q r1) (Q r2) tof M (xor flip pro) low N atol rtol full clock =
      (avanzini2008 mu r1 r2 tof M pro low N atol rtol full clock).map (Output.mapV Q) := by
  have hne' : ¬ ((Q r1).z = 0 ∧ (Q r2).z = 0) := by
    have hκ : κ ≠ 0 := by
      intro h
      have := hQ.turn
      rw [h] at this
      cases flip <;> simp at this
    simpa [hQ.z, hκ] using hne
  refine Agree.map ?_
  unfold avanzini2008
  rw [hQ.assert, Avanzini.sym_getGeometry hQ]
  refine .same fun _ _ => .same fun _ hv => .same fun g hg => .same fun F hF => .same fun ⟨x, n⟩ _ => .same fun tpi _ =>
    .same fun e he => (Avanzini.sym_coeAtEccT hQ e r1 r2 pro hne).bind fun el el' hel hel' h => ?_
  obtain ⟨hmu, -⟩ := assertParameters_ok hv
  obtain ⟨hpi, -, -⟩ := Avanzini.eccT_lt hF he
  have hg' := (Avanzini.sym_getGeometry hQ r1 r2 pro).trans hg
  have hvel : Agree (fun _ _ => True) (Avanzini.velocities mu el) (Avanzini.velocities mu el') := by
    obtain ⟨h1, h2, h3, h4⟩ := h
    unfold Avanzini.velocities
    rw [h1, h2, h3, h4]
    exact (Avanzini.coe2rv_agree ..).bind fun _ _ _ _ _ => (Avanzini.coe2rv_agree ..).bind fun _ _ _ _ _ => .ok trivial
  refine hvel.bind fun ⟨v1, v2⟩ ⟨w1, w2⟩ e1 e2 _ => .ok ?_
  obtain ⟨_, _, -, q1, q2⟩ := Avanzini.velocities_fg hmu hg hpi hel e1 hne
  obtain ⟨_, _, -, s1, s2⟩ := Avanzini.velocities_fg hmu hg' hpi hel' e2 hne'
  rw [h.1, hQ.norm, hQ.norm, hQ.fgV1, ← q1] at s1
  rw [h.1, hQ.norm, hQ.norm, hQ.fgV2, ← q2] at s2
  rw [s1, s2, mkOutput_mapV]

end

/-- **C61, negation for `izzo2015` in planes through the polar axis**: the reflections in planes through the axis,
with any rotation and with or without the reflection in the equator, never carry its solutions to its solutions. -/
theorem izzo_polar_not_symmetric (a : ℝ) (mz : Bool) {mu : ℝ} {r1 r2 : V3} (hp : ¬ NotPolar r1 r2) {tof : ℝ} {M : ℕ}
    {pro low : Bool} {N : ℕ} {atol rtol : ℝ} {v1 v2 w1 w2 : V3}
    (h : izzo2015 mu r1 r2 tof (M : ℤ) pro low N atol rtol = .ok (v1, v2))
    (h' : izzo2015 mu (polarMap a true mz r1) (polarMap a true mz r2) tof (M : ℤ) (!pro) low N atol rtol = .ok (w1, w2)) :
    w1 ≠ polarMap a true mz v1 := by
  rintro rfl
  have hQ := sym_polarMap a true mz
  have hp' : ¬ NotPolar (polarMap a true mz r1) (polarMap a true mz r2) := by
    have e : ∀ r v, NotPolar r v ↔ (V3.cross r v).z ≠ 0 := fun r v => Iff.rfl
    rw [e] at hp ⊢
    rw [hQ.cross, hQ.normal_z]
    simpa using hp
  have h1 := izzo_polar_side hp h
  have h2 := izzo_polar_side hp' h'
  have e : V3.dot (V3.cross (polarMap a true mz r1) (polarMap a true mz v1))
      (V3.cross (polarMap a true mz r1) (polarMap a true mz r2)) = V3.dot (V3.cross r1 v1) (V3.cross r1 r2) := by
    rw [hQ.cross, hQ.cross, hQ.dot]
    have := hQ.sq
    generalize ((if true = true then -1 else 1) * if mz = true then -1 else 1 : ℝ) = s at this ⊢
    simp only [V3.dot, V3.smul_x, V3.smul_y, V3.smul_z]
    linear_combination ((V3.cross r1 v1).x * (V3.cross r1 r2).x + (V3.cross r1 v1).y * (V3.cross r1 r2).y +
      (V3.cross r1 v1).z * (V3.cross r1 r2).z) * this
  unfold TurnsShort TurnsLong at h1 h2
  rw [e] at h2
  cases pro <;> simp at h1 h2 <;> linarith

/-- The mirror image of a problem in the plane `y = 0`: prograde becomes retrograde. -/
example : ∃ tof out, vallado2013 1 ⟨1, 0, 1⟩ ⟨0, 2, 1⟩ tof 0 true true 35 1e-5 1e-7 true 3 = .ok out ∧
    vallado2013 1 ⟨1, 0, 1⟩ ⟨0, -2, 1⟩ tof 0 false true 35 1e-5 1e-7 true 3 =
      .ok (out.mapV fun v => ⟨v.x, -v.y, v.z⟩) := by
  obtain ⟨_, out, h⟩ := vallado_returns_parabolic (mu := 1) (r1 := ⟨1, 0, 1⟩) (r2 := ⟨0, 2, 1⟩) one_pos
    (by simp [NotAligned]) true true 34 1e-5 (rtol := 1e-7) (by norm_num) true 3
  refine ⟨_, out, h, ?_⟩
  have e : polarMap 0 true false = fun v => ⟨v.x, -v.y, v.z⟩ := by funext v; ext <;> simp [polarMap, rotZ]
  have := vallado_symmetry (sym_polarMap 0 true false) 1 ⟨1, 0, 1⟩ ⟨0, 2, 1⟩
    (uvT 1 (V3.norm ⟨1, 0, 1⟩ + V3.norm ⟨0, 2, 1⟩) (signedA true ⟨1, 0, 1⟩ ⟨0, 2, 1⟩) 0) 0 true true 35 1e-5 1e-7 true 3
  rw [h, e] at this
  simpa [Except.map] using this

end Lamberthub
