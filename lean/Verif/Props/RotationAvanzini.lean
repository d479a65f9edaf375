import Verif.Props.Rotation
import Verif.Props.AvanziniMore

/-!
# Rotation about the z axis, `avanzini2008` (property C34)

The velocities are rebuilt from orbital elements: a rotation shifts the right ascension of the
ascending node.  In the equatorial plane there is no node, and the code then returns velocities
that do not follow the positions at all.
-/

set_option autoImplicit false

namespace Lamberthub
open Spec Avanzini

theorem Avanzini.rotZ_getGeometry (a : ℝ) (r1 r2 : V3) (pro : Bool) :
    getGeometry (rotZ a r1) (rotZ a r2) pro = getGeometry r1 r2 pro := by
  unfold getGeometry
  simp only [rotZ_sub, rotZ_transferAngle, rotZ_norm]

/-- The normal of the plane is along the `z` axis exactly for equatorial positions. -/
theorem orbitNormal_equatorial {r1 r2 ih : V3} {pro : Bool} (h : getOrbitNormalVector r1 r2 pro = .ok ih) :
    ih.x = 0 ∧ ih.y = 0 ↔ r1.z = 0 ∧ r2.z = 0 := by
  have key : ∃ c : ℝ, c ≠ 0 ∧ V3.norm (V3.cross r1 r2) ≠ 0 ∧ ih = c • V3.cross r1 r2 := by
    unfold getOrbitNormalVector at h
    simp only [bind_ok, vdiv_ok] at h
    obtain ⟨u, ⟨hne, rfl⟩, h⟩ := h
    have hinv := inv_ne_zero hne
    split_ifs at h <;> obtain rfl := Except.ok.inj h
    · exact ⟨_, hinv, hne, rfl⟩
    · exact ⟨_, neg_ne_zero.2 hinv, hne, by ext <;> simp⟩
    · exact ⟨_, hinv, hne, rfl⟩
    · exact ⟨_, neg_ne_zero.2 hinv, hne, by ext <;> simp⟩
  obtain ⟨c, hc, hne, rfl⟩ := key
  have hne' : V3.cross r1 r2 ≠ 0 := fun h => hne (norm_eq_zero_iff.2 h)
  simp only [V3.smul_x, V3.smul_y, mul_eq_zero, hc, false_or]
  constructor
  · rintro ⟨hx, hy⟩
    have hD : r1.x * r2.y - r1.y * r2.x ≠ 0 := fun hz => hne' (by ext <;> simp [V3.cross] <;> assumption)
    simp only [V3.cross] at hx hy
    constructor
    · refine (mul_eq_zero.1 (?_ : r1.z * (r1.x * r2.y - r1.y * r2.x) = 0)).resolve_right hD
      linear_combination -r1.x * hx - r1.y * hy
    · refine (mul_eq_zero.1 (?_ : r2.z * (r1.x * r2.y - r1.y * r2.x) = 0)).resolve_right hD
      linear_combination -r2.x * hx - r2.y * hy
  · rintro ⟨h1, h2⟩
    simp [V3.cross, h1, h2]

/-- The orbital elements of the rotated problem. -/
def Avanzini.Turned (a : ℝ) (el el' : Elements) : Prop :=
  ∃ raan', el' = { el with raan := raan' } ∧ Real.cos raan' = Real.cos (el.raan + a) ∧
    Real.sin raan' = Real.sin (el.raan + a)

theorem rotZ_arctan2 (a : ℝ) {x y : ℝ} (h : ¬ (x = 0 ∧ y = 0)) :
    Real.cos (arctan2 (Real.sin a * x + Real.cos a * y) (Real.cos a * x - Real.sin a * y)) = Real.cos (arctan2 y x + a) ∧
    Real.sin (arctan2 (Real.sin a * x + Real.cos a * y) (Real.cos a * x - Real.sin a * y)) =
      Real.sin (arctan2 y x + a) := by
  have hz : (⟨x, y⟩ : ℂ) ≠ 0 := fun hz => h ⟨congrArg Complex.re hz, congrArg Complex.im hz⟩
  have hsq : x ^ 2 + y ^ 2 ≠ 0 := by
    intro h0
    refine h ⟨?_, ?_⟩ <;> nlinarith [sq_nonneg x, sq_nonneg y]
  have hw : (⟨Real.cos a * x - Real.sin a * y, Real.sin a * x + Real.cos a * y⟩ : ℂ) ≠ 0 := by
    intro hw
    have h1 := congrArg Complex.re hw
    have h2 := congrArg Complex.im hw
    simp only [Complex.zero_re, Complex.zero_im] at h1 h2
    refine hsq ?_
    linear_combination (x ^ 2 + y ^ 2) * (-(Real.sin_sq_add_cos_sq a)) +
      (Real.cos a * x - Real.sin a * y) * h1 + (Real.sin a * x + Real.cos a * y) * h2
  have hn : ‖(⟨Real.cos a * x - Real.sin a * y, Real.sin a * x + Real.cos a * y⟩ : ℂ)‖ = ‖(⟨x, y⟩ : ℂ)‖ := by
    rw [Complex.norm_def, Complex.norm_def, Complex.normSq_mk, Complex.normSq_mk]
    congr 1
    linear_combination (x ^ 2 + y ^ 2) * Real.sin_sq_add_cos_sq a
  have hne : ‖(⟨x, y⟩ : ℂ)‖ ≠ 0 := norm_ne_zero_iff.2 hz
  unfold arctan2
  rw [Real.cos_add, Real.sin_add, Complex.cos_arg hw, Complex.cos_arg hz, Complex.sin_arg, Complex.sin_arg, hn]
  constructor
  · field_simp
  · field_simp
    ring

theorem Avanzini.rotZ_incRaan (a : ℝ) (r1 r2 : V3) (pro : Bool) (hne : ¬ (r1.z = 0 ∧ r2.z = 0)) :
    Agree (fun p q => q.1 = p.1 ∧ Real.cos q.2 = Real.cos (p.2 + a) ∧ Real.sin q.2 = Real.sin (p.2 + a))
      (getOrbitIncAndRaan r1 r2 pro) (getOrbitIncAndRaan (rotZ a r1) (rotZ a r2) pro) := by
  unfold getOrbitIncAndRaan
  refine (rotZ_orbitNormal a r1 r2 pro).bind fun ih ih' h1 h2 h => ?_
  subst h
  have e1 := (not_congr (orbitNormal_equatorial h1)).2 hne
  have e2 := (not_congr (orbitNormal_equatorial h2)).2 hne
  rw [if_neg e1, if_neg e2, rotZ_z, rotZ_norm]
  refine .same fun q _ => .same fun inc _ => .ok ⟨rfl, ?_⟩
  have hk : V3.cross kAxis ih = ⟨-ih.y, ih.x, 0⟩ := by ext <;> simp [V3.cross, kAxis]
  have hk' : V3.cross kAxis (rotZ a ih) = ⟨Real.cos a * -ih.y - Real.sin a * ih.x, Real.sin a * -ih.y + Real.cos a * ih.x, 0⟩ := by
    ext <;> simp [V3.cross, kAxis, rotZ] <;> ring
  simp only [hk, hk', cos_pmod, sin_pmod]
  have := rotZ_arctan2 a (x := -ih.y) (y := ih.x) (by rintro ⟨hx, hy⟩; exact e1 ⟨hy, neg_eq_zero.1 hx⟩)
  rw [Real.cos_add, Real.sin_add] at this ⊢
  rw [cos_pmod, sin_pmod]
  exact this

theorem Avanzini.rotZ_coeAtEccT (a e : ℝ) (r1 r2 : V3) (pro : Bool) (hne : ¬ (r1.z = 0 ∧ r2.z = 0)) :
    Agree (Turned a) (coeAtEccT e r1 r2 pro) (coeAtEccT e (rotZ a r1) (rotZ a r2) pro) := by
  unfold coeAtEccT
  rw [rotZ_getGeometry]
  refine .same fun g _ => .same fun ⟨ecc, _, p⟩ _ => .same fun ⟨eF, _, _⟩ _ => (agree_rotZ_vdiv a _ _).bind fun _ _ _ _ _ =>
    (agree_rotZ_vdiv a _ _).bind fun _ _ _ _ _ => (rotZ_orbitNormal a r1 r2 pro).bind fun ih _ _ _ h => ?_
  subst h
  refine (rotZ_incRaan a r1 r2 pro hne).bind fun ⟨inc, raan⟩ ⟨inc', raan'⟩ _ _ h => ?_
  obtain ⟨h1, h2, h3⟩ := h
  simp only at h1 h2 h3
  subst h1
  have hn : V3.cross ⟨0, 0, 1⟩ (rotZ a ih) = rotZ a (V3.cross ⟨0, 0, 1⟩ ih) := by
    ext <;> simp [V3.cross, rotZ] <;> ring
  simp only [hn, rotZ_cross, rotZ_dot, rotZ_norm]
  exact .same fun py _ => .ok ⟨raan', rfl, h2, h3⟩

theorem coe2rv_rotation {a mu p ecc inc raan raan' argp nu : ℝ} (hc : Real.cos raan' = Real.cos (raan + a))
    (hs : Real.sin raan' = Real.sin (raan + a)) :
    Agree (fun x y => y = (rotZ a x.1, rotZ a x.2)) (coe2rv mu p ecc inc raan argp nu)
      (coe2rv mu p ecc inc raan' argp nu) := by
  unfold coe2rv
  refine .same fun pqw _ => ?_
  have : Agree (fun m m' => ∀ v, M3.app m' v = rotZ a (M3.app m v)) (coeRotationMatrix inc raan argp)
      (coeRotationMatrix inc raan' argp) := by
    unfold coeRotationMatrix rotationMatrix
    simp only [show ((2 : ℤ) = 0) = False by simp, show ((2 : ℤ) = 1) = False by simp, if_false, if_true, ok_bind]
    refine .ok fun v => ?_
    rw [hc, hs, Real.cos_add, Real.sin_add]
    ext <;> simp [M3.app, rotZ, Matrix.mul_apply, Fin.sum_univ_three] <;> ring
  exact this.bind fun m m' _ _ h => .ok (by rw [h, h])

/-- **C34, `avanzini2008` (partial)**: for positions that are not both in the equatorial plane.
In the equatorial plane the claim is false (`avanzini_rotation_fails`). -/
theorem avanzini_rotation_partial (a mu : ℝ) (r1 r2 : V3) (tof : ℝ) (M : ℤ) (pro low : Bool) (N : ℕ) (atol rtol : ℝ)
    (full : Bool) (clock : ℝ) (hne : ¬ (r1.z = 0 ∧ r2.z = 0)) :
    avanzini2008 mu (rotZ a r1) (rotZ a r2) tof M pro low N atol rtol full clock =
      (avanzini2008 mu r1 r2 tof M pro low N atol rtol full clock).map (Output.mapV (rotZ a)) := by
  refine Agree.map ?_
  unfold avanzini2008
  rw [rotZ_assert, rotZ_getGeometry]
  refine .same fun _ _ => .same fun _ _ => .same fun g _ => .same fun F _ => .same fun ⟨x, n⟩ _ => .same fun tpi _ =>
    .same fun e _ => (rotZ_coeAtEccT a e r1 r2 pro hne).bind fun el _ _ _ h => ?_
  obtain ⟨raan', rfl, hc, hs⟩ := h
  refine .output a full ?_
  unfold velocities
  refine (coe2rv_rotation hc hs).bind fun x _ _ _ h => ?_
  subst h
  refine (coe2rv_rotation hc hs).bind fun y _ _ _ h => ?_
  subst h
  exact .ok rfl

/-- In the equatorial plane the returned velocities do not depend on the rotation at all. -/
theorem avanzini_equatorial_rotation (a mu : ℝ) (r1 r2 : V3) (tof : ℝ) (M : ℤ) (pro low : Bool) (N : ℕ) (atol rtol : ℝ)
    (full : Bool) (clock : ℝ) (h1 : r1.z = 0) (h2 : r2.z = 0) :
    avanzini2008 mu (rotZ a r1) (rotZ a r2) tof M pro low N atol rtol full clock =
      avanzini2008 mu r1 r2 tof M pro low N atol rtol full clock := by
  have hcoe : ∀ e, coeAtEccT e (rotZ a r1) (rotZ a r2) pro = coeAtEccT e r1 r2 pro := by
    intro e
    refine Agree.eq ?_
    unfold coeAtEccT
    rw [rotZ_getGeometry]
    refine .same fun g _ => .same fun ⟨ecc, _, p⟩ _ => .same fun ⟨eF, _, _⟩ _ => (agree_rotZ_vdiv a _ _).bind fun _ _ _ _ _ =>
      (agree_rotZ_vdiv a _ _).bind fun _ _ _ _ _ => (rotZ_orbitNormal a r1 r2 pro).bind fun ih _ hi hi' h => ?_
    subst h
    have e1 := (orbitNormal_equatorial hi).2 ⟨h1, h2⟩
    have er : rotZ a ih = ih := by ext <;> simp [rotZ, e1.1, e1.2]
    rw [er] at hi' ⊢
    have hinc : getOrbitIncAndRaan (rotZ a r1) (rotZ a r2) pro = getOrbitIncAndRaan r1 r2 pro := by
      unfold getOrbitIncAndRaan
      rw [hi, hi']
    rw [hinc]
    have hn : V3.cross ⟨0, 0, 1⟩ ih = 0 := by ext <;> simp [V3.cross, e1.1, e1.2]
    have hd : ∀ r : V3, V3.dot r 0 = 0 := fun r => by simp [V3.dot]
    have hx : V3.cross ih 0 = 0 := by ext <;> simp [V3.cross]
    simp only [hn, hd, hx]
    exact .refl fun _ _ => rfl
  unfold avanzini2008
  rw [rotZ_assert, rotZ_getGeometry]
  simp only [hcoe]

/-- **C34 fails for `avanzini2008`**: after a half turn of an equatorial problem the solver returns
the velocities of the original problem instead of the opposite ones. -/
theorem avanzini_rotation_fails : ∃ (a tof : ℝ) (out : Output),
    avanzini2008 1 ⟨1, 0, 0⟩ ⟨0, 1, 0⟩ tof 0 true true 35 1e-5 1e-7 false 0 = .ok out ∧
    avanzini2008 1 (rotZ a ⟨1, 0, 0⟩) (rotZ a ⟨0, 1, 0⟩) tof 0 true true 35 1e-5 1e-7 false 0 ≠
      .ok (out.mapV (rotZ a)) := by
  have hna : NotAligned ⟨1, 0, 0⟩ ⟨0, 1, 0⟩ := by simp [NotAligned]
  have hθ := transferAngle_eq hna true
  obtain ⟨out, h⟩ := avanzini_returns (mu := 1) one_pos hna (by simp [len, Spec.inner]) hθ true 33 (atol := 1e-5)
    (rtol := 1e-7) (by norm_num) false 0
  refine ⟨Real.pi, _, out, h, ?_⟩
  rw [avanzini_equatorial_rotation _ _ _ _ _ _ _ _ _ _ _ _ _ rfl rfl, h]
  intro hc
  have hv : out.v1 = rotZ Real.pi out.v1 := by
    have := Except.ok.inj hc
    cases out with
    | plain v1 v2 => exact (Output.plain.inj this).1
    | full v1 v2 n t => exact (Output.full.inj this).1
  have hy := congrArg V3.y hv
  simp only [rotZ, Real.sin_pi, Real.cos_pi] at hy
  obtain ⟨-, hmu, g, F, x, n, eccT, el, hg, hF, -, hT, hel, hvel⟩ := ok_split h
  obtain ⟨hpi, h0, hlt⟩ := eccT_lt hF hT
  obtain ⟨a, w, ix, iy, hp, hC, hv1, -, hequ, -⟩ := velocities_ok hmu hg hpi hel hvel
  obtain ⟨rfl, rfl⟩ := hequ ⟨rfl, rfl⟩
  have h1 : 0 < 1 + el.ecc * Real.cos w := by
    by_contra hle
    have := hC.at1
    have hR := (geometry_good hg hpi).R1
    nlinarith [mul_nonneg hR.le (sub_nonneg.2 (not_lt.1 hle))]
  have h2 : 0 < Real.sqrt (1 / el.p) := by positivity
  have : 0 < out.v1.y := by
    rw [hv1]
    simp only [V3.smul_y, V3.add_y]
    have := mul_pos h2 h1
    linarith
  linarith

/-- `izzo2015` returns on a quarter turn, and on that quarter turn rotated by any angle. -/
example (a : ℝ) : ∃ tof v1 v2,
    izzo2015 1 ⟨1, 0, 0⟩ ⟨0, 1, 0⟩ tof 0 true true 35 1e-5 1e-7 = .ok (v1, v2) ∧
      izzo2015 1 (rotZ a ⟨1, 0, 0⟩) (rotZ a ⟨0, 1, 0⟩) tof 0 true true 35 1e-5 1e-7 =
        .ok (rotZ a v1, rotZ a v2) := by
  obtain ⟨tof, v1, v2, -, h⟩ := izzo_returns_minimum_energy (mu := 1) one_pos
    (r1 := ⟨1, 0, 0⟩) (r2 := ⟨0, 1, 0⟩) (by simp [Spec.NotAligned]) true true 34 (atol := 1e-5) (by norm_num) 1e-7
  exact ⟨tof, v1, v2, h, by rw [izzo_rotation, h]; rfl⟩

end Lamberthub
