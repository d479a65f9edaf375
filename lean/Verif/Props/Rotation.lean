import Verif.Proofs.AgreeLemmas

/-!
# Rotation about the z axis (property C34)

Turning both positions about the `z` axis turns the returned velocities by the same angle, and
changes nothing else: the two runs stop with the same error or return the same number of
iterations.  The theorems are equations between the two runs, for all inputs and all angles.
-/

set_option autoImplicit false

namespace Lamberthub
open Spec

section Vectors
variable (a : ℝ)

theorem rotZ_sub (u v : V3) : rotZ a u - rotZ a v = rotZ a (u - v) := by
  ext <;> simp [rotZ] <;> ring

theorem rotZ_add (u v : V3) : rotZ a u + rotZ a v = rotZ a (u + v) := by
  ext <;> simp [rotZ] <;> ring

theorem rotZ_smul (c : ℝ) (v : V3) : c • rotZ a v = rotZ a (c • v) := by
  ext <;> simp [rotZ] <;> ring

theorem rotZ_neg (v : V3) : -rotZ a v = rotZ a (-v) := by
  ext <;> simp [rotZ] <;> ring

theorem rotZ_dot (u v : V3) : V3.dot (rotZ a u) (rotZ a v) = V3.dot u v := by
  simp only [V3.dot, rotZ]
  linear_combination (u.x * v.x + u.y * v.y) * Real.sin_sq_add_cos_sq a

theorem rotZ_norm (v : V3) : V3.norm (rotZ a v) = V3.norm v := by
  unfold V3.norm; rw [rotZ_dot]

theorem rotZ_cross (u v : V3) : V3.cross (rotZ a u) (rotZ a v) = rotZ a (V3.cross u v) := by
  ext
  · simp [V3.cross, rotZ]; ring
  · simp [V3.cross, rotZ]; ring
  · simp only [V3.cross, rotZ]
    linear_combination (u.x * v.y - u.y * v.x) * Real.sin_sq_add_cos_sq a

theorem rotZ_z (v : V3) : (rotZ a v).z = v.z := rfl

theorem rotZ_inj {u v : V3} : rotZ a u = rotZ a v ↔ u = v := by
  constructor
  · intro h
    have hx := congrArg V3.x h
    have hy := congrArg V3.y h
    have hz := congrArg V3.z h
    simp only [rotZ] at hx hy hz
    have h1 := Real.sin_sq_add_cos_sq a
    ext
    · linear_combination Real.cos a * hx + Real.sin a * hy - (u.x - v.x) * h1
    · linear_combination Real.cos a * hy - Real.sin a * hx - (u.y - v.y) * h1
    · exact hz
  · rintro rfl; rfl

theorem rotZ_zero : rotZ a 0 = 0 := by ext <;> simp [rotZ]

theorem rotZ_eq_zero {v : V3} : rotZ a v = 0 ↔ v = 0 := by
  rw [← rotZ_inj a (u := v), rotZ_zero]

theorem rotZ_kAxis (v : V3) : V3.dot kAxis (rotZ a v) = V3.dot kAxis v := by
  simp [V3.dot, kAxis, rotZ]

theorem rotZ_vdiv (v : V3) (c : ℝ) : vdiv (rotZ a v) c = (vdiv v c).map (rotZ a) := by
  unfold vdiv
  by_cases h : c = 0
  · rw [if_pos h, if_pos h]; rfl
  · rw [if_neg h, if_neg h, rotZ_smul]; rfl

theorem agree_rotZ_vdiv (v : V3) (c : ℝ) : Agree (fun x y => y = rotZ a x) (vdiv v c) (vdiv (rotZ a v) c) :=
  agree_of_map (rotZ_vdiv a v c)

/-- On aligned vectors the comparison of the signs of the components tells whether the vectors
have the same direction (or are both zero). -/
theorem sameSigns_iff {u v : V3} (h : V3.cross u v = 0) : sameSigns u v ↔ (u = 0 ∧ v = 0) ∨ 0 < V3.dot u v := by
  have hx := congrArg V3.x h
  have hy := congrArg V3.y h
  have hz := congrArg V3.z h
  simp only [V3.cross, V3.zero_x, V3.zero_y, V3.zero_z] at hx hy hz
  constructor
  · rintro ⟨h1, h2, h3⟩
    have key : ∀ p q : ℝ, SignType.sign p = SignType.sign q → 0 ≤ p * q ∧ (p * q = 0 → p = 0 ∧ q = 0) := by
      intro p q hs
      rcases lt_trichotomy p 0 with hp | rfl | hp
      · rw [sign_neg hp, eq_comm, sign_eq_neg_one_iff] at hs
        exact ⟨(mul_pos_of_neg_of_neg hp hs).le, fun h => absurd h (mul_pos_of_neg_of_neg hp hs).ne'⟩
      · rw [sign_zero, eq_comm, sign_eq_zero_iff] at hs
        subst hs
        simp
      · rw [sign_pos hp, eq_comm, sign_eq_one_iff] at hs
        exact ⟨(mul_pos hp hs).le, fun h => absurd h (mul_pos hp hs).ne'⟩
    obtain ⟨a1, b1⟩ := key _ _ h1
    obtain ⟨a2, b2⟩ := key _ _ h2
    obtain ⟨a3, b3⟩ := key _ _ h3
    rcases (show 0 ≤ V3.dot u v by unfold V3.dot; linarith).eq_or_lt with h0 | h0
    · left
      unfold V3.dot at h0
      obtain ⟨c1, d1⟩ := b1 (by linarith)
      obtain ⟨c2, d2⟩ := b2 (by linarith)
      obtain ⟨c3, d3⟩ := b3 (by linarith)
      exact ⟨by ext <;> assumption, by ext <;> assumption⟩
    · exact .inr h0
  · rintro (⟨rfl, rfl⟩ | h0)
    · exact ⟨rfl, rfl, rfl⟩
    · have hn : 0 < V3.dot u u := by
        rcases (dot_self_nonneg u).eq_or_lt with h1 | h1
        · have : u = 0 := norm_eq_zero_iff.1 (by unfold V3.norm; rw [← h1, Real.sqrt_zero])
          subst this
          simp [V3.dot] at h0
        · exact h1
      have key : ∀ p q : ℝ, p * V3.dot u v = q * V3.dot u u → SignType.sign p = SignType.sign q := by
        intro p q hpq
        have h1 := congrArg SignType.sign hpq
        rwa [sign_mul, sign_mul, sign_pos h0, sign_pos hn, mul_one, mul_one] at h1
      refine ⟨key _ _ ?_, key _ _ ?_, key _ _ ?_⟩ <;> unfold V3.dot
      · linear_combination u.y * hz - u.z * hy
      · linear_combination u.z * hx - u.x * hz
      · linear_combination u.x * hy - u.y * hx

theorem rotZ_transferAngle (r1 r2 : V3) (pro : Bool) :
    getTransferAngle (rotZ a r1) (rotZ a r2) pro = getTransferAngle r1 r2 pro := by
  refine Agree.eq ?_
  unfold getTransferAngle
  simp only []
  by_cases h : V3.cross r1 r2 = 0
  · have h' : V3.cross (rotZ a r1) (rotZ a r2) = 0 := by rw [rotZ_cross, rotZ_eq_zero, h]
    rw [if_pos h, if_pos h']
    have hs : sameSigns (rotZ a r1) (rotZ a r2) ↔ sameSigns r1 r2 := by
      rw [sameSigns_iff h, sameSigns_iff h', rotZ_eq_zero, rotZ_eq_zero, rotZ_dot]
    by_cases h2 : sameSigns r1 r2
    · rw [if_pos h2, if_pos (hs.2 h2)]; exact .ok rfl
    · rw [if_neg h2, if_neg fun q => h2 (hs.1 q)]; exact .ok rfl
  · rw [if_neg h, if_neg (by rw [rotZ_cross, rotZ_eq_zero]; exact h), rotZ_cross, rotZ_norm, rotZ_norm, rotZ_norm, rotZ_dot]
    refine (agree_rotZ_vdiv a _ _).bind fun u _ _ _ h => ?_
    subst h
    rw [rotZ_kAxis]
    exact .refl fun _ _ => rfl

theorem rotZ_orbitNormal (r1 r2 : V3) (pro : Bool) :
    Agree (fun x y => y = rotZ a x) (getOrbitNormalVector r1 r2 pro) (getOrbitNormalVector (rotZ a r1) (rotZ a r2) pro) := by
  unfold getOrbitNormalVector
  simp only [rotZ_cross, rotZ_norm]
  refine (agree_rotZ_vdiv a _ _).bind fun u _ _ _ h => ?_
  subst h
  rw [rotZ_kAxis, rotZ_neg]
  split_ifs <;> exact .ok rfl

theorem rotZ_assert (mu : ℝ) (r1 r2 : V3) (tof : ℝ) (M : ℤ) :
    assertParametersAreValid mu (rotZ a r1) (rotZ a r2) tof M = assertParametersAreValid mu r1 r2 tof M := by
  unfold assertParametersAreValid assertPositionVectors assertPositionVector
  rw [raiseIf_congr _ (rotZ_eq_zero a), raiseIf_congr _ (rotZ_inj a)]

end Vectors

section
variable (a mu : ℝ) (r1 r2 : V3) (tof : ℝ) (M : ℤ) (pro low : Bool) (N : ℕ) (atol rtol : ℝ) (full : Bool) (clock : ℝ)

/-- What ends every solver: a pair of velocities. -/
theorem Agree.output {v w : Py (V3 × V3)} {n : ℕ} {tpi : ℝ}
    (h : Agree (fun x y => y = (rotZ a x.1, rotZ a x.2)) v w) :
    Agree (fun x y => y = Output.mapV (rotZ a) x)
      (v >>= fun p => match p with | (v1, v2) => .ok (mkOutput full v1 v2 n tpi))
      (w >>= fun p => match p with | (v1, v2) => .ok (mkOutput full v1 v2 n tpi)) := by
  refine h.bind fun ⟨v1, v2⟩ _ _ _ h => .ok ?_
  subst h
  rw [mkOutput_mapV]

/-- C34, `vallado2013`. -/
theorem vallado_rotation :
    vallado2013 mu (rotZ a r1) (rotZ a r2) tof M pro low N atol rtol full clock =
      (vallado2013 mu r1 r2 tof M pro low N atol rtol full clock).map (Output.mapV (rotZ a)) := by
  refine Agree.map ?_
  unfold vallado2013
  rw [rotZ_assert, rotZ_transferAngle]
  simp only [rotZ_norm, rotZ_smul, rotZ_sub]
  refine .same fun _ _ => .same fun _ _ => .same fun _ _ => .same fun _ _ => .same fun ⟨_, _, _⟩ _ => .same fun _ _ =>
    .same fun _ _ => .same fun _ _ => .same fun _ _ => (agree_rotZ_vdiv a _ _).bind fun v1 _ _ _ h => ?_
  subst h
  refine (agree_rotZ_vdiv a _ _).bind fun v2 _ _ _ h => .ok ?_
  subst h
  rw [mkOutput_mapV]

/-- C34, `delatorre2018`. -/
theorem delatorre_rotation :
    delatorre2018 mu (rotZ a r1) (rotZ a r2) tof M pro low N atol rtol full clock =
      (delatorre2018 mu r1 r2 tof M pro low N atol rtol full clock).map (Output.mapV (rotZ a)) := by
  refine Agree.map ?_
  unfold delatorre2018
  rw [rotZ_assert, rotZ_transferAngle]
  simp only [rotZ_norm, rotZ_smul, rotZ_sub]
  refine .same fun _ _ => .same fun _ _ => .same fun _ _ => .same fun ⟨_, _⟩ _ => .same fun _ _ => .same fun _ _ =>
    .same fun _ _ => .same fun _ _ => .same fun _ _ => .same fun _ _ => (agree_rotZ_vdiv a _ _).bind fun v1 _ _ _ h => ?_
  subst h
  refine (agree_rotZ_vdiv a _ _).bind fun v2 _ _ _ h => ?_
  subst h
  refine .same fun _ _ => .ok ?_
  rw [mkOutput_mapV]

/-- C34, `gauss1809`. -/
theorem gauss_rotation :
    gauss1809 mu (rotZ a r1) (rotZ a r2) tof M pro low N atol rtol full clock =
      (gauss1809 mu r1 r2 tof M pro low N atol rtol full clock).map (Output.mapV (rotZ a)) := by
  refine Agree.map ?_
  unfold gauss1809
  rw [rotZ_assert, rotZ_transferAngle]
  simp only [rotZ_norm]
  refine .same fun _ _ => .same fun _ _ => .same fun _ _ => .same fun _ _ => .same fun _ _ => .same fun _ _ =>
    .same fun ⟨_, _⟩ _ => .same fun _ _ => .output a full ?_
  unfold Gauss.velocities
  simp only [rotZ_norm, rotZ_smul, rotZ_sub]
  refine .same fun _ _ => .same fun _ _ => .same fun _ _ => .same fun _ _ => .same fun _ _ => .same fun _ _ =>
    .same fun _ _ => .same fun _ _ => .same fun _ _ => .same fun _ _ => .same fun _ _ => .same fun _ _ =>
    (agree_rotZ_vdiv a _ _).bind fun v1 _ _ _ h => .ok ?_
  subst h
  rw [rotZ_smul, rotZ_add]

/-- C34, `battin1984`. -/
theorem battin_rotation :
    battin1984 mu (rotZ a r1) (rotZ a r2) tof M pro low N atol rtol full clock =
      (battin1984 mu r1 r2 tof M pro low N atol rtol full clock).map (Output.mapV (rotZ a)) := by
  refine Agree.map ?_
  unfold battin1984
  rw [rotZ_assert, rotZ_transferAngle]
  simp only [rotZ_norm, rotZ_sub]
  refine .same fun _ _ => .same fun _ _ => .same fun _ _ => .same fun _ _ => .same fun _ _ => .same fun _ _ =>
    .same fun _ _ => .same fun ⟨_, _, _⟩ _ => .same fun _ _ => .output a full ?_
  unfold Battin.velocities
  simp only [rotZ_norm, rotZ_smul, rotZ_sub]
  refine .same fun _ _ => .same fun _ _ => (agree_rotZ_vdiv a _ _).bind fun w1 _ _ _ h => ?_
  subst h
  refine (agree_rotZ_vdiv a _ _).bind fun w2 _ _ _ h => .ok ?_
  subst h
  rw [rotZ_sub, rotZ_add, rotZ_smul, rotZ_smul]

/-- C34, `der2011`. -/
theorem der_rotation (b : Brent) :
    der2011 b mu (rotZ a r1) (rotZ a r2) tof M pro low N atol rtol full clock =
      (der2011 b mu r1 r2 tof M pro low N atol rtol full clock).map (Output.mapV (rotZ a)) := by
  refine Agree.map ?_
  unfold der2011
  rw [rotZ_assert, rotZ_transferAngle]
  simp only [rotZ_norm, rotZ_sub]
  refine .same fun _ _ => .same fun _ _ => .same fun _ _ => .same fun _ _ => .same fun _ _ => .same fun _ _ =>
    .same fun _ _ => .same fun ⟨_, _, _⟩ _ => .same fun _ _ => .output a full ?_
  unfold Der.reconstructVelocities
  simp only [rotZ_sub]
  refine .same fun _ _ => .same fun _ _ => .same fun _ _ => .same fun _ _ => .same fun _ _ =>
    (agree_rotZ_vdiv a _ _).bind fun w1 _ _ _ h => ?_
  subst h
  refine (agree_rotZ_vdiv a _ _).bind fun w2 _ _ _ h => ?_
  subst h
  refine (agree_rotZ_vdiv a _ _).bind fun w3 _ _ _ h => .ok ?_
  subst h
  simp only [rotZ_smul, rotZ_add, rotZ_sub]

/-- C34, `jiang2016`. -/
theorem jiang_rotation :
    jiang2016 mu (rotZ a r1) (rotZ a r2) tof M pro low N atol rtol full clock =
      (jiang2016 mu r1 r2 tof M pro low N atol rtol full clock).map (Output.mapV (rotZ a)) := by
  refine Agree.map ?_
  unfold jiang2016
  rw [rotZ_assert, rotZ_transferAngle]
  simp only [rotZ_norm, rotZ_sub]
  refine .same fun _ _ => .same fun _ _ => .same fun _ _ => .same fun _ _ => .same fun _ _ => .same fun _ _ =>
    .same fun ⟨_, _⟩ _ => .output a full ?_
  unfold Jiang.reconstructVelocities
  refine .same fun _ _ => .same fun _ _ => .same fun _ _ => .same fun _ _ => .ok ?_
  simp only [rotZ_smul, rotZ_add, rotZ_sub]

/-- C34, `mcelreath2025`. -/
theorem mcelreath_rotation :
    mcelreath2025 mu (rotZ a r1) (rotZ a r2) tof M pro low N atol rtol full clock =
      (mcelreath2025 mu r1 r2 tof M pro low N atol rtol full clock).map (Output.mapV (rotZ a)) := by
  refine Agree.map ?_
  unfold mcelreath2025
  rw [rotZ_assert, rotZ_transferAngle]
  simp only [rotZ_norm]
  refine .same fun _ _ => .same fun _ _ => .same fun _ _ => .same fun _ _ => .same fun ⟨_, _⟩ _ => .same fun _ _ =>
    .output a full ?_
  unfold McElreath.reconstruct
  simp only [rotZ_sub, rotZ_norm]
  refine .same fun ⟨_, _, _, _⟩ _ => .same fun _ _ => .same fun _ _ => .same fun _ _ => .same fun _ _ => .same fun _ _ =>
    .same fun _ _ => (agree_rotZ_vdiv a _ _).bind fun w1 _ _ _ h => ?_
  subst h
  refine (agree_rotZ_vdiv a _ _).bind fun w2 _ _ _ h => ?_
  subst h
  refine (agree_rotZ_vdiv a _ _).bind fun w3 _ _ _ h => .ok ?_
  subst h
  simp only [rotZ_smul, rotZ_add, rotZ_sub]

/-- C34, `negrete2024`. -/
theorem negrete_rotation :
    negrete2024 mu (rotZ a r1) (rotZ a r2) tof M pro low N atol rtol full clock =
      (negrete2024 mu r1 r2 tof M pro low N atol rtol full clock).map (Output.mapV (rotZ a)) := by
  refine Agree.map ?_
  unfold negrete2024
  rw [rotZ_assert, rotZ_transferAngle]
  simp only [rotZ_norm]
  refine .same fun _ _ => .same fun _ _ => .same fun _ _ => .same fun _ _ => .same fun _ _ => .same fun _ _ =>
    .same fun _ _ => .output a full ?_
  unfold Negrete.reconstruct
  simp only [rotZ_smul, rotZ_sub]
  refine .same fun _ _ => .same fun _ _ => .same fun _ _ => .same fun _ _ => .same fun _ _ =>
    (agree_rotZ_vdiv a _ _).bind fun w1 _ _ _ h => ?_
  subst h
  refine (agree_rotZ_vdiv a _ _).bind fun w2 _ _ _ h => .ok ?_
  subst h
  rfl

/-- C34, `arora2013`. -/
theorem arora_rotation (mz : Minimizer) (b : Brent) :
    arora2013 mz b mu (rotZ a r1) (rotZ a r2) tof M pro low N atol rtol full clock =
      (arora2013 mz b mu r1 r2 tof M pro low N atol rtol full clock).map (Output.mapV (rotZ a)) := by
  refine Agree.map ?_
  unfold arora2013
  rw [rotZ_assert, rotZ_transferAngle]
  simp only [rotZ_norm]
  refine .same fun _ _ => (agree_rotZ_vdiv a _ _).bind fun _ _ _ _ _ => (agree_rotZ_vdiv a _ _).bind fun _ _ _ _ _ =>
    .same fun _ _ => .same fun _ _ => .same fun _ _ => .same fun _ _ => (agree_rotZ_vdiv a _ _).bind fun w1 _ _ _ h => ?_
  subst h
  refine (agree_rotZ_vdiv a _ _).bind fun w2 _ _ _ h => ?_
  subst h
  simp only [rotZ_norm]
  refine .same fun _ _ => .same fun _ _ => .same fun _ _ => .same fun _ _ => .same fun _ _ => .same fun _ _ =>
    .same fun _ _ => .same fun _ _ => .same fun ⟨_, _⟩ _ => .same fun _ _ => .output a full ?_
  unfold Arora.reconstruct
  simp only [rotZ_smul, rotZ_sub]
  refine .same fun _ _ => .same fun _ _ => .same fun _ _ => (agree_rotZ_vdiv a _ _).bind fun w1 _ _ _ h => ?_
  subst h
  refine .same fun _ _ => (agree_rotZ_vdiv a _ _).bind fun w2 _ _ _ h => .ok ?_
  subst h
  simp only [rotZ_smul]

/-- C34, `gooding1990`. -/
theorem gooding_rotation :
    gooding1990 mu (rotZ a r1) (rotZ a r2) tof M pro low N atol rtol full clock =
      (gooding1990 mu r1 r2 tof M pro low N atol rtol full clock).map (Output.mapV (rotZ a)) := by
  refine Agree.map ?_
  unfold gooding1990
  rw [rotZ_assert, rotZ_transferAngle]
  simp only [rotZ_norm]
  refine .same fun _ _ => (agree_rotZ_vdiv a _ _).bind fun u1 _ _ _ h => ?_
  subst h
  refine (agree_rotZ_vdiv a _ _).bind fun u2 _ _ _ h => ?_
  subst h
  refine .same fun _ _ => .same fun _ _ => (rotZ_orbitNormal a r1 r2 pro).bind fun ih _ _ _ h => ?_
  subst h
  refine .same fun ⟨⟨_, _, _, _⟩, _, _⟩ _ => .ok ?_
  simp only [rotZ_cross, rotZ_smul, rotZ_add, mkOutput_mapV]

theorem Izzo.rotZ_geometry : Agree (fun x y => y = (x.1, x.2.1, rotZ a x.2.2.1, rotZ a x.2.2.2))
    (Izzo.geometry r1 r2 pro) (Izzo.geometry (rotZ a r1) (rotZ a r2) pro) := by
  unfold Izzo.geometry
  simp only [rotZ_norm, rotZ_sub]
  refine (agree_rotZ_vdiv a _ _).bind fun u1 _ _ _ h => ?_
  subst h
  refine (agree_rotZ_vdiv a _ _).bind fun u2 _ _ _ h => ?_
  subst h
  simp only [rotZ_cross, rotZ_norm]
  refine (agree_rotZ_vdiv a _ _).bind fun ih _ _ _ h => ?_
  subst h
  refine .same fun _ _ => .same fun _ _ => .ok ?_
  simp only [rotZ_cross, rotZ_z]
  by_cases hz : ih.z < 0 <;> cases pro <;> simp [hz, rotZ_neg]

/-- C34, `izzo2015`. -/
theorem izzo_rotation :
    izzo2015 mu (rotZ a r1) (rotZ a r2) tof M pro low N atol rtol =
      (izzo2015 mu r1 r2 tof M pro low N atol rtol).map fun p => (rotZ a p.1, rotZ a p.2) := by
  refine Agree.map ?_
  unfold izzo2015
  simp only [rotZ_norm, rotZ_sub]
  refine (Izzo.rotZ_geometry a r1 r2 pro).bind fun ⟨s, ll, t1, t2⟩ _ _ _ h => ?_
  subst h
  refine .same fun _ _ => .same fun _ _ => .same fun ⟨_, _⟩ _ => .same fun _ _ => .same fun _ _ => .same fun _ _ =>
    .same fun ⟨_, _, _, _⟩ _ => (agree_rotZ_vdiv a _ _).bind fun u1 _ _ _ h => ?_
  subst h
  refine (agree_rotZ_vdiv a _ _).bind fun u2 _ _ _ h => .ok ?_
  subst h
  simp only [rotZ_smul, rotZ_add]

/-- C34, `thorne2004`. -/
theorem thorne_rotation (b : Brent) :
    thorne2004 b mu (rotZ a r1) (rotZ a r2) tof M pro low N atol rtol full clock =
      (thorne2004 b mu r1 r2 tof M pro low N atol rtol full clock).map (Output.mapV (rotZ a)) := by
  have hY : ∀ x s c, Thorne.getYFromX x (rotZ a r1) (rotZ a r2) s c pro = Thorne.getYFromX x r1 r2 s c pro := by
    intro x s c
    refine Agree.eq ?_
    unfold Thorne.getYFromX
    refine Agree.bind (R := fun x y => y = x) ?_ fun _ _ _ _ h => by subst h; exact .refl fun _ _ => rfl
    unfold Thorne.getLambda
    simp only [rotZ_norm]
    refine (agree_rotZ_vdiv a _ _).bind fun u1 _ _ _ h => ?_
    subst h
    refine (agree_rotZ_vdiv a _ _).bind fun u2 _ _ _ h => ?_
    subst h
    simp only [rotZ_cross, rotZ_norm]
    refine (agree_rotZ_vdiv a _ _).bind fun ih _ _ _ h => ?_
    subst h
    exact .same fun _ _ => .same fun _ _ => .ok rfl
  refine Agree.map ?_
  unfold thorne2004
  rw [rotZ_assert, rotZ_transferAngle]
  simp only [rotZ_norm, rotZ_sub, hY]
  refine .same fun _ _ => .same fun _ _ => .same fun _ _ => .same fun _ _ => .same fun _ _ => .same fun ⟨_, _, _⟩ _ =>
    .same fun _ _ => .same fun _ _ => .same fun _ _ => .output a full ?_
  unfold Thorne.reconstruct
  simp only [rotZ_norm]
  refine (agree_rotZ_vdiv a _ _).bind fun u1 _ _ _ h => ?_
  subst h
  refine (agree_rotZ_vdiv a _ _).bind fun u2 _ _ _ h => ?_
  subst h
  simp only [rotZ_cross, rotZ_norm]
  refine (agree_rotZ_vdiv a _ _).bind fun ih _ _ _ h => ?_
  subst h
  simp only [rotZ_cross, rotZ_z]
  refine .same fun _ _ => .same fun _ _ => .same fun _ _ => .same fun _ _ => .same fun _ _ => .same fun _ _ =>
    .same fun _ _ => .same fun _ _ => .same fun _ _ => .ok ?_
  by_cases hz : ih.z < 0 <;> cases pro <;> simp [hz, rotZ_neg, rotZ_smul, rotZ_add]

/-- C34, `pan2016`. -/
theorem pan_rotation (b : Brent) :
    pan2016 b mu (rotZ a r1) (rotZ a r2) tof M pro low N atol rtol full clock =
      (pan2016 b mu r1 r2 tof M pro low N atol rtol full clock).map (Output.mapV (rotZ a)) := by
  have hval := agree_of_map (vallado_rotation a mu r1 r2 tof M pro low N atol rtol full clock)
  refine Agree.map ?_
  unfold pan2016
  rw [rotZ_assert, rotZ_transferAngle, rotZ_norm, rotZ_norm]
  refine .same fun _ _ => .same fun _ _ => .same fun θ _ => .same fun _ _ => .same fun _ _ => ?_
  split_ifs
  · exact hval
  · refine Agree.bind (R := fun g g' => g' = { g with ix := rotZ a g.ix, iy := rotZ a g.iy }) ?_ fun g _ _ _ h => ?_
    · unfold Pan.getPlanarGeometry
      simp only [rotZ_norm]
      refine (agree_rotZ_vdiv a _ _).bind fun u1 _ _ _ h => ?_
      subst h
      refine (rotZ_orbitNormal a r1 r2 pro).bind fun ih _ _ _ h => .ok ?_
      subst h
      simp only [rotZ_cross]
    · subst h
      have hf : Pan.findArgumentOfPeriapsis b mu { g with ix := rotZ a g.ix, iy := rotZ a g.iy } tof N atol rtol =
          Pan.findArgumentOfPeriapsis b mu g tof N atol rtol := by
        have h1 : Pan.residual mu { g with ix := rotZ a g.ix, iy := rotZ a g.iy } tof = Pan.residual mu g tof := rfl
        have h2 : Pan.bracketAt mu { g with ix := rotZ a g.ix, iy := rotZ a g.iy } tof = Pan.bracketAt mu g tof := by
          funext i
          unfold Pan.bracketAt Pan.safeResidual
          rw [h1]
        unfold Pan.findArgumentOfPeriapsis Pan.getOmegaBrackets
        rw [h1, h2]
      rw [hf]
      cases Pan.findArgumentOfPeriapsis b mu g tof N atol rtol with
      | ok p =>
        obtain ⟨om, n⟩ := p
        simp only []
        unfold Pan.finish
        refine .same fun _ _ => Agree.bind (R := fun x y => y = x) (.refl fun _ _ => rfl) fun el _ _ _ h => ?_
        subst h
        refine .output a full ?_
        unfold Pan.reconstruct
        refine .same fun _ _ => .same fun _ _ => .same fun _ _ => .ok ?_
        simp only [rotZ_smul, rotZ_add]
      | error e => cases e <;> first | exact hval | exact .inl ⟨_, rfl, rfl⟩

end

end Lamberthub
