import Verif.Proofs.AgreeLemmas
import Verif.Props.Rotation

/-!
# The whole symmetry group of the Lambert problem with a polar axis (property C61)

The isometries that keep the polar axis as a line are the rotations about it, the reflection in the equatorial
plane, the reflections in the planes through the axis, and their products.  The reflection in the equatorial
plane keeps prograde motions prograde, the reflections in planes through the axis exchange prograde and
retrograde.  The theorems below are equations between the two runs of a solver, for all inputs and all those
isometries.
-/

set_option autoImplicit false

namespace Lamberthub
open Spec

/-- The isometry that reflects in the plane `y = 0` if `my`, in the plane `z = 0` if `mz`, and then turns by the
angle `a` about the `z` axis. -/
noncomputable def Spec.polarMap (a : ℝ) (my mz : Bool) (v : V3) : V3 :=
  rotZ a ⟨v.x, if my then -v.y else v.y, if mz then -v.z else v.z⟩

/-- What the proofs use of an isometry `Q` that keeps the polar axis: `σ` is its determinant, `κ` the sign of its
action on the axis, and `flip` tells whether it exchanges prograde and retrograde. -/
structure Sym (Q : V3 → V3) (σ κ : ℝ) (flip : Bool) : Prop where
  sub : ∀ u v, Q u - Q v = Q (u - v)
  add : ∀ u v, Q u + Q v = Q (u + v)
  smul : ∀ (c : ℝ) v, c • Q v = Q (c • v)
  dot : ∀ u v, V3.dot (Q u) (Q v) = V3.dot u v
  cross : ∀ u v, V3.cross (Q u) (Q v) = Q (σ • V3.cross u v)
  z : ∀ v, (Q v).z = κ * v.z
  sq : σ ^ 2 = 1
  turn : σ * κ = if flip then -1 else 1

theorem sym_polarMap (a : ℝ) (my mz : Bool) : Sym (polarMap a my mz) ((if my then -1 else 1) * (if mz then -1 else 1))
    (if mz then -1 else 1) my := by
  unfold polarMap
  constructor
  · intro u v; rw [rotZ_sub]; congr 1; ext <;> cases my <;> cases mz <;> simp <;> ring
  · intro u v; rw [rotZ_add]; congr 1; ext <;> cases my <;> cases mz <;> simp <;> ring
  · intro c v; rw [rotZ_smul]; congr 1; ext <;> cases my <;> cases mz <;> simp
  · intro u v; rw [rotZ_dot]; cases my <;> cases mz <;> simp [V3.dot]
  · intro u v; rw [rotZ_cross]; congr 1; ext <;> cases my <;> cases mz <;> simp [V3.cross] <;> ring
  · intro v; rw [rotZ_z]; cases mz <;> simp
  · cases my <;> cases mz <;> norm_num
  · cases my <;> cases mz <;> norm_num

namespace Sym
variable {Q : V3 → V3} {σ κ : ℝ} {flip : Bool}

theorem norm (hQ : Sym Q σ κ flip) (v : V3) : V3.norm (Q v) = V3.norm v := by
  unfold V3.norm; rw [hQ.dot]

theorem neg (hQ : Sym Q σ κ flip) (v : V3) : -Q v = Q (-v) := by
  have e : ∀ w : V3, -w = (-1 : ℝ) • w := by intro w; ext <;> simp
  rw [e, hQ.smul, ← e]

theorem eq_zero (hQ : Sym Q σ κ flip) {v : V3} : Q v = 0 ↔ v = 0 := by
  rw [← norm_eq_zero_iff, hQ.norm, norm_eq_zero_iff]

theorem inj (hQ : Sym Q σ κ flip) {u v : V3} : Q u = Q v ↔ u = v := by
  have e : ∀ a b : V3, a = b ↔ a - b = 0 := by
    intro a b
    constructor
    · rintro rfl; ext <;> simp
    · intro h
      have hx := congrArg V3.x h
      have hy := congrArg V3.y h
      have hz := congrArg V3.z h
      simp only [V3.sub_x, V3.sub_y, V3.sub_z, V3.zero_x, V3.zero_y, V3.zero_z] at hx hy hz
      ext <;> linarith
  rw [e, hQ.sub, hQ.eq_zero, ← e]

theorem sigma (hQ : Sym Q σ κ flip) : σ = 1 ∨ σ = -1 := by
  have h : (σ - 1) * (σ + 1) = 0 := by linear_combination hQ.sq
  rcases mul_eq_zero.1 h with h | h
  · left; linarith
  · right; linarith

theorem normσ (hQ : Sym Q σ κ flip) (v : V3) : V3.norm (σ • v) = V3.norm v := by
  rw [norm_smul]
  rcases hQ.sigma with h | h <;> rw [h] <;> simp

theorem cross_eq_zero (hQ : Sym Q σ κ flip) {u v : V3} : V3.cross (Q u) (Q v) = 0 ↔ V3.cross u v = 0 := by
  rw [hQ.cross, hQ.eq_zero, ← norm_eq_zero_iff, hQ.normσ, norm_eq_zero_iff]

theorem kAxis (hQ : Sym Q σ κ flip) (v : V3) : V3.dot kAxis (Q (σ • v)) = (if flip then -1 else 1) * V3.dot kAxis v := by
  have e : ∀ w, V3.dot Lamberthub.kAxis w = w.z := by intro w; simp [V3.dot, Lamberthub.kAxis]
  rw [e, e, hQ.z, ← hQ.turn, V3.smul_z]; ring

theorem agree_vdiv (hQ : Sym Q σ κ flip) (v : V3) (c : ℝ) : Agree (fun x y => y = Q x) (vdiv v c) (vdiv (Q v) c) := by
  refine agree_of_map ?_
  unfold vdiv
  by_cases h : c = 0
  · rw [if_pos h, if_pos h]; rfl
  · rw [if_neg h, if_neg h, hQ.smul]; rfl

/-- The normal vector is transformed as an axial vector. -/
theorem agree_normal (hQ : Sym Q σ κ flip) (v : V3) (c : ℝ) :
    Agree (fun x y => y = Q (σ • x)) (vdiv v c) (vdiv (Q (σ • v)) c) := by
  refine agree_of_map ?_
  unfold vdiv
  by_cases h : c = 0
  · rw [if_pos h, if_pos h]; rfl
  · rw [if_neg h, if_neg h, hQ.smul]
    have : c⁻¹ • σ • v = σ • c⁻¹ • v := by ext <;> simp <;> ring
    rw [this]; rfl

theorem transferAngle (hQ : Sym Q σ κ flip) (r1 r2 : V3) (pro : Bool) :
    getTransferAngle (Q r1) (Q r2) (xor flip pro) = getTransferAngle r1 r2 pro := by
  refine Agree.eq ?_
  unfold getTransferAngle
  simp only []
  by_cases h : V3.cross r1 r2 = 0
  · have h' : V3.cross (Q r1) (Q r2) = 0 := hQ.cross_eq_zero.2 h
    rw [if_pos h, if_pos h']
    have hs : sameSigns (Q r1) (Q r2) ↔ sameSigns r1 r2 := by
      rw [sameSigns_iff h, sameSigns_iff h', hQ.eq_zero, hQ.eq_zero, hQ.dot]
    by_cases h2 : sameSigns r1 r2
    · rw [if_pos h2, if_pos (hs.2 h2)]; exact .ok rfl
    · rw [if_neg h2, if_neg fun q => h2 (hs.1 q)]; exact .ok rfl
  · rw [if_neg h, if_neg (fun q => h (hQ.cross_eq_zero.1 q)), hQ.cross, hQ.norm, hQ.normσ, hQ.norm, hQ.norm, hQ.dot]
    refine (hQ.agree_normal _ _).bind fun u _ _ _ h => ?_
    subst h
    rw [hQ.kAxis]
    refine .same fun _ _ => .same fun _ _ => ?_
    cases flip <;> cases pro <;> simp <;> exact .refl fun _ _ => rfl

theorem orbitNormal (hQ : Sym Q σ κ flip) (r1 r2 : V3) (pro : Bool) :
    Agree (fun x y => y = Q (σ • x)) (getOrbitNormalVector r1 r2 pro) (getOrbitNormalVector (Q r1) (Q r2) (xor flip pro)) := by
  unfold getOrbitNormalVector
  simp only [hQ.cross, hQ.norm, hQ.normσ]
  refine (hQ.agree_normal _ _).bind fun u _ _ _ h => ?_
  subst h
  have e : ∀ w : V3, σ • -w = -(σ • w) := by intro w; ext <;> simp
  rw [hQ.kAxis, hQ.neg, ← e]
  cases flip <;> cases pro <;> simp <;> split_ifs <;> exact .ok rfl

/-- A tangent vector `n × u`, where `n` is the normal. -/
theorem tangent (hQ : Sym Q σ κ flip) (n u : V3) : V3.cross (Q (σ • n)) (Q u) = Q (V3.cross n u) := by
  rw [hQ.cross]
  congr 1
  have := hQ.sq
  ext <;> simp [V3.cross]
  · linear_combination (n.y * u.z - n.z * u.y) * this
  · linear_combination (n.z * u.x - n.x * u.z) * this
  · linear_combination (n.x * u.y - n.y * u.x) * this

theorem tangent' (hQ : Sym Q σ κ flip) (n u : V3) : V3.cross (Q u) (Q (σ • n)) = Q (V3.cross u n) := by
  rw [hQ.cross]
  congr 1
  have := hQ.sq
  ext <;> simp [V3.cross]
  · linear_combination (u.y * n.z - u.z * n.y) * this
  · linear_combination (u.z * n.x - u.x * n.z) * this
  · linear_combination (u.x * n.y - u.y * n.x) * this

theorem normal_z (hQ : Sym Q σ κ flip) (n : V3) : (Q (σ • n)).z = (if flip then -1 else 1) * n.z := by
  rw [hQ.z, ← hQ.turn, V3.smul_z]; ring

theorem assert (hQ : Sym Q σ κ flip) (mu : ℝ) (r1 r2 : V3) (tof : ℝ) (M : ℤ) :
    assertParametersAreValid mu (Q r1) (Q r2) tof M = assertParametersAreValid mu r1 r2 tof M := by
  unfold assertParametersAreValid assertPositionVectors assertPositionVector
  rw [raiseIf_congr _ hQ.eq_zero, raiseIf_congr _ hQ.inj]

theorem _root_.Lamberthub.neg_cross (a b : V3) : -V3.cross a b = V3.cross b a := by
  ext <;> simp [V3.cross] <;> ring

end Sym

section
variable {Q : V3 → V3} {σ κ : ℝ} {flip : Bool} (hQ : Sym Q σ κ flip)
variable (mu : ℝ) (r1 r2 : V3) (tof : ℝ) (M : ℤ) (pro low : Bool) (N : ℕ) (atol rtol : ℝ) (full : Bool) (clock : ℝ)

/-- What ends every solver: a pair of velocities. -/
theorem Agree.outputQ {v w : Py (V3 × V3)} {n : ℕ} {tpi : ℝ}
    (h : Agree (fun x y => y = (Q x.1, Q x.2)) v w) :
    Agree (fun x y => y = Output.mapV Q x)
      (v >>= fun p => match p with | (v1, v2) => .ok (mkOutput full v1 v2 n tpi))
      (w >>= fun p => match p with | (v1, v2) => .ok (mkOutput full v1 v2 n tpi)) := by
  refine h.bind fun ⟨v1, v2⟩ _ _ _ h => .ok ?_
  subst h
  rw [mkOutput_mapV]

include hQ

/-- C61, `vallado2013`. -/
theorem vallado_symmetry :
    vallado2013 mu (Q r1) (Q r2) tof M (xor flip pro) low N atol rtol full clock =
      (vallado2013 mu r1 r2 tof M pro low N atol rtol full clock).map (Output.mapV Q) := by
  refine Agree.map ?_
  unfold vallado2013
  rw [hQ.assert, hQ.transferAngle r1 r2 pro]
  simp only [hQ.norm, hQ.smul, hQ.sub]
  refine .same fun _ _ => .same fun _ _ => .same fun _ _ => .same fun _ _ => .same fun ⟨_, _, _⟩ _ => .same fun _ _ =>
    .same fun _ _ => .same fun _ _ => .same fun _ _ => (hQ.agree_vdiv _ _).bind fun v1 _ _ _ h => ?_
  subst h
  refine (hQ.agree_vdiv _ _).bind fun v2 _ _ _ h => .ok ?_
  subst h
  rw [mkOutput_mapV]

/-- C61, `delatorre2018`. -/
theorem delatorre_symmetry :
    delatorre2018 mu (Q r1) (Q r2) tof M (xor flip pro) low N atol rtol full clock =
      (delatorre2018 mu r1 r2 tof M pro low N atol rtol full clock).map (Output.mapV Q) := by
  refine Agree.map ?_
  unfold delatorre2018
  rw [hQ.assert, hQ.transferAngle r1 r2 pro]
  simp only [hQ.norm, hQ.smul, hQ.sub]
  refine .same fun _ _ => .same fun _ _ => .same fun _ _ => .same fun ⟨_, _⟩ _ => .same fun _ _ => .same fun _ _ =>
    .same fun _ _ => .same fun _ _ => .same fun _ _ => .same fun _ _ => (hQ.agree_vdiv _ _).bind fun v1 _ _ _ h => ?_
  subst h
  refine (hQ.agree_vdiv _ _).bind fun v2 _ _ _ h => ?_
  subst h
  refine .same fun _ _ => .ok ?_
  rw [mkOutput_mapV]

/-- C61, `gauss1809`. -/
theorem gauss_symmetry :
    gauss1809 mu (Q r1) (Q r2) tof M (xor flip pro) low N atol rtol full clock =
      (gauss1809 mu r1 r2 tof M pro low N atol rtol full clock).map (Output.mapV Q) := by
  refine Agree.map ?_
  unfold gauss1809
  rw [hQ.assert, hQ.transferAngle r1 r2 pro]
  simp only [hQ.norm]
  refine .same fun _ _ => .same fun _ _ => .same fun _ _ => .same fun _ _ => .same fun _ _ => .same fun _ _ =>
    .same fun ⟨_, _⟩ _ => .same fun _ _ => .outputQ full ?_
  unfold Gauss.velocities
  simp only [hQ.norm, hQ.smul, hQ.sub]
  refine .same fun _ _ => .same fun _ _ => .same fun _ _ => .same fun _ _ => .same fun _ _ => .same fun _ _ =>
    .same fun _ _ => .same fun _ _ => .same fun _ _ => .same fun _ _ => .same fun _ _ => .same fun _ _ =>
    (hQ.agree_vdiv _ _).bind fun v1 _ _ _ h => .ok ?_
  subst h
  rw [hQ.smul, hQ.add]

/-- C61, `battin1984`. -/
theorem battin_symmetry :
    battin1984 mu (Q r1) (Q r2) tof M (xor flip pro) low N atol rtol full clock =
      (battin1984 mu r1 r2 tof M pro low N atol rtol full clock).map (Output.mapV Q) := by
  refine Agree.map ?_
  unfold battin1984
  rw [hQ.assert, hQ.transferAngle r1 r2 pro]
  simp only [hQ.norm, hQ.sub]
  refine .same fun _ _ => .same fun _ _ => .same fun _ _ => .same fun _ _ => .same fun _ _ => .same fun _ _ =>
    .same fun _ _ => .same fun ⟨_, _, _⟩ _ => .same fun _ _ => .outputQ full ?_
  unfold Battin.velocities
  simp only [hQ.norm, hQ.smul, hQ.sub]
  refine .same fun _ _ => .same fun _ _ => (hQ.agree_vdiv _ _).bind fun w1 _ _ _ h => ?_
  subst h
  refine (hQ.agree_vdiv _ _).bind fun w2 _ _ _ h => .ok ?_
  subst h
  rw [hQ.sub, hQ.add, hQ.smul, hQ.smul]

/-- C61, `der2011`. -/
theorem der_symmetry (b : Brent) :
    der2011 b mu (Q r1) (Q r2) tof M (xor flip pro) low N atol rtol full clock =
      (der2011 b mu r1 r2 tof M pro low N atol rtol full clock).map (Output.mapV Q) := by
  refine Agree.map ?_
  unfold der2011
  rw [hQ.assert, hQ.transferAngle r1 r2 pro]
  simp only [hQ.norm, hQ.sub]
  refine .same fun _ _ => .same fun _ _ => .same fun _ _ => .same fun _ _ => .same fun _ _ => .same fun _ _ =>
    .same fun _ _ => .same fun ⟨_, _, _⟩ _ => .same fun _ _ => .outputQ full ?_
  unfold Der.reconstructVelocities
  simp only [hQ.sub]
  refine .same fun _ _ => .same fun _ _ => .same fun _ _ => .same fun _ _ => .same fun _ _ =>
    (hQ.agree_vdiv _ _).bind fun w1 _ _ _ h => ?_
  subst h
  refine (hQ.agree_vdiv _ _).bind fun w2 _ _ _ h => ?_
  subst h
  refine (hQ.agree_vdiv _ _).bind fun w3 _ _ _ h => .ok ?_
  subst h
  simp only [hQ.smul, hQ.add, hQ.sub]

/-- C61, `jiang2016`. -/
theorem jiang_symmetry :
    jiang2016 mu (Q r1) (Q r2) tof M (xor flip pro) low N atol rtol full clock =
      (jiang2016 mu r1 r2 tof M pro low N atol rtol full clock).map (Output.mapV Q) := by
  refine Agree.map ?_
  unfold jiang2016
  rw [hQ.assert, hQ.transferAngle r1 r2 pro]
  simp only [hQ.norm, hQ.sub]
  refine .same fun _ _ => .same fun _ _ => .same fun _ _ => .same fun _ _ => .same fun _ _ => .same fun _ _ =>
    .same fun ⟨_, _⟩ _ => .outputQ full ?_
  unfold Jiang.reconstructVelocities
  refine .same fun _ _ => .same fun _ _ => .same fun _ _ => .same fun _ _ => .ok ?_
  simp only [hQ.smul, hQ.add, hQ.sub]

/-- C61, `mcelreath2025`. -/
theorem mcelreath_symmetry :
    mcelreath2025 mu (Q r1) (Q r2) tof M (xor flip pro) low N atol rtol full clock =
      (mcelreath2025 mu r1 r2 tof M pro low N atol rtol full clock).map (Output.mapV Q) := by
  refine Agree.map ?_
  unfold mcelreath2025
  rw [hQ.assert, hQ.transferAngle r1 r2 pro]
  simp only [hQ.norm]
  refine .same fun _ _ => .same fun _ _ => .same fun _ _ => .same fun _ _ => .same fun ⟨_, _⟩ _ => .same fun _ _ =>
    .outputQ full ?_
  unfold McElreath.reconstruct
  simp only [hQ.sub, hQ.norm]
  refine .same fun ⟨_, _, _, _⟩ _ => .same fun _ _ => .same fun _ _ => .same fun _ _ => .same fun _ _ => .same fun _ _ =>
    .same fun _ _ => (hQ.agree_vdiv _ _).bind fun w1 _ _ _ h => ?_
  subst h
  refine (hQ.agree_vdiv _ _).bind fun w2 _ _ _ h => ?_
  subst h
  refine (hQ.agree_vdiv _ _).bind fun w3 _ _ _ h => .ok ?_
  subst h
  simp only [hQ.smul, hQ.add, hQ.sub]

/-- C61, `negrete2024`. -/
theorem negrete_symmetry :
    negrete2024 mu (Q r1) (Q r2) tof M (xor flip pro) low N atol rtol full clock =
      (negrete2024 mu r1 r2 tof M pro low N atol rtol full clock).map (Output.mapV Q) := by
  refine Agree.map ?_
  unfold negrete2024
  rw [hQ.assert, hQ.transferAngle r1 r2 pro]
  simp only [hQ.norm]
  refine .same fun _ _ => .same fun _ _ => .same fun _ _ => .same fun _ _ => .same fun _ _ => .same fun _ _ =>
    .same fun _ _ => .outputQ full ?_
  unfold Negrete.reconstruct
  simp only [hQ.smul, hQ.sub]
  refine .same fun _ _ => .same fun _ _ => .same fun _ _ => .same fun _ _ => .same fun _ _ =>
    (hQ.agree_vdiv _ _).bind fun w1 _ _ _ h => ?_
  subst h
  refine (hQ.agree_vdiv _ _).bind fun w2 _ _ _ h => .ok ?_
  subst h
  rfl

/-- C61, `arora2013`. -/
theorem arora_symmetry (mz : Minimizer) (b : Brent) :
    arora2013 mz b mu (Q r1) (Q r2) tof M (xor flip pro) low N atol rtol full clock =
      (arora2013 mz b mu r1 r2 tof M pro low N atol rtol full clock).map (Output.mapV Q) := by
  refine Agree.map ?_
  unfold arora2013
  rw [hQ.assert, hQ.transferAngle r1 r2 pro]
  simp only [hQ.norm]
  refine .same fun _ _ => (hQ.agree_vdiv _ _).bind fun _ _ _ _ _ => (hQ.agree_vdiv _ _).bind fun _ _ _ _ _ =>
    .same fun _ _ => .same fun _ _ => .same fun _ _ => .same fun _ _ => (hQ.agree_vdiv _ _).bind fun w1 _ _ _ h => ?_
  subst h
  refine (hQ.agree_vdiv _ _).bind fun w2 _ _ _ h => ?_
  subst h
  simp only [hQ.norm]
  refine .same fun _ _ => .same fun _ _ => .same fun _ _ => .same fun _ _ => .same fun _ _ => .same fun _ _ =>
    .same fun _ _ => .same fun _ _ => .same fun ⟨_, _⟩ _ => .same fun _ _ => .outputQ full ?_
  unfold Arora.reconstruct
  simp only [hQ.smul, hQ.sub]
  refine .same fun _ _ => .same fun _ _ => .same fun _ _ => (hQ.agree_vdiv _ _).bind fun w1 _ _ _ h => ?_
  subst h
  refine .same fun _ _ => (hQ.agree_vdiv _ _).bind fun w2 _ _ _ h => .ok ?_
  subst h
  simp only [hQ.smul]

/-- C61, `gooding1990`. -/
theorem gooding_symmetry :
    gooding1990 mu (Q r1) (Q r2) tof M (xor flip pro) low N atol rtol full clock =
      (gooding1990 mu r1 r2 tof M pro low N atol rtol full clock).map (Output.mapV Q) := by
  refine Agree.map ?_
  unfold gooding1990
  rw [hQ.assert, hQ.transferAngle r1 r2 pro]
  simp only [hQ.norm]
  refine .same fun _ _ => (hQ.agree_vdiv _ _).bind fun u1 _ _ _ h => ?_
  subst h
  refine (hQ.agree_vdiv _ _).bind fun u2 _ _ _ h => ?_
  subst h
  refine .same fun _ _ => .same fun _ _ => (hQ.orbitNormal r1 r2 pro).bind fun ih _ _ _ h => ?_
  subst h
  refine .same fun ⟨⟨_, _, _, _⟩, _, _⟩ _ => .ok ?_
  simp only [hQ.tangent, hQ.smul, hQ.add, mkOutput_mapV]

theorem Izzo.sym_geometry (hp : flip = true → NotPolar r1 r2) :
    Agree (fun x y => y = (x.1, x.2.1, Q x.2.2.1, Q x.2.2.2))
    (Izzo.geometry r1 r2 pro) (Izzo.geometry (Q r1) (Q r2) (xor flip pro)) := by
  unfold Izzo.geometry
  simp only [hQ.norm, hQ.sub]
  refine (hQ.agree_vdiv _ _).bind fun u1 _ e1 _ h => ?_
  subst h
  refine (hQ.agree_vdiv _ _).bind fun u2 _ e2 _ h => ?_
  subst h
  simp only [hQ.cross, hQ.norm, hQ.normσ]
  refine (hQ.agree_normal _ _).bind fun ih _ e3 _ h => ?_
  subst h
  refine .same fun _ _ => .same fun _ _ => .ok ?_
  simp only [hQ.tangent, hQ.tangent', hQ.normal_z]
  cases flip
  · by_cases hz : ih.z < 0 <;> cases pro <;> simp [hz, hQ.neg]
  · have hz0 : ih.z ≠ 0 := by
      rw [vdiv_ok] at e1 e2 e3
      obtain ⟨n1, rfl⟩ := e1
      obtain ⟨n2, rfl⟩ := e2
      obtain ⟨n3, rfl⟩ := e3
      have := hp rfl
      unfold NotPolar at this
      rw [cross_smul_smul] at n3 ⊢
      simp only [V3.smul_z]
      exact mul_ne_zero (inv_ne_zero n3) (mul_ne_zero (mul_ne_zero (inv_ne_zero n1) (inv_ne_zero n2)) this)
    rcases lt_or_gt_of_ne hz0 with hz | hz
    · have h1 : ¬ (0 < ih.z) := by linarith
      cases pro <;> simp [hz, h1, hQ.neg, neg_cross]
    · have h1 : ¬ (ih.z < 0) := by linarith
      cases pro <;> simp [hz, h1, hQ.neg, neg_cross]

/-- C61, `izzo2015`: in planes through the polar axis only the isometries that keep the sense. -/
theorem izzo_symmetry (hp : flip = true → NotPolar r1 r2) :
    izzo2015 mu (Q r1) (Q r2) tof M (xor flip pro) low N atol rtol =
      (izzo2015 mu r1 r2 tof M pro low N atol rtol).map fun p => (Q p.1, Q p.2) := by
  refine Agree.map ?_
  unfold izzo2015
  simp only [hQ.norm, hQ.sub]
  refine (Izzo.sym_geometry hQ r1 r2 pro hp).bind fun ⟨s, ll, t1, t2⟩ _ _ _ h => ?_
  subst h
  refine .same fun _ _ => .same fun _ _ => .same fun ⟨_, _⟩ _ => .same fun _ _ => .same fun _ _ => .same fun _ _ =>
    .same fun ⟨_, _, _, _⟩ _ => (hQ.agree_vdiv _ _).bind fun u1 _ _ _ h => ?_
  subst h
  refine (hQ.agree_vdiv _ _).bind fun u2 _ _ _ h => .ok ?_
  subst h
  simp only [hQ.smul, hQ.add]

/-- C61, `thorne2004`: in planes through the polar axis only the isometries that keep the sense. -/
theorem thorne_symmetry (hp : flip = true → NotPolar r1 r2) (b : Brent) :
    thorne2004 b mu (Q r1) (Q r2) tof M (xor flip pro) low N atol rtol full clock =
      (thorne2004 b mu r1 r2 tof M pro low N atol rtol full clock).map (Output.mapV Q) := by
  have hz0 : ∀ {u1 u2 ih : V3} {n1 n2 : ℝ}, vdiv r1 n1 = .ok u1 → vdiv r2 n2 = .ok u2 →
      vdiv (V3.cross u1 u2) (V3.norm (V3.cross u1 u2)) = .ok ih → flip = true → ih.z ≠ 0 := by
    intro u1 u2 ih n1 n2 e1 e2 e3 hf
    rw [vdiv_ok] at e1 e2 e3
    obtain ⟨n1, rfl⟩ := e1
    obtain ⟨n2, rfl⟩ := e2
    obtain ⟨n3, rfl⟩ := e3
    have := hp hf
    unfold NotPolar at this
    rw [cross_smul_smul] at n3 ⊢
    simp only [V3.smul_z]
    exact mul_ne_zero (inv_ne_zero n3) (mul_ne_zero (mul_ne_zero (inv_ne_zero n1) (inv_ne_zero n2)) this)
  have hY : ∀ x s c, Thorne.getYFromX x (Q r1) (Q r2) s c (xor flip pro) = Thorne.getYFromX x r1 r2 s c pro := by
    intro x s c
    refine Agree.eq ?_
    unfold Thorne.getYFromX
    refine Agree.bind (R := fun x y => y = x) ?_ fun _ _ _ _ h => by subst h; exact .refl fun _ _ => rfl
    unfold Thorne.getLambda
    simp only [hQ.norm]
    refine (hQ.agree_vdiv _ _).bind fun u1 _ e1 _ h => ?_
    subst h
    refine (hQ.agree_vdiv _ _).bind fun u2 _ e2 _ h => ?_
    subst h
    simp only [hQ.cross, hQ.norm, hQ.normσ]
    refine (hQ.agree_normal _ _).bind fun ih _ e3 _ h => ?_
    subst h
    refine .same fun _ _ => .same fun _ _ => .ok ?_
    have hz := hz0 e1 e2 e3
    simp only [hQ.normal_z]
    cases flip
    · simp
    · rcases lt_or_gt_of_ne (hz rfl) with hz | hz
      · have h1 : ¬ (0 < ih.z) := by linarith
        cases pro <;> simp [hz, h1]
      · have h1 : ¬ (ih.z < 0) := by linarith
        cases pro <;> simp [hz, h1]
  refine Agree.map ?_
  unfold thorne2004
  rw [hQ.assert, hQ.transferAngle r1 r2 pro]
  simp only [hQ.norm, hQ.sub, hY]
  refine .same fun _ _ => .same fun _ _ => .same fun _ _ => .same fun _ _ => .same fun _ _ => .same fun ⟨_, _, _⟩ _ =>
    .same fun _ _ => .same fun _ _ => .same fun _ _ => .outputQ full ?_
  unfold Thorne.reconstruct
  simp only [hQ.norm]
  refine (hQ.agree_vdiv _ _).bind fun u1 _ e1 _ h => ?_
  subst h
  refine (hQ.agree_vdiv _ _).bind fun u2 _ e2 _ h => ?_
  subst h
  simp only [hQ.cross, hQ.norm, hQ.normσ]
  refine (hQ.agree_normal _ _).bind fun ih _ e3 _ h => ?_
  subst h
  have hz := hz0 e1 e2 e3
  simp only [hQ.tangent, hQ.tangent', hQ.normal_z]
  refine .same fun l0 _ => .same fun l0 _ => ?_
  have key : ∀ u : V3, (if (xor flip pro) = false then
        -(if (if flip then -1 else 1) * ih.z < 0 then Q (V3.cross u ih) else Q (V3.cross ih u))
        else if (if flip then -1 else 1) * ih.z < 0 then Q (V3.cross u ih) else Q (V3.cross ih u)) =
      Q (if pro = false then -(if ih.z < 0 then V3.cross u ih else V3.cross ih u)
        else if ih.z < 0 then V3.cross u ih else V3.cross ih u) := by
    intro u
    cases flip
    · by_cases hz : ih.z < 0 <;> cases pro <;> simp [hz, hQ.neg]
    · rcases lt_or_gt_of_ne (hz rfl) with hz | hz
      · have h1 : ¬ (0 < ih.z) := by linarith
        cases pro <;> simp [hz, h1, hQ.neg, neg_cross]
      · have h1 : ¬ (ih.z < 0) := by linarith
        cases pro <;> simp [hz, h1, hQ.neg, neg_cross]
  have kl : (if (xor flip pro) = false then -(if (if flip then -1 else 1) * ih.z < 0 then -l0 else l0)
        else if (if flip then -1 else 1) * ih.z < 0 then -l0 else l0) =
      (if pro = false then -(if ih.z < 0 then -l0 else l0) else if ih.z < 0 then -l0 else l0) := by
    cases flip
    · simp
    · rcases lt_or_gt_of_ne (hz rfl) with hz | hz
      · have h1 : ¬ (0 < ih.z) := by linarith
        cases pro <;> simp [hz, h1]
      · have h1 : ¬ (ih.z < 0) := by linarith
        cases pro <;> simp [hz, h1]
  rw [key, key, kl]
  refine .same fun _ _ => .same fun _ _ => .same fun _ _ => .same fun _ _ => .same fun _ _ => .same fun _ _ =>
    .same fun _ _ => .ok ?_
  simp only [hQ.smul, hQ.add]

/-- C61, `pan2016`. -/
theorem pan_symmetry (b : Brent) :
    pan2016 b mu (Q r1) (Q r2) tof M (xor flip pro) low N atol rtol full clock =
      (pan2016 b mu r1 r2 tof M pro low N atol rtol full clock).map (Output.mapV Q) := by
  have hval := agree_of_map (vallado_symmetry hQ mu r1 r2 tof M pro low N atol rtol full clock)
  refine Agree.map ?_
  unfold pan2016
  rw [hQ.assert, hQ.transferAngle r1 r2 pro, hQ.norm, hQ.norm]
  refine .same fun _ _ => .same fun _ _ => .same fun θ _ => .same fun _ _ => .same fun _ _ => ?_
  split_ifs
  · exact hval
  · refine Agree.bind (R := fun g g' => g' = { g with ix := Q g.ix, iy := Q g.iy }) ?_ fun g _ _ _ h => ?_
    · unfold Pan.getPlanarGeometry
      simp only [hQ.norm]
      refine (hQ.agree_vdiv _ _).bind fun u1 _ _ _ h => ?_
      subst h
      refine (hQ.orbitNormal r1 r2 pro).bind fun ih _ _ _ h => .ok ?_
      subst h
      simp only [hQ.tangent]
    · subst h
      have hf : Pan.findArgumentOfPeriapsis b mu { g with ix := Q g.ix, iy := Q g.iy } tof N atol rtol =
          Pan.findArgumentOfPeriapsis b mu g tof N atol rtol := by
        have h1 : Pan.residual mu { g with ix := Q g.ix, iy := Q g.iy } tof = Pan.residual mu g tof := rfl
        have h2 : Pan.bracketAt mu { g with ix := Q g.ix, iy := Q g.iy } tof = Pan.bracketAt mu g tof := by
          funext i
          unfold Pan.bracketAt Pan.safeResidual
          rw [h1]
        unfold Pan.findArgumentOfPeriapsis Pan.getOmegaBrackets
        rw [h1, h2]
      rw [hf]
      cases Pan.findArgumentOfPeriapsis b mu g tof N atol rtol with
      | ok p =>
        obtain ⟨om, n⟩ := p
        simp only []
        unfold Pan.finish
        refine .same fun _ _ => Agree.bind (R := fun x y => y = x) (.refl fun _ _ => rfl) fun el _ _ _ h => ?_
        subst h
        refine .outputQ full ?_
        unfold Pan.reconstruct
        refine .same fun _ _ => .same fun _ _ => .same fun _ _ => .ok ?_
        simp only [hQ.smul, hQ.add]
      | error e => cases e <;> first | exact hval | exact .inl ⟨_, rfl, rfl⟩

end

end Lamberthub
