import Verif.Proofs.AgreeLemmas

/-!
# Reversal of the motion (property C59)

The motion of two bodies can be run backwards: if a body goes from `r1` to `r2` and arrives with the
velocity `v2`, then a body that leaves `r2` with the velocity `-v2` goes through the same positions in
the opposite order and arrives at `r1` with the velocity `-v1`.  Its sense of motion is the opposite one.
A solver respects this when the problem with the positions exchanged and the other value of
`is_prograde` returns `(-v2, -v1)`, or the same error.  The theorems are equations between the two runs,
for all inputs.
-/

set_option autoImplicit false

namespace Lamberthub
open Spec

/-- The output of the reversed problem, seen from the output of the direct one. -/
def Output.reversed : Output → Output
  | .plain v1 v2 => .plain (-v2) (-v1)
  | .full v1 v2 n t => .full (-v2) (-v1) n t

theorem mkOutput_reversed (b : Bool) (v1 v2 : V3) (n : ℕ) (t : ℝ) :
    (mkOutput b v1 v2 n t).reversed = mkOutput b (-v2) (-v1) n t := by cases b <;> rfl

section Vectors

theorem V3.cross_swap (u v : V3) : V3.cross v u = -V3.cross u v := by
  ext <;> simp [V3.cross] <;> ring

theorem V3.neg_eq_zero {v : V3} : -v = 0 ↔ v = 0 := by
  constructor
  · intro h
    have hx := congrArg V3.x h
    have hy := congrArg V3.y h
    have hz := congrArg V3.z h
    simp at hx hy hz
    ext <;> simp [hx, hy, hz]
  · rintro rfl; ext <;> simp

theorem V3.norm_neg' (v : V3) : V3.norm (-v) = V3.norm v := by
  unfold V3.norm; congr 1; simp [V3.dot]

theorem V3.dot_swap (u v : V3) : V3.dot v u = V3.dot u v := by
  simp [V3.dot]; ring

theorem V3.norm_sub_swap (u v : V3) : V3.norm (v - u) = V3.norm (u - v) := by
  rw [← V3.norm_neg']; congr 1; ext <;> simp

theorem vdiv_neg (v : V3) (c : ℝ) : vdiv (-v) c = (vdiv v c).map fun w => -w := by
  unfold vdiv
  by_cases h : c = 0
  · rw [if_pos h, if_pos h]; rfl
  · rw [if_neg h, if_neg h]
    show Except.ok _ = Except.ok _
    congr 1; ext <;> simp

theorem agree_vdiv_neg {v w : V3} (h : w = -v) (c : ℝ) : Agree (fun x y => y = -x) (vdiv v c) (vdiv w c) := by
  subst h; exact agree_of_map (vdiv_neg v c)

theorem sameSigns_comm (u v : V3) : sameSigns v u ↔ sameSigns u v := by
  unfold sameSigns; simp only [eq_comm]

/-- The transfer angle of the reversed problem. -/
theorem transferAngle_reversed (r1 r2 : V3) (pro : Bool) :
    getTransferAngle r2 r1 (!pro) = getTransferAngle r1 r2 pro := by
  refine Agree.eq ?_
  unfold getTransferAngle
  simp only []
  rw [V3.cross_swap r1 r2, V3.norm_neg', V3.dot_swap r1 r2, mul_comm (V3.norm r2)]
  by_cases h : V3.cross r1 r2 = 0
  · rw [if_pos h, if_pos (V3.neg_eq_zero.2 h)]
    by_cases h2 : sameSigns r1 r2
    · rw [if_pos h2, if_pos ((sameSigns_comm _ _).2 h2)]; exact .ok rfl
    · rw [if_neg h2, if_neg fun q => h2 ((sameSigns_comm _ _).1 q)]; exact .ok rfl
  · rw [if_neg h, if_neg fun q => h (V3.neg_eq_zero.1 q)]
    refine (agree_vdiv_neg rfl _).bind fun u _ _ _ h => ?_
    subst h
    have e : V3.dot kAxis (-u) = -V3.dot kAxis u := by simp [V3.dot]; ring
    rw [e]
    refine .same fun q _ => .same fun t _ => ?_
    cases pro <;> simp <;> exact .refl fun _ _ => rfl

/-- The normal vector of the reversed problem. -/
theorem orbitNormal_reversed (r1 r2 : V3) (pro : Bool) :
    Agree (fun x y => y = -x) (getOrbitNormalVector r1 r2 pro) (getOrbitNormalVector r2 r1 (!pro)) := by
  unfold getOrbitNormalVector
  simp only []
  rw [V3.cross_swap r1 r2, V3.norm_neg']
  refine (agree_vdiv_neg rfl _).bind fun u _ _ _ h => ?_
  subst h
  have e : V3.dot kAxis (-u) = -V3.dot kAxis u := by simp [V3.dot]; ring
  rw [e]
  cases pro <;> simp <;> split_ifs <;> exact .ok rfl

theorem assert_reversed {r1 r2 : V3} (h1 : r1 ≠ 0) (h2 : r2 ≠ 0) (mu tof : ℝ) (M : ℤ) :
    assertParametersAreValid mu r2 r1 tof M = assertParametersAreValid mu r1 r2 tof M := by
  unfold assertParametersAreValid assertPositionVectors assertPositionVector
  rw [raiseIf_neg _ h1, raiseIf_neg _ h2, raiseIf_congr _ (eq_comm (a := r2) (b := r1))]

end Vectors

section
variable {r1 r2 : V3} (h1 : r1 ≠ 0) (h2 : r2 ≠ 0)
variable (mu tof : ℝ) (M : ℤ) (pro low : Bool) (N : ℕ) (atol rtol : ℝ) (full : Bool) (clock : ℝ)

/-- What ends every solver: a pair of velocities. -/
theorem Agree.reversed {v w : Py (V3 × V3)} {n : ℕ} {tpi : ℝ}
    (h : Agree (fun x y => y = (-x.2, -x.1)) v w) :
    Agree (fun x y => y = Output.reversed x)
      (v >>= fun p => match p with | (v1, v2) => .ok (mkOutput full v1 v2 n tpi))
      (w >>= fun p => match p with | (v1, v2) => .ok (mkOutput full v1 v2 n tpi)) := by
  refine h.bind fun ⟨v1, v2⟩ _ _ _ h => .ok ?_
  subst h
  rw [mkOutput_reversed]

theorem Vallado.getA_comm (a b θ : ℝ) : Vallado.getA b a θ = Vallado.getA a b θ := by
  unfold Vallado.getA; rw [mul_comm b a]

theorem Vallado.yAtPsi_comm (ψ a b A : ℝ) : Vallado.yAtPsi ψ b a A = Vallado.yAtPsi ψ a b A := by
  unfold Vallado.yAtPsi; rw [add_comm b a]

theorem Vallado.readjust_comm (a b A : ℝ) : Vallado.readjust b a A = Vallado.readjust a b A := by
  funext s
  have : Vallado.readjustBody b a A = Vallado.readjustBody a b A := by
    funext s
    unfold Vallado.readjustBody
    simp only [Vallado.yAtPsi_comm _ a b, mul_comm b a]
  unfold Vallado.readjust
  rw [this]

theorem Vallado.loop_comm (mu a b A tof rtol : ℝ) (n : ℕ) : ∀ k x y z,
    Vallado.loop mu b a A tof rtol n k x y z = Vallado.loop mu a b A tof rtol n k x y z := by
  induction n with
  | zero => intro k x y z; rfl
  | succ n ih =>
    intro k x y z
    simp only [Vallado.loop, Vallado.yAtPsi_comm _ a b, Vallado.readjust_comm a b, ih]

/-- Two quotients with the same divisor, computed in the two orders. -/
theorem agree_vdiv_swap {γ δ : Type} {S : γ → δ → Prop} {a b a' b' : V3} {c : ℝ} {f : V3 → V3 → Py γ}
    {g : V3 → V3 → Py δ} (ha : b' = -a) (hb : a' = -b) (h : ∀ x y, Agree S (f x y) (g (-y) (-x))) :
    Agree S (vdiv a c >>= fun x => vdiv b c >>= fun y => f x y)
      (vdiv a' c >>= fun x => vdiv b' c >>= fun y => g x y) := by
  subst ha hb
  by_cases hc : c = 0
  · refine .inl ⟨.undefined, ?_, ?_⟩ <;> simp [vdiv, hc]
  · rw [vdiv_neg, vdiv_neg, vdiv_eq hc, vdiv_eq hc]
    exact h _ _

theorem pdiv_zero' (a : ℝ) : pdiv a 0 = .error .undefined := by simp [pdiv]

include h1 h2

/-- **C59**, `vallado2013`. -/
theorem vallado_reversal :
    vallado2013 mu r2 r1 tof M (!pro) low N atol rtol full clock =
      (vallado2013 mu r1 r2 tof M pro low N atol rtol full clock).map Output.reversed := by
  have n1 := (norm_pos_iff.2 h1).ne'
  have n2 := (norm_pos_iff.2 h2).ne'
  refine Agree.map ?_
  unfold vallado2013
  simp only []
  rw [assert_reversed h1 h2, transferAngle_reversed]
  simp only [Vallado.getA_comm (V3.norm r1), Vallado.loop_comm _ (V3.norm r1), pdiv_eq n1, pdiv_eq n2, ok_bind]
  refine .same fun _ _ => .same fun _ _ => .same fun _ _ => .same fun _ _ => .same fun ⟨y, _, _⟩ _ => ?_
  simp only []
  refine .same fun _ _ => .same fun _ _ => agree_vdiv_swap ?_ ?_ fun x y => .ok (mkOutput_reversed ..).symm <;>
    ext <;> simp <;> ring

/-- **C59**, `delatorre2018`. -/
theorem delatorre_reversal :
    delatorre2018 mu r2 r1 tof M (!pro) low N atol rtol full clock =
      (delatorre2018 mu r1 r2 tof M pro low N atol rtol full clock).map Output.reversed := by
  refine Agree.map ?_
  unfold delatorre2018
  simp only []
  rw [assert_reversed h1 h2, transferAngle_reversed]
  simp only [add_comm (V3.norm r2) (V3.norm r1), mul_comm (V3.norm r2) (V3.norm r1)]
  refine .same fun _ _ => .same fun _ _ => .same fun _ _ => .same fun ⟨z, n⟩ _ => ?_
  simp only []
  refine .same fun _ _ => .same fun p _ => ?_
  by_cases hp : p = 0
  · subst hp; simp only [pdiv_zero']; exact .inl ⟨_, rfl, rfl⟩
  simp only [pdiv_eq hp, ok_bind]
  refine .same fun _ _ => .same fun _ _ => agree_vdiv_swap ?_ ?_ fun x y => .same fun _ _ => .ok (mkOutput_reversed ..).symm <;>
    ext <;> simp <;> ring

/-- **C59**, `negrete2024`. -/
theorem negrete_reversal :
    negrete2024 mu r2 r1 tof M (!pro) low N atol rtol full clock =
      (negrete2024 mu r1 r2 tof M pro low N atol rtol full clock).map Output.reversed := by
  have n1 := (norm_pos_iff.2 h1).ne'
  have n2 := (norm_pos_iff.2 h2).ne'
  have hA : ∀ a b θ, Negrete.getA b a θ = Negrete.getA a b θ := fun a b θ => by
    unfold Negrete.getA; rw [mul_comm b a]
  have hy : ∀ z a b A, Negrete.yAtZ z b a A = Negrete.yAtZ z a b A := fun z a b A => by
    unfold Negrete.yAtZ; rw [add_comm (b : ℂ) a]
  have hz : ∀ a b A M, Negrete.findZ mu b a A tof M low (max 4 N) atol rtol = Negrete.findZ mu a b A tof M low (max 4 N) atol rtol := by
    intro a b A M
    have ht : ∀ z, Negrete.tofAtZ z mu b a A = Negrete.tofAtZ z mu a b A := fun z => by
      unfold Negrete.tofAtZ; rw [hy]
    have hp : Negrete.poleFunction mu b a A tof = Negrete.poleFunction mu a b A tof := by
      funext z; unfold Negrete.poleFunction; rw [hy]
    have hl : ∀ n z, Negrete.hyperbolicLoop mu b a A tof n z = Negrete.hyperbolicLoop mu a b A tof n z := by
      intro n
      induction n with
      | zero => intro z; rfl
      | succ n ih => intro z; simp only [Negrete.hyperbolicLoop, hy _ a b, ht, ih]
    unfold Negrete.findZ Negrete.singleContour Negrete.hyperbolicContour
    simp only [ht, hp, hl]
  refine Agree.map ?_
  unfold negrete2024
  simp only []
  rw [assert_reversed h1 h2, transferAngle_reversed]
  simp only [hA (V3.norm r1), hz (V3.norm r1)]
  refine .same fun _ _ => .same fun _ _ => .same fun _ _ => .same fun _ _ => .same fun _ _ => .same fun _ _ =>
    .same fun _ _ => .reversed full ?_
  unfold Negrete.reconstruct
  simp only [hy _ (V3.norm r1), pdiv_eq n1, pdiv_eq n2, ok_bind]
  refine .same fun _ _ => .same fun _ _ => .same fun _ _ => agree_vdiv_swap ?_ ?_ fun x y => .ok rfl <;>
    ext <;> simp <;> ring

/-- **C59**, `mcelreath2025`. -/
theorem mcelreath_reversal :
    mcelreath2025 mu r2 r1 tof M (!pro) low N atol rtol full clock =
      (mcelreath2025 mu r1 r2 tof M pro low N atol rtol full clock).map Output.reversed := by
  have n1 := (norm_pos_iff.2 h1).ne'
  have n2 := (norm_pos_iff.2 h2).ne'
  refine Agree.map ?_
  unfold mcelreath2025 McElreath.findX
  simp only []
  rw [assert_reversed h1 h2, transferAngle_reversed]
  simp only [add_comm (V3.norm r2) (V3.norm r1), mul_comm (V3.norm r2) (V3.norm r1)]
  refine .same fun _ _ => .same fun _ _ => .same fun _ _ => .same fun _ _ => .same fun ⟨_, _⟩ _ => .same fun _ _ =>
    .reversed full ?_
  unfold McElreath.reconstruct McElreath.alphaAndUniversalValues
  simp only [add_comm (V3.norm r2) (V3.norm r1), add_comm (V3.norm r2 : ℂ) (V3.norm r1), mul_comm (V3.norm r2) (V3.norm r1),
    vdiv_eq n1, vdiv_eq n2, ok_bind, V3.norm_sub_swap r2 r1]
  refine .same fun ⟨_, _, _, _⟩ _ => .same fun _ _ => .same fun _ _ => .same fun _ _ => .same fun _ _ => .same fun _ _ =>
    .same fun _ _ => (agree_vdiv_neg (by ext <;> simp) _).bind fun w1 _ _ _ h => .ok ?_
  subst h
  refine Prod.ext ?_ ?_ <;> ext <;> simp <;> ring

/-- **C59**, `jiang2016`. -/
theorem jiang_reversal :
    jiang2016 mu r2 r1 tof M (!pro) low N atol rtol full clock =
      (jiang2016 mu r1 r2 tof M pro low N atol rtol full clock).map Output.reversed := by
  have hs : ∀ t a b c s θ, Jiang.semiLatusRectum mu tof t b a c s θ N atol rtol = Jiang.semiLatusRectum mu tof t a b c s θ N atol rtol := by
    intro t a b c s θ
    unfold Jiang.semiLatusRectum Jiang.solveParabolic Jiang.solveElliptic Jiang.solveHyperbolic Jiang.parabolicP
      Jiang.ellipticP Jiang.hyperbolicP
    simp only [mul_right_comm _ (s - b) (s - a)]
  refine Agree.map ?_
  unfold jiang2016
  simp only []
  rw [assert_reversed h1 h2, transferAngle_reversed, V3.norm_sub_swap r2 r1]
  simp only [add_comm (V3.norm r2) (V3.norm r1), hs _ (V3.norm r1)]
  refine .same fun _ _ => .same fun _ _ => .same fun _ _ => .same fun _ _ => .same fun _ _ => .same fun _ _ =>
    .same fun ⟨p, _⟩ _ => .reversed full ?_
  unfold Jiang.reconstructVelocities
  simp only [mul_comm (V3.norm r2) (V3.norm r1)]
  refine .same fun _ _ => .same fun _ _ => ?_
  by_cases hp : p = 0
  · subst hp; simp only [pdiv_zero']; exact .inl ⟨_, rfl, rfl⟩
  simp only [pdiv_eq hp, ok_bind]
  refine .ok (Prod.ext ?_ ?_) <;> ext <;> simp <;> ring

/-- **C59**, `der2011`. -/
theorem der_reversal (b : Brent) :
    der2011 b mu r2 r1 tof M (!pro) low N atol rtol full clock =
      (der2011 b mu r1 r2 tof M pro low N atol rtol full clock).map Output.reversed := by
  have n1 := (norm_pos_iff.2 h1).ne'
  have n2 := (norm_pos_iff.2 h2).ne'
  have hs : ∀ a b m θ, Der.computeSigma b a m θ = Der.computeSigma a b m θ := fun a b m θ => by
    unfold Der.computeSigma; simp only [mul_comm b a]
  refine Agree.map ?_
  unfold der2011
  simp only []
  rw [assert_reversed h1 h2, transferAngle_reversed, V3.norm_sub_swap r2 r1]
  simp only [add_comm (V3.norm r2) (V3.norm r1), hs (V3.norm r1)]
  refine .same fun _ _ => .same fun _ _ => .same fun _ _ => .same fun _ _ => .same fun _ _ => .same fun _ _ =>
    .same fun _ _ => .same fun ⟨_, _, _⟩ _ => .same fun _ _ => .reversed full ?_
  unfold Der.reconstructVelocities
  simp only [vdiv_eq n1, vdiv_eq n2, ok_bind]
  refine .same fun _ _ => .same fun _ _ => .same fun _ _ => .same fun _ _ => .same fun _ _ =>
    (agree_vdiv_neg (by ext <;> simp) _).bind fun w1 _ _ _ h => .ok ?_
  subst h
  refine Prod.ext ?_ ?_ <;> ext <;> simp <;> ring

/-- **C59**, `battin1984`. -/
theorem battin_reversal :
    battin1984 mu r2 r1 tof M (!pro) low N atol rtol full clock =
      (battin1984 mu r1 r2 tof M pro low N atol rtol full clock).map Output.reversed := by
  have n1 := (norm_pos_iff.2 h1).ne'
  have n2 := (norm_pos_iff.2 h2).ne'
  refine Agree.map ?_
  unfold battin1984
  simp only []
  rw [assert_reversed h1 h2, transferAngle_reversed, V3.norm_sub_swap r2 r1]
  simp only [add_comm (V3.norm r2) (V3.norm r1)]
  refine .same fun _ _ => .same fun _ _ => .same fun _ _ => .same fun _ _ => .same fun _ _ => .same fun _ _ =>
    .same fun _ _ => .same fun ⟨_, _, _⟩ _ => .same fun _ _ => .reversed full ?_
  unfold Battin.velocities
  simp only [vdiv_eq n1, vdiv_eq n2, ok_bind]
  refine .same fun _ _ => .same fun _ _ => .ok ?_
  refine Prod.ext ?_ ?_ <;> ext <;> simp <;> ring

/-- **C59**, `gooding1990`. -/
theorem gooding_reversal :
    gooding1990 mu r2 r1 tof M (!pro) low N atol rtol full clock =
      (gooding1990 mu r1 r2 tof M pro low N atol rtol full clock).map Output.reversed := by
  have n1 := (norm_pos_iff.2 h1).ne'
  have n2 := (norm_pos_iff.2 h2).ne'
  have haux : ∀ θ, Agree (fun x y => y = (x.1, x.2.1, x.2.2.1, x.2.2.2.1, -x.2.2.2.2.1, x.2.2.2.2.2))
      (Gooding.auxParams mu (V3.norm r1) (V3.norm r2) θ) (Gooding.auxParams mu (V3.norm r2) (V3.norm r1) θ) := by
    intro θ
    unfold Gooding.auxParams
    simp only [add_comm (V3.norm r2) (V3.norm r1), mul_comm (V3.norm r2) (V3.norm r1),
      show (V3.norm r2 - V3.norm r1) * (V3.norm r2 - V3.norm r1) = (V3.norm r1 - V3.norm r2) * (V3.norm r1 - V3.norm r2) by ring]
    refine .same fun c _ => .same fun _ _ => .same fun _ _ => .same fun _ _ => .same fun _ _ => ?_
    by_cases hc : c = 0
    · rw [if_neg (not_not.2 hc), if_neg (not_not.2 hc)]; refine .ok ?_; norm_num
    · rw [if_pos hc, if_pos hc, pdiv_eq hc, pdiv_eq hc, ok_bind, ok_bind]
      refine .same fun _ _ => .ok ?_
      simp only [← neg_sub (V3.norm r1) (V3.norm r2), neg_div]
  have hv : ∀ d, Agree (fun x y => y = ((-x.1.2.2.1, x.1.2.2.2, -x.1.1, x.1.2.1), x.2))
      (Gooding.vlamb mu (V3.norm r1) (V3.norm r2) d tof low N atol rtol full clock)
      (Gooding.vlamb mu (V3.norm r2) (V3.norm r1) d tof low N atol rtol full clock) := by
    intro d
    unfold Gooding.vlamb
    refine .same fun ⟨_, _⟩ _ => (haux _).bind fun ⟨_, _, _, _, _, _⟩ _ _ _ h => ?_
    subst h
    refine .same fun _ _ => .same fun res _ => ?_
    cases res with
    | four => exact .inl ⟨_, rfl, rfl⟩
    | five n x xpl k t =>
      refine Agree.bind (R := fun x y => y = (-x.2.2.1, x.2.2.2, -x.1, x.2.1)) ?_ fun _ _ _ _ h => .ok (by rw [h])
      unfold Gooding.velocities
      simp only [pdiv_eq n1, pdiv_eq n2, ok_bind]
      refine .same fun ⟨_, _, _, _⟩ _ => .same fun _ _ => .ok ?_
      simp only [Prod.mk.injEq, and_true]
      constructor <;> ring_nf
      simp
  refine Agree.map ?_
  unfold gooding1990
  simp only []
  rw [assert_reversed h1 h2, transferAngle_reversed]
  simp only [vdiv_eq n1, vdiv_eq n2, ok_bind]
  refine .same fun _ _ => .same fun _ _ => .same fun _ _ => (orbitNormal_reversed r1 r2 pro).bind fun ih _ _ _ h => ?_
  subst h
  refine (hv _).bind fun ⟨⟨_, _, _, _⟩, _, _⟩ _ _ _ h => .ok ?_
  subst h
  rw [mkOutput_reversed]
  congr 1 <;> ext <;> simp [V3.cross] <;> ring

end

section Polar
variable {r1 r2 : V3} (hz : NotPolar r1 r2)
variable (mu tof : ℝ) (M : ℤ) (pro low : Bool) (N : ℕ) (atol rtol : ℝ) (full : Bool) (clock : ℝ)
include hz

theorem notPolar_ne : r1 ≠ 0 ∧ r2 ≠ 0 := by
  constructor <;> rintro rfl <;> simp [NotPolar] at hz

theorem agree_pdiv_neg (a b c : ℝ) : Agree (fun x y => y = -x) (pdiv (a - b) c) (pdiv (b - a) c) := by
  by_cases hc : c = 0
  · subst hc; simp only [pdiv_zero']; exact .inl ⟨_, rfl, rfl⟩
  · rw [pdiv_eq hc, pdiv_eq hc]; exact .ok (by ring)

/-- The unit normal vectors that `izzo.py` and `thorne.py` compute for the two problems. -/
theorem normal_reversed {a b : ℝ} (ha : 0 < a) (hb : 0 < b) : ∃ n : V3, n.z ≠ 0 ∧
    vdiv (V3.cross (a⁻¹ • r1) (b⁻¹ • r2)) (V3.norm (V3.cross (a⁻¹ • r1) (b⁻¹ • r2))) = .ok n ∧
    vdiv (V3.cross (b⁻¹ • r2) (a⁻¹ • r1)) (V3.norm (V3.cross (b⁻¹ • r2) (a⁻¹ • r1))) = .ok (-n) := by
  have h0 : (V3.cross (a⁻¹ • r1) (b⁻¹ • r2)).z ≠ 0 := by
    have : (V3.cross (a⁻¹ • r1) (b⁻¹ • r2)).z = a⁻¹ * b⁻¹ * (r1.x * r2.y - r1.y * r2.x) := by
      simp [V3.cross]; ring
    rw [this]
    exact mul_ne_zero (by positivity) hz
  have hn : V3.norm (V3.cross (a⁻¹ • r1) (b⁻¹ • r2)) ≠ 0 := (norm_pos_iff.2 fun h => h0 (by rw [h]; rfl)).ne'
  refine ⟨_, ?_, vdiv_eq hn, ?_⟩
  · simp only [V3.smul_z]
    exact mul_ne_zero (inv_ne_zero hn) h0
  · rw [V3.cross_swap (a⁻¹ • r1), V3.norm_neg', vdiv_neg, vdiv_eq hn]; rfl

theorem Izzo.geometry_reversed : Agree (fun x y => y = (x.1, x.2.1, -x.2.2.2, -x.2.2.1))
    (Izzo.geometry r1 r2 pro) (Izzo.geometry r2 r1 (!pro)) := by
  obtain ⟨h1, h2⟩ := notPolar_ne hz
  have n1 := norm_pos_iff.2 h1
  have n2 := norm_pos_iff.2 h2
  obtain ⟨n, hnz, e1, e2⟩ := normal_reversed hz n1 n2
  unfold Izzo.geometry
  simp only [vdiv_eq n1.ne', vdiv_eq n2.ne', ok_bind, e1, e2, V3.norm_sub_swap r2 r1, add_comm (V3.norm r2) (V3.norm r1)]
  refine .same fun _ _ => .same fun _ _ => .ok ?_
  rcases lt_or_gt_of_ne hnz with h | h <;> cases pro <;> simp [h, h.le, not_lt.2 h.le] <;>
    constructor <;> ext <;> simp [V3.cross] <;> ring

/-- **C59**, `izzo2015`, away from the polar planes. -/
theorem izzo_reversal :
    izzo2015 mu r2 r1 tof M (!pro) low N atol rtol =
      (izzo2015 mu r1 r2 tof M pro low N atol rtol).map fun p => (-p.2, -p.1) := by
  obtain ⟨h1, h2⟩ := notPolar_ne hz
  have n1 := (norm_pos_iff.2 h1).ne'
  have n2 := (norm_pos_iff.2 h2).ne'
  refine Agree.map ?_
  unfold izzo2015
  simp only [vdiv_eq n1, vdiv_eq n2, ok_bind, V3.norm_sub_swap r2 r1]
  refine (Izzo.geometry_reversed hz pro).bind fun ⟨s, ll, t1, t2⟩ _ _ _ h => ?_
  subst h
  refine .same fun _ _ => .same fun _ _ => .same fun ⟨_, _⟩ _ => .same fun _ _ =>
    (agree_pdiv_neg hz _ _ _).bind fun rho _ _ _ h => ?_
  subst h
  rw [neg_sq]
  unfold Izzo.reconstruct
  simp only [pdiv_eq n1, pdiv_eq n2, ok_bind]
  refine .same fun _ _ => .ok (Prod.ext ?_ ?_) <;> ext <;> simp <;> ring

/-- **C59**, `thorne2004`, away from the polar planes. -/
theorem thorne_reversal (b : Brent) :
    thorne2004 b mu r2 r1 tof M (!pro) low N atol rtol full clock =
      (thorne2004 b mu r1 r2 tof M pro low N atol rtol full clock).map Output.reversed := by
  obtain ⟨h1, h2⟩ := notPolar_ne hz
  have n1 := norm_pos_iff.2 h1
  have n2 := norm_pos_iff.2 h2
  obtain ⟨n, hnz, e1, e2⟩ := normal_reversed hz n1 n2
  have hY : ∀ x s c, Thorne.getYFromX x r2 r1 s c (!pro) = Thorne.getYFromX x r1 r2 s c pro := by
    intro x s c
    unfold Thorne.getYFromX Thorne.getLambda
    simp only [vdiv_eq n1.ne', vdiv_eq n2.ne', ok_bind, e1, e2]
    congr 1
    rcases lt_or_gt_of_ne hnz with h | h <;> cases pro <;> simp [h, h.le, not_lt.2 h.le]
  refine Agree.map ?_
  unfold thorne2004
  simp only []
  rw [assert_reversed h1 h2, transferAngle_reversed, V3.norm_sub_swap r2 r1]
  simp only [add_comm (V3.norm r2) (V3.norm r1), hY]
  refine .same fun _ _ => .same fun _ _ => .same fun _ _ => .same fun _ _ => .same fun _ _ => .same fun ⟨_, _, _⟩ _ =>
    .same fun _ _ => .same fun _ _ => .same fun _ _ => .reversed full ?_
  unfold Thorne.reconstruct
  simp only [vdiv_eq n1.ne', vdiv_eq n2.ne', ok_bind, e1, e2]
  refine .same fun _ _ => .same fun _ _ => .same fun _ _ =>
    (agree_pdiv_neg hz _ _ _).bind fun rho _ _ _ h => ?_
  subst h
  rw [neg_sq]
  simp only [pdiv_eq n1.ne', pdiv_eq n2.ne', ok_bind]
  refine .same fun _ _ => .ok ?_
  rcases lt_or_gt_of_ne hnz with h | h <;> cases pro <;> simp [h, h.le, not_lt.2 h.le] <;>
    constructor <;> ext <;> simp [V3.cross] <;> ring

end Polar

end Lamberthub
