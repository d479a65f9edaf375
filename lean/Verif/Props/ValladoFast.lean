import Verif.Props.ValladoMore
import Verif.Props.Unique

/-!
# C64: the problems that `vallado2013` can solve without readjustment

The bisection starts between `-4π²` and `4π²`.  Unless the readjustment moves the lower bound, a transfer faster than
the one of the lower bound is out of reach.
-/

set_option autoImplicit false

namespace Lamberthub
open Spec LC Vallado

/-- The auxiliary `y` of the code at the lower bound of the bisection. -/
noncomputable def Spec.lowestY (r1 r2 : V3) (pro : Bool) : ℝ :=
  V3.norm r1 + V3.norm r2 - Real.sqrt 2 * signedA pro r1 r2 * Real.cosh Real.pi

/-- The time of flight of the hyperbola on which the eccentric anomaly grows by `2π`. -/
noncomputable def Spec.fastestTime (mu : ℝ) (r1 r2 : V3) (pro : Bool) : ℝ :=
  Real.sqrt (Spec.lowestY r1 r2 pro / mu) * (Spec.lowestY r1 r2 pro * (Real.sinh (2 * Real.pi) - 2 * Real.pi) /
    (2 * Real.sqrt 2 * Real.sinh Real.pi ^ 3) + signedA pro r1 r2)

namespace Vallado

theorem low_eq : -4 * Real.pi ^ 2 = -(2 * Real.pi) ^ 2 := by ring

/-- The bisection with a time just below the one of its lower bound. -/
theorem loop_returns_low {mu R1 R2 A tof rtol L : ℝ} (hmu : 0 < mu) (htof : 0 < tof)
    (hP : |Real.sqrt 2 * A| < R1 + R2) (hL : ∀ psi, L ≤ psi → psi < 4 * Real.pi ^ 2 → psi ∈ uvDom (R1 + R2) A)
    (hp : L < 4 * Real.pi ^ 2) (hT : tof < uvT mu (R1 + R2) A L) (hT' : uvT mu (R1 + R2) A L < (1 + rtol) * tof) :
    ∃ δ > 0, ∀ (r n : ℕ) (up : ℝ), L < up → up ≤ 4 * Real.pi ^ 2 → up - L ≤ δ * 2 ^ r →
      ∃ y q k, loop mu R1 R2 A tof rtol (r + 1) n ((up + L) / 2) L up = .ok (y, q, k) ∧ 0 < y := by
  have hmono := uvT_strictMonoOn (μ := mu) hmu hP
  have hLd := hL L le_rfl hp
  have hc := uvT_continuousAt (μ := mu) (P := R1 + R2) (A := A) hp
  obtain ⟨δ, hδ, hcl⟩ := Metric.continuousAt_iff.1 hc ((1 + rtol) * tof - uvT mu (R1 + R2) A L) (by linarith)
  have hcl' : ∀ psi, L ≤ psi → psi < 4 * Real.pi ^ 2 → psi - L < δ → |(uvT mu (R1 + R2) A psi - tof) / tof| < rtol := by
    intro psi h1 h2 h3
    have := hcl (x := psi) (by rw [Real.dist_eq, abs_of_nonneg (by linarith)]; exact h3)
    rw [Real.dist_eq] at this
    have h4 := (hmono.le_iff_le hLd (hL psi h1 h2)).2 h1
    have h5 := (abs_lt.1 this).2
    rw [abs_div, abs_of_pos htof, div_lt_iff₀ htof, abs_of_nonneg (by linarith)]
    linarith
  refine ⟨δ, hδ, fun r => ?_⟩
  induction r with
  | zero =>
    intro n up h1 h2 h3
    have hd := hL ((up + L) / 2) (by linarith) (by linarith)
    rw [loop_step hmu htof hd.1 hd.2.le, if_pos (hcl' _ (by linarith) hd.1 (by linarith))]
    exact ⟨_, _, _, rfl, hd.2⟩
  | succ r ih =>
    intro n up h1 h2 h3
    have hd := hL ((up + L) / 2) (by linarith) (by linarith)
    rw [pow_succ] at h3
    rw [loop_step hmu htof hd.1 hd.2.le]
    split
    · exact ⟨_, _, _, rfl, hd.2⟩
    · have h4 := (hmono.le_iff_le hLd hd).2 (by linarith)
      rw [if_neg (by linarith)]
      exact ih (n + 1) ((up + L) / 2) (by linarith) (by linarith) (by linarith)

/-- The bisection with a time out of reach. -/
theorem loop_refuses {mu R1 R2 A tof rtol L : ℝ} (hmu : 0 < mu) (htof : 0 < tof)
    (hP : |Real.sqrt 2 * A| < R1 + R2) (hL : ∀ psi, L ≤ psi → psi < 4 * Real.pi ^ 2 → psi ∈ uvDom (R1 + R2) A)
    (hp : L < 4 * Real.pi ^ 2) (hr : 0 ≤ rtol) (hT : (1 + rtol) * tof ≤ uvT mu (R1 + R2) A L) :
    ∀ (r n : ℕ) (up : ℝ), L < up → up ≤ 4 * Real.pi ^ 2 →
      loop mu R1 R2 A tof rtol r n ((up + L) / 2) L up = .error (.valueError "Exceeded maximum number of iterations!") := by
  have hmono := uvT_strictMonoOn (μ := mu) hmu hP
  have hLd := hL L le_rfl hp
  intro r
  induction r with
  | zero => intro n up _ _; rfl
  | succ r ih =>
    intro n up h1 h2
    have hd := hL ((up + L) / 2) (by linarith) (by linarith)
    have h3 := (hmono.lt_iff_lt hLd hd).2 (by linarith)
    have h4 : 0 ≤ rtol * tof := by positivity
    rw [loop_step hmu htof hd.1 hd.2.le, if_neg, if_neg (by nlinarith)]
    · exact ih (n + 1) ((up + L) / 2) (by linarith) (by linarith)
    · rw [abs_div, abs_of_pos htof, div_lt_iff₀ htof, abs_of_nonneg (by nlinarith)]
      linarith

theorem lowest {mu : ℝ} (hmu : 0 < mu) {r1 r2 : V3} {pro : Bool} (hy : 0 < Spec.lowestY r1 r2 pro) :
    0 < uvY (V3.norm r1 + V3.norm r2) (signedA pro r1 r2) (-4 * Real.pi ^ 2) ∧
      uvT mu (V3.norm r1 + V3.norm r2) (signedA pro r1 r2) (-4 * Real.pi ^ 2) = Spec.fastestTime mu r1 r2 pro := by
  have e := uvY_neg_sq (P := V3.norm r1 + V3.norm r2) (A := signedA pro r1 r2) Real.pi_pos
  rw [low_eq]
  have hy' : 0 < uvY (V3.norm r1 + V3.norm r2) (signedA pro r1 r2) (-(2 * Real.pi) ^ 2) := by rw [e]; exact hy
  refine ⟨hy', ?_⟩
  rw [uvT_neg_sq hmu Real.pi_pos hy'.le, e]
  rfl

end Vallado

/-- On the long way the readjustment never happens. -/
theorem lowestY_pos_of_long {r1 r2 : V3} (hna : NotAligned r1 r2) {pro : Bool} (h : ¬ ShortWay pro r1 r2) :
    0 < Spec.lowestY r1 r2 pro := by
  obtain ⟨-, hG⟩ := getA_signedA (angle_of_eq hna (transferAngle_eq hna pro)) hna
  have h1 := hG.R1
  have h2 := hG.R2
  have hA : signedA pro r1 r2 ≤ 0 := by
    unfold signedA
    rw [if_neg h]
    have := Real.sqrt_nonneg (V3.norm r1 * V3.norm r2 + V3.dot r1 r2)
    linarith
  have hc := Real.cosh_pos Real.pi
  have h3 : 0 ≤ Real.sqrt 2 * Real.cosh Real.pi := by positivity
  unfold Spec.lowestY
  nlinarith

/-- **C64**: a transfer faster than the lower bound of the bisection is refused for every iteration budget. -/
theorem vallado_refuses_fast {mu : ℝ} (hmu : 0 < mu) {r1 r2 : V3} (hna : NotAligned r1 r2) {pro : Bool} {tof rtol : ℝ}
    (htof : 0 < tof) (hr : 0 ≤ rtol) (hy : 0 < Spec.lowestY r1 r2 pro)
    (hT : (1 + rtol) * tof ≤ Spec.fastestTime mu r1 r2 pro) {M : ℤ} (hM : 0 ≤ M) (low : Bool) (N : ℕ) (atol : ℝ)
    (fo : Bool) (clock : ℝ) :
    vallado2013 mu r1 r2 tof M pro low N atol rtol fo clock =
      .error (.valueError "Exceeded maximum number of iterations!") := by
  obtain ⟨-, hG⟩ := getA_signedA (angle_of_eq hna (transferAngle_eq hna pro)) hna
  obtain ⟨hy', hT'⟩ := lowest hmu hy
  have hpi := Real.pi_pos
  have hP := bound hG
  have hp : -4 * Real.pi ^ 2 < 4 * Real.pi ^ 2 := by nlinarith
  have hL := fun psi h1 h2 => uvDom_up hP (ψ := -4 * Real.pi ^ 2) (ψ' := psi) ⟨hp, hy'⟩ h1 h2
  have := loop_refuses hmu htof hP hL hp hr (by rw [hT']; exact hT) N 1 (4 * Real.pi ^ 2) hp le_rfl
  rw [show (4 * Real.pi ^ 2 + -4 * Real.pi ^ 2) / 2 = 0 by ring] at this
  exact (entry hmu hna htof hM pro low N atol rtol fo clock).2 _ this

/-- **C64**: every other transfer is found, given enough iterations. -/
theorem vallado_returns_slow {mu : ℝ} (hmu : 0 < mu) {r1 r2 : V3} (hna : NotAligned r1 r2) {pro : Bool} {tof rtol : ℝ}
    (htof : 0 < tof) (hr : 0 < rtol) (hy : 0 < Spec.lowestY r1 r2 pro)
    (hT : Spec.fastestTime mu r1 r2 pro < (1 + rtol) * tof) :
    ∃ N0 : ℕ, ∀ N ≥ N0, ∀ (M : ℤ), 0 ≤ M → ∀ (low : Bool) (atol : ℝ) (fo : Bool) (clock : ℝ),
      ∃ out, vallado2013 mu r1 r2 tof M pro low N atol rtol fo clock = .ok out := by
  obtain ⟨-, hG⟩ := getA_signedA (angle_of_eq hna (transferAngle_eq hna pro)) hna
  obtain ⟨hy', hT'⟩ := lowest hmu hy
  have hpi := Real.pi_pos
  have hP := bound hG
  have hp : -4 * Real.pi ^ 2 < 4 * Real.pi ^ 2 := by nlinarith
  have hL := fun psi h1 h2 => uvDom_up hP (ψ := -4 * Real.pi ^ 2) (ψ' := psi) ⟨hp, hy'⟩ h1 h2
  have h00 : (4 * Real.pi ^ 2 + -4 * Real.pi ^ 2) / 2 = 0 := by ring
  -- enough passes
  have fin : ∀ δ > 0, (∀ r : ℕ, 4 * Real.pi ^ 2 - -4 * Real.pi ^ 2 ≤ δ * 2 ^ r →
      ∃ y q k, loop mu (V3.norm r1) (V3.norm r2) (signedA pro r1 r2) tof rtol (r + 1) 1 0 (-4 * Real.pi ^ 2)
        (4 * Real.pi ^ 2) = .ok (y, q, k) ∧ 0 < y) →
      ∃ N0 : ℕ, ∀ N ≥ N0, ∀ (M : ℤ), 0 ≤ M → ∀ (low : Bool) (atol : ℝ) (fo : Bool) (clock : ℝ),
        ∃ out, vallado2013 mu r1 r2 tof M pro low N atol rtol fo clock = .ok out := by
    intro δ hδ hret
    obtain ⟨k, hk⟩ := pow_unbounded_of_one_lt ((4 * Real.pi ^ 2 - -4 * Real.pi ^ 2) / δ) one_lt_two
    refine ⟨k + 1, fun N hN M hM low atol fo clock => ?_⟩
    obtain ⟨j, rfl⟩ := Nat.exists_eq_add_of_le hN
    have hkj : 4 * Real.pi ^ 2 - -4 * Real.pi ^ 2 ≤ δ * 2 ^ (k + j) := by
      rw [div_lt_iff₀ hδ] at hk
      have : (2 : ℝ) ^ k ≤ 2 ^ (k + j) := pow_le_pow_right₀ (by norm_num) (by omega)
      nlinarith
    obtain ⟨y, q, n, hl, hy⟩ := hret (k + j) hkj
    rw [show k + j + 1 = k + 1 + j by ring] at hl
    exact (entry hmu hna htof hM pro low (k + 1 + j) atol rtol fo clock).1 y q n hl hy
  by_cases hle : Spec.fastestTime mu r1 r2 pro ≤ tof
  · obtain ⟨p, ⟨hpd, hpT⟩, -⟩ := uvT_exists_unique hmu hG.hA hP htof
    have hpl : -4 * Real.pi ^ 2 ≤ p := by
      rw [← (uvT_strictMonoOn (μ := mu) hmu hP).le_iff_le (hL _ le_rfl hp) hpd, hpT, hT']
      exact hle
    obtain ⟨δ, hδ, hret⟩ := loop_returns hmu htof hr hP hL hpd.1 hpT
    refine fin δ hδ fun r h => ?_
    have := hret r 1 (-4 * Real.pi ^ 2) (4 * Real.pi ^ 2) le_rfl hpl hpd.1.le le_rfl h
    rwa [h00] at this
  · obtain ⟨δ, hδ, hret⟩ := loop_returns_low (rtol := rtol) hmu htof hP hL hp (by rw [hT']; exact not_le.1 hle)
      (by rw [hT']; exact hT)
    refine fin δ hδ fun r h => ?_
    have := hret r 1 (4 * Real.pi ^ 2) hp le_rfl h
    rwa [h00] at this

/-- **C64**: on the long way `vallado2013` solves exactly the problems that are not faster than the lower bound of its
bisection, up to the tolerance. -/
theorem vallado_long_way_iff {mu : ℝ} (hmu : 0 < mu) {r1 r2 : V3} (hna : NotAligned r1 r2) {pro : Bool}
    (hlong : ¬ ShortWay pro r1 r2) {tof rtol : ℝ} (htof : 0 < tof) (hr : 0 < rtol) (low fo : Bool) (atol clock : ℝ) :
    (∃ N out, vallado2013 mu r1 r2 tof 0 pro low N atol rtol fo clock = .ok out) ↔
      Spec.fastestTime mu r1 r2 pro < (1 + rtol) * tof := by
  have hy := lowestY_pos_of_long hna hlong
  constructor
  · rintro ⟨N, out, h⟩
    by_contra hT
    rw [vallado_refuses_fast hmu hna htof hr.le hy (not_lt.1 hT) le_rfl] at h
    cases h
  · intro hT
    obtain ⟨N, h⟩ := vallado_returns_slow hmu hna htof hr hy hT
    exact ⟨N, h N le_rfl 0 le_rfl low atol fo clock⟩

/-- The bound is positive, so that on every long way there are problems with a solution that are refused. -/
theorem fastestTime_pos {mu : ℝ} (hmu : 0 < mu) {r1 r2 : V3} (hna : NotAligned r1 r2) {pro : Bool}
    (hy : 0 < Spec.lowestY r1 r2 pro) : 0 < Spec.fastestTime mu r1 r2 pro := by
  obtain ⟨-, hG⟩ := getA_signedA (angle_of_eq hna (transferAngle_eq hna pro)) hna
  have hP := bound hG
  have hs := Real.sinh_pos_iff.2 Real.pi_pos
  have hs' := Real.self_le_sinh_iff.2 Real.pi_pos.le
  have hc := Real.cosh_pos Real.pi
  have hcs := Real.cosh_sq Real.pi
  have hr2 : Real.sqrt 2 ^ 2 = 2 := Real.sq_sqrt (by norm_num)
  have hr2p : 0 < Real.sqrt 2 := by positivity
  unfold Spec.fastestTime
  refine mul_pos (Real.sqrt_pos.2 (by positivity)) ?_
  have hS : 2 * Real.sinh Real.pi * (Real.cosh Real.pi - 1) ≤ Real.sinh (2 * Real.pi) - 2 * Real.pi := by
    rw [Real.sinh_two_mul]
    linarith
  have hc1 : 1 < Real.cosh Real.pi := Real.one_lt_cosh.2 Real.pi_pos.ne'
  have hS0 : 0 < Real.sinh (2 * Real.pi) - 2 * Real.pi := lt_of_lt_of_le (by
    have : 0 < Real.cosh Real.pi - 1 := by linarith
    positivity) hS
  have hw : -(Real.sqrt 2 * signedA pro r1 r2) * (1 + Real.cosh Real.pi) < Spec.lowestY r1 r2 pro := by
    unfold Spec.lowestY
    have := neg_abs_le (Real.sqrt 2 * signedA pro r1 r2)
    linarith [le_abs_self (-(Real.sqrt 2 * signedA pro r1 r2)), abs_neg (Real.sqrt 2 * signedA pro r1 r2)]
  have hd : 0 < 2 * Real.sqrt 2 * Real.sinh Real.pi ^ 3 := by positivity
  suffices h : -(signedA pro r1 r2) < Spec.lowestY r1 r2 pro * (Real.sinh (2 * Real.pi) - 2 * Real.pi) /
      (2 * Real.sqrt 2 * Real.sinh Real.pi ^ 3) by linarith
  rw [lt_div_iff₀ hd]
  generalize Spec.lowestY r1 r2 pro = w at *
  generalize hBdef : -(Real.sqrt 2 * signedA pro r1 r2) = B at *
  have e1 : -(signedA pro r1 r2) * (2 * Real.sqrt 2 * Real.sinh Real.pi ^ 3) =
      B * (1 + Real.cosh Real.pi) * (2 * Real.sinh Real.pi * (Real.cosh Real.pi - 1)) := by
    rw [← hBdef]
    have e2 : Real.sinh Real.pi ^ 3 = Real.sinh Real.pi * (Real.cosh Real.pi ^ 2 - 1) := by rw [hcs]; ring
    rw [e2]
    ring
  rw [e1]
  have hk : 0 < 2 * Real.sinh Real.pi * (Real.cosh Real.pi - 1) := by
    have : 0 < Real.cosh Real.pi - 1 := by linarith
    positivity
  calc _ < w * (2 * Real.sinh Real.pi * (Real.cosh Real.pi - 1)) := mul_lt_mul_of_pos_right hw hk
    _ ≤ _ := mul_le_mul_of_nonneg_left hS hy.le

/-- **C64, finding**: on every long way there are problems with a solution that `vallado2013` refuses for every
iteration budget. -/
theorem vallado_long_way_refused {mu : ℝ} (hmu : 0 < mu) {r1 r2 : V3} (hna : NotAligned r1 r2) {pro : Bool}
    (hlong : ¬ ShortWay pro r1 r2) {rtol : ℝ} (hr : 0 ≤ rtol) :
    ∃ T > 0, ∀ tof, 0 < tof → tof ≤ T → ∀ (low : Bool) (N : ℕ) (atol : ℝ) (fo : Bool) (clock : ℝ),
      vallado2013 mu r1 r2 tof 0 pro low N atol rtol fo clock =
        .error (.valueError "Exceeded maximum number of iterations!") := by
  have hy := lowestY_pos_of_long hna hlong
  have hp := fastestTime_pos hmu hna hy
  refine ⟨Spec.fastestTime mu r1 r2 pro / (1 + rtol), by positivity, fun tof h0 h1 low N atol fo clock => ?_⟩
  rw [le_div_iff₀ (by positivity)] at h1
  exact vallado_refuses_fast hmu hna h0 hr hy (by linarith) le_rfl low N atol fo clock

/-- **C64, finding**: the refused problems have exactly one solution. -/
theorem vallado_long_way_refused_solvable {mu : ℝ} (hmu : 0 < mu) {r1 r2 : V3} (hnp : NotPolar r1 r2) {pro : Bool}
    (hlong : ¬ ShortWay pro r1 r2) {rtol : ℝ} (hr : 0 ≤ rtol) :
    ∃ T > 0, ∀ tof, 0 < tof → tof ≤ T →
      (∃! v : V3 × V3, LambertArc mu r1 r2 v.1 v.2 tof 0 ∧ Sense pro r1 v.1) ∧
      ∀ (low : Bool) (N : ℕ) (atol : ℝ) (fo : Bool) (clock : ℝ),
        vallado2013 mu r1 r2 tof 0 pro low N atol rtol fo clock =
          .error (.valueError "Exceeded maximum number of iterations!") := by
  obtain ⟨T, hT, h⟩ := vallado_long_way_refused hmu (fun h => hnp h.2.2) hlong hr
  exact ⟨T, hT, fun tof h0 h1 => ⟨zero_rev_exists_unique hmu h0 hnp pro, h tof h0 h1⟩⟩

example : ∃ T > 0, ∀ tof, 0 < tof → tof ≤ T →
    (∃! v : V3 × V3, LambertArc 1 ⟨0, 1, 0⟩ ⟨1, 0, 0⟩ v.1 v.2 tof 0 ∧ Sense true ⟨0, 1, 0⟩ v.1) ∧
    ∀ (low : Bool) (N : ℕ) (atol : ℝ) (fo : Bool) (clock : ℝ),
      vallado2013 1 ⟨0, 1, 0⟩ ⟨1, 0, 0⟩ tof 0 true low N atol 1e-5 fo clock =
        .error (.valueError "Exceeded maximum number of iterations!") :=
  vallado_long_way_refused_solvable one_pos (by simp [NotPolar]) (by simp [ShortWay, crossZ]) (by norm_num)

example : ¬ ShortWay true ⟨0, 1, 0⟩ ⟨1, 0, 0⟩ ∧ NotAligned ⟨0, 1, 0⟩ ⟨1, 0, 0⟩ := by
  constructor
  · simp [ShortWay, crossZ]
  · simp [NotAligned]

end Lamberthub
