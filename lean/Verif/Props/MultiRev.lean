import Verif.Proofs.MultiRev
import Verif.Props.Unique

/-!
# Transfers with complete revolutions: how many there are (property C53)

The statements mention only Kepler motions (`Spec.LambertArc`) and energies, no solver.
-/

set_option autoImplicit false

namespace Lamberthub
open Spec LC Set

/-- Specific energy of a body at `r` with velocity `v`. -/
noncomputable def Spec.energy (μ : ℝ) (r v : V3) : ℝ := Spec.inner v v / 2 - μ / len r

/-- The energy of the transfer of parameter `x`. -/
theorem rev_energy {μ s lam x : ℝ} {r1 r2 : V3} (hμ : 0 < μ) (hl0 : lam ≠ 0)
    (hG : Geo r1 r2 (Real.sqrt 2 * s * lam))
    (hS : Semi (V3.norm r1) (V3.norm r2) (V3.norm (r2 - r1)) s lam) :
    energy μ r1 (fgV1 μ r1 r2 (Real.sqrt 2 * s * lam) (s * (lancY lam x - lam * x) ^ 2)) = -(μ / s) * (1 - x ^ 2) := by
  have hL := lanc_lancY hS.lam_lt x
  have hη := hL.eta_pos
  have hs := hS.spos
  have h := fgV1_energy hμ (by positivity : 0 < s * (lancY lam x - lam * x) ^ 2) hG
  have hr2 : Real.sqrt 2 ^ 2 = 2 := Real.sq_sqrt (by norm_num)
  have e := hL.eta_sq
  have e2 := hL.sin_sq
  unfold energy
  rw [len_eq_norm]
  refine Eq.trans ?_ (h.trans ?_)
  · rfl
  · rw [hS.sum, mul_pow, mul_pow, hr2]
    rw [div_eq_iff (by positivity)]
    generalize lancY lam x - lam * x = η at *
    field_simp
    have : 1 + lam ^ 2 - η ^ 2 = 2 * lam * (x * lancY lam x + lam * (1 - x ^ 2)) := by
      rw [e]; ring
    rw [this]
    linear_combination (-(4 * lam ^ 2)) * e2

/-- The velocities of the transfer of parameter `x`. -/
noncomputable def revV (mu : ℝ) (r1 r2 : V3) (s lam x : ℝ) : V3 × V3 :=
  (fgV1 mu r1 r2 (Real.sqrt 2 * s * lam) (s * (lancY lam x - lam * x) ^ 2),
    fgV2 mu r1 r2 (Real.sqrt 2 * s * lam) (s * (lancY lam x - lam * x) ^ 2))

/-- The transfers with `M ≥ 1` revolutions of one sense are those of the Lancaster variables in `(-1, 1)`. -/
theorem rev_arcs {mu : ℝ} (hmu : 0 < mu) {r1 r2 : V3} (hnp : NotPolar r1 r2) (pro : Bool) :
    ∃ s lam, Semi (V3.norm r1) (V3.norm r2) (V3.norm (r2 - r1)) s lam ∧ lam ≠ 0 ∧ (0 < lam ↔ ShortWay pro r1 r2) ∧
      Geo r1 r2 (Real.sqrt 2 * s * lam) ∧
      ∀ {M : ℕ} (_ : 1 ≤ M) (T : ℝ) (v : V3 × V3), (LambertArc mu r1 r2 v.1 v.2 T M ∧ Sense pro r1 v.1) ↔
        ∃ x, -1 < x ∧ x < 1 ∧ T = Real.sqrt (s ^ 3 / (2 * mu)) * revT lam M x ∧
          v = revV mu r1 r2 s lam x := by
  have hna : NotAligned r1 r2 := fun h => hnp h.2.2
  obtain ⟨hG, hsh⟩ := (angle_of_eq hna (transferAngle_eq hna pro)).halfGeo hna
  generalize halfA (V3.norm r1) (V3.norm r2) _ = A at hG hsh
  obtain ⟨s, lam, hS, rfl⟩ := hG.semi
  have hs := hS.spos
  have hr2p : 0 < Real.sqrt 2 := by positivity
  have hl0 : lam ≠ 0 := fun h => hG.hA (by rw [h, mul_zero])
  have hlp : 0 < lam ↔ ShortWay pro r1 r2 := by
    rw [← hsh, mul_pos_iff_of_pos_left (by positivity : 0 < Real.sqrt 2 * s)]
  refine ⟨s, lam, hS, hl0, hlp, hG, fun {M} hM T v => ⟨?_, ?_⟩⟩
  · rintro ⟨ha, hse⟩
    obtain ⟨A', V, hG', hP, e1, e2⟩ := path_of_arc hmu hna ha
    obtain ⟨V0, hP0⟩ := Path.exists hmu hG.hA (Vallado.bound hG) one_pos
    have hs0 := sense_of_sign (r1 := r1) (r2 := r2) hmu hP0.V_pos hG.hA hnp hsh
    rw [e1] at hse
    have hst := sameTurn_of_sense hmu hG' hG hP.V_pos hP0.V_pos hse hs0
    obtain rfl := geo_eq_of_sameTurn hmu hG' hG hP.V_pos hP0.V_pos hst
    rw [hS.sum] at hP
    obtain ⟨x, h1, h2, rfl, hT⟩ := hP.rev hM hmu hs hS.lam_lt hl0
    exact ⟨x, h1, h2, hT, Prod.ext e1 e2⟩
  · rintro ⟨x, h1, h2, rfl, rfl⟩
    obtain ⟨T', hT', e⟩ := (lanc_lancY hS.lam_lt x).path (M := M) hmu hs h1 (.inr h2)
    have hTT : Real.sqrt (s ^ 3 / (2 * mu)) * revT lam M x = T' := by
      rw [revT, ← e, ← mul_assoc, ← Real.sqrt_mul (by positivity)]
      rw [show s ^ 3 / (2 * mu) * (2 * mu / s ^ 3) = 1 by field_simp, Real.sqrt_one, one_mul]
    rw [hTT]
    rw [← hS.sum] at hT'
    exact ⟨hT'.arc hmu hG, sense_of_sign hmu hT'.V_pos hG.hA hnp hsh⟩

/-- The transfer determines its parameter. -/
theorem rev_inj {lam x x' : ℝ} (hl : lam ^ 2 < 1) (hl0 : lam ≠ 0) {s : ℝ} (hs : 0 < s)
    (h : s * (lancY lam x - lam * x) ^ 2 = s * (lancY lam x' - lam * x') ^ 2) : x = x' := by
  have hL := lanc_lancY hl x
  have hL' := lanc_lancY hl x'
  rcases lt_trichotomy x x' with h1 | h1 | h1
  · have := (hL.k_lt_iff hl0 hL' hs).2 h1
    rw [h] at this
    exact absurd this (lt_irrefl _)
  · exact h1
  · have := (hL'.k_lt_iff hl0 hL hs).2 h1
    rw [h] at this
    exact absurd this (lt_irrefl _)

/-- **C53.**  For every `M ≥ 1` and each sense of motion there is a shortest possible time of
flight.  Below it Lambert's problem has no solution, at it exactly one, above it exactly two, and
the two differ in energy. -/
theorem multi_rev_count {mu : ℝ} (hmu : 0 < mu) {r1 r2 : V3} (hnp : NotPolar r1 r2) (pro : Bool) {M : ℕ} (hM : 1 ≤ M) :
    ∃ Tmin, 0 < Tmin ∧
      (∀ T v1 v2, LambertArc mu r1 r2 v1 v2 T M → Sense pro r1 v1 → Tmin ≤ T) ∧
      (∃! v : V3 × V3, LambertArc mu r1 r2 v.1 v.2 Tmin M ∧ Sense pro r1 v.1) ∧
      ∀ T, Tmin < T → ∃ low high : V3 × V3, energy mu r1 high.1 < energy mu r1 low.1 ∧
        ∀ v : V3 × V3, (LambertArc mu r1 r2 v.1 v.2 T M ∧ Sense pro r1 v.1) ↔ v = low ∨ v = high := by
  obtain ⟨s, lam, hS, hl0, -, hG, harc⟩ := rev_arcs hmu hnp pro
  have harc := harc hM
  obtain ⟨m, hm0, hm1, hanti, hmono, hmin, huniq, htwo⟩ := revT_solutions hS.lam_lt hM
  have hs := hS.spos
  obtain ⟨κ, hκ⟩ : ∃ κ, κ = Real.sqrt (s ^ 3 / (2 * mu)) := ⟨_, rfl⟩
  have hκ0 : 0 < κ := by rw [hκ]; positivity
  rw [← hκ] at harc
  have hm : -1 < m := by linarith
  have hm' : m < 1 := by linarith
  have hmp := revT_pos hS.lam_lt hm hm' M
  refine ⟨κ * revT lam M m, by positivity, ?_, ?_, ?_⟩
  · intro T v1 v2 h hse
    obtain ⟨x, h1, h2, rfl, -⟩ := (harc T (v1, v2)).1 ⟨h, hse⟩
    exact mul_le_mul_of_nonneg_left (hmin x h1 h2) hκ0.le
  · refine ⟨_, (harc _ _).2 ⟨m, hm, hm', rfl, rfl⟩, ?_⟩
    intro v hv
    obtain ⟨x, h1, h2, hT, rfl⟩ := (harc _ v).1 hv
    rw [huniq x h1 h2 (mul_left_cancel₀ hκ0.ne' hT).symm]
  · intro T hT
    obtain ⟨a, b, ha1, ham, hmb, hb1, ha, hb, hab⟩ := htwo (T / κ) (by rw [lt_div_iff₀ hκ0, mul_comm]; exact hT)
    have hTκ : κ * (T / κ) = T := by field_simp
    refine ⟨revV mu r1 r2 s lam b, revV mu r1 r2 s lam a, ?_, fun v => ⟨fun hv => ?_, ?_⟩⟩
    rotate_left 1
    · obtain ⟨x, h1, h2, hTx, rfl⟩ := (harc _ v).1 hv
      rcases hab x h1 h2 (by rw [hTx]; field_simp) with rfl | rfl
      · right; rfl
      · left; rfl
    · rintro (rfl | rfl)
      · exact (harc _ _).2 ⟨b, by linarith, hb1, by rw [hb, hTκ], rfl⟩
      · exact (harc _ _).2 ⟨a, ha1, by linarith, by rw [ha, hTκ], rfl⟩
    · unfold revV
      rw [rev_energy hmu hl0 hG hS, rev_energy hmu hl0 hG hS]
      have hsq : a ^ 2 < b ^ 2 := by
        rcases le_or_gt 0 a with h0 | h0
        · nlinarith
        · by_contra hge
          push Not at hge
          have hba : b ≤ -a := by nlinarith
          have h3 := revT_neg hS.lam_lt (by linarith : 0 < -a) (by linarith) M
          rw [neg_neg, ha, ← hb] at h3
          have h4 := hmono.monotoneOn ⟨hmb.le, hb1⟩ ⟨by linarith, by linarith⟩ hba
          linarith
      have : 0 < mu / s := by positivity
      nlinarith

/-- The theorem at a quarter turn of the unit circle: a time of flight exists from which on there
are two transfers making two complete revolutions. -/
example : ∃ Tmin, 0 < Tmin ∧ ∀ T, Tmin < T → ∃ low high : V3 × V3, low ≠ high ∧
    LambertArc 1 ⟨1, 0, 0⟩ ⟨0, 1, 0⟩ low.1 low.2 T 2 ∧ LambertArc 1 ⟨1, 0, 0⟩ ⟨0, 1, 0⟩ high.1 high.2 T 2 := by
  obtain ⟨Tmin, h0, -, -, h⟩ := multi_rev_count one_pos (r1 := ⟨1, 0, 0⟩) (r2 := ⟨0, 1, 0⟩) (by simp [NotPolar]) true
    (by norm_num : 1 ≤ 2)
  refine ⟨Tmin, h0, fun T hT => ?_⟩
  obtain ⟨low, high, he, hv⟩ := h T hT
  exact ⟨low, high, fun e => by rw [e] at he; exact lt_irrefl _ he, ((hv low).2 (.inl rfl)).1, ((hv high).2 (.inr rfl)).1⟩

end Lamberthub
