import Verif.Props.DerSolves
import Verif.Props.MultiRev
import Verif.Props.Jiang
import Verif.Props.Negrete
import Verif.Props.Vallado
import Verif.Props.Delatorre
import Verif.Props.Arora
import Verif.Model.McElreath

/-! # C70: the characteristic times

The time of the parabola and of the ellipse of least energy separate the branches of most solvers. -/

set_option autoImplicit false

namespace Lamberthub
open Spec LC

/-- The time of the ellipse of least energy, in the requested sense, with `M` complete revolutions. -/
noncomputable def Spec.leastEnergyTime (μ : ℝ) (r1 r2 : V3) (pro : Bool) (M : ℕ) : ℝ :=
  open Classical in
  timeUnit μ r1 r2 * (M * Real.pi + Real.arccos ((if ShortWay pro r1 r2 then 1 else -1) *
      Real.sqrt (1 - len (r2 - r1) / semiPerimeter r1 r2)) +
    (if ShortWay pro r1 r2 then 1 else -1) * Real.sqrt (1 - len (r2 - r1) / semiPerimeter r1 r2) *
      Real.sqrt (len (r2 - r1) / semiPerimeter r1 r2))

namespace Times

variable {mu s σ : ℝ} {r1 r2 : V3} {pro : Bool}

theorem leastEnergyTime_eq (hS : Semi (V3.norm r1) (V3.norm r2) (V3.norm (r2 - r1)) s σ)
    (h0 : σ ≠ 0) (hsg : 0 < σ ↔ ShortWay pro r1 r2) (M : ℕ) :
    leastEnergyTime mu r1 r2 pro M = Real.sqrt (s ^ 3 / (2 * mu)) * lancT σ 0 (lancY σ 0) M := by
  have hs := hS.spos
  have hq : V3.norm (r2 - r1) / s = 1 - σ ^ 2 := by rw [hS.chord]; field_simp
  have e : Real.sqrt (1 - V3.norm (r2 - r1) / s) = |σ| := by
    rw [hq, show 1 - (1 - σ ^ 2) = σ ^ 2 by ring, Real.sqrt_sq_eq_abs]
  unfold leastEnergyTime
  rw [Der.unit_eq hS, semiPerimeter_eq, ← hS.hs, len_eq_norm, e, hq]
  have e2 : (if 0 < σ then 1 else -1) * |σ| = σ := by
    split
    · rename_i h; rw [abs_of_pos h]; ring
    · rename_i h
      rw [abs_of_neg (lt_of_le_of_ne (not_lt.1 h) h0)]; ring
  simp only [← hsg]
  rw [e2, lancT, if_pos one_pos, lancY]
  norm_num
  left
  ring

/-- All transfers in one variable. -/
theorem parameter (hmu : 0 < mu) (hnp : NotPolar r1 r2) (pro : Bool) :
    ∃ s σ, Semi (V3.norm r1) (V3.norm r2) (V3.norm (r2 - r1)) s σ ∧ σ ≠ 0 ∧ (0 < σ ↔ ShortWay pro r1 r2) ∧
      ∀ {M : ℕ} {T : ℝ} {w1 w2 : V3}, LambertArc mu r1 r2 w1 w2 T M → Sense pro r1 w1 →
      ∃ x, -1 < x ∧ (M = 0 ∨ x < 1) ∧ T = Real.sqrt (s ^ 3 / (2 * mu)) * lancT σ x (lancY σ x) M ∧
        energyOf mu r1 w1 = -(1 - x ^ 2) * mu / semiPerimeter r1 r2 := by
  have hna : NotAligned r1 r2 := fun h => hnp h.2.2
  obtain ⟨s', σ', hS', h0', hsg', hG', harc⟩ := rev_arcs hmu hnp pro
  have hs' := hS'.spos
  have hsp : semiPerimeter r1 r2 = s' := by rw [semiPerimeter_eq, hS'.hs]
  have hU : 0 < Real.sqrt (s' ^ 3 / (2 * mu)) := by positivity
  refine ⟨s', σ', hS', h0', hsg', ?_⟩
  intro M T w1 w2 h hs
  rcases Nat.eq_zero_or_pos M with rfl | hM
  · obtain ⟨x, hx, hxT, hxe⟩ := Der.transfer hmu hG' hS' h0' hsg' hnp h hs
    refine ⟨x, hx, .inl rfl, by rw [hxT]; field_simp, ?_⟩
    rw [← hxe, hsp]; field_simp
  · obtain ⟨x, h1, h2, hT, hv⟩ := (harc hM T (w1, w2)).1 ⟨h, hs⟩
    refine ⟨x, h1, .inr h2, hT, ?_⟩
    have e : w1 = fgV1 mu r1 r2 (Real.sqrt 2 * s' * σ') (s' * (lancY σ' x - σ' * x) ^ 2) := congrArg Prod.fst hv
    rw [e, energyOf, (lanc_lancY hS'.lam_lt x).energy hmu hs' hG' hS'.sum, hsp]
    ring

end Times

open Times

/-- **C70.** No transfer between the two positions, whatever its time and number of revolutions, has an energy below
`-μ/s`; if it has that energy its time is `leastEnergyTime`, and such a transfer exists for every number of
revolutions. -/
theorem least_energy {mu : ℝ} (hmu : 0 < mu) {r1 r2 : V3} (hnp : NotPolar r1 r2) (pro : Bool) (M : ℕ) :
    (∀ T w1 w2, LambertArc mu r1 r2 w1 w2 T M → Sense pro r1 w1 → -mu / semiPerimeter r1 r2 ≤ energyOf mu r1 w1 ∧
      (energyOf mu r1 w1 = -mu / semiPerimeter r1 r2 → T = leastEnergyTime mu r1 r2 pro M)) ∧
    ∃ w1 w2, LambertArc mu r1 r2 w1 w2 (leastEnergyTime mu r1 r2 pro M) M ∧ Sense pro r1 w1 ∧
      energyOf mu r1 w1 = -mu / semiPerimeter r1 r2 := by
  have hna : NotAligned r1 r2 := fun h => hnp h.2.2
  have hψ := transferAngle_eq hna pro
  obtain ⟨s, σ, hS, h0, hsg, hpar⟩ := parameter hmu hnp pro
  have hs := hS.spos
  have hsp : semiPerimeter r1 r2 = s := by rw [semiPerimeter_eq, hS.hs]
  constructor
  · intro T w1 w2 h hsn
    obtain ⟨x, hx, -, hT, he⟩ := hpar h hsn
    rw [he, hsp, div_le_div_iff_of_pos_right hs]
    refine ⟨by nlinarith [sq_nonneg x], fun h => ?_⟩
    rw [div_left_inj' hs.ne'] at h
    have hx0 : x = 0 := by
      have : mu * x ^ 2 = 0 := by linarith
      rcases mul_eq_zero.1 this with h | h
      · exact absurd h hmu.ne'
      · exact pow_eq_zero_iff two_ne_zero |>.1 h
    rw [hT, leastEnergyTime_eq hS h0 hsg, hx0]
  · obtain ⟨s', σ', hG, hS', h0', hsg', -⟩ := Der.geo hna (angle_of_eq hna hψ)
    have hL := lanc_lancY hS'.lam_lt 0
    have harc := Der.lancArc hmu hG hS' hL (by norm_num) (M := M) (.inr (by norm_num))
    rw [← leastEnergyTime_eq hS' h0' hsg'] at harc
    refine ⟨_, _, harc, Der.sense hmu hG hS'.spos hL hsg' hnp, ?_⟩
    rw [energyOf, hL.energy hmu hS'.spos hG hS'.sum, semiPerimeter_eq, hS'.hs]
    ring

/-- **C70.** A zero-revolution transfer is an ellipse, a parabola or a hyperbola according to its time being above,
at or below `parabolicTime`; a transfer with complete revolutions is an ellipse. -/
theorem conic_of_time {mu : ℝ} (hmu : 0 < mu) {r1 r2 : V3} (hnp : NotPolar r1 r2) {pro : Bool} {M : ℕ} {T : ℝ}
    {w1 w2 : V3} (h : LambertArc mu r1 r2 w1 w2 T M) (hs : Sense pro r1 w1) :
    (M = 0 → (energyOf mu r1 w1 < 0 ↔ parabolicTime mu r1 r2 pro < T) ∧
      (energyOf mu r1 w1 = 0 ↔ T = parabolicTime mu r1 r2 pro) ∧
      (0 < energyOf mu r1 w1 ↔ T < parabolicTime mu r1 r2 pro)) ∧
    (1 ≤ M → energyOf mu r1 w1 < 0) := by
  obtain ⟨s, σ, hS, h0, hsg, hpar⟩ := parameter hmu hnp pro
  have hs0 := hS.spos
  have hsp : 0 < semiPerimeter r1 r2 := by rw [semiPerimeter_eq, ← hS.hs]; exact hs0
  have hU : 0 < Real.sqrt (s ^ 3 / (2 * mu)) := by positivity
  obtain ⟨x, hx, hM, hT, he⟩ := hpar h hs
  have hneg : energyOf mu r1 w1 < 0 ↔ x < 1 := by
    rw [he, div_lt_iff₀ hsp, zero_mul]
    constructor
    · intro h; by_contra hc
      have : 0 ≤ (x ^ 2 - 1) * mu := mul_nonneg (by nlinarith) hmu.le
      linarith
    · intro h
      have : 0 < (1 - x ^ 2) * mu := mul_pos (by nlinarith) hmu
      linarith
  have hpos : 0 < energyOf mu r1 w1 ↔ 1 < x := by
    rw [he, lt_div_iff₀ hsp, zero_mul]
    constructor
    · intro h; by_contra hc
      have : 0 ≤ (1 - x ^ 2) * mu := mul_nonneg (by nlinarith) hmu.le
      linarith
    · intro h
      have : 0 < (x ^ 2 - 1) * mu := mul_pos (by nlinarith) hmu
      linarith
  constructor
  · rintro rfl
    have hm := Thorne.timeOf_anti hmu hs0 hS.lam_lt h0
    have hP : parabolicTime mu r1 r2 pro = Thorne.timeOf mu s σ 1 := by
      rw [Der.parabolicTime_eq hS h0 hsg, ← Der.parabolic_time]; rfl
    have hT' : T = Thorne.timeOf mu s σ x := hT
    have m1 : (1 : ℝ) ∈ Set.Ioi (-1 : ℝ) := by norm_num
    rw [hneg, hpos, hP, hT', hm.lt_iff_gt m1 hx, hm.lt_iff_gt hx m1]
    refine ⟨Iff.rfl, ?_, Iff.rfl⟩
    rw [hm.injOn.eq_iff hx m1]
    constructor
    · intro h
      rcases lt_trichotomy x 1 with h1 | h1 | h1
      · linarith [hneg.2 h1]
      · exact h1
      · linarith [hpos.2 h1]
    · rintro rfl; rw [he]; norm_num
  · intro h1
    rcases hM with h2 | h2
    · omega
    · exact hneg.2 h2

/-! ## The times computed by the solvers -/

section
variable {mu : ℝ} (hmu : 0 < mu) {r1 r2 : V3} (hna : NotAligned r1 r2) {pro : Bool} {θ : ℝ}
  (hθ : getTransferAngle r1 r2 pro = .ok θ)
include hmu hna hθ

/-- **C70.** `thorne2004`: `get_parabolic_tof` and `get_minimum_energy_tof`. -/
theorem thorne_times :
    Thorne.getParabolicTof mu ((V3.norm r1 + V3.norm r2 + V3.norm (r2 - r1)) / 2) (V3.norm (r2 - r1))
      (if θ < Real.pi then -1 else 1) = .ok (parabolicTime mu r1 r2 pro) ∧
    Thorne.getMinimumEnergyTof mu ((V3.norm r1 + V3.norm r2 + V3.norm (r2 - r1)) / 2) (V3.norm (r2 - r1))
      (if θ < Real.pi then -1 else 1) = .ok (leastEnergyTime mu r1 r2 pro 0) := by
  have hA := angle_of_eq hna hθ
  obtain ⟨s, σ, -, hS, h0, hsg, -⟩ := Der.geo hna hA
  have hmp : (if θ < Real.pi then -1 else 1 : ℝ) = if 0 < σ then -1 else 1 := by
    have : θ < Real.pi ↔ 0 < σ := by rw [hA.short, hsg]
    simp only [this]
  rw [← hS.hs, Der.parabolicTime_eq hS h0 hsg, leastEnergyTime_eq hS h0 hsg,
    Thorne.getMinimumEnergyTof_eq hmu hS.spos hS.lam_lt hS.chord hmp,
    Thorne.getParabolicTof_eq hmu hS.spos h0 hS.chord hmp (lanc_lancY hS.lam_lt 1), Der.parabolic_time]
  exact ⟨rfl, rfl⟩

/-- **C70.** `der2011`: `_compute_parabolic_time` and `_compute_minimum_energy_time`, in the unit of
`_compute_normalized_time`. -/
theorem der_times : ∃ (σ : ℝ) (τ : ℕ → ℝ), Der.computeSigma (V3.norm r1) (V3.norm r2)
      (V3.norm r1 + V3.norm r2 + V3.norm (r2 - r1)) θ = .ok σ ∧
    Der.computeNormalizedTime mu (V3.norm r1 + V3.norm r2 + V3.norm (r2 - r1)) (parabolicTime mu r1 r2 pro) =
      .ok (Der.computeParabolicTime σ) ∧
    ∀ M : ℕ, Der.computeNormalizedTime mu (V3.norm r1 + V3.norm r2 + V3.norm (r2 - r1))
      (leastEnergyTime mu r1 r2 pro M) = .ok (τ M) ∧ Der.computeMinimumEnergyTime σ M = .ok (τ M) := by
  obtain ⟨s, σ, -, hS, h0, hsg, hcs, hnt⟩ := Der.geo hna (angle_of_eq hna hθ)
  have hs := hS.spos
  have hU : 0 < Real.sqrt (s ^ 3 / (2 * mu)) := by positivity
  refine ⟨σ, fun M => lancT σ 0 (lancY σ 0) M, hcs, ?_, fun M => ⟨?_, Der.minimumEnergyTime_eq hS.lam_lt M⟩⟩
  · rw [hnt _ _ hmu, Der.parabolicTime_eq hS h0 hsg, mul_div_cancel_left₀ _ hU.ne']
  · rw [hnt _ _ hmu, leastEnergyTime_eq hS h0 hsg, mul_div_cancel_left₀ _ hU.ne']

/-- **C70.** `jiang2016`: `_tof_parabolic`. -/
theorem jiang_times :
    Jiang.tofParabolic mu ((V3.norm r1 + V3.norm r2 + V3.norm (r2 - r1)) / 2) (V3.norm (r2 - r1)) θ =
      .ok (parabolicTime mu r1 r2 pro) := by
  have hA := angle_of_eq hna hθ
  obtain ⟨s, σ, -, hS, h0, hsg, -⟩ := Der.geo hna hA
  have hb : Jiang.betaSign θ = if 0 < σ then 1 else -1 := by
    apply Jiang.betaSign_ll
    rw [hsg, ← hA.short, le_iff_lt_or_eq, or_iff_left hA.ne_pi]
  rw [← hS.hs, Jiang.tofParabolic_eq hmu hS h0 hb, Der.parabolicTime_eq hS h0 hsg, ← Der.parabolic_time]
  have h1 : lancY σ 1 = 1 := by unfold lancY; norm_num
  rw [h1]

/-- **C70.** `mcelreath2025`: `_get_parabolic_tof`, in the unit `1/√μ` of the solver. -/
theorem mcelreath_times :
    McElreath.getParabolicTof (V3.norm r1 + V3.norm r2)
      (Real.sqrt (V3.norm r1 * V3.norm r2) * Real.cos (θ / 2)) =
        .ok (Real.sqrt mu * parabolicTime mu r1 r2 pro) := by
  have hA := angle_of_eq hna hθ
  obtain ⟨hG, hsh⟩ := hA.halfGeo hna
  obtain ⟨s, σ, hS, hAe⟩ := hG.semi
  have hs := hS.spos
  have hr2 : 0 < Real.sqrt 2 := by positivity
  have h0 : σ ≠ 0 := by rintro rfl; exact hG.hA (by rw [hAe]; ring)
  have hsg : 0 < σ ↔ ShortWay pro r1 r2 := by
    rw [← hsh, hAe, mul_pos_iff_of_pos_left (by positivity)]
  have hm : Real.sqrt (V3.norm r1 * V3.norm r2) * Real.cos (θ / 2) = s * σ := by
    unfold halfA at hAe
    have h3 : Real.sqrt 2 * (Real.sqrt (V3.norm r1 * V3.norm r2) * Real.cos (θ / 2)) = Real.sqrt 2 * (s * σ) := by
      linarith
    exact mul_left_cancel₀ hr2.ne' h3
  have hl := hS.lam_lt
  have hl1 : σ < 1 := (abs_lt.1 ((sq_lt_one_iff_abs_lt_one _).1 hl)).2
  have e : 2 * (V3.norm r1 + V3.norm r2 - 2 * (s * σ)) = 2 * s * (1 - σ) ^ 2 := by rw [hS.sum]; ring
  unfold McElreath.getParabolicTof
  rw [hm, e, psqrt_eq (by positivity), ok_bind]
  congr 1
  rw [show Real.sqrt (2 * s * (1 - σ) ^ 2) = Real.sqrt (2 * s) * (1 - σ) by
      rw [Real.sqrt_mul (by positivity), Real.sqrt_sq (by linarith)], Der.parabolicTime_eq hS h0 hsg,
    ← mul_assoc (Real.sqrt mu), ← Real.sqrt_mul hmu.le, show mu * (s ^ 3 / (2 * mu)) = (s / 2) ^ 2 * (2 * s) by field_simp,
    Real.sqrt_mul (sq_nonneg (s / 2)), Real.sqrt_sq (by positivity), Der.computeParabolicTime]
  have h4 : Real.sqrt (2 * s) ^ 2 = 2 * s := Real.sq_sqrt (by positivity)
  linear_combination (Real.sqrt (2 * s) * (1 - σ) ^ 3 / 6) * h4

/-- **C70.** `negrete2024`: `_tof_at_z` at `z = 0`. -/
theorem negrete_times : ∃ A, Negrete.getA (V3.norm r1) (V3.norm r2) θ = .ok A ∧
    Negrete.tofAtZ 0 mu (V3.norm r1) (V3.norm r2) A = .ok (parabolicTime mu r1 r2 pro) := by
  obtain ⟨hAe, hG⟩ := getA_signedA (angle_of_eq hna hθ) hna
  have hy0 : 0 ≤ uvY (V3.norm r1 + V3.norm r2) (signedA pro r1 r2) 0 := by
    rw [uvY_zero]
    obtain ⟨s, l, hS, hs⟩ := hG.semi
    have h2 : Real.sqrt 2 * Real.sqrt 2 = 2 := Real.mul_self_sqrt (by norm_num)
    have : V3.norm r1 + V3.norm r2 - Real.sqrt 2 * signedA pro r1 r2 = s * (1 - l) ^ 2 := by
      rw [hs, hS.sum]; linear_combination (-s * l) * h2
    rw [this]
    exact mul_nonneg hS.spos.le (sq_nonneg _)
  exact ⟨_, hAe, by rw [Negrete.tofAtZ_zero hmu hy0, uvT_zero hmu hy0, uvY_zero, Tpar_parabolicTime hmu hG]⟩

end

/-! ## The conics returned -/

/-- The orbit through `r` with velocity `v` is of the kind that the flight time `t` asks for, the flight time of the
parabola being `tp`. -/
def Spec.RightConic (mu tp t : ℝ) (r v : V3) : Prop :=
  (tp < t → energyOf mu r v < 0) ∧ (t < tp → 0 < energyOf mu r v)

theorem Times.rightConic {mu : ℝ} (hmu : 0 < mu) {r1 r2 : V3} (hnp : NotPolar r1 r2) {pro : Bool} {T t e : ℝ}
    {w1 w2 : V3} (h : LambertArc mu r1 r2 w1 w2 T 0) (hs : Sense pro r1 w1) (ht : |T - t| ≤ e)
    (he : e < |t - parabolicTime mu r1 r2 pro|) : RightConic mu (parabolicTime mu r1 r2 pro) t r1 w1 := by
  obtain ⟨⟨h1, -, h3⟩, -⟩ := (conic_of_time hmu hnp h hs).imp_left (· rfl)
  obtain ⟨ha, hb⟩ := abs_le.1 ht
  constructor
  · intro h; rw [abs_of_pos (sub_pos.2 h)] at he; exact h1.2 (by linarith)
  · intro h; rw [abs_of_neg (sub_neg.2 h)] at he; exact h3.2 (by linarith)

/-- **C70.** `vallado2013` returns an ellipse or a hyperbola as the flight time demands, unless the flight time is
within the tolerance of the parabola's. -/
theorem vallado_right_conic {mu : ℝ} {r1 r2 : V3} {tof : ℝ} {M : ℤ} {pro low : Bool} {maxiter : ℕ}
    {atol rtol : ℝ} {fo : Bool} {clock : ℝ} {out : Output}
    (h : vallado2013 mu r1 r2 tof M pro low maxiter atol rtol fo clock = .ok out) (hnp : NotPolar r1 r2)
    (hpar : rtol * tof < |tof - parabolicTime mu r1 r2 pro|) :
    RightConic mu (parabolicTime mu r1 r2 pro) tof r1 out.v1 := by
  have hna : NotAligned r1 r2 := fun h => hnp h.2.2
  obtain ⟨⟨T, hT, hd⟩, hs⟩ := vallado_kepler_transfer h hna
  have hmu : 0 < mu := by
    unfold vallado2013 at h
    simp only [bind_ok] at h
    obtain ⟨_, ha, -⟩ := h
    exact (assertParameters_ok ha).1
  exact rightConic hmu hnp hT (hs hnp) hd.le hpar

/-- **C70.** `delatorre2018`, without revolutions, likewise. -/
theorem delatorre_right_conic {mu : ℝ} {r1 r2 : V3} {tof : ℝ} {pro low : Bool} {maxiter : ℕ}
    {atol rtol : ℝ} {fo : Bool} {clock : ℝ} {out : Output}
    (h : delatorre2018 mu r1 r2 tof 0 pro low maxiter atol rtol fo clock = .ok out) (htol : atol + rtol * tof < tof)
    (hnp : NotPolar r1 r2) (h0 : 0 ≤ atol + rtol * tof)
    (hpar : atol + rtol * tof < |tof - parabolicTime mu r1 r2 pro|) :
    RightConic mu (parabolicTime mu r1 r2 pro) tof r1 out.v1 := by
  obtain ⟨hna, ⟨T, hT, hd⟩, hs⟩ := delatorre_kepler_transfer h htol
  have hmu : 0 < mu := by
    unfold delatorre2018 at h
    simp only [bind_ok] at h
    obtain ⟨_, ha, -⟩ := h
    exact (assertParameters_ok ha).1
  refine rightConic hmu hnp hT (hs hnp) (e := atol + rtol * tof) ?_ hpar
  rcases hd with rfl | hd
  · simpa using h0
  · exact hd

/-- **C70.** `arora2013`, without revolutions, likewise. -/
theorem arora_right_conic {minimize : Minimizer} (hmin : MinimizerSpec minimize) {brentq : Brent}
    (hb : BrentSpec brentq) {mu : ℝ} {r1 r2 : V3} {tof : ℝ} {pro low : Bool} {maxiter : ℕ} {atol rtol : ℝ}
    {fo : Bool} {clock : ℝ} {out : Output}
    (h : arora2013 minimize brentq mu r1 r2 tof 0 pro low maxiter atol rtol fo clock = .ok out) (hnp : NotPolar r1 r2)
    (hpar : atol * Real.sqrt (len r1 ^ 3 / mu) + 1e-17 * Real.sqrt ((len r1 + len r2) ^ 3 / mu) <
      |tof - parabolicTime mu r1 r2 pro|) :
    RightConic mu (parabolicTime mu r1 r2 pro) tof r1 out.v1 := by
  obtain ⟨-, hmu, -⟩ := Arora.notAligned_of_ok h
  obtain ⟨⟨T, hT, hd⟩, hs⟩ := arora_kepler_transfer_partial hmin hb h (.inl rfl)
  rw [if_pos rfl] at hd
  exact rightConic hmu hnp hT (hs hnp) hd hpar

/-! ## A concrete case -/

/-- Quarter turn at equal distances: the three kinds of transfer exist, and the solvers' formulas give Euler's time
and the time of the least energy. -/
example : NotPolar (⟨1, 0, 0⟩ : V3) ⟨0, 1, 0⟩ ∧ ∃ θ, getTransferAngle ⟨1, 0, 0⟩ ⟨0, 1, 0⟩ true = .ok θ := by
  have hnp : NotPolar (⟨1, 0, 0⟩ : V3) ⟨0, 1, 0⟩ := by simp [NotPolar]
  exact ⟨hnp, _, transferAngle_eq (fun h => hnp h.2.2) true⟩

example : ∃ w1 w2 u1 u2, LambertArc 1 ⟨1, 0, 0⟩ ⟨0, 1, 0⟩ w1 w2 (leastEnergyTime 1 ⟨1, 0, 0⟩ ⟨0, 1, 0⟩ true 0) 0 ∧
    energyOf 1 ⟨1, 0, 0⟩ w1 = -1 / semiPerimeter ⟨1, 0, 0⟩ ⟨0, 1, 0⟩ ∧
    LambertArc 1 ⟨1, 0, 0⟩ ⟨0, 1, 0⟩ u1 u2 (leastEnergyTime 1 ⟨1, 0, 0⟩ ⟨0, 1, 0⟩ true 7) 7 ∧
    energyOf 1 ⟨1, 0, 0⟩ u1 = -1 / semiPerimeter ⟨1, 0, 0⟩ ⟨0, 1, 0⟩ := by
  have hnp : NotPolar (⟨1, 0, 0⟩ : V3) ⟨0, 1, 0⟩ := by simp [NotPolar]
  obtain ⟨w1, w2, h, -, he⟩ := (least_energy one_pos hnp true 0).2
  obtain ⟨u1, u2, h', -, he'⟩ := (least_energy one_pos hnp true 7).2
  exact ⟨w1, w2, u1, u2, h, he, h', he'⟩

end Lamberthub
