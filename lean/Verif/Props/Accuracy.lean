import Verif.Props.MultiRevStable
import Verif.Props.ThorneSolves
import Verif.Props.Der
import Verif.Props.Unique
import Verif.Props.ValladoMore
import Verif.Props.DelatorreSearch

/-!
# C88: the velocities returned converge to those of the transfer asked for when the tolerances tend to zero
-/

set_option autoImplicit false

namespace Lamberthub
open Spec LC Set

/-- A weighted sum of two tolerances is small when both are. -/
theorem tolerances_small {a b c : ℝ} (ha : 0 ≤ a) (hb : 0 ≤ b) (hc : 0 < c) :
    ∃ δ > 0, ∀ atol rtol : ℝ, atol < δ → rtol < δ → atol * a + rtol * b < c := by
  refine ⟨c / (a + b + 1), by positivity, fun x y hx hy => ?_⟩
  have h1 : c / (a + b + 1) * (a + b + 1) = c := by field_simp
  have h0 : 0 < c / (a + b + 1) := by positivity
  have h2 := mul_le_mul_of_nonneg_right hx.le ha
  have h3 := mul_le_mul_of_nonneg_right hy.le hb
  nlinarith

/-- Transfers without revolutions: one whose duration is close to `T` is close to the one of duration `T`. -/
theorem zero_rev_stable {mu : ℝ} (hmu : 0 < mu) {r1 r2 : V3} (hnp : NotPolar r1 r2) (pro : Bool) {T : ℝ} (hT : 0 < T)
    {ε : ℝ} (hε : 0 < ε) :
    ∃ δ > 0, ∀ (T' : ℝ) (w1 w2 : V3), LambertArc mu r1 r2 w1 w2 T' 0 → Sense pro r1 w1 → |T' - T| < δ →
      ∃ v1 v2, LambertArc mu r1 r2 v1 v2 T 0 ∧ Sense pro r1 v1 ∧ len (w1 - v1) < ε ∧ len (w2 - v2) < ε := by
  obtain ⟨u, ⟨hu, hus⟩, -⟩ := zero_rev_exists_unique hmu hT hnp pro
  obtain ⟨δ, hδ, hd⟩ := zero_rev_agree hmu hnp hT pro hε
  exact ⟨δ, hδ, fun T' w1 w2 hw hs h => ⟨u.1, u.2, hu, hus,
    hd w1 w2 u.1 u.2 ⟨T', hw, h⟩ hs ⟨T, hu, by simpa using hδ⟩ hus⟩⟩

/-- Any number of revolutions. -/
theorem rev_stable {mu : ℝ} (hmu : 0 < mu) {r1 r2 : V3} (hnp : NotPolar r1 r2) (pro : Bool) (M : ℕ) {T : ℝ} (hT : 0 < T)
    {ε : ℝ} (hε : 0 < ε) :
    ∃ δ > 0, ∀ (T' : ℝ) (w1 w2 : V3), LambertArc mu r1 r2 w1 w2 T' M → Sense pro r1 w1 → |T' - T| < δ →
      ∃ v1 v2, LambertArc mu r1 r2 v1 v2 T M ∧ Sense pro r1 v1 ∧ len (w1 - v1) < ε ∧ len (w2 - v2) < ε := by
  rcases Nat.eq_zero_or_pos M with rfl | hM
  · exact zero_rev_stable hmu hnp pro hT hε
  · obtain ⟨δ, hδ, hd⟩ := multi_rev_stable hmu hnp pro hM T hε
    refine ⟨δ, hδ, fun T' w1 w2 hw hs h => ?_⟩
    obtain ⟨v1, v2, a, b, c, d, -⟩ := hd T' w1 w2 hw hs h
    exact ⟨v1, v2, a, b, c, d⟩

/-- At most two values of the Lancaster variable give a prescribed time. -/
theorem lancT_roots {lam : ℝ} (hl : lam ^ 2 < 1) (hl0 : lam ≠ 0) (M : ℕ) (τ : ℝ) :
    ∃ a b, ∀ x, -1 < x → (M = 0 ∨ x < 1) → lancT lam x (lancY lam x) M = τ → x = a ∨ x = b := by
  rcases Nat.eq_zero_or_pos M with rfl | hM
  · by_cases h : ∃ a, -1 < a ∧ lancT lam a (lancY lam a) 0 = τ
    · obtain ⟨a, ha, e⟩ := h
      exact ⟨a, a, fun x hx _ hr => .inl ((lancT_strictAnti hl hl0).injOn hx ha (hr.trans e.symm))⟩
    · exact ⟨0, 0, fun x hx _ hr => absurd ⟨x, hx, hr⟩ h⟩
  · obtain ⟨m, -, -, -, -, hmin, hu, htwo⟩ := revT_solutions hl hM
    rcases lt_trichotomy τ (revT lam M m) with h | h | h
    · refine ⟨0, 0, fun x hx hx2 hr => ?_⟩
      have := hmin x hx (hx2.resolve_left (by omega))
      have hr : revT lam M x = τ := hr
      linarith
    · exact ⟨m, m, fun x hx hx2 hr => .inl (hu x hx (hx2.resolve_left (by omega)) (hr.trans h))⟩
    · obtain ⟨a, b, -, -, -, -, -, -, hab⟩ := htwo τ h
      exact ⟨a, b, fun x hx hx2 hr => hab x hx (hx2.resolve_left (by omega)) hr⟩

/-- **C88, `der2011`.**  For every problem, every number of revolutions and every `ε` there is a `δ` such that with
tolerances below `δ` the velocities that `der2011` returns, if it returns, are within `ε` of those of a transfer in
exactly the requested time, with that number of revolutions and in the requested sense.  Without revolutions the time of
flight must not be exactly the parabolic time (`der_parabolic_not_a_transfer`). -/
theorem der_accurate {mu : ℝ} (hmu : 0 < mu) {r1 r2 : V3} (hnp : NotPolar r1 r2) (pro : Bool) (M : ℕ) {tof : ℝ}
    (htof : 0 < tof) (hpar : M = 0 → tof ≠ parabolicTime mu r1 r2 pro) {ε : ℝ} (hε : 0 < ε) :
    ∃ δ > 0, ∀ (brentq : Brent) (low : Bool) (N : ℕ) (atol rtol : ℝ) (fo : Bool) (clock : ℝ) (out : Output),
      BrentSpec brentq → atol < δ → rtol < δ →
      der2011 brentq mu r1 r2 tof M pro low N atol rtol fo clock = .ok out →
      ∃ v1 v2, LambertArc mu r1 r2 v1 v2 tof M ∧ Sense pro r1 v1 ∧ len (out.v1 - v1) < ε ∧ len (out.v2 - v2) < ε := by
  have hna : NotAligned r1 r2 := fun h => hnp h.2.2
  have hang := transferAngle_eq hna pro
  obtain ⟨s, σ, hG, hS, h0, hsg, hcs, hnt⟩ := Der.geo hna (angle_of_eq hna hang)
  have hs := hS.spos
  have hl := hS.lam_lt
  have hU : 0 < Real.sqrt (s ^ 3 / (2 * mu)) := by positivity
  have hnt := hnt mu tof hmu
  obtain ⟨δ1, hδ1, hst⟩ := rev_stable hmu hnp pro M htof hε
  obtain ⟨a, b, hroots⟩ := lancT_roots hl h0 M (tof / Real.sqrt (s ^ 3 / (2 * mu)))
  obtain ⟨η, hη, hva⟩ := revV_near (x := a) hmu hs hl h0 r1 r2 hε
  obtain ⟨η', hη', hvb⟩ := revV_near (x := b) hmu hs hl h0 r1 r2 hε
  obtain ⟨d1, p1, k1⟩ := tolerances_small hU.le htof.le hδ1
  obtain ⟨d2, p2, k2⟩ := tolerances_small zero_le_one (abs_nonneg a) hη
  obtain ⟨d3, p3, k3⟩ := tolerances_small zero_le_one (abs_nonneg b) hη'
  have hτ : 0 < tof / Real.sqrt (s ^ 3 / (2 * mu)) := by positivity
  obtain ⟨d4, p4, k4⟩ : ∃ δ > 0, M = 0 → ∀ atol rtol : ℝ, atol < δ → rtol < δ →
      ¬ NearParabolic mu r1 r2 pro tof atol rtol := by
    rcases Nat.eq_zero_or_pos M with hM | hM
    · have hne := hpar hM
      have hP : 0 < parabolicTime mu r1 r2 pro := by
        rw [Der.parabolicTime_eq hS h0 hsg, ← Der.parabolic_time]
        exact (Der.lancArc (M := 0) hmu hG hS (lanc_lancY hl 1) (by norm_num) (.inl rfl)).1
      obtain ⟨δ, hδ, h⟩ := tolerances_small hU.le hP.le (abs_pos.2 (sub_ne_zero.2 hne))
      refine ⟨δ, hδ, fun _ atol rtol h1 h2 hn => ?_⟩
      have := h atol rtol h1 h2
      unfold NearParabolic at hn
      rw [Der.unit_eq hS] at hn
      linarith
    · exact ⟨1, one_pos, fun h => by omega⟩
  refine ⟨min (min d1 d2) (min d3 d4), lt_min (lt_min p1 p2) (lt_min p3 p4),
    fun brentq low N atol rtol fo clock out hb ha hr h => ?_⟩
  obtain ⟨ha12, ha34⟩ := lt_min_iff.1 ha
  obtain ⟨hr12, hr34⟩ := lt_min_iff.1 hr
  obtain ⟨ha1, ha2⟩ := lt_min_iff.1 ha12
  obtain ⟨ha3, ha4⟩ := lt_min_iff.1 ha34
  obtain ⟨hr1, hr2⟩ := lt_min_iff.1 hr12
  obtain ⟨hr3, hr4⟩ := lt_min_iff.1 hr34
  obtain ⟨-, -, -, -, ψ, sigma, tau, x, y, n, tpi, v1, v2, hψ, hsig, htau, hf, -, hrec, rfl⟩ := der_ok_split h
  rw [hang] at hψ
  obtain rfl := Except.ok.inj hψ
  rw [hcs] at hsig
  obtain rfl := Except.ok.inj hsig
  rw [hnt] at htau
  have htau := Except.ok.inj htau
  rcases Der.findPathParameter_ok hl h0 hb hf with ⟨hM0, hcl, -⟩ | ⟨-, hx1, hx2, rfl, -, hcase⟩
  · exact absurd ((Der.near_iff hS hmu h0 hsg htau.symm).2 hcl) (k4 hM0 atol rtol ha4 hr4)
  have hL := lanc_lancY hl x
  rw [Der.computeY_eq hl h0, Der.reconstruct_lanc hmu h0 hG hS hL] at hrec
  simp only [Except.ok.injEq, Prod.mk.injEq] at hrec
  obtain ⟨rfl, rfl⟩ := hrec
  rw [mkOutput_v1, mkOutput_v2]
  rcases hcase with ⟨-, hres⟩ | ⟨x0, hx01, hx02, hroot, hd⟩
  · have := Der.scaled hU htau.symm htof hres
    exact hst _ _ _ (Der.lancArc hmu hG hS hL hx1 hx2) (Der.sense hmu hG hs hL hsg hnp)
      (this.trans_lt (k1 atol rtol ha1 hr1))
  · have hL0 := lanc_lancY hl x0
    have harc := Der.lancArc hmu hG hS hL0 hx01 hx02
    rw [hroot, ← htau, mul_div_cancel₀ tof hU.ne'] at harc
    refine ⟨_, _, harc, Der.sense hmu hG hs hL0 hsg hnp, ?_⟩
    rcases hroots x0 hx01 hx02 (hroot.trans htau.symm) with rfl | rfl
    · exact hva x (lt_of_le_of_lt hd (by simpa using k2 atol rtol ha2 hr2))
    · exact hvb x (lt_of_le_of_lt hd (by simpa using k3 atol rtol ha3 hr3))

/-- The square root which gives the Lancaster variable is continuous in the semi-major axis. -/
theorem Thorne.xOf_near {s a0 : ℝ} (ha0 : a0 ≠ 0) {η : ℝ} (hη : 0 < η) :
    ∃ δ > 0, ∀ (br : Thorne.Branch) (a : ℝ), |a - a0| < δ → |Thorne.xOf s a br - Thorne.xOf s a0 br| < η := by
  have h2 : 2 * a0 ≠ 0 := mul_ne_zero two_ne_zero ha0
  have hc : ContinuousAt (fun a : ℝ => Real.sqrt (1 - s / (2 * a))) a0 := by
    fun_prop (disch := assumption)
  obtain ⟨δ, hδ, h⟩ := Metric.continuousAt_iff.1 hc η hη
  refine ⟨δ, hδ, fun br a ha => ?_⟩
  have := h (x := a) (by rw [Real.dist_eq]; exact ha)
  rw [Real.dist_eq] at this
  cases br with
  | P => simpa [Thorne.xOf] using hη
  | H => exact this
  | A => exact this
  | B =>
    simp only [Thorne.xOf]
    rwa [show ∀ u v : ℝ, -u - -v = -(u - v) from fun u v => by ring, abs_neg]

/-- The semi-major axis of a given Lancaster variable. -/
theorem Thorne.axis_eq {s a x : ℝ} {br : Thorne.Branch} (hs : 0 < s) (ha : a ∈ Thorne.Dom s br) (hx : Thorne.xOf s a br = x) :
    a = s / (2 * (1 - x ^ 2)) := by
  have hne := Thorne.dom_ne hs ha
  have h := Thorne.xOf_sq hs ha
  rw [hx] at h
  rw [h]
  rw [show 2 * (1 - (1 - s / (2 * a))) = s / a by field_simp; ring, div_div_cancel₀ hs.ne']

/-- **C88, `thorne2004`.**  For every problem without revolutions and every `ε` there is a `δ` such that with tolerances
below `δ` the velocities that `thorne2004` returns, if it returns, are within `ε` of those of the transfer in exactly the
requested time and sense. -/
theorem thorne_accurate {mu : ℝ} (hmu : 0 < mu) {r1 r2 : V3} (hnp : NotPolar r1 r2) (pro : Bool) {tof : ℝ}
    (htof : 0 < tof) {ε : ℝ} (hε : 0 < ε) :
    ∃ δ > 0, ∀ (brentq : Brent) (M : ℤ) (low : Bool) (N : ℕ) (atol rtol : ℝ) (fo : Bool) (clock : ℝ) (out : Output),
      BrentSpec brentq → atol < δ → rtol < δ →
      thorne2004 brentq mu r1 r2 tof M pro low N atol rtol fo clock = .ok out →
      ∃ v1 v2, LambertArc mu r1 r2 v1 v2 tof 0 ∧ Sense pro r1 v1 ∧ len (out.v1 - v1) < ε ∧ len (out.v2 - v2) < ε := by
  have hna : NotAligned r1 r2 := fun h => hnp h.2.2
  obtain ⟨ll, hG, hS, hll, hsg, hlam, hrc⟩ := Thorne.geo hna pro
  obtain ⟨s, hsdef⟩ : ∃ s, s = (V3.norm r1 + V3.norm r2 + V3.norm (r2 - r1)) / 2 := ⟨_, rfl⟩
  rw [← hsdef] at hG hS hlam hrc
  have hs := hS.spos
  have hl := hS.lam_lt
  obtain ⟨δ1, hδ1, hst⟩ := zero_rev_stable hmu hnp pro htof hε
  obtain ⟨x0, hx0, ht0⟩ := Thorne.timeOf_surj hmu hs hl hll htof
  obtain ⟨η, hη, hv⟩ := revV_near (x := x0) hmu hs hl hll r1 r2 hε
  obtain ⟨α, hα⟩ : ∃ α, α = s / (2 * (1 - x0 ^ 2)) := ⟨_, rfl⟩
  obtain ⟨η1, hη1, hx⟩ : ∃ δ > 0, α ≠ 0 → ∀ (br : Thorne.Branch) (a : ℝ), |a - α| < δ →
      |Thorne.xOf s a br - Thorne.xOf s α br| < η := by
    by_cases h : α = 0
    · exact ⟨1, one_pos, fun h' => absurd h h'⟩
    · obtain ⟨δ, hδ, k⟩ := Thorne.xOf_near (s := s) h hη
      exact ⟨δ, hδ, fun _ => k⟩
  obtain ⟨d1, p1, k1⟩ := tolerances_small zero_le_one (abs_nonneg (Thorne.timeOf mu s ll 1)) hδ1
  obtain ⟨d2, p2, k2⟩ := tolerances_small zero_le_one (abs_nonneg α) hη1
  refine ⟨min d1 d2, lt_min p1 p2, fun brentq M low N atol rtol fo clock out hb hat hrt h => ?_⟩
  obtain ⟨ha1, ha2⟩ := lt_min_iff.1 hat
  obtain ⟨hr1, hr2⟩ := lt_min_iff.1 hrt
  obtain ⟨-, -, -, -, θ, tP, tMin, a, br, n, tpi, x, y, v1, v2, hθ, htP, hsa, hxe, hy, hrec, -, rfl⟩ := thorne_ok_split h
  rw [← hsdef] at htP hsa hxe hy hrec
  have hmp := Thorne.mp_eq (angle_of_eq hna hθ) hsg (.inl hnp)
  rw [hmp] at htP hsa
  unfold Thorne.getYFromX at hy
  rw [hlam, ok_bind] at hy
  have hcs : V3.norm (r2 - r1) ≤ s := by rw [hS.chord]; nlinarith [sq_nonneg ll]
  have hax := Thorne.getSemimajorAxis_ok hb hmu hs hS.cpos.le hcs hsa
  have hdom : br = .P ∨ a ∈ Thorne.Dom s br := hax.imp (fun h => h.1) (fun h => h.1)
  rw [Thorne.getX_eq hs hdom] at hxe
  obtain rfl := Except.ok.inj hxe
  have hyv := (psqrt_ok.1 hy).2
  have hL : Lanc ll (Thorne.xOf s a br) y := lanc_of_sqrt hS.lam_lt hyv
  have hyl : y = lancY ll (Thorne.xOf s a br) := hyv
  rw [hrc hmu hL] at hrec
  simp only [Except.ok.injEq, Prod.mk.injEq] at hrec
  obtain ⟨rfl, rfl⟩ := hrec
  have hx1 := Thorne.xOf_gt s a br hs hdom
  rw [mkOutput_v1, mkOutput_v2]
  rcases hax with ⟨rfl, -, hcl⟩ | ⟨ha, -, a0, ha0, hroot, hd⟩
  · rw [Thorne.getParabolicTof_eq hmu hs hll hS.chord rfl hL] at htP
    have harc := Thorne.arc hmu hG hS hL hx1
    have e : Real.sqrt (s ^ 3 / (2 * mu)) * lancT ll (Thorne.xOf s a .P) y 0 = Thorne.timeOf mu s ll 1 := by
      rw [hyl]; rfl
    refine hst _ _ _ harc (Thorne.sense hmu hG hs hL hsg hnp) ?_
    have e2 : tP = Thorne.timeOf mu s ll 1 := by rw [← e]; exact (Except.ok.inj htP).symm
    rw [e, abs_sub_comm, ← e2]
    have := k1 atol rtol ha1 hr1
    rw [← e2] at this
    linarith
  · have hL0 := Thorne.lancy_of (x := Thorne.xOf s a0 br) hS.lam_lt
    have harc := Thorne.arc hmu hG hS hL0 (Thorne.xOf_gt s a0 br hs (.inr ha0))
    have ht := Thorne.lagF_eq hmu hs hS.lam_lt hS.chord rfl ha0 hL0
    rw [hroot] at ht
    rw [← ht] at harc
    have hxe : Thorne.xOf s a0 br = x0 :=
      (Thorne.timeOf_anti hmu hs hl hll).injOn (Thorne.xOf_gt s a0 br hs (.inr ha0)) hx0 (ht.symm.trans ht0.symm)
    have hae := Thorne.axis_eq hs ha0 hxe
    rw [← hα] at hae
    subst hae
    refine ⟨_, _, harc, Thorne.sense hmu hG hs hL0 hsg hnp, ?_⟩
    have := hx (Thorne.dom_ne hs ha0) br a (lt_of_le_of_lt hd (by simpa using k2 atol rtol ha2 hr2))
    rw [hxe] at this
    have hfin := hv _ this
    rw [hyl]
    rw [← hxe] at hfin
    exact hfin

/-- **C88, the four solvers.**  Let `v1`, `v2` be the velocities of the transfer without revolutions in the time `tof` (there
is exactly one in each sense, `zero_rev_exists_unique`).  For every `ε` there is a `δ` such that `vallado2013`,
`delatorre2018`, `thorne2004` and, off the parabolic time, `der2011`, whenever they return with tolerances below `δ`,
return `v1` and `v2` up to `ε`, whatever the other options and the root finder. -/
theorem zero_rev_solvers_accurate {mu : ℝ} (hmu : 0 < mu) {r1 r2 : V3} (hnp : NotPolar r1 r2) {pro : Bool} {tof : ℝ}
    {v1 v2 : V3} (hv : LambertArc mu r1 r2 v1 v2 tof 0) (hsv : Sense pro r1 v1) {ε : ℝ} (hε : 0 < ε) :
    ∃ δ > 0, ∀ (brentq : Brent) (low : Bool) (N : ℕ) (atol rtol : ℝ) (fo : Bool) (clock : ℝ) (out : Output),
      BrentSpec brentq → 0 ≤ atol → atol < δ → 0 ≤ rtol → rtol < δ →
      (vallado2013 mu r1 r2 tof 0 pro low N atol rtol fo clock = .ok out ∨
        delatorre2018 mu r1 r2 tof 0 pro low N atol rtol fo clock = .ok out ∨
        thorne2004 brentq mu r1 r2 tof 0 pro low N atol rtol fo clock = .ok out ∨
        (tof ≠ parabolicTime mu r1 r2 pro ∧ der2011 brentq mu r1 r2 tof 0 pro low N atol rtol fo clock = .ok out)) →
      len (out.v1 - v1) < ε ∧ len (out.v2 - v2) < ε := by
  have hna : NotAligned r1 r2 := fun h => hnp h.2.2
  have htof := hv.1
  have uniq : ∀ {o : Output}, (∃ w1 w2, LambertArc mu r1 r2 w1 w2 tof 0 ∧ Sense pro r1 w1 ∧ len (o.v1 - w1) < ε ∧
      len (o.v2 - w2) < ε) → len (o.v1 - v1) < ε ∧ len (o.v2 - v2) < ε := by
    rintro o ⟨w1, w2, hw, hs, h1, h2⟩
    obtain ⟨rfl, rfl⟩ := zero_rev_unique_sense hmu hna hw hv hs hsv
    exact ⟨h1, h2⟩
  obtain ⟨δ0, hδ0, hst⟩ := zero_rev_stable hmu hnp pro htof hε
  obtain ⟨d1, p1, k1⟩ := tolerances_small zero_le_one htof.le (lt_min hδ0 htof)
  obtain ⟨d2, p2, k2⟩ := thorne_accurate hmu hnp pro htof hε
  obtain ⟨d3, p3, k3⟩ : ∃ δ > 0, tof ≠ parabolicTime mu r1 r2 pro → ∀ (brentq : Brent) (low : Bool) (N : ℕ)
      (atol rtol : ℝ) (fo : Bool) (clock : ℝ) (out : Output), BrentSpec brentq → atol < δ → rtol < δ →
      der2011 brentq mu r1 r2 tof 0 pro low N atol rtol fo clock = .ok out →
      ∃ v1 v2, LambertArc mu r1 r2 v1 v2 tof 0 ∧ Sense pro r1 v1 ∧ len (out.v1 - v1) < ε ∧ len (out.v2 - v2) < ε := by
    by_cases h : tof = parabolicTime mu r1 r2 pro
    · exact ⟨1, one_pos, fun h' => absurd h h'⟩
    · obtain ⟨δ, hδ, k⟩ := der_accurate hmu hnp pro 0 htof (fun _ => h) hε
      exact ⟨δ, hδ, fun _ => k⟩
  refine ⟨min d1 (min d2 d3), lt_min p1 (lt_min p2 p3), fun brentq low N atol rtol fo clock out hb ha0 ha hr0 hr h => ?_⟩
  obtain ⟨a1, a23⟩ := lt_min_iff.1 ha
  obtain ⟨a2, a3⟩ := lt_min_iff.1 a23
  obtain ⟨b1, b23⟩ := lt_min_iff.1 hr
  obtain ⟨b2, b3⟩ := lt_min_iff.1 b23
  obtain ⟨q1, q2⟩ := lt_min_iff.1 (k1 atol rtol a1 b1)
  rw [mul_one] at q1 q2
  rcases h with h | h | h | ⟨hne, h⟩
  · obtain ⟨⟨T, hT, hTd⟩, hs⟩ := vallado_kepler_transfer h hna
    exact uniq (hst T _ _ hT (hs hnp) (by linarith))
  · obtain ⟨-, ⟨T, hT, hTd⟩, hs⟩ := delatorre_kepler_transfer h q2
    refine uniq (hst T _ _ (by simpa using hT) (hs hnp) ?_)
    rcases hTd with rfl | hTd
    · simpa using hδ0
    · linarith
  · exact uniq (k2 brentq 0 low N atol rtol fo clock out hb a2 b2 h)
  · exact uniq (k3 hne brentq low N atol rtol fo clock out hb a3 b3 h)

/-- The hypotheses can be met: the problem of a quarter turn in any positive time, in either sense and with any number of
revolutions; here for `der2011` with three revolutions in four periods of the unit circle. -/
example {ε : ℝ} (hε : 0 < ε) : ∃ δ > 0, ∀ (low : Bool) (N : ℕ) (atol rtol : ℝ) (out : Output), atol < δ → rtol < δ →
    der2011 exactBrent 1 ⟨1, 0, 0⟩ ⟨0, 1, 0⟩ (8 * Real.pi) 3 true low N atol rtol false 0 = .ok out →
    ∃ v1 v2, LambertArc 1 ⟨1, 0, 0⟩ ⟨0, 1, 0⟩ v1 v2 (8 * Real.pi) 3 ∧ Sense true ⟨1, 0, 0⟩ v1 ∧
      len (out.v1 - v1) < ε ∧ len (out.v2 - v2) < ε := by
  obtain ⟨δ, hδ, h⟩ := der_accurate (mu := 1) one_pos (r1 := ⟨1, 0, 0⟩) (r2 := ⟨0, 1, 0⟩) (by simp [NotPolar]) true 3
    (tof := 8 * Real.pi) (by positivity) (by norm_num) hε
  exact ⟨δ, hδ, fun low N atol rtol out h1 h2 h3 => h exactBrent low N atol rtol false 0 out exactBrent_spec h1 h2 h3⟩

/-- **C88, `vallado2013` converges.**  For every problem whose time of flight is at least the parabolic time: with any
small enough tolerance and enough iterations `vallado2013` returns, and its velocities are within `ε` of those of the
transfer. -/
theorem vallado_converges {mu : ℝ} (hmu : 0 < mu) {r1 r2 : V3} (hnp : NotPolar r1 r2) {pro : Bool} {tof : ℝ}
    (htof : parabolicTime mu r1 r2 pro ≤ tof) {v1 v2 : V3} (hv : LambertArc mu r1 r2 v1 v2 tof 0) (hsv : Sense pro r1 v1)
    {ε : ℝ} (hε : 0 < ε) :
    ∃ δ > 0, ∀ rtol, 0 < rtol → rtol < δ → ∃ N0 : ℕ, ∀ N ≥ N0, ∀ (low fo : Bool) (clock : ℝ),
      ∃ out, vallado2013 mu r1 r2 tof 0 pro low N 0 rtol fo clock = .ok out ∧
        len (out.v1 - v1) < ε ∧ len (out.v2 - v2) < ε := by
  have hna : NotAligned r1 r2 := fun h => hnp h.2.2
  obtain ⟨δ, hδ, h⟩ := zero_rev_solvers_accurate hmu hnp hv hsv hε
  refine ⟨δ, hδ, fun rtol h0 h1 => ?_⟩
  obtain ⟨N0, hN⟩ := vallado_returns_elliptic hmu hna pro hv.1 htof h0
  refine ⟨N0, fun N hNN low fo clock => ?_⟩
  obtain ⟨out, ho⟩ := hN N hNN 0 le_rfl low 0 fo clock
  exact ⟨out, ho, h exactBrent low N 0 rtol fo clock out exactBrent_spec le_rfl hδ h0.le h1 (.inl ho)⟩

/-- **C88, `delatorre2018` converges.**  For every problem without revolutions in the range of C52: with any small enough
tolerance and enough iterations `delatorre2018` returns, and its velocities are within `ε` of those of the transfer. -/
theorem delatorre_converges {mu : ℝ} (hmu : 0 < mu) {r1 r2 : V3} (hnp : NotPolar r1 r2) {pro : Bool} {tof : ℝ} {Q D : ℝ}
    (hQ : Q = Real.sqrt (2 * (V3.norm r1 * V3.norm r2 + V3.dot r1 r2))) (hD : D = V3.norm r1 + V3.norm r2 - Q)
    (hlow : ShortWay pro r1 r2 → parabolicTime mu r1 r2 pro ≤ tof ∧ (1 + 1e-12) * Q ≤ V3.norm r1 + V3.norm r2)
    (hup : tof ≤ Real.sqrt (D / mu) * (1e36 * D - (V3.norm r1 + V3.norm r2)))
    {v1 v2 : V3} (hv : LambertArc mu r1 r2 v1 v2 tof 0) (hsv : Sense pro r1 v1) {ε : ℝ} (hε : 0 < ε) :
    ∃ δ > 0, ∀ atol rtol, 0 ≤ atol → atol < δ → 0 ≤ rtol → rtol < δ → 0 < atol + rtol →
      ∃ N0 : ℕ, ∀ N ≥ N0, ∀ (low fo : Bool) (clock : ℝ),
      ∃ out, delatorre2018 mu r1 r2 tof 0 pro low N atol rtol fo clock = .ok out ∧
        len (out.v1 - v1) < ε ∧ len (out.v2 - v2) < ε := by
  have hna : NotAligned r1 r2 := fun h => hnp h.2.2
  have htof := hv.1
  obtain ⟨δ, hδ, h⟩ := zero_rev_solvers_accurate hmu hnp hv hsv hε
  refine ⟨δ, hδ, fun atol rtol ha0 ha hr0 hr hsum => ?_⟩
  have htol : 0 < atol + rtol * tof := by
    rcases ha0.eq_or_lt with rfl | ha'
    · have : 0 < rtol := by linarith
      positivity
    · positivity
  obtain ⟨N0, hN⟩ := delatorre_returns_budget hmu hna htof hQ hD hlow hup htol
  refine ⟨N0, fun N hNN low fo clock => ?_⟩
  obtain ⟨out, ho⟩ := hN N hNN low fo clock
  exact ⟨out, ho, h exactBrent low N atol rtol fo clock out exactBrent_spec ha0 ha hr0 hr (.inr (.inl ho))⟩

/-- A quarter turn of the unit circle, in any time from that of the parabola on: `vallado2013` does return. -/
example {tof : ℝ} (h0 : 0 < tof) (h : parabolicTime 1 ⟨1, 0, 0⟩ ⟨0, 1, 0⟩ true ≤ tof) {ε : ℝ} (hε : 0 < ε) :
    ∃ rtol N out v1 v2, 0 < rtol ∧
      vallado2013 1 ⟨1, 0, 0⟩ ⟨0, 1, 0⟩ tof 0 true true N 0 rtol false 0 = .ok out ∧
      LambertArc 1 ⟨1, 0, 0⟩ ⟨0, 1, 0⟩ v1 v2 tof 0 ∧ len (out.v1 - v1) < ε ∧ len (out.v2 - v2) < ε := by
  have hnp : NotPolar ⟨1, 0, 0⟩ ⟨0, 1, 0⟩ := by simp [NotPolar]
  obtain ⟨v, ⟨hv, hs⟩, -⟩ := zero_rev_exists_unique one_pos h0 hnp true
  obtain ⟨δ, hδ, k⟩ := vallado_converges one_pos hnp h hv hs hε
  obtain ⟨N, hN⟩ := k (δ / 2) (by linarith) (by linarith)
  obtain ⟨out, ho, h1, h2⟩ := hN N le_rfl true false 0
  exact ⟨δ / 2, N, out, v.1, v.2, by linarith, ho, hv, h1, h2⟩

end Lamberthub
