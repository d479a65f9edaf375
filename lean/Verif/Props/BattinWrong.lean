import Verif.Proofs.BattinTime
import Verif.Props.JiangFast

/-! # C71: `battin1984` converges to a wrong orbit

The continued fraction of `_xi_at_x` is cut short (`battin_xi_no_level`) and `_u_at_B` misplaces a parenthesis
(`battin_cubic_wrong`); both make the value of `y` too small. The orbit to which the iteration converges therefore
takes longer than the requested time of flight. -/

set_option autoImplicit false

namespace Lamberthub
open Spec LC

namespace Battin

variable {mu s lam l : ℝ} {r1 r2 : V3}

/-- The arc described by Battin's variable and its time. -/
theorem arc_time (hmu : 0 < mu) (hG : Geo r1 r2 (Real.sqrt 2 * s * lam))
    (hS : Semi (V3.norm r1) (V3.norm r2) (V3.norm (r2 - r1)) s lam) (hl : l = ((1 - lam) / (1 + lam)) ^ 2)
    {x V : ℝ} (hx : 0 < x) (hV : V = s * (1 + lam) ^ 2 * (x + l) / (1 + x)) :
    LambertArc mu r1 r2 (fgV1 mu r1 r2 (Real.sqrt 2 * s * lam) V) (fgV2 mu r1 r2 (Real.sqrt 2 * s * lam) V)
      (Real.sqrt (V / mu) * (s * (1 + lam) ^ 2 * (1 + x) / (2 * Real.sqrt 2) * yTrue l x)) 0 := by
  have hs := hS.spos
  have hb := abs_lt.1 ((sq_lt_one_iff_abs_lt_one _).1 hS.lam_lt)
  have h1l : 0 < 1 + lam := by linarith [hb.1]
  have hl0 : 0 ≤ l := by rw [hl]; positivity
  have h1x : 0 < 1 + x := by linarith
  have hr2 : Real.sqrt 2 ^ 2 = 2 := Real.sq_sqrt (by norm_num)
  have hq : 0 < Real.sqrt x := Real.sqrt_pos.2 hx
  have h0 := Real.arctan_pos.2 hq
  have h1 := Real.arctan_lt_pi_div_two (Real.sqrt x)
  have hcos : Real.cos (2 * Real.arctan (Real.sqrt x)) = (1 - x) / (1 + x) := by
    rw [Real.cos_two_mul, Real.cos_arctan, Real.sq_sqrt hx.le, div_pow, Real.sq_sqrt h1x.le]; field_simp; ring
  rw [hV, ← tell_eq hs h1l hx hl]
  apply Path.arc hmu hG
  apply Path.ell (by push_cast; linarith) (by push_cast; linarith) (by positivity)
  rw [hcos, hS.sum, show Real.sqrt 2 * (Real.sqrt 2 * s * lam) = 2 * s * lam by linear_combination s * lam * hr2, hl]
  field_simp
  ring

/-- The cosine of half the difference of the eccentric anomalies, in Lancaster's variable. -/
noncomputable def cosL (lam u : ℝ) : ℝ := u * lancY lam u + lam * (1 - u ^ 2)
/-- Battin's variable in terms of Lancaster's. -/
noncomputable def battinX (lam u : ℝ) : ℝ := (1 - cosL lam u) / (1 + cosL lam u)

theorem cosL_abs (h : lam ^ 2 < 1) {u : ℝ} (h1 : -1 < u) (h2 : u < 1) : -1 < cosL lam u ∧ cosL lam u < 1 := by
  have hL := lanc_lancY h u
  have e := hL.sin_sq
  have h3 := hL.eta_pos
  have h4 : 0 < 1 - u ^ 2 := by nlinarith
  have h5 : cosL lam u ^ 2 < 1 := by
    have : 0 < (lancY lam u - lam * u) ^ 2 * (1 - u ^ 2) := by positivity
    unfold cosL; linarith
  exact abs_lt.1 ((sq_lt_one_iff_abs_lt_one _).1 h5)

theorem battinX_pos (h : lam ^ 2 < 1) {u : ℝ} (h1 : -1 < u) (h2 : u < 1) : 0 < battinX lam u := by
  obtain ⟨a, b⟩ := cosL_abs h h1 h2
  exact div_pos (by linarith) (by linarith)

theorem V_battinX (h : lam ^ 2 < 1) (hl : l = ((1 - lam) / (1 + lam)) ^ 2) {u : ℝ} (h1 : -1 < u) (h2 : u < 1) :
    s * (1 + lam) ^ 2 * (battinX lam u + l) / (1 + battinX lam u) = s * (lancY lam u - lam * u) ^ 2 := by
  have hb := abs_lt.1 ((sq_lt_one_iff_abs_lt_one _).1 h)
  have h1l : 0 < 1 + lam := by linarith [hb.1]
  obtain ⟨a, b⟩ := cosL_abs h h1 h2
  rw [(lanc_lancY h u).eta_sq, hl, battinX]
  change _ = s * (1 + lam ^ 2 - 2 * lam * cosL lam u)
  generalize cosL lam u = C at *
  have hC : 0 < 1 + C := by linarith
  have e : 1 + (1 - C) / (1 + C) = 2 / (1 + C) := by field_simp; ring
  rw [e]
  field_simp
  ring

theorem eq_battinX (h : lam ^ 2 < 1) (h0 : lam ≠ 0) (hs : 0 < s) (hl : l = ((1 - lam) / (1 + lam)) ^ 2) {u x : ℝ}
    (hx : -1 < x) (e : s * (1 + lam) ^ 2 * (x + l) / (1 + x) = s * (lancY lam u - lam * u) ^ 2) : x = battinX lam u := by
  have hb := abs_lt.1 ((sq_lt_one_iff_abs_lt_one _).1 h)
  have h1l : 0 < 1 + lam := by linarith [hb.1]
  have h1x : 0 < 1 + x := by linarith
  rw [(lanc_lancY h u).eta_sq, hl] at e
  change _ = s * (1 + lam ^ 2 - 2 * lam * cosL lam u) at e
  unfold battinX
  generalize cosL lam u = C at *
  have e2 : (1 + lam) ^ 2 * x + (1 - lam) ^ 2 = (1 + lam ^ 2 - 2 * lam * C) * (1 + x) := by
    field_simp at e
    linear_combination e
  have e3 : C * (1 + x) = 1 - x := by
    apply mul_left_cancel₀ h0
    linear_combination e2 / 2
  have hC : 0 < 1 + C := by
    have : (1 + C) * (1 + x) = 2 := by linear_combination e3
    exact pos_of_mul_pos_left (by rw [this]; norm_num) h1x.le
  rw [eq_div_iff hC.ne']
  linear_combination e3

theorem battinX_cont {u : ℝ} (h1 : 1 + cosL lam u ≠ 0) : ContinuousAt (battinX lam) u := by
  have hc : Continuous (cosL lam) := by unfold cosL lancY; fun_prop
  unfold battinX
  exact (continuousAt_const.sub hc.continuousAt).div (continuousAt_const.add hc.continuousAt) h1

theorem xiCode_cont {x : ℝ} (hx : -1 < x) : ContinuousAt xiCode x := by
  have hr : 0 < Real.sqrt (1 + x) := Real.sqrt_pos.2 (by linarith)
  have : ContinuousAt (fun x => (Real.sqrt (1 + x) + 1) * (51 * Real.sqrt (1 + x) + 19) / (20 * Real.sqrt (1 + x) + 8)) x := by
    apply ContinuousAt.div
    · fun_prop
    · fun_prop
    · positivity
  refine this.congr ?_
  filter_upwards [lt_mem_nhds hx] with t ht
  rw [xiCode_eq ht]

theorem dd_cont {x : ℝ} (hx : -1 < x) : ContinuousAt (dd l) x := by
  have := xiCode_cont hx
  unfold dd
  fun_prop

theorem hA_cont {x : ℝ} (hx : -1 < x) (hl : 0 < 1 + 2 * x + l) : ContinuousAt (hA l) x := by
  have h1 := xiCode_cont hx
  have h2 := dd_cont (l := l) hx
  have h3 := (dd_pos hx hl).ne'
  unfold hA
  fun_prop (disch := assumption)

theorem hC_cont {x : ℝ} (hx : -1 < x) (hl : 0 < 1 + 2 * x + l) : ContinuousAt (hC l) x := by
  have h1 := xiCode_cont hx
  have h2 := dd_cont (l := l) hx
  have h3 := (dd_pos hx hl).ne'
  unfold hC
  fun_prop (disch := assumption)

theorem yTrue_cont {x : ℝ} (hx : 0 < x) : ContinuousAt (yTrue l) x := by
  have h1 : Real.sqrt x ≠ 0 := (Real.sqrt_pos.2 hx).ne'
  have h2 : 2 * x ≠ 0 := by positivity
  unfold yTrue gaussQ
  fun_prop (disch := assumption)

/-- The neighbourhood of the solution on which a pass of the loop stays away from it. -/
theorem neighbourhood {m X : ℝ} (hl : 0 < l) (hX : 0 < X) (hc : 0 < X - l + xiCode X)
    (hm : m = yTrue l X ^ 2 * ((l + X) * (1 + X))) :
    ∃ q, 0 < q ∧ q < 1 ∧ ∃ η, 0 < η ∧ ∀ x x0, |x - X| < η → |x0 - X| < η →
      0 < x ∧ 0 < hC l x0 ∧ 27 * (m * hC l x0) / (4 * (1 + hA l x0) ^ 3) < 8 ∧ yBound l x x0 < q * yTrue l x := by
  have hX1 : -1 < X := by linarith
  have hX2 : 0 < 1 + 2 * X + l := by linarith
  have hlt := yBound_lt hX hl
  have hxi : 0 < xiCode X := by
    have := xiCode_ge hX1
    have := Real.sqrt_nonneg (1 + X)
    linarith
  have hY1 : 0 < yBound l X X := by
    rw [yBound_self hX1 hX2]; positivity
  have hY0 : 0 < yTrue l X := by linarith
  obtain ⟨q, hq1, hq2⟩ := exists_between ((div_lt_one hY0).2 hlt)
  have hq0 : 0 < q := lt_trans (div_pos hY1 hY0) hq1
  have hq3 : yBound l X X < q * yTrue l X := (div_lt_iff₀ hY0).1 hq1
  have cA := hA_cont hX1 hX2
  have cC := hC_cont hX1 hX2
  have cY := yTrue_cont (l := l) hX
  have cA2 : ContinuousAt (fun p : ℝ × ℝ => hA l p.2) (X, X) := ContinuousAt.comp (f := Prod.snd) (x := (X, X)) cA continuousAt_snd
  have cC2 : ContinuousAt (fun p : ℝ × ℝ => hC l p.2) (X, X) := ContinuousAt.comp (f := Prod.snd) (x := (X, X)) cC continuousAt_snd
  have cY1 : ContinuousAt (fun p : ℝ × ℝ => yTrue l p.1) (X, X) := ContinuousAt.comp (f := Prod.fst) (x := (X, X)) cY continuousAt_fst
  have hA0 : 0 ≤ hA l X := div_nonneg (by positivity) (dd_pos hX1 hX2).le
  have hne : 4 * (1 + hA l X) ^ 3 ≠ 0 := by positivity
  have hB := B_lt hX hl hc
  rw [← hm] at hB
  have hC0 : 0 < hC l X := div_pos hc (dd_pos hX1 hX2)
  have e1 : ∀ᶠ p : ℝ × ℝ in nhds (X, X), 0 < p.1 := continuousAt_fst.eventually (lt_mem_nhds hX)
  have e2 : ∀ᶠ p : ℝ × ℝ in nhds (X, X), 0 < hC l p.2 := cC2.eventually (lt_mem_nhds hC0)
  have cB : ContinuousAt (fun p : ℝ × ℝ => 27 * (m * hC l p.2) / (4 * (1 + hA l p.2) ^ 3)) (X, X) := by
    apply ContinuousAt.div
    · fun_prop
    · fun_prop
    · exact hne
  have e3 : ∀ᶠ p : ℝ × ℝ in nhds (X, X), 27 * (m * hC l p.2) / (4 * (1 + hA l p.2) ^ 3) < 8 :=
    cB.eventually (gt_mem_nhds (show 27 * (m * hC l X) / (4 * (1 + hA l X) ^ 3) < 8 from hB))
  have cb : ContinuousAt (fun p : ℝ × ℝ => yBound l p.1 p.2) (X, X) := by unfold yBound; fun_prop
  have e4 : ∀ᶠ p : ℝ × ℝ in nhds (X, X), yBound l p.1 p.2 < q * yTrue l p.1 := cb.eventually_lt (continuousAt_const.mul cY1) hq3
  obtain ⟨η, hη, h⟩ := Metric.eventually_nhds_iff.1 (e1.and (e2.and (e3.and e4)))
  refine ⟨q, hq0, hq2, η, hη, fun x x0 h1 h2 => ?_⟩
  exact h (y := (x, x0)) (by rw [Prod.dist_eq, Real.dist_eq, Real.dist_eq]; exact max_lt h1 h2)

/-- The distance between the time of the returned orbit and the requested time. -/
theorem core (hmu : 0 < mu) (hna : NotAligned r1 r2) {pro : Bool} (hG : Geo r1 r2 (Real.sqrt 2 * s * lam))
    (hS : Semi (V3.norm r1) (V3.norm r2) (V3.norm (r2 - r1)) s lam) (h0 : lam ≠ 0) (hsg : 0 < lam ↔ ShortWay pro r1 r2)
    (hl : l = ((1 - lam) / (1 + lam)) ^ 2) {u tof : ℝ} (hu1 : -1 < u) (hu2 : u < 1)
    (hu : Thorne.timeOf mu s lam u = tof) (hc : 0 < battinX lam u - l + xiCode (battinX lam u)) :
    ∃ δ, 0 < δ ∧ ∀ (M : ℤ) (low : Bool) (maxiter : ℕ) (atol rtol : ℝ) (full : Bool) (clock : ℝ) (out : Output),
      atol ≤ δ → battin1984 mu r1 r2 tof M pro low maxiter atol rtol full clock = .ok out →
      ∀ T, LambertArc mu r1 r2 out.v1 out.v2 T 0 → δ ≤ |T - tof| := by
  have hs := hS.spos
  have hlt := hS.lam_lt
  have hb := abs_lt.1 ((sq_lt_one_iff_abs_lt_one _).1 hlt)
  have h1l : 0 < 1 + lam := by linarith [hb.1]
  have hl0 : 0 < l := by rw [hl]; have : 0 < 1 - lam := by linarith [hb.2]
                         positivity
  have hX := battinX_pos hlt hu1 hu2
  have hVX := V_battinX (s := s) hlt hl hu1 hu2
  have hLu := lanc_lancY hlt u
  have harc := arc_time hmu hG hS hl hX hVX.symm
  have harc' := Der.lancArc (M := 0) hmu hG hS hLu hu1 (.inl rfl)
  have htime := arc_time_unique hmu hna harc harc'
  change _ = Thorne.timeOf mu s lam u at htime
  rw [hu] at htime
  have htof : 0 < tof := by rw [← htime]; exact harc.1
  have hr2 : Real.sqrt 2 ^ 2 = 2 := Real.sq_sqrt (by norm_num)
  have hrp : 0 < Real.sqrt 2 := by positivity
  have hm : 8 * mu * tof ^ 2 / (s ^ 3 * (1 + lam) ^ 6) =
      yTrue l (battinX lam u) ^ 2 * ((l + battinX lam u) * (1 + battinX lam u)) := by
    rw [← htime, ← hVX, mul_pow, Real.sq_sqrt (by positivity), mul_pow, div_pow, mul_pow 2 (Real.sqrt 2), hr2]
    field_simp
    ring
  obtain ⟨q, hq0, hq1, η, hη, hnb⟩ := neighbourhood hl0 hX hc hm
  obtain ⟨a, b⟩ := cosL_abs hlt hu1 hu2
  have hC0 : 0 < 1 + cosL lam u := by linarith
  have hcont := battinX_cont hC0.ne'
  obtain ⟨ε, hε, hcε⟩ := Metric.continuousAt_iff.1 hcont (η / 4) (by positivity)
  obtain ⟨ε', hε'0, hε'⟩ := exists_between (lt_min hε (show 0 < u + 1 by linarith))
  have hε1 : ε' < ε := lt_of_lt_of_le hε' (min_le_left _ _)
  have hε2 : ε' < u + 1 := lt_of_lt_of_le hε' (min_le_right _ _)
  have hanti := Thorne.timeOf_anti hmu hs hlt h0
  have d1 : tof < Thorne.timeOf mu s lam (u - ε') := by
    rw [← hu]; exact hanti (show -1 < u - ε' by linarith) hu1 (by linarith)
  have d2 : Thorne.timeOf mu s lam (u + ε') < tof := by
    rw [← hu]; exact hanti hu1 (show -1 < u + ε' by linarith) (by linarith)
  have hq' : 0 < tof * (1 / q - 1) := by
    have : 1 < 1 / q := by rw [lt_div_iff₀ hq0]; linarith
    exact mul_pos htof (by linarith)
  obtain ⟨δ, hδ0, hδ⟩ := exists_between (lt_min (lt_min (sub_pos.2 d1) (sub_pos.2 d2))
    (lt_min (show 0 < η / 4 by positivity) hq'))
  have k1 : δ < Thorne.timeOf mu s lam (u - ε') - tof := hδ.trans_le ((min_le_left _ _).trans (min_le_left _ _))
  have k2 : δ < tof - Thorne.timeOf mu s lam (u + ε') := hδ.trans_le ((min_le_left _ _).trans (min_le_right _ _))
  have k3 : δ < η / 4 := hδ.trans_le ((min_le_right _ _).trans (min_le_left _ _))
  have k4 : δ < tof * (1 / q - 1) := hδ.trans_le ((min_le_right _ _).trans (min_le_right _ _))
  refine ⟨δ, hδ0, fun M low maxiter atol rtol full clock out hatol h T hT => ?_⟩
  by_contra hlt'
  rw [not_le] at hlt'
  obtain ⟨t1, t2⟩ := abs_lt.1 hlt'
  obtain ⟨s', lam', l', m, x, y, x0, V, R⟩ := run_of_ok hna h
  have hss : s' = s := by rw [R.semi.hs, hS.hs]
  subst hss
  have hll : lam' = lam := by
    have e : lam' ^ 2 = lam ^ 2 := by
      have := R.semi.chord.symm.trans hS.chord
      have := mul_left_cancel₀ hs.ne' this
      linarith
    rcases sq_eq_sq_iff_eq_or_eq_neg.1 e with e | e
    · exact e
    · exfalso
      have h3 := R.sgn.trans hsg.symm
      rw [e] at h3
      rcases lt_or_gt_of_ne h0 with h4 | h4
      · linarith [h3.1 (by linarith)]
      · linarith [h3.2 h4]
  subst hll
  have hll : l' = l := by rw [R.hl, hl]
  subst hll
  have hb0 : 0 < V3.norm r1 + V3.norm r2 - Real.sqrt 2 * (Real.sqrt 2 * s' * lam') * ((1 - x) / (1 + x)) ∧
      V3.norm r1 + V3.norm r2 - Real.sqrt 2 * (Real.sqrt 2 * s' * lam') * ((1 - x) / (1 + x)) = V := by
    have h1x : 0 < 1 + x := by linarith [R.hx]
    have e : V3.norm r1 + V3.norm r2 - Real.sqrt 2 * (Real.sqrt 2 * s' * lam') * ((1 - x) / (1 + x)) = V := by
      rw [show Real.sqrt 2 * (Real.sqrt 2 * s' * lam') = 2 * s' * lam' by linear_combination s' * lam' * hr2, hS.sum,
        R.hV, R.hl]
      field_simp; ring
    exact ⟨by rw [e]; exact R.hV0, e⟩
  obtain ⟨T', hp⟩ := path (mu := mu) R.hx hb0.1
  rw [hb0.2] at hp
  have hTT : T = T' := arc_time_unique hmu hna hT (by rw [R.hv1]; exact hp.arc hmu hG)
  subst hTT
  rw [hS.sum] at hp
  obtain ⟨w, hw1, hwV, hwT⟩ := hp.lanc hmu hs hlt h0
  change T = Thorne.timeOf mu s' lam' w at hwT
  have hw2 : |w - u| < ε := by
    rw [abs_lt]
    constructor
    · by_contra hcon
      have hlow : w ≤ u - ε' := by linarith
      have := hanti.antitoneOn hw1 (show -1 < u - ε' by linarith) hlow
      linarith
    · by_contra hcon
      have hlow : u + ε' ≤ w := by linarith
      have := hanti.antitoneOn (show -1 < u + ε' by linarith) hw1 hlow
      linarith
  have hxw : x = battinX lam' w := eq_battinX hlt h0 hs hl R.hx (by rw [← R.hV, hwV])
  have hx4 : |x - battinX lam' u| < η / 4 := by
    rw [hxw, ← Real.dist_eq]; exact hcε (by rw [Real.dist_eq]; exact hw2)
  have hx04 : |x0 - battinX lam' u| < η := by
    have e : x0 - battinX lam' u = (x - battinX lam' u) - (x - x0) := by ring
    rw [e]
    refine (abs_sub _ _).trans_lt ?_
    linarith [R.near]
  obtain ⟨n1, n2, n3, n4⟩ := hnb x x0 (by linarith) hx04
  have hm0 : 0 < m := by rw [R.hm]; positivity
  rw [← R.hm] at n3
  have hy := R.step.lt R.hx0 R.hx0l hm0 R.hy R.hxy n2 n3
  -- the time of the orbit
  have hT2 := arc_time hmu hG hS hl n1 R.hV
  have hTe : T = _ := arc_time_unique hmu hna hT (by rw [R.hv1]; exact hT2)
  rw [R.root] at hTe
  have hyp := R.hy
  have hxp := R.hx
  have h1x : 0 < 1 + x := by linarith
  have hTe2 : T * y = tof * yTrue l' x := by rw [hTe]; field_simp
  have h9 : T * y < T * (q * yTrue l' x) := mul_lt_mul_of_pos_left (hy.trans n4) hT.1
  have hYp : 0 < yTrue l' x := by
    have := R.hy
    have : 0 < q * yTrue l' x := by linarith
    exact pos_of_mul_pos_right this hq0.le
  rw [hTe2] at h9
  have h10 : tof < T * q := by
    have : tof * yTrue l' x < T * q * yTrue l' x := by linarith
    exact lt_of_mul_lt_mul_right this hYp.le
  have h11 : tof * (1 / q - 1) < T - tof := by
    have : tof / q < T := by rw [div_lt_iff₀ hq0]; exact h10
    have e : tof * (1 / q - 1) = tof / q - tof := by ring
    linarith
  linarith

end Battin

open Battin

/-- **C71.** For every transfer on the short way slower than the parabola, `battin1984` does not converge to the requested
time of flight: however small the tolerance and large the number of iterations, the time of the orbit it returns stays at
a fixed distance from the requested one. -/
theorem battin_time_wrong {mu : ℝ} (hmu : 0 < mu) {r1 r2 : V3} (hna : NotAligned r1 r2) {pro : Bool}
    (hsw : ShortWay pro r1 r2) {tof : ℝ} (htof : parabolicTime mu r1 r2 pro < tof) :
    ∃ δ, 0 < δ ∧ ∀ (M : ℤ) (low : Bool) (maxiter : ℕ) (atol rtol : ℝ) (full : Bool) (clock : ℝ) (out : Output),
      atol ≤ δ → battin1984 mu r1 r2 tof M pro low maxiter atol rtol full clock = .ok out →
      ∀ T, LambertArc mu r1 r2 out.v1 out.v2 T 0 → δ ≤ |T - tof| := by
  obtain ⟨s, lam, hG, hS, h0, hsg, -⟩ := Der.geo hna (angle_of_eq hna (transferAngle_eq hna pro))
  have hs := hS.spos
  have hP : parabolicTime mu r1 r2 pro = Thorne.timeOf mu s lam 1 := by
    rw [Der.parabolicTime_eq hS h0 hsg, ← Der.parabolic_time]; rfl
  have hU : 0 < parabolicTime mu r1 r2 pro := by
    rw [hP]; exact (Der.lancArc (M := 0) hmu hG hS (lanc_lancY hS.lam_lt 1) (by norm_num) (.inl rfl)).1
  obtain ⟨u, hu1, hu⟩ := Thorne.timeOf_surj hmu hs hS.lam_lt h0 (hU.trans htof)
  have hu2 : u < 1 := by
    rw [hP, ← hu] at htof
    exact ((Thorne.timeOf_anti hmu hs hS.lam_lt h0).lt_iff_gt (show (-1 : ℝ) < 1 by norm_num) hu1).1 htof
  refine core hmu hna hG hS h0 hsg rfl hu1 hu2 hu ?_
  have hl := hsg.2 hsw
  have hX := battinX_pos hS.lam_lt hu1 hu2
  have h1 := xiCode_ge (show -1 < battinX lam u by linarith)
  have h2 := Real.sqrt_nonneg (1 + battinX lam u)
  have hb := abs_lt.1 ((sq_lt_one_iff_abs_lt_one _).1 hS.lam_lt)
  have h3 : ((1 - lam) / (1 + lam)) ^ 2 ≤ 1 := by
    rw [sq_le_one_iff_abs_le_one, abs_of_nonneg (div_nonneg (by linarith) (by linarith)), div_le_one (by linarith)]
    linarith
  linarith

/-- **C71.** In either sense, the same holds for every transfer that is slow enough. -/
theorem battin_time_wrong_slow {mu : ℝ} (hmu : 0 < mu) {r1 r2 : V3} (hna : NotAligned r1 r2) (pro : Bool) :
    ∃ T0, ∀ tof > T0, ∃ δ, 0 < δ ∧ ∀ (M : ℤ) (low : Bool) (maxiter : ℕ) (atol rtol : ℝ) (full : Bool) (clock : ℝ)
      (out : Output), atol ≤ δ → battin1984 mu r1 r2 tof M pro low maxiter atol rtol full clock = .ok out →
      ∀ T, LambertArc mu r1 r2 out.v1 out.v2 T 0 → δ ≤ |T - tof| := by
  obtain ⟨s, lam, hG, hS, h0, hsg, -⟩ := Der.geo hna (angle_of_eq hna (transferAngle_eq hna pro))
  have hs := hS.spos
  have hlt := hS.lam_lt
  have hb := abs_lt.1 ((sq_lt_one_iff_abs_lt_one _).1 hlt)
  obtain ⟨l, hl⟩ : ∃ l, l = ((1 - lam) / (1 + lam)) ^ 2 := ⟨_, rfl⟩
  have hl0 : 0 ≤ l := by rw [hl]; positivity
  -- close to -1 the variable of Battin is large
  have hc : Continuous (cosL lam) := by unfold cosL lancY; fun_prop
  have hc1 : cosL lam (-1) = -1 := by unfold cosL lancY; norm_num
  have hlim : cosL lam (-1) < 2 / (1 + l) - 1 := by
    rw [hc1]; have : 0 < 2 / (1 + l) := by positivity
    linarith
  obtain ⟨ε, hε, hcε⟩ := Metric.eventually_nhds_iff.1 (hc.continuousAt.eventually (gt_mem_nhds hlim))
  obtain ⟨ε', hε'0, hε'⟩ := exists_between (lt_min hε (show (0 : ℝ) < 2 by norm_num))
  have hε1 : ε' < ε := lt_of_lt_of_le hε' (min_le_left _ _)
  have hε2 : ε' < 2 := lt_of_lt_of_le hε' (min_le_right _ _)
  refine ⟨max 0 (Thorne.timeOf mu s lam (-1 + ε')), fun tof htof => ?_⟩
  obtain ⟨u, hu1, hu⟩ := Thorne.timeOf_surj hmu hs hlt h0 ((le_max_left _ _).trans_lt htof)
  have hu2 : u < -1 + ε' := by
    have := (le_max_right _ _).trans_lt htof
    rw [← hu] at this
    exact ((Thorne.timeOf_anti hmu hs hlt h0).lt_iff_gt (show (-1 : ℝ) < -1 + ε' by linarith) hu1).1 this
  have hu3 : u < 1 := by linarith
  refine core hmu hna hG hS h0 hsg hl hu1 hu3 hu ?_
  have hX := battinX_pos hlt hu1 hu3
  have h1 := xiCode_ge (show -1 < battinX lam u by linarith)
  have h2 := Real.sqrt_nonneg (1 + battinX lam u)
  have h3 : cosL lam u < 2 / (1 + l) - 1 := hcε (by rw [Real.dist_eq, abs_lt]; constructor <;> linarith)
  obtain ⟨a, -⟩ := cosL_abs hlt hu1 hu3
  have h4 : l < battinX lam u := by
    unfold battinX
    rw [lt_div_iff₀ (by linarith)]
    have : cosL lam u + 1 < 2 / (1 + l) := by linarith
    rw [lt_div_iff₀ (by linarith)] at this
    linarith
  linarith

/-! ### The hypotheses are satisfiable: a problem on which the iteration stands still -/

namespace Battin

/-- If the initial value is a fixed point of the loop the solver returns, whatever its tolerance. -/
theorem returns_of_step {mu : ℝ} (hmu : 0 < mu) {r1 r2 : V3} (hna : NotAligned r1 r2) {pro : Bool} {s lam tof l m y : ℝ}
    (hS : Semi (V3.norm r1) (V3.norm r2) (V3.norm (r2 - r1)) s lam) (h0 : 0 < lam) (hsw : ShortWay pro r1 r2)
    (htof : 0 < tof) (hT : 4 / 3 * (1 - lam ^ 3) < Real.sqrt (8 * mu / s ^ 3) * tof) (hl : l = ((1 - lam) / (1 + lam)) ^ 2)
    (hm : m = 8 * mu * tof ^ 2 / (s ^ 3 * (1 + lam) ^ 6)) (hy : 0 < y) (hstep : Step l m l l y) (low : Bool)
    (k : ℕ) {atol : ℝ} (hat : 0 ≤ atol) (rtol : ℝ) (full : Bool) (clock : ℝ) :
    ∃ out, battin1984 mu r1 r2 tof 0 pro low (k + 1) atol rtol full clock = .ok out := by
  have hs := hS.spos
  have hr1 : r1 ≠ 0 := by rintro rfl; simp [NotAligned] at hna
  have h12 : r1 ≠ r2 := by
    rintro rfl
    apply hna
    refine ⟨?_, ?_, ?_⟩ <;> ring
  have hθ := transferAngle_eq hna pro
  generalize (if ShortWay pro r1 r2 then _ else _ : ℝ) = θ at hθ
  have hA := angle_of_eq hna hθ
  obtain ⟨hG, -⟩ := hA.halfGeo hna
  have hθpi : θ < Real.pi := hA.short.2 hsw
  have hR1 := hG.R1
  have hR2 := hG.R2
  have hlam : getLambda (V3.norm (r2 - r1)) s θ = .ok lam := by
    have hsc : s * (s - V3.norm (r2 - r1)) = (s * lam) ^ 2 := by rw [hS.chord]; ring
    unfold getLambda
    rw [psqrt_eq (by rw [hsc]; positivity), ok_bind, pdiv_eq hs.ne', ok_bind, if_pos hθpi, hsc,
      Real.sqrt_sq (by positivity), mul_div_cancel_left₀ _ hs.ne', abs_of_pos h0]
  obtain ⟨h1, h2, u, hh, hu, hy2, hx⟩ := hstep
  have hl1 : 0 < 1 + lam := by linarith
  have hl2 : lam < 1 := by nlinarith [hS.lam_lt]
  have hl3 : 0 < 1 - lam := by linarith
  have hl0 : 0 < l := by rw [hl]; positivity
  have hloop : loop l m atol (k + 1) 1 l = .ok (l, y, 1) := by
    rw [loop, hh]
    simp only [ok_bind]
    rw [hu, ok_bind, hy2, ok_bind, hx, ok_bind, if_pos (by rw [sub_self, abs_zero]; exact hat)]
  obtain ⟨tpi, htpi⟩ := timePerIter_pos full clock (le_refl 1)
  obtain ⟨v, hv⟩ : ∃ v, velocities r1 r2 tof s lam m l y = .ok v := by
    unfold velocities
    rw [pdiv_eq (by positivity), ok_bind]
    simp only []
    rw [pdiv_eq (by positivity), ok_bind, vdiv_eq hR1.ne', ok_bind,
      vdiv_eq hR2.ne', ok_bind]
    exact ⟨_, rfl⟩
  refine ⟨mkOutput full v.1 v.2 1 tpi, ?_⟩
  unfold battin1984
  rw [assertParameters_eq hmu hr1 h12 htof le_rfl, ok_bind, hθ, ok_bind, ← hS.hs, hlam, ok_bind, getLl,
    pdiv_eq hl1.ne', ok_bind, ok_bind, getM, pdiv_eq (by positivity), ok_bind, pdiv_eq (by positivity), ok_bind,
    psqrt_eq (by positivity), ok_bind, if_pos hT, ← hl, ← hm]
  simp only []
  rw [hloop]
  simp only [ok_bind]
  rw [htpi, ok_bind, hv]
  rfl

/-- The geometry with a given path parameter. -/
theorem isosceles {lam : ℝ} (h0 : 0 < lam) (h1 : lam < 1) : ∃ r2 : V3, NotAligned ⟨1, 0, 0⟩ r2 ∧ ShortWay true ⟨1, 0, 0⟩ r2 ∧
    ∃ s, Semi (V3.norm ⟨1, 0, 0⟩) (V3.norm r2) (V3.norm (r2 - ⟨1, 0, 0⟩)) s lam := by
  have hd : 0 < 1 + lam ^ 2 := by positivity
  obtain ⟨σ, hσ⟩ : ∃ σ, σ = (1 - lam ^ 2) / (1 + lam ^ 2) := ⟨_, rfl⟩
  obtain ⟨κ, hκ⟩ : ∃ κ, κ = 2 * lam / (1 + lam ^ 2) := ⟨_, rfl⟩
  have hσ0 : 0 < σ := by rw [hσ]; exact div_pos (by nlinarith) hd
  have hκ0 : 0 < κ := by rw [hκ]; positivity
  have hone : σ ^ 2 + κ ^ 2 = 1 := by rw [hσ, hκ]; field_simp; ring
  have hlσ : (1 + σ) * (1 - lam ^ 2) = 2 * σ := by rw [hσ]; field_simp; ring
  have hp : 0 < 2 * σ * κ := by positivity
  have hsw : ShortWay true ⟨1, 0, 0⟩ ⟨κ ^ 2 - σ ^ 2, 2 * σ * κ, 0⟩ := by
    unfold ShortWay crossZ
    simpa using hp
  have hna : NotAligned ⟨1, 0, 0⟩ ⟨κ ^ 2 - σ ^ 2, 2 * σ * κ, 0⟩ := by
    rintro ⟨-, -, h⟩
    simp at h
    rcases h with h | h <;> linarith
  have n1 : V3.norm ⟨1, 0, 0⟩ = 1 := by norm_num [V3.norm, V3.dot]
  have n2 : V3.norm ⟨κ ^ 2 - σ ^ 2, 2 * σ * κ, 0⟩ = 1 := by
    rw [V3.norm, show V3.dot ⟨κ ^ 2 - σ ^ 2, 2 * σ * κ, 0⟩ ⟨κ ^ 2 - σ ^ 2, 2 * σ * κ, 0⟩ = (σ ^ 2 + κ ^ 2) ^ 2 by
      simp only [V3.dot]; ring, hone]; simp
  have n3 : V3.norm (⟨κ ^ 2 - σ ^ 2, 2 * σ * κ, 0⟩ - ⟨1, 0, 0⟩) = 2 * σ := by
    rw [V3.norm, show V3.dot (⟨κ ^ 2 - σ ^ 2, 2 * σ * κ, 0⟩ - ⟨1, 0, 0⟩) (⟨κ ^ 2 - σ ^ 2, 2 * σ * κ, 0⟩ - ⟨1, 0, 0⟩) =
      (2 * σ) ^ 2 by
        simp only [V3.dot, V3.sub_x, V3.sub_y, V3.sub_z]
        linear_combination (κ ^ 2 + σ ^ 2 - 1) * hone, Real.sqrt_sq (by positivity)]
  refine ⟨⟨κ ^ 2 - σ ^ 2, 2 * σ * κ, 0⟩, hna, hsw, 1 + σ, ?_⟩
  obtain ⟨s', lam', hS, -⟩ := ((angle_of_eq hna (transferAngle_eq hna true)).halfGeo hna).1.semi
  rw [n1, n2, n3] at hS ⊢
  have e1 : s' = 1 + σ := by rw [hS.hs]; ring
  subst e1
  refine ⟨hS.hs, hS.spos, hS.cpos, ?_, ?_, ?_⟩
  · linear_combination hlσ
  · linear_combination -hlσ
  · nlinarith

end Battin

namespace Battin

/-- A fixed point of the loop at its initial value. -/
theorem fixed_point : ∃ l m y : ℝ, 0 < l ∧ l < 1 ∧ 0 < m ∧ 0 < y ∧ Step l m l l y ∧ l * (1 + l / 3) ^ 2 < m := by
  obtain ⟨K, hK⟩ := KAt_some (u := -21 / 320) (by norm_num) 1000
  obtain ⟨hK0, hK1⟩ := KAt_bounds (by norm_num) hK
  have hd : 0 < 1 - 2 * (-21 / 320) * K := by linarith
  obtain ⟨κ, hκ⟩ : ∃ κ, κ = (2 + 11 / 10 / (1 - 2 * (-21 / 320) * K)) / 3 := ⟨_, rfl⟩
  have hκ1 : 1 < κ := by
    have : 1 < 11 / 10 / (1 - 2 * (-21 / 320) * K) := by rw [lt_div_iff₀ hd]; linarith
    rw [hκ]; linarith
  have ht0 : 0 < 4 * (21 / 100) / 27 / κ ^ 2 := by positivity
  have ht1 : 4 * (21 / 100) / 27 / κ ^ 2 < 1 / 10 := by
    rw [div_lt_iff₀ (by positivity)]; nlinarith
  obtain ⟨z, hz⟩ : ∃ z : ℝ → ℝ, z = fun l => 2 * l * (1 + l) * hC l l / (1 + hA l l) := ⟨_, rfl⟩
  have hdd : ∀ l ∈ Set.Icc (0 : ℝ) 1, 0 < dd l l := fun l hl => dd_pos (by linarith [hl.1]) (by linarith [hl.1])
  have hxi : ∀ l ∈ Set.Icc (0 : ℝ) 1, 0 < xiCode l := fun l hl => by
    have := xiCode_ge (show -1 < l by linarith [hl.1])
    have := Real.sqrt_nonneg (1 + l)
    linarith
  have hA0 : ∀ l ∈ Set.Icc (0 : ℝ) 1, 0 ≤ hA l l := fun l hl => by
    have h1 := hxi l hl
    have h2 := hl.1
    exact div_nonneg (by positivity) (hdd l hl).le
  have hcont : ContinuousOn z (Set.Icc 0 1) := by
    intro l hl
    apply ContinuousAt.continuousWithinAt
    have hx := xiCode_cont (show -1 < l by linarith [hl.1])
    have h1 := (hdd l hl).ne'
    have h2 : 1 + hA l l ≠ 0 := by have := hA0 l hl; positivity
    rw [hz]
    have c1 : ContinuousAt (fun l => dd l l) l := by unfold dd; fun_prop
    have c2 : ContinuousAt (fun l => hA l l) l := by
      unfold hA
      exact ContinuousAt.div (by fun_prop) c1 h1
    have c3 : ContinuousAt (fun l => hC l l) l := by
      unfold hC
      exact ContinuousAt.div (by fun_prop) c1 h1
    exact ContinuousAt.div (by fun_prop) (by fun_prop) h2
  have hz0 : z 0 = 0 := by rw [hz]; simp
  have hz1 : 1 / 10 < z 1 := by
    have h1 := xiCode_ge (show (-1 : ℝ) < 1 by norm_num)
    have h2 : 1 ≤ Real.sqrt (1 + 1) := by rw [Real.le_sqrt' one_pos]; norm_num
    have h3 : 19 / 4 ≤ xiCode 1 := by
      refine le_trans ?_ h1
      generalize Real.sqrt (1 + 1) = q at h2 ⊢
      linarith
    rw [hz]
    simp only [hC, hA, dd]
    generalize xiCode 1 = xi at *
    have e : 2 * 1 * (1 + 1) * ((1 - 1 + xi) / ((1 + 2 * 1 + 1) * (4 * 1 + xi * (3 + 1)))) /
        (1 + (1 + 1) ^ 2 * (1 + 3 * 1 + xi) / ((1 + 2 * 1 + 1) * (4 * 1 + xi * (3 + 1)))) = xi / (8 + 5 * xi) := by
      have : 0 < 1 + xi := by linarith
      field_simp
      ring
    rw [e, lt_div_iff₀ (by linarith)]
    linarith
  obtain ⟨l, hl, hlt⟩ := intermediate_value_Icc (zero_le_one (α := ℝ)) hcont (show 4 * (21 / 100) / 27 / κ ^ 2 ∈ Set.Icc (z 0) (z 1) by
    rw [hz0]; exact ⟨ht0.le, by linarith⟩)
  have hl0 : 0 < l := by
    refine lt_of_le_of_ne hl.1 fun h => ?_
    rw [← h, hz0] at hlt; linarith
  have hl1 : l < 1 := by
    refine lt_of_le_of_ne hl.2 fun h => ?_
    rw [h] at hlt; linarith
  have hh := hA0 l hl
  have hH : 0 < 1 + hA l l := by linarith
  have hy0 : 0 < (1 + hA l l) * κ := by positivity
  refine ⟨l, 2 * l * (1 + l) * ((1 + hA l l) * κ) ^ 2, (1 + hA l l) * κ, hl0, hl1, by positivity, hy0, ?_, ?_⟩
  · have hB : 27 * (2 * l * (1 + l) * ((1 + hA l l) * κ) ^ 2 * hC l l) / (4 * (1 + hA l l) ^ 3) = 21 / 100 := by
      have e : 27 * (2 * l * (1 + l) * ((1 + hA l l) * κ) ^ 2 * hC l l) / (4 * (1 + hA l l) ^ 3) = 27 / 4 * κ ^ 2 * z l := by
        rw [hz]; field_simp
      rw [e, hlt]; field_simp
    have hBat : BAt (hA l l) (2 * l * (1 + l) * ((1 + hA l l) * κ) ^ 2 * hC l l) = .ok (21 / 100) := by
      unfold BAt; rw [pdiv_eq (by positivity), hB]
    have hr : Real.sqrt (1 + 21 / 100) = 11 / 10 := by
      rw [show (1 + 21 / 100 : ℝ) = (11 / 10) ^ 2 by norm_num, Real.sqrt_sq (by norm_num)]
    refine ⟨_, _, -21 / 320, hCoefficients_eq _ (by linarith) (by linarith), ?_, ?_, ?_⟩
    · unfold uAtH uAtB
      rw [hBat, ok_bind, psqrt_eq (by norm_num), ok_bind, hr, pdiv_eq (by norm_num)]
      norm_num
    · unfold secondEquation
      rw [hBat, ok_bind, hK, ok_bind, psqrt_eq (by norm_num), ok_bind, add_comm (21 / 100 : ℝ) 1, hr, pdiv_eq hd.ne', ok_bind,
        hκ]
      congr 1
      ring
    · unfold firstEquation
      rw [pdiv_eq (by positivity), ok_bind, mul_div_cancel_right₀ _ (by positivity),
        show ((1 - l) / 2) ^ 2 + 2 * l * (1 + l) = ((1 + 3 * l) / 2) ^ 2 by ring, psqrt_eq (by positivity), ok_bind,
        Real.sqrt_sq (by positivity)]
      congr 1
      ring
  · have h1 : 1 ≤ ((1 + hA l l) * κ) ^ 2 := by
      have : 1 ≤ (1 + hA l l) * κ := by nlinarith
      nlinarith
    have h2 : 2 * l * (1 + l) * 1 ≤ 2 * l * (1 + l) * ((1 + hA l l) * κ) ^ 2 := mul_le_mul_of_nonneg_left h1 (by positivity)
    refine lt_of_lt_of_le ?_ h2
    have : (1 + l / 3) ^ 2 < 2 * (1 + l) := by nlinarith
    nlinarith

end Battin

/-- **C71, reached.** There is a problem, on the short way and slower than the parabola, that `battin1984` solves with
every tolerance and every positive number of iterations: its initial value is a fixed point of the loop. -/
theorem battin_wrong_reached : ∃ (r2 : V3) (tof : ℝ), NotAligned ⟨1, 0, 0⟩ r2 ∧ ShortWay true ⟨1, 0, 0⟩ r2 ∧
    parabolicTime 1 ⟨1, 0, 0⟩ r2 true < tof ∧
    ∀ (low : Bool) (k : ℕ) (atol rtol : ℝ) (full : Bool) (clock : ℝ), 0 ≤ atol →
      ∃ out, battin1984 1 ⟨1, 0, 0⟩ r2 tof 0 true low (k + 1) atol rtol full clock = .ok out := by
  obtain ⟨l, m, y, hl0, hl1, hm0, hy, hstep, hml⟩ := fixed_point
  obtain ⟨e, he⟩ : ∃ e, e = Real.sqrt l := ⟨_, rfl⟩
  have he2 : e ^ 2 = l := by rw [he]; exact Real.sq_sqrt hl0.le
  have he0 : 0 < e := by rw [he]; exact Real.sqrt_pos.2 hl0
  have he1 : e < 1 := by nlinarith
  obtain ⟨lam, hlam⟩ : ∃ lam, lam = (1 - e) / (1 + e) := ⟨_, rfl⟩
  have hlam0 : 0 < lam := by rw [hlam]; exact div_pos (by linarith) (by linarith)
  have hlam1 : lam < 1 := by rw [hlam, div_lt_one (by linarith)]; linarith
  have h1l : 1 + lam = 2 / (1 + e) := by rw [hlam]; field_simp; ring
  have hle : (1 - lam) / (1 + lam) = e := by rw [h1l, hlam]; field_simp; ring
  obtain ⟨r2, hna, hsw, s, hS⟩ := isosceles hlam0 hlam1
  have hs := hS.spos
  have hlp : 0 < 1 + lam := by linarith
  obtain ⟨tof, htof⟩ : ∃ tof, tof = Real.sqrt (m * (s ^ 3 * (1 + lam) ^ 6) / 8) := ⟨_, rfl⟩
  have ht0 : 0 < tof := by rw [htof]; positivity
  have ht2 : tof ^ 2 = m * (s ^ 3 * (1 + lam) ^ 6) / 8 := by rw [htof]; exact Real.sq_sqrt (by positivity)
  have hT : 4 / 3 * (1 - lam ^ 3) < Real.sqrt (8 * 1 / s ^ 3) * tof := by
    have e1 : Real.sqrt (8 * 1 / s ^ 3) * tof = (1 + lam) ^ 3 * Real.sqrt m := by
      rw [htof, ← Real.sqrt_mul (by positivity), show 8 * 1 / s ^ 3 * (m * (s ^ 3 * (1 + lam) ^ 6) / 8) =
        ((1 + lam) ^ 3) ^ 2 * m by field_simp, Real.sqrt_mul (by positivity), Real.sqrt_sq (by positivity)]
    have e2 : e * (1 + l / 3) < Real.sqrt m := by
      apply Real.lt_sqrt_of_sq_lt
      rw [mul_pow, he2]; exact hml
    have e3 : 4 / 3 * (1 - lam ^ 3) = (1 + lam) ^ 3 * (e * (1 + l / 3)) := by
      rw [h1l, hlam, ← he2]; field_simp; ring
    rw [e1, e3]
    exact mul_lt_mul_of_pos_left e2 (by positivity)
  refine ⟨r2, tof, hna, hsw, ?_, fun low k atol rtol full clock hat => ?_⟩
  · rw [Der.parabolicTime_eq hS hlam0.ne' ⟨fun _ => hsw, fun _ => hlam0⟩, Der.computeParabolicTime]
    have e1 : Real.sqrt (s ^ 3 / (2 * 1)) * Real.sqrt (8 * 1 / s ^ 3) = 2 := by
      rw [← Real.sqrt_mul (by positivity), show s ^ 3 / (2 * 1) * (8 * 1 / s ^ 3) = 2 ^ 2 by field_simp; norm_num,
        Real.sqrt_sq (by norm_num)]
    have e2 := mul_lt_mul_of_pos_left hT (show 0 < Real.sqrt (s ^ 3 / (2 * 1)) by positivity)
    rw [← mul_assoc _ _ tof, e1] at e2
    linarith
  · refine returns_of_step one_pos hna hS hlam0 hsw ht0 hT (by rw [hle, he2]) ?_ hy hstep low k hat rtol full clock
    rw [ht2]; field_simp

/-- So its answer takes a wrong time, even with the tolerance 0. -/
example : ∃ (r2 : V3) (tof δ : ℝ), 0 < δ ∧ ∃ out, battin1984 1 ⟨1, 0, 0⟩ r2 tof 0 true true 35 0 1e-7 false 0 = .ok out ∧
    ∀ T, LambertArc 1 ⟨1, 0, 0⟩ r2 out.v1 out.v2 T 0 → δ ≤ |T - tof| := by
  obtain ⟨r2, tof, hna, hsw, ht, h⟩ := battin_wrong_reached
  obtain ⟨δ, hδ, hw⟩ := battin_time_wrong one_pos hna hsw ht
  obtain ⟨out, ho⟩ := h true 34 0 1e-7 false 0 le_rfl
  exact ⟨r2, tof, δ, hδ, out, ho, hw _ _ _ _ _ _ _ _ hδ.le ho⟩

end Lamberthub
