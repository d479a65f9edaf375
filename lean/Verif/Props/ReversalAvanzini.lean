import Verif.Props.Reversal
import Verif.Props.ReversalMore
import Verif.Props.AvanziniMore

/-! # Reversal of the motion in `avanzini2008` (property C59) -/

set_option autoImplicit false

namespace Lamberthub
open Spec LC

namespace Avanzini

/-- Two runs of the secant method on functions that agree where both are defined. -/
theorem secantLoop_agree {f f' : ℝ → Py ℝ} (h : ∀ x a b, f x = .ok a → f' x = .ok b → a = b) {atol rtol : ℝ} {m i : ℕ}
    {x0 f0 x1 f1 : ℝ} {p q : ℝ × ℕ} (hp : secantLoop f atol rtol m i x0 f0 x1 f1 = .ok p)
    (hq : secantLoop f' atol rtol m i x0 f0 x1 f1 = .ok q) : p = q := by
  induction m generalizing i x0 f0 x1 f1 with
  | zero => cases hp
  | succ m ih =>
    unfold secantLoop at hp hq
    by_cases h0 : f1 = f0
    · rw [if_pos h0] at hp hq
      rw [← Except.ok.inj hp, ← Except.ok.inj hq]
    rw [if_neg h0] at hp hq
    simp only [bind_ok, pdiv_ok] at hp hq
    obtain ⟨_, ⟨-, rfl⟩, hp⟩ := hp
    obtain ⟨_, ⟨-, rfl⟩, hq⟩ := hq
    split_ifs at hp hq
    · rw [← Except.ok.inj hp, ← Except.ok.inj hq]
    · simp only [bind_ok] at hp hq
      obtain ⟨a, ha, hp⟩ := hp
      obtain ⟨b, hb, hq⟩ := hq
      obtain rfl := h _ _ _ ha hb
      exact ih hp hq

theorem secant_agree {f f' : ℝ → Py ℝ} (h : ∀ x a b, f x = .ok a → f' x = .ok b → a = b) {x0 atol rtol : ℝ} {m : ℕ}
    {p q : ℝ × ℕ} (hp : secant f x0 m atol rtol = .ok p) (hq : secant f' x0 m atol rtol = .ok q) : p = q := by
  unfold secant at hp hq
  simp only [bind_ok] at hp hq
  obtain ⟨a, ha, b, hb, hp⟩ := hp
  obtain ⟨a', ha', b', hb', hq⟩ := hq
  obtain rfl := h _ _ _ ha ha'
  obtain rfl := h _ _ _ hb hb'
  exact secantLoop_agree h hp hq

/-- The geometry of the reversed problem. -/
theorem getGeometry_reversed {r1 r2 : V3} {pro : Bool} {g g' : Geometry} (h : getGeometry r1 r2 pro = .ok g)
    (h' : getGeometry r2 r1 (!pro) = .ok g') :
    g'.r1Norm = g.r2Norm ∧ g'.r2Norm = g.r1Norm ∧ g'.cNorm = g.cNorm ∧ g'.dtheta = g.dtheta := by
  unfold getGeometry at h h'
  rw [transferAngle_reversed] at h'
  simp only [bind_ok] at h h'
  obtain ⟨θ, hθ, _, -, w, -, h⟩ := h
  obtain ⟨θ', hθ', _, -, w', -, h'⟩ := h'
  rw [hθ] at hθ'
  obtain rfl := Except.ok.inj hθ'
  obtain rfl := (Except.ok.inj h).symm
  obtain rfl := (Except.ok.inj h').symm
  exact ⟨rfl, rfl, V3.norm_sub_swap _ _, rfl⟩

section
variable {g g' : Geometry} (hg : g'.r1Norm = g.r2Norm ∧ g'.r2Norm = g.r1Norm ∧ g'.cNorm = g.cNorm ∧ g'.dtheta = g.dtheta)
include hg

theorem fundamental_reversed : Agree (fun x y => y = (-x.1, x.2))
    (fundamental g.r1Norm g.r2Norm g.cNorm) (fundamental g'.r1Norm g'.r2Norm g'.cNorm) := by
  obtain ⟨h1, h2, h3, h4⟩ := hg
  unfold fundamental getEccF getAF getPF
  rw [h1, h2, h3]
  refine (agree_pdiv (c := -1) (d := 1) one_ne_zero (by ring) (by ring)).bind fun e _ _ _ h => .ok ?_
  subst h
  refine Prod.ext (by simp) (Prod.ext (by simp only []; ring) (by simp only []; ring))

theorem getEccTAtX_reversed : getEccTAtX g' = getEccTAtX g := by
  refine Agree.eq ?_
  unfold getEccTAtX
  refine Agree.bind (R := fun x y => y = x) ?_ fun ⟨o, e⟩ _ _ _ h => ?_
  · unfold getEccTLimits
    refine (fundamental_reversed hg).bind fun ⟨e, a, p⟩ _ _ _ h => ?_
    subst h
    rw [hg.2.2.2]
    simp only [eccHLimit, neg_sq]
    exact .refl fun _ _ => rfl
  · subst h
    exact .refl fun _ _ => rfl

theorem eap_reversed (eccT : ℝ) : eapFromEccT eccT g' = eapFromEccT eccT g := by
  refine Agree.eq ?_
  unfold eapFromEccT
  refine (fundamental_reversed hg).bind fun ⟨e, a, p⟩ _ _ _ h => ?_
  subst h
  obtain ⟨h1, h2, h3, h4⟩ := hg
  simp only [eccAtEccT, pAtEccT, aAtEccT, neg_sq, h1, h2, h3, h4,
    show eccT * g.r2Norm * g.r1Norm = eccT * g.r1Norm * g.r2Norm by ring]
  exact .refl fun _ _ => rfl

end

theorem conicV_comm (p a b θ : ℝ) : conicV p b a θ = conicV p a b θ := by
  unfold conicV; ring

/-- The equations of the two problems have the same values. -/
theorem f_reversed {r1 r2 : V3} {pro : Bool} {mu tof : ℝ} (hmu : 0 < mu) {g g' : Geometry} {F : ℝ → Py ℝ}
    (h : getGeometry r1 r2 pro = .ok g) (h' : getGeometry r2 r1 (!pro) = .ok g') (hF : getEccTAtX g = .ok F) (x a b : ℝ)
    (ha : f F mu g tof x = .ok a) (hb : f F mu g' tof x = .ok b) : a = b := by
  have hg := getGeometry_reversed h h'
  have hF' : getEccTAtX g' = .ok F := by rw [getEccTAtX_reversed hg, hF]
  unfold f at ha hb
  simp only [bind_ok, pdiv_ok, psqrt_ok, plog_ok] at ha hb
  obtain ⟨e, he, T, hT, _, ⟨-, rfl⟩, s, ⟨-, hs⟩, _, ⟨hs0, rfl⟩, _, ⟨-, rfl⟩, _, ⟨h1, rfl⟩, _, ⟨h2, rfl⟩, ha⟩ := ha
  obtain ⟨e', he', T', hT', _, ⟨-, rfl⟩, s', ⟨-, hs'⟩, _, ⟨hs0', rfl⟩, _, ⟨-, rfl⟩, _, ⟨h1', rfl⟩, _, ⟨h2', rfl⟩, hb⟩ := hb
  rw [he] at he'
  obtain rfl := Except.ok.inj he'
  obtain ⟨hpi, h0, hlt⟩ := eccT_lt hF he
  obtain ⟨hpi', h0', hlt'⟩ := eccT_lt hF' he
  have hG := geometry_good h hpi
  have hG' := geometry_good h' hpi'
  obtain ⟨ecc, a1, p, heap, hp, hpath⟩ := avanzini_path hmu hG hlt h0 hT
  obtain ⟨ecc', a1', p', heap', hp', hpath'⟩ := avanzini_path hmu hG' hlt' h0' hT'
  rw [eap_reversed hg, heap] at heap'
  obtain ⟨rfl, rfl, rfl⟩ : ecc = ecc' ∧ a1 = a1' ∧ p = p' := by simpa using heap'
  obtain ⟨q1, q2, q3, q4⟩ := hg
  rw [q1, q2, q4, add_comm, halfA_comm, conicV_comm] at hpath'
  obtain ⟨hGeo, -⟩ := hG.angle.halfGeo hG.hna
  rw [← hG.n1, ← hG.n2] at hGeo
  have hTT : T = T' := by
    have hs := hGeo.sum_gt
    rw [← hG.n1, ← hG.n2] at hs
    have A1 := hpath.time_lt_iff hmu hGeo.hA hs hpath'
    have A2 := hpath'.time_lt_iff hmu hGeo.hA hs hpath
    simp only [lt_irrefl, iff_false, not_lt] at A1 A2
    exact le_antisymm A2 A1
  subst hTT
  have hsp : 0 < s := lt_of_le_of_ne (by rw [hs]; exact Real.sqrt_nonneg _) (Ne.symm hs0)
  have hsp' : 0 < s' := lt_of_le_of_ne (by rw [hs']; exact Real.sqrt_nonneg _) (Ne.symm hs0')
  have t1 : 0 < T := by rw [div_pos_iff_of_pos_right hsp] at h1; exact h1
  have t2 : 0 < tof := by rw [div_pos_iff_of_pos_right hsp] at h2; exact h2
  rw [← Except.ok.inj ha, ← Except.ok.inj hb, Real.log_div t1.ne' hs0, Real.log_div t2.ne' hs0,
    Real.log_div t1.ne' hs0', Real.log_div t2.ne' hs0']
  ring

/-- The velocities outside the equatorial plane. -/
theorem velocities_fg {pro : Bool} {r1 r2 v1 v2 : V3} {g : Geometry} {mu eccT : ℝ} {el : Elements} (hmu : 0 < mu)
    (hg : getGeometry r1 r2 pro = .ok g) (hpi : g.dtheta ≠ Real.pi) (hel : coeAtEccT eccT r1 r2 pro = .ok el)
    (hv : velocities mu el = .ok (v1, v2)) (hplane : ¬ (r1.z = 0 ∧ r2.z = 0)) :
    ∃ ecc a, eapFromEccT eccT g = .ok (ecc, a, el.p) ∧
      v1 = fgV1 mu r1 r2 (halfA (V3.norm r1) (V3.norm r2) g.dtheta) (conicV el.p (V3.norm r1) (V3.norm r2) g.dtheta) ∧
      v2 = fgV2 mu r1 r2 (halfA (V3.norm r1) (V3.norm r2) g.dtheta) (conicV el.p (V3.norm r1) (V3.norm r2) g.dtheta) := by
  have hG := geometry_good hg hpi
  obtain ⟨a, w, ix, iy, hp, hC, hv1, hv2, -, hinc⟩ := velocities_ok hmu hg hpi hel hv
  have heap : ∃ ecc a, eapFromEccT eccT g = .ok (ecc, a, el.p) := by
    unfold coeAtEccT at hel
    rw [hg, ok_bind] at hel
    simp only [bind_ok] at hel
    obtain ⟨⟨ecc, a, p⟩, he, _, -, _, -, _, -, _, -, _, -, _, -, hel⟩ := hel
    rw [← Except.ok.inj hel]
    exact ⟨ecc, a, he⟩
  obtain ⟨ecc, a, heap⟩ := heap
  have hframe := hinc hplane
  have at1 := hC.at1
  have at2 := hC.at2
  rw [hG.n1] at at1
  rw [hG.n2] at at2
  obtain ⟨w1, w2⟩ := conic_fg hmu hG.angle hG.hna hframe.1 hframe.2 at1 at2 hp
  exact ⟨ecc, a, heap, by rw [hv1, w1], by rw [hv2, w2]⟩

end Avanzini

open Avanzini in
/-- **C59 (partial)**, `avanzini2008`: outside the equatorial plane, when both problems are solved the
solutions are the reversal of each other, after the same number of iterations.

Missing here: that both problems are solved together (proved in `avanzini_reversal`, Props/ReversalAvanziniFull), and
the equatorial plane, where the property is false (`avanzini_equatorial_reversal_iff`,
`avanzini_equatorial_not_reversible`). -/
theorem avanzini_reversal_partial {mu : ℝ} {r1 r2 : V3} {tof : ℝ} {M : ℤ} {pro low : Bool} {N : ℕ} {atol rtol : ℝ}
    {full : Bool} {clock : ℝ} {out rev : Output} (hplane : ¬ (r1.z = 0 ∧ r2.z = 0))
    (h : avanzini2008 mu r1 r2 tof M pro low N atol rtol full clock = .ok out)
    (h' : avanzini2008 mu r2 r1 tof M (!pro) low N atol rtol full clock = .ok rev) : rev = out.reversed := by
  unfold avanzini2008 at h h'
  simp only [bind_ok, raiseIf_ok] at h h'
  obtain ⟨_, -, _, hv, g, hg, F, hF, ⟨x, n⟩, hsec, tpi, ht, eccT, hT, el, hel, ⟨v1, v2⟩, hvel, h⟩ := h
  obtain ⟨_, -, _, -, g', hg', F', hF', ⟨x', n'⟩, hsec', tpi', ht', eccT', hT', el', hel', ⟨w1, w2⟩, hvel', h'⟩ := h'
  obtain ⟨hmu, -⟩ := assertParameters_ok hv
  have hgg := getGeometry_reversed hg hg'
  rw [getEccTAtX_reversed hgg, hF] at hF'
  obtain rfl := Except.ok.inj hF'
  obtain ⟨rfl, rfl⟩ : x = x' ∧ n = n' := by
    simpa using secant_agree (f_reversed hmu hg hg' hF) hsec hsec'
  rw [ht] at ht'
  obtain rfl := Except.ok.inj ht'
  rw [hT] at hT'
  obtain rfl := Except.ok.inj hT'
  obtain ⟨hpi, -, -⟩ := eccT_lt hF hT
  have hpi' : g'.dtheta ≠ Real.pi := by rw [hgg.2.2.2]; exact hpi
  obtain ⟨ecc, a, he, e1, e2⟩ := velocities_fg hmu hg hpi hel hvel hplane
  obtain ⟨ecc', a', he', e1', e2'⟩ := velocities_fg hmu hg' hpi' hel' hvel' fun q => hplane ⟨q.2, q.1⟩
  rw [eap_reversed hgg, he] at he'
  have hp : el.p = el'.p := by
    have := Except.ok.inj he'
    simp only [Prod.mk.injEq] at this
    exact this.2.2
  rw [← hp, hgg.2.2.2, halfA_comm (V3.norm r1), conicV_comm _ (V3.norm r1)] at e1' e2'
  rw [fgV1_swap, ← e2] at e1'
  rw [fgV2_swap, ← e1] at e2'
  rw [← Except.ok.inj h, ← Except.ok.inj h', mkOutput_reversed, e1', e2']

/-- Both problems are solved for a quarter of a circle inclined to the equator. -/
example : ∃ tof out rev, avanzini2008 1 ⟨1, 0, 1⟩ ⟨0, 1, 1⟩ tof 0 true true 35 1e-5 1e-7 true 2 = .ok out ∧
    avanzini2008 1 ⟨0, 1, 1⟩ ⟨1, 0, 1⟩ tof 0 false true 35 1e-5 1e-7 true 2 = .ok rev ∧ rev = out.reversed := by
  have hna : NotAligned ⟨1, 0, 1⟩ ⟨0, 1, 1⟩ := by simp [NotAligned]
  have hlen : len ⟨1, 0, 1⟩ = len ⟨0, 1, 1⟩ := by simp [len]
  have hθ := transferAngle_eq hna true
  obtain ⟨out, ho⟩ := avanzini_returns (mu := 1) one_pos hna hlen hθ true 33 (atol := 1e-5) (rtol := 1e-7) (by norm_num) true 2
  obtain ⟨rev, hr⟩ := avanzini_returns (mu := 1) one_pos (NotAligned.symm hna) hlen.symm
    (by rw [← hθ]; exact transferAngle_reversed _ _ _) true 33 (atol := 1e-5) (rtol := 1e-7) (by norm_num) true 2
  rw [← hlen] at hr
  exact ⟨_, out, rev, ho, hr, avanzini_reversal_partial (by simp) ho hr⟩

end Lamberthub
