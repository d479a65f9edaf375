import Verif.Props.ReversalAvanzini
import Verif.Props.AvanziniEquator

/-! # C59: `avanzini2008` solves both problems or neither -/

set_option autoImplicit false

namespace Lamberthub
open Spec LC

/-- The only exception is an undefined operation. -/
def OnlyUndefined {α : Type} (x : Py α) : Prop := ∀ e, x = .error e → e = .undefined

namespace OnlyUndefined

theorem ok {α : Type} (a : α) : OnlyUndefined (.ok a) := fun _ h => by cases h

theorem error {α : Type} : OnlyUndefined (.error .undefined : Py α) := fun _ h => (Except.error.inj h).symm

theorem bind {α β : Type} {x : Py α} {f : α → Py β} (h : OnlyUndefined x) (hf : ∀ a, x = .ok a → OnlyUndefined (f a)) :
    OnlyUndefined (x >>= f) := by
  cases x with
  | error e => intro e' he; exact h e' (by cases he; rfl)
  | ok a => exact hf a rfl

theorem div (a b : ℝ) : OnlyUndefined (pdiv a b) := by unfold pdiv; split <;> first | exact error | exact ok _
theorem sqrt (a : ℝ) : OnlyUndefined (psqrt a) := by unfold psqrt; split <;> first | exact error | exact ok _
theorem tan (a : ℝ) : OnlyUndefined (ptan a) := by unfold ptan; split <;> first | exact error | exact ok _
theorem log (a : ℝ) : OnlyUndefined (plog a) := by unfold plog; split <;> first | exact error | exact ok _
theorem acos (a : ℝ) : OnlyUndefined (pacos a) := by unfold pacos; split <;> first | exact error | exact ok _
theorem artanh (a : ℝ) : OnlyUndefined (partanh a) := by unfold partanh; split <;> first | exact error | exact ok _
theorem vec (v : V3) (a : ℝ) : OnlyUndefined (vdiv v a) := by unfold vdiv; split <;> first | exact error | exact ok _

theorem agree {α β : Type} {R : α → β → Prop} {x : Py α} {y : Py β} (hx : OnlyUndefined x) (hy : OnlyUndefined y)
    (h : ∀ a, x = .ok a → ∃ b, y = .ok b) (h' : ∀ b, y = .ok b → ∃ a, x = .ok a) (hr : ∀ a b, x = .ok a → y = .ok b → R a b) :
    Agree R x y := by
  cases x with
  | ok a =>
    obtain ⟨b, rfl⟩ := h a rfl
    exact .ok (hr a b rfl rfl)
  | error e =>
    cases y with
    | ok b => obtain ⟨a, ha⟩ := h' b rfl; cases ha
    | error e' => exact .inl ⟨e, rfl, by rw [hx e rfl, hy e' rfl]⟩

end OnlyUndefined

namespace Avanzini

/-- Whether the Kepler equation is evaluated depends on the cosine of the anomaly only. -/
theorem keplerFromNu_cos {ν ν' ecc M : ℝ} (hc : Real.cos ν = Real.cos ν') (h : keplerFromNu ν ecc = .ok M) :
    ∃ M', keplerFromNu ν' ecc = .ok M' := by
  obtain ⟨k, hk⟩ := Real.cos_eq_cos_iff.1 hc
  have hcos : Real.cos (ν' / 2) = Real.cos (ν / 2) ∨ Real.cos (ν' / 2) = -Real.cos (ν / 2) := by
    have h1 := Real.cos_sq (ν / 2)
    have h2 := Real.cos_sq (ν' / 2)
    rw [show 2 * (ν / 2) = ν by ring] at h1
    rw [show 2 * (ν' / 2) = ν' by ring] at h2
    exact sq_eq_sq_iff_eq_or_eq_neg.1 (by rw [h1, h2, hc])
  have htan : Real.tan (ν' / 2) = Real.tan (ν / 2) ∨ Real.tan (ν' / 2) = -Real.tan (ν / 2) := by
    rcases hk with hk | hk
    · left
      rw [show ν' / 2 = ν / 2 + k * Real.pi by rw [hk]; ring]
      exact Real.tan_add_int_mul_pi _ _
    · right
      rw [show ν' / 2 = -(ν / 2) + k * Real.pi by rw [hk]; ring, Real.tan_add_int_mul_pi, Real.tan_neg]
  have hne : Real.cos (ν / 2) ≠ 0 → Real.cos (ν' / 2) ≠ 0 := by
    intro h0
    rcases hcos with h1 | h1 <;> rw [h1]
    · exact h0
    · exact neg_ne_zero.2 h0
  unfold keplerFromNu at h ⊢
  split_ifs at h ⊢
  · unfold nuToE at h ⊢
    simp only [bind_ok, pdiv_ok, psqrt_ok, ptan_ok] at h
    obtain ⟨_, ⟨_, ⟨p1, rfl⟩, _, ⟨p2, -⟩, _, ⟨p3, -⟩, -⟩, -⟩ := h
    rw [pdiv_eq p1, ok_bind, psqrt_eq p2, ok_bind, ptan_ok.2 ⟨hne p3, rfl⟩, ok_bind, ok_bind]
    exact ⟨_, rfl⟩
  · unfold nuToB at h ⊢
    simp only [bind_ok, ptan_ok] at h
    obtain ⟨_, ⟨p3, -⟩, -⟩ := h
    rw [ptan_ok.2 ⟨hne p3, rfl⟩, ok_bind]
    exact ⟨_, rfl⟩
  · unfold nuToH at h ⊢
    simp only [bind_ok, pdiv_ok, psqrt_ok, ptan_ok, partanh_ok] at h
    obtain ⟨_, ⟨_, ⟨p1, rfl⟩, s, ⟨p2, hs⟩, _, ⟨p3, rfl⟩, _, ⟨p4, -⟩, -⟩, -⟩ := h
    have hq : -1 < s * Real.tan (ν' / 2) ∧ s * Real.tan (ν' / 2) < 1 := by
      rcases htan with h1 | h1 <;> rw [h1]
      · exact p4
      · rw [mul_neg]; exact ⟨by linarith [p4.2], by linarith [p4.1]⟩
    rw [pdiv_eq p1, ok_bind, psqrt_eq p2, ok_bind, ptan_ok.2 ⟨hne p3, rfl⟩, ok_bind, ← hs, partanh_ok.2 ⟨hq, rfl⟩, ok_bind, ok_bind]
    exact ⟨_, rfl⟩

theorem tofFromDeltaM_both {mu ecc a p d d' T : ℝ} (h1 : ecc ≠ 1) (h : tofFromDeltaM mu ecc a p d = .ok T) :
    ∃ T', tofFromDeltaM mu ecc a p d' = .ok T' := by
  unfold tofFromDeltaM at h ⊢
  split_ifs at h ⊢ with q1
  · simp only [bind_ok, pdiv_ok, psqrt_ok] at h
    obtain ⟨_, ⟨p1, rfl⟩, _, ⟨p2, -⟩, -⟩ := h
    rw [pdiv_eq p1, ok_bind, psqrt_eq p2, ok_bind]
    split_ifs <;> exact ⟨_, rfl⟩
  · simp only [bind_ok, pdiv_ok, psqrt_ok] at h
    obtain ⟨_, ⟨p1, rfl⟩, _, ⟨p2, -⟩, -⟩ := h
    rw [pdiv_eq p1, ok_bind, psqrt_eq p2, ok_bind]
    exact ⟨_, rfl⟩

theorem keplerFromNu_und {ν ecc : ℝ} (h : 0 ≤ ecc) : OnlyUndefined (keplerFromNu ν ecc) := by
  unfold keplerFromNu
  rw [if_neg (not_lt.2 h)]
  split_ifs
  · unfold nuToE
    exact (OnlyUndefined.bind (.div _ _) fun _ _ => .bind (.sqrt _) fun _ _ => .bind (.tan _) fun _ _ => .ok _).bind fun _ _ => .ok _
  · exact OnlyUndefined.bind (.tan _) fun _ _ => .ok _
  · unfold nuToH
    exact (OnlyUndefined.bind (.div _ _) fun _ _ => .bind (.sqrt _) fun _ _ => .bind (.tan _) fun _ _ =>
      .bind (.artanh _) fun _ _ => .ok _).bind fun _ _ => .ok _

theorem fundamental_und {a b c : ℝ} : OnlyUndefined (fundamental a b c) := by
  unfold fundamental getEccF
  exact .bind (.div _ _) fun _ _ => .ok _

theorem eap_und {eccT : ℝ} {g : Geometry} : OnlyUndefined (eapFromEccT eccT g) := by
  unfold eapFromEccT eccAtEccT pAtEccT aAtEccT
  refine .bind fundamental_und fun ⟨_, _, _⟩ _ => .bind (.sqrt _) fun _ _ => .bind ?_ fun _ _ => .bind ?_ fun _ _ => .ok _
  · exact .bind (.div _ _) fun _ _ => .ok _
  · exact .div _ _

theorem tofFromDeltaM_und {mu ecc a p d : ℝ} : OnlyUndefined (tofFromDeltaM mu ecc a p d) := by
  unfold tofFromDeltaM
  split_ifs
  · refine .bind (.div _ _) fun _ _ => .bind (.sqrt _) fun _ _ => ?_
    split_ifs <;> exact .ok _
  · refine .bind (.div _ _) fun _ _ => .bind (.sqrt _) fun _ _ => ?_
    split_ifs
    · exact .error
    · exact .ok _
  · exact .bind (.div _ _) fun _ _ => .bind (.sqrt _) fun _ _ => .ok _

theorem eap_nonneg {eccT ecc a p : ℝ} {g : Geometry} (h : eapFromEccT eccT g = .ok (ecc, a, p)) : 0 ≤ ecc := by
  unfold eapFromEccT eccAtEccT at h
  simp only [bind_ok, psqrt_ok] at h
  obtain ⟨⟨_, _, _⟩, -, e, ⟨-, he⟩, _, -, _, -, h⟩ := h
  obtain ⟨rfl, -⟩ := Prod.mk.inj (Except.ok.inj h)
  rw [he]; exact Real.sqrt_nonneg _

theorem tof_und {eccT mu : ℝ} {g : Geometry} : OnlyUndefined (keplerTofAtEccT eccT mu g) := by
  unfold keplerTofAtEccT
  refine .bind eap_und fun ⟨ecc, a, p⟩ h => .bind fundamental_und fun ⟨_, _, _⟩ _ => ?_
  have h0 := eap_nonneg h
  exact .bind (keplerFromNu_und h0) fun _ _ => .bind (keplerFromNu_und h0) fun _ _ => tofFromDeltaM_und

/-- The periapsis seen from the second position. -/
theorem conic_reversed {pro : Bool} {r1 r2 : V3} {g g' : Geometry} (hG : Good pro r1 r2 g)
    (hgg : g'.r1Norm = g.r2Norm ∧ g'.r2Norm = g.r1Norm ∧ g'.cNorm = g.cNorm ∧ g'.dtheta = g.dtheta) {eccT ecc a p w w' : ℝ}
    (hC : Conic g eccT ecc a p w) (hC' : Conic g' eccT ecc a p w') (he : ecc ≠ 0) :
    Real.cos w' = Real.cos (g.dtheta - w) ∧ Real.cos (g.dtheta - w') = Real.cos w := by
  obtain ⟨q1, q2, q3, q4⟩ := hgg
  have a1 := hC.at1
  have a2 := hC.at2
  have b1 := hC'.at1
  have b2 := hC'.at2
  rw [q1] at b1
  rw [q2, q4] at b2
  have e1 := mul_left_cancel₀ hG.R2.ne' (b1.trans a2.symm)
  have e2 := mul_left_cancel₀ hG.R1.ne' (b2.trans a1.symm)
  rw [Real.cos_sub, Real.cos_sub]
  exact ⟨mul_left_cancel₀ he (by linear_combination e1), mul_left_cancel₀ he (by linear_combination e2)⟩

/-- The time of flight is computed in both directions or in neither. -/
theorem tof_both {pro : Bool} {r1 r2 : V3} {g g' : Geometry} (hG : Good pro r1 r2 g) (hG' : Good (!pro) r2 r1 g')
    (hgg : g'.r1Norm = g.r2Norm ∧ g'.r2Norm = g.r1Norm ∧ g'.cNorm = g.cNorm ∧ g'.dtheta = g.dtheta) {eccT mu T : ℝ}
    (h : keplerTofAtEccT eccT mu g = .ok T) : ∃ T', keplerTofAtEccT eccT mu g' = .ok T' := by
  unfold keplerTofAtEccT at h ⊢
  rw [eap_reversed hgg]
  simp only [bind_ok] at h
  obtain ⟨⟨ecc, a, p⟩, heap, F, hF, M1, hM1, M2, hM2, hT⟩ := h
  have heap' : eapFromEccT eccT g' = .ok (ecc, a, p) := by rw [eap_reversed hgg, heap]
  have hC := eap_conic hG heap
  have hC' := eap_conic hG' heap'
  rw [fundamental_eq hG.c.ne'] at hF
  obtain rfl := Except.ok.inj hF
  rw [heap, ok_bind]
  simp only [] at hM1 hM2 hT ⊢
  rw [fundamental_eq hG'.c.ne', ok_bind]
  simp only [getTrueAnomalies] at hM1 hM2 ⊢
  have hcos : Real.cos (-wAtEccT eccT ((g'.r1Norm - g'.r2Norm) / g'.cNorm) g'.wC) =
        Real.cos (-wAtEccT eccT ((g.r1Norm - g.r2Norm) / g.cNorm) g.wC + g.dtheta) ∧
      Real.cos (-wAtEccT eccT ((g'.r1Norm - g'.r2Norm) / g'.cNorm) g'.wC + g'.dtheta) =
        Real.cos (-wAtEccT eccT ((g.r1Norm - g.r2Norm) / g.cNorm) g.wC) ∨
      wAtEccT eccT ((g'.r1Norm - g'.r2Norm) / g'.cNorm) g'.wC = wAtEccT eccT ((g.r1Norm - g.r2Norm) / g.cNorm) g.wC := by
    by_cases he : ecc = 0
    · right
      have h0 := hC.esq
      have h0' := hC'.esq
      rw [he] at h0 h0'
      have t0 : eccT = 0 := pow_eq_zero_iff (n := 2) (by norm_num) |>.1 (by nlinarith [sq_nonneg ((g.r1Norm - g.r2Norm) / g.cNorm)])
      have t1 : (g.r1Norm - g.r2Norm) / g.cNorm = 0 := pow_eq_zero_iff (n := 2) (by norm_num) |>.1 (by nlinarith [sq_nonneg eccT])
      have t2 : (g'.r1Norm - g'.r2Norm) / g'.cNorm = 0 := pow_eq_zero_iff (n := 2) (by norm_num) |>.1 (by nlinarith [sq_nonneg eccT])
      rw [t0, t1, t2]
      unfold wAtEccT
      simp
    · left
      obtain ⟨c1, c2⟩ := conic_reversed hG hgg hC hC' he
      rw [hgg.2.2.2, Real.cos_neg, Real.cos_neg, neg_add_eq_sub, neg_add_eq_sub]
      exact ⟨c1, c2⟩
  obtain ⟨N1, hN1⟩ : ∃ N1, keplerFromNu (-wAtEccT eccT ((g'.r1Norm - g'.r2Norm) / g'.cNorm) g'.wC) ecc = .ok N1 := by
    rcases hcos with ⟨c1, -⟩ | c
    · exact keplerFromNu_cos c1.symm hM2
    · rw [c]; exact ⟨_, hM1⟩
  obtain ⟨N2, hN2⟩ : ∃ N2, keplerFromNu (-wAtEccT eccT ((g'.r1Norm - g'.r2Norm) / g'.cNorm) g'.wC + g'.dtheta) ecc = .ok N2 := by
    rcases hcos with ⟨-, c2⟩ | c
    · exact keplerFromNu_cos c2.symm hM1
    · rw [c, hgg.2.2.2]; exact ⟨_, hM2⟩
  rw [hN1, ok_bind, hN2, ok_bind]
  exact tofFromDeltaM_both hC.ne1 hT

theorem f_und {F : ℝ → Py ℝ} {mu tof x e : ℝ} {g : Geometry} (he : F x = .ok e) : OnlyUndefined (f F mu g tof x) := by
  unfold f
  rw [he, ok_bind]
  exact .bind tof_und fun _ _ => .bind (.div _ _) fun _ _ => .bind (.sqrt _) fun _ _ => .bind (.div _ _) fun _ _ =>
    .bind (.div _ _) fun _ _ => .bind (.log _) fun _ _ => .bind (.log _) fun _ _ => .ok _

theorem f_both {r1 r2 : V3} {pro : Bool} {mu tof : ℝ} (hmu : 0 < mu) (htof : 0 < tof) {g g' : Geometry} {F : ℝ → Py ℝ}
    (h : getGeometry r1 r2 pro = .ok g) (h' : getGeometry r2 r1 (!pro) = .ok g') (hF : getEccTAtX g = .ok F) {x a : ℝ}
    (ha : f F mu g tof x = .ok a) : ∃ b, f F mu g' tof x = .ok b := by
  have hgg := getGeometry_reversed h h'
  have hF' : getEccTAtX g' = .ok F := by rw [getEccTAtX_reversed hgg, hF]
  unfold f at ha
  simp only [bind_ok] at ha
  obtain ⟨e, he, T, hT, -⟩ := ha
  obtain ⟨hpi, -, -⟩ := eccT_lt hF he
  obtain ⟨hpi', h0', hlt'⟩ := eccT_lt hF' he
  have hG := geometry_good h hpi
  have hG' := geometry_good h' hpi'
  obtain ⟨T', hT'⟩ := tof_both hG hG' hgg hT
  obtain ⟨_, _, p, -, hp, hpath⟩ := avanzini_path hmu hG' hlt' h0' hT'
  obtain ⟨hGeo, -⟩ := hG'.angle.halfGeo hG'.hna
  have hTpos : 0 < T' := by
    rw [hG'.n1, hG'.n2] at hpath
    exact (hpath.arc hmu hGeo).1
  have hR := hG'.R1
  have hs : 0 < Real.sqrt (g'.r1Norm ^ 3 / mu) := by positivity
  unfold f
  rw [he, ok_bind, hT', ok_bind, pdiv_eq hmu.ne', ok_bind, psqrt_eq (by positivity), ok_bind, pdiv_eq hs.ne', ok_bind,
    pdiv_eq hs.ne', ok_bind, plog_ok.2 ⟨by positivity, rfl⟩, ok_bind, plog_ok.2 ⟨by positivity, rfl⟩, ok_bind]
  exact ⟨_, rfl⟩

/-- The equations of the two problems are the same function. -/
theorem f_eq_reversed {r1 r2 : V3} {pro : Bool} {mu tof : ℝ} (hmu : 0 < mu) (htof : 0 < tof) {g g' : Geometry} {F : ℝ → Py ℝ}
    (h : getGeometry r1 r2 pro = .ok g) (h' : getGeometry r2 r1 (!pro) = .ok g') (hF : getEccTAtX g = .ok F) :
    f F mu g' tof = f F mu g tof := by
  funext x
  have hF' : getEccTAtX g' = .ok F := by rw [getEccTAtX_reversed (getGeometry_reversed h h'), hF]
  cases he : F x with
  | error e => unfold f; rw [he]; rfl
  | ok e =>
    refine Agree.eq (OnlyUndefined.agree (f_und he) (f_und he) (fun a ha => f_both hmu htof h h' hF ha) (fun b hb => ?_)
      fun a b ha hb => (f_reversed hmu h h' hF x a b ha hb).symm)
    have h'' : getGeometry r1 r2 (!!pro) = .ok g := by rw [Bool.not_not]; exact h
    exact f_both hmu htof h' h'' hF' hb

theorem transferAngle_und (r1 r2 : V3) (pro : Bool) : OnlyUndefined (getTransferAngle r1 r2 pro) := by
  unfold getTransferAngle
  simp only []
  split_ifs
  all_goals first
    | exact .ok _
    | (refine .bind (.vec _ _) fun _ _ => .bind (.div _ _) fun _ _ => .bind (.acos _) fun _ _ => ?_
       split_ifs <;> exact .ok _)

theorem normal_und (r1 r2 : V3) (pro : Bool) : OnlyUndefined (getOrbitNormalVector r1 r2 pro) := by
  unfold getOrbitNormalVector
  refine .bind (.vec _ _) fun _ _ => ?_
  simp only []
  split_ifs <;> exact .ok _

theorem coe2rv_und (k p ecc inc raan argp nu : ℝ) : OnlyUndefined (coe2rv k p ecc inc raan argp nu) := by
  unfold coe2rv rvPqw
  refine (OnlyUndefined.bind (.div _ _) fun _ _ => .bind (.div _ _) fun _ _ => .bind (.sqrt _) fun _ _ => .ok _).bind fun _ _ => ?_
  refine .bind ?_ fun _ _ => .ok _
  unfold coeRotationMatrix rotationMatrix
  simp only []
  exact .ok _

theorem velocities_und {mu eccT : ℝ} {r1 r2 : V3} {pro : Bool} {g : Geometry} (hg : getGeometry r1 r2 pro = .ok g) :
    OnlyUndefined (coeAtEccT eccT r1 r2 pro >>= fun el => velocities mu el) := by
  refine .bind ?_ fun el _ => ?_
  · unfold coeAtEccT
    rw [hg, ok_bind]
    refine .bind eap_und fun ⟨_, _, _⟩ _ => .bind fundamental_und fun ⟨_, _, _⟩ _ => .bind (.vec _ _) fun _ _ =>
      .bind (.vec _ _) fun _ _ => .bind (normal_und _ _ _) fun _ _ => .bind ?_ fun ⟨_, _⟩ _ => .bind (.div _ _) fun _ _ => .ok _
    unfold getOrbitIncAndRaan
    refine .bind (normal_und _ _ _) fun _ _ => ?_
    split_ifs
    · exact .ok _
    · exact .bind (.div _ _) fun _ _ => .bind (.acos _) fun _ _ => .ok _
  · unfold velocities
    exact .bind (coe2rv_und _ _ _ _ _ _ _) fun _ _ => .bind (coe2rv_und _ _ _ _ _ _ _) fun _ _ => .ok _

/-- The velocities are computed in both directions or in neither. -/
theorem velocities_both {mu eccT : ℝ} (hmu : 0 < mu) {r1 r2 : V3} {pro : Bool} {g g' : Geometry}
    (hg : getGeometry r1 r2 pro = .ok g) (hg' : getGeometry r2 r1 (!pro) = .ok g') (hpi : g.dtheta ≠ Real.pi) {el : Elements}
    {v : V3 × V3} (hel : coeAtEccT eccT r1 r2 pro = .ok el) (hv : velocities mu el = .ok v) :
    ∃ el' v', coeAtEccT eccT r2 r1 (!pro) = .ok el' ∧ velocities mu el' = .ok v' := by
  have hgg := getGeometry_reversed hg hg'
  have hG' := geometry_good hg' (by rw [hgg.2.2.2]; exact hpi)
  obtain ⟨_, _, _, _, hp, -⟩ := velocities_ok (v1 := v.1) (v2 := v.2) hmu hg hpi hel hv
  have heap : ∃ ecc a, eapFromEccT eccT g = .ok (ecc, a, el.p) := by
    unfold coeAtEccT at hel
    rw [hg, ok_bind] at hel
    simp only [bind_ok] at hel
    obtain ⟨⟨ecc, a, p⟩, he, _, -, _, -, _, -, _, -, _, -, _, -, hel⟩ := hel
    rw [← Except.ok.inj hel]
    exact ⟨ecc, a, he⟩
  obtain ⟨ecc, a, heap⟩ := heap
  rw [← eap_reversed hgg] at heap
  have hC := eap_conic hG' heap
  obtain ⟨n, θ, hn, -, hu, -⟩ := orbitNormal_spec hG'.hna (!pro)
  rw [len_eq_norm] at hu
  have hir : ∃ ir, getOrbitIncAndRaan r2 r1 (!pro) = .ok ir := by
    unfold getOrbitIncAndRaan
    rw [hn, ok_bind]
    split
    · exact ⟨_, rfl⟩
    · have h2 := norm_sq n
      rw [hu] at h2
      rw [hu, pdiv_eq one_ne_zero, ok_bind, div_one,
        pacos_eq (by nlinarith [sq_nonneg n.x, sq_nonneg n.y]) (by nlinarith [sq_nonneg n.x, sq_nonneg n.y]), ok_bind]
      exact ⟨_, rfl⟩
  obtain ⟨⟨inc, raan⟩, hir⟩ := hir
  have hel' : ∃ el', coeAtEccT eccT r2 r1 (!pro) = .ok el' ∧ el'.p = el.p ∧ el'.ecc = ecc ∧
      el'.nu1 = -wAtEccT eccT ((g'.r1Norm - g'.r2Norm) / g'.cNorm) g'.wC ∧
      el'.nu2 = -wAtEccT eccT ((g'.r1Norm - g'.r2Norm) / g'.cNorm) g'.wC + g'.dtheta := by
    unfold coeAtEccT
    rw [hg', ok_bind, heap, ok_bind]
    simp only []
    rw [fundamental_eq hG'.c.ne', ok_bind]
    simp only []
    rw [vdiv_eq hG'.R1.ne', ok_bind,
      vdiv_eq hG'.R2.ne', ok_bind, hn, ok_bind, hir, ok_bind, hu, pdiv_eq one_ne_zero, ok_bind]
    exact ⟨_, rfl, rfl, rfl, rfl, rfl⟩
  obtain ⟨el', hel', e1, e2, e3, e4⟩ := hel'
  refine ⟨el', ?_⟩
  unfold velocities
  rw [e1, e2, e3, e4]
  have d1 : 0 < 1 + ecc * Real.cos (-wAtEccT eccT ((g'.r1Norm - g'.r2Norm) / g'.cNorm) g'.wC) := by
    rw [Real.cos_neg]
    exact pos_of_mul_pos_right (a := g'.r1Norm) (by rw [hC.at1]; exact hp) hG'.R1.le
  have d2 : 0 < 1 + ecc * Real.cos (-wAtEccT eccT ((g'.r1Norm - g'.r2Norm) / g'.cNorm) g'.wC + g'.dtheta) := by
    refine pos_of_mul_pos_right (a := g'.r2Norm) ?_ hG'.R2.le
    rw [neg_add_eq_sub, Real.cos_sub, show g'.r2Norm * (1 + ecc * (Real.cos g'.dtheta *
      Real.cos (wAtEccT eccT ((g'.r1Norm - g'.r2Norm) / g'.cNorm) g'.wC) + Real.sin g'.dtheta *
      Real.sin (wAtEccT eccT ((g'.r1Norm - g'.r2Norm) / g'.cNorm) g'.wC))) = el.p by rw [← hC.at2]; ring]
    exact hp
  rw [coe2rv_eq hmu hp d1, ok_bind, coe2rv_eq hmu hp d2, ok_bind]
  exact ⟨_, hel', rfl⟩

theorem transferAngle_total {r1 r2 : V3} (hna : ¬ NotAligned r1 r2) (pro : Bool) : ∃ θ, getTransferAngle r1 r2 pro = .ok θ := by
  unfold getTransferAngle
  simp only [cross_eq_zero_iff.2 hna, if_true]
  split_ifs <;> exact ⟨_, rfl⟩

theorem wC_total {r1 r2 : V3} (h1 : r1 ≠ 0) (pro : Bool) : ∃ θ, getTransferAngle r1 (r2 - r1) pro = .ok θ := by
  by_cases hna : NotAligned r1 (r2 - r1)
  · exact ⟨_, transferAngle_eq hna pro⟩
  · exact transferAngle_total hna pro

theorem getGeometry_agree {r1 r2 : V3} (h1 : r1 ≠ 0) (h2 : r2 ≠ 0) (pro : Bool) :
    Agree (fun _ _ => True) (getGeometry r1 r2 pro) (getGeometry r2 r1 (!pro)) := by
  unfold getGeometry
  rw [transferAngle_reversed]
  obtain ⟨w, hw⟩ := wC_total (r2 := r2) h1 pro
  obtain ⟨w', hw'⟩ := wC_total (r2 := r1) h2 (!pro)
  rw [hw, hw']
  exact .same fun _ _ => .same fun _ _ => .ok trivial

/-- The runs of the two problems, up to the velocities. -/
theorem runs_reversed {R : Output → Output → Prop} {r1 r2 : V3} (h1 : r1 ≠ 0) (h2 : r2 ≠ 0) (mu tof : ℝ) (M : ℤ)
    (pro low : Bool) (N : ℕ) (atol rtol : ℝ) (full : Bool) (clock : ℝ)
    (hR : ∀ out rev, avanzini2008 mu r1 r2 tof M pro low N atol rtol full clock = .ok out →
      avanzini2008 mu r2 r1 tof M (!pro) low N atol rtol full clock = .ok rev → R out rev) :
    Agree R (avanzini2008 mu r1 r2 tof M pro low N atol rtol full clock)
      (avanzini2008 mu r2 r1 tof M (!pro) low N atol rtol full clock) := by
  suffices h : Agree (fun _ _ => True) (avanzini2008 mu r1 r2 tof M pro low N atol rtol full clock)
      (avanzini2008 mu r2 r1 tof M (!pro) low N atol rtol full clock) by
    rcases h with h | ⟨a, b, ha, hb, -⟩
    · exact .inl h
    · exact .inr ⟨a, b, ha, hb, hR a b ha hb⟩
  unfold avanzini2008
  rw [assert_reversed h1 h2]
  refine .same fun _ _ => .same fun _ hv => (getGeometry_agree h1 h2 pro).bind fun g g' hg hg' _ => ?_
  obtain ⟨hmu, -, -, htof, -⟩ := assertParameters_ok hv
  have hgg := getGeometry_reversed hg hg'
  rw [getEccTAtX_reversed hgg]
  refine .same fun F hF => ?_
  rw [f_eq_reversed hmu htof hg hg' hF]
  refine .same fun ⟨x, n⟩ _ => .same fun tpi _ => .same fun eccT he => ?_
  obtain ⟨hpi, -, -⟩ := eccT_lt hF he
  have hg'' : getGeometry r1 r2 (!!pro) = .ok g := by rw [Bool.not_not]; exact hg
  have key : Agree (fun _ _ => True) (coeAtEccT eccT r1 r2 pro >>= fun el => velocities mu el)
      (coeAtEccT eccT r2 r1 (!pro) >>= fun el => velocities mu el) := by
    refine OnlyUndefined.agree (velocities_und hg) (velocities_und hg') (fun a ha => ?_) (fun b hb => ?_) fun _ _ _ _ => trivial
    · simp only [bind_ok] at ha ⊢
      obtain ⟨el, hel, hv⟩ := ha
      obtain ⟨el', v', q1, q2⟩ := velocities_both hmu hg hg' hpi hel hv
      exact ⟨v', el', q1, q2⟩
    · simp only [bind_ok] at hb ⊢
      obtain ⟨el, hel, hv⟩ := hb
      obtain ⟨el', v', q1, q2⟩ := velocities_both hmu hg' hg'' (by rw [hgg.2.2.2]; exact hpi) hel hv
      rw [Bool.not_not] at q1
      exact ⟨v', el', q1, q2⟩
  have := key.bind (S := fun _ _ => True) (f := fun p => match p with | (v1, v2) => Except.ok (mkOutput full v1 v2 n tpi))
    (g := fun p => match p with | (v1, v2) => Except.ok (mkOutput full v1 v2 n tpi)) fun ⟨_, _⟩ ⟨_, _⟩ _ _ _ => .ok trivial
  simpa only [bind_assoc] using this

end Avanzini

/-- **C59**, `avanzini2008` outside the equatorial plane, for all non-null positions: the reversed problem stops with the
same error or returns the reversed velocities after the same number of iterations. -/
theorem avanzini_reversal {r1 r2 : V3} (h1 : r1 ≠ 0) (h2 : r2 ≠ 0) (hplane : ¬ (r1.z = 0 ∧ r2.z = 0)) (mu tof : ℝ) (M : ℤ)
    (pro low : Bool) (N : ℕ) (atol rtol : ℝ) (full : Bool) (clock : ℝ) :
    avanzini2008 mu r2 r1 tof M (!pro) low N atol rtol full clock =
      (avanzini2008 mu r1 r2 tof M pro low N atol rtol full clock).map Output.reversed :=
  Agree.map (Avanzini.runs_reversed h1 h2 mu tof M pro low N atol rtol full clock fun _ _ ho hr =>
    avanzini_reversal_partial hplane ho hr)

/-- In the equatorial plane too, the two problems fail together, with the same error. -/
theorem avanzini_solved_together {r1 r2 : V3} (h1 : r1 ≠ 0) (h2 : r2 ≠ 0) (mu tof : ℝ) (M : ℤ) (pro low : Bool) (N : ℕ)
    (atol rtol : ℝ) (full : Bool) (clock : ℝ) (e : PyErr) :
    avanzini2008 mu r2 r1 tof M (!pro) low N atol rtol full clock = .error e ↔
      avanzini2008 mu r1 r2 tof M pro low N atol rtol full clock = .error e := by
  rcases Avanzini.runs_reversed (R := fun _ _ => True) h1 h2 mu tof M pro low N atol rtol full clock fun _ _ _ _ => trivial with
    ⟨e', q1, q2⟩ | ⟨a, b, q1, q2, -⟩
  · rw [q1, q2]
  · rw [q1, q2]; constructor <;> intro h <;> cases h

/-- A run that returns and its reversal: a quarter of a circle inclined to the equator. -/
example : ∃ tof out, avanzini2008 1 ⟨1, 0, 1⟩ ⟨0, 1, 1⟩ tof 0 true true 35 1e-5 1e-7 true 2 = .ok out ∧
    avanzini2008 1 ⟨0, 1, 1⟩ ⟨1, 0, 1⟩ tof 0 false true 35 1e-5 1e-7 true 2 = .ok out.reversed := by
  have hna : NotAligned ⟨1, 0, 1⟩ ⟨0, 1, 1⟩ := by simp [NotAligned]
  obtain ⟨out, ho⟩ := avanzini_returns (mu := 1) one_pos hna (by simp [len]) (transferAngle_eq hna true) true 33 (atol := 1e-5)
    (rtol := 1e-7) (by norm_num) true 2
  refine ⟨_, out, ho, ?_⟩
  refine (avanzini_reversal (r1 := ⟨1, 0, 1⟩) (r2 := ⟨0, 1, 1⟩) (by simp [V3.ext_iff]) (by simp [V3.ext_iff]) (by simp) 1 _ 0 true
    true 35 1e-5 1e-7 true 2).trans ?_
  exact congrArg (Except.map Output.reversed) ho

end Lamberthub
