import Verif.Proofs.SecantOrder
import Verif.Proofs.SimpleRoot
import Verif.Props.AvanziniSolves
import Mathlib.Analysis.SpecialFunctions.Sqrt
import Mathlib.Analysis.SpecialFunctions.Log.Deriv
import Mathlib.Analysis.SpecialFunctions.ExpDeriv
import Mathlib.NumberTheory.Real.GoldenRatio

/-! # C58: the order of convergence of the secant method of `avanzini2008` -/

set_option autoImplicit false

namespace Lamberthub
open Spec LC Set Filter Topology

namespace Avanzini

theorem regular_sqrt {x : ℝ} (hx : 0 < x) : Regular Real.sqrt x :=
  ⟨Real.contDiffAt_sqrt hx.ne', 1 / (2 * Real.sqrt x), by positivity, Real.hasDerivAt_sqrt hx.ne'⟩

theorem regular_log {x : ℝ} (hx : 0 < x) (c : ℝ) : Regular (fun t => Real.log t - c) x :=
  ⟨(Real.contDiffAt_log.2 hx.ne').sub contDiffAt_const, x⁻¹, by positivity, (Real.hasDerivAt_log hx.ne').sub_const c⟩

theorem regular_affine {a : ℝ} (ha : a ≠ 0) (b x : ℝ) : Regular (fun t => b + a * t) x :=
  ⟨by fun_prop, a, ha, by simpa using ((hasDerivAt_id x).const_mul a).const_add b⟩

theorem regular_inv {a x : ℝ} (ha : a ≠ 0) (hx : x ≠ 0) : Regular (fun t => a / t) x := by
  refine ⟨contDiffAt_const.div contDiffAt_id hx, (0 * x - a * 1) / x ^ 2, ?_, (hasDerivAt_const x a).div (hasDerivAt_id x) hx⟩
  rw [zero_mul, zero_sub, mul_one]
  exact div_ne_zero (neg_ne_zero.2 ha) (pow_ne_zero 2 hx)

/-- The parameter `x` from `η = y - λ x`. -/
theorem regular_eta {lam η : ℝ} (hl : lam ^ 2 < 1) (hl0 : lam ≠ 0) (hη : 0 < η) :
    Regular (fun t => ((1 - lam ^ 2) / t - t) / (2 * lam)) η := by
  refine ⟨((contDiffAt_const.div contDiffAt_id hη.ne').sub contDiffAt_id).div_const _,
    ((0 * η - (1 - lam ^ 2) * 1) / η ^ 2 - 1) / (2 * lam), ?_,
    (((hasDerivAt_const η (1 - lam ^ 2)).div (hasDerivAt_id η) hη.ne').sub (hasDerivAt_id η)).div_const _⟩
  refine div_ne_zero (ne_of_lt ?_) (by simpa using hl0)
  have : (0 * η - (1 - lam ^ 2) * 1) / η ^ 2 ≤ 0 := div_nonpos_of_nonpos_of_nonneg (by linarith) (by positivity)
  linarith

theorem lancY_contDiff {lam : ℝ} (hl : lam ^ 2 < 1) (n : ℕ) : ContDiff ℝ n (lancY lam) := by
  unfold lancY
  refine ContDiff.sqrt (by fun_prop) fun x => ?_
  have h := lanc_lancY hl x
  rw [← h.y_sq]
  exact pow_ne_zero 2 h.y_pos.ne'

/-- The time is twice continuously differentiable away from the parabola. -/
theorem regular_time {lam x : ℝ} (hl : lam ^ 2 < 1) (hl0 : lam ≠ 0) (h1 : -1 < x) (h2 : x ≠ 1) :
    Regular (fun t => lancT lam t (lancY lam t) 0) x := by
  obtain ⟨s, hs⟩ : ∃ s : Set ℝ, s = Ioi (-1) ∩ {1}ᶜ := ⟨_, rfl⟩
  have hso : IsOpen s := hs ▸ isOpen_Ioi.inter isOpen_compl_singleton
  have hms : ∀ t ∈ s, -1 < t ∧ t ≠ 1 := by rintro t ht; rw [hs] at ht; exact ht
  have hd : ∀ t ∈ s, HasDerivAt (fun t => lancT lam t (lancY lam t) 0) _ t := fun t ht =>
    lancT_hasDerivAt hl (hms t ht).1 (hms t ht).2 0
  have boot : ∀ n : ℕ, ContDiffOn ℝ n (fun t => lancT lam t (lancY lam t) 0) s := by
    intro n
    induction n with
    | zero => exact contDiffOn_zero.2 fun t ht => (hd t ht).continuousAt.continuousWithinAt
    | succ n ih =>
      rw [Nat.cast_succ]
      refine (contDiffOn_succ_iff_deriv_of_isOpen (n := (n : WithTop ℕ∞)) hso).2 ⟨fun t ht => (hd t ht).differentiableAt.differentiableWithinAt,
        fun h => absurd h (by first | exact WithTop.natCast_ne_top _ | exact WithTop.coe_ne_top | simp), ?_⟩
      have : ContDiffOn ℝ n (fun t => lancT1 lam t (lancY lam t) (lancT lam t (lancY lam t) 0)) s := by
        unfold lancT1
        have hy := (lancY_contDiff hl n).contDiffOn (s := s)
        have hid : ContDiffOn ℝ n (fun t : ℝ => t) s := contDiff_id.contDiffOn
        refine ContDiffOn.div (ContDiffOn.add (ContDiffOn.sub (ContDiffOn.mul (ContDiffOn.mul contDiffOn_const ih) hid)
          contDiffOn_const) (ContDiffOn.div (ContDiffOn.mul contDiffOn_const hid) hy
          fun t _ => (lanc_lancY hl t).y_pos.ne')) (ContDiffOn.sub contDiffOn_const (hid.pow 2))
          fun t ht => one_sub_sq_ne (hms t ht).1 (hms t ht).2
      exact this.congr fun t ht => (hd t ht).deriv
  have hx : x ∈ s := by rw [hs]; exact ⟨h1, h2⟩
  exact ⟨(boot 2).contDiffAt (hso.mem_nhds hx), _, lancT1_ne_zero hl hl0 h1 h2 (.inl rfl), hd x hx⟩

/-- The semi-latus rectum of the conic of the transverse eccentricity `e`. -/
noncomputable def pOf (g : Geometry) (e : ℝ) : ℝ :=
  (g.r1Norm + g.r2Norm) / 2 * (1 - ((g.r1Norm - g.r2Norm) / g.cNorm) ^ 2) - e * g.r1Norm * g.r2Norm * Real.sin g.dtheta / g.cNorm

theorem eap_pOf {g : Geometry} (hc : g.cNorm ≠ 0) {e ecc a p : ℝ} (h : eapFromEccT e g = .ok (ecc, a, p)) :
    p = pOf g e ∧ ((g.r1Norm - g.r2Norm) / g.cNorm) ^ 2 + e ^ 2 ≠ 1 := by
  unfold eapFromEccT at h
  rw [fundamental_eq hc, ok_bind] at h
  unfold eccAtEccT pAtEccT aAtEccT at h
  simp only [bind_ok, pdiv_ok, psqrt_ok] at h
  obtain ⟨_, -, p', ⟨_, ⟨-, rfl⟩, hp⟩, a', ⟨hne, -⟩, h⟩ := h
  simp only [Except.ok.injEq, Prod.mk.injEq] at h hp
  obtain ⟨-, -, rfl⟩ := h
  exact ⟨by rw [← hp]; rfl, fun h => hne (by linarith)⟩

/-- The parabola is the conic of eccentricity one. -/
theorem parabola_ecc {R1 R2 c s lam C S e p : ℝ} (hR1 : 0 < R1) (hR2 : 0 < R2) (hs : 0 < s) (hl : lam ^ 2 < 1) (hl0 : lam ≠ 0)
    (sum : R1 + R2 = s * (1 + lam ^ 2)) (chord : c = s * (1 - lam ^ 2)) (csq : c ^ 2 = R1 ^ 2 + R2 ^ 2 - 2 * R1 * R2 * C)
    (tr : S ^ 2 + C ^ 2 = 1) (hC : C < 1) (hp : p = (R1 + R2) / 2 * (1 - ((R1 - R2) / c) ^ 2) - e * R1 * R2 * S / c)
    (hV : R1 * R2 * (1 - C) = p * (s * (1 - lam) ^ 2)) : ((R1 - R2) / c) ^ 2 + e ^ 2 = 1 := by
  have hq : 0 < 1 - lam ^ 2 := by linarith
  have hc : c ≠ 0 := by rw [chord]; positivity
  have hlam : 1 - lam ≠ 0 := by intro h; nlinarith
  have hk : R1 * R2 * (1 - C) ≠ 0 := by have : 1 - C ≠ 0 := by linarith
                                        positivity
  have h1 : c ^ 2 - (R1 - R2) ^ 2 = 2 * (R1 * R2 * (1 - C)) := by rw [csq]; ring
  have h2 : R1 * R2 * (1 + C) = 2 * s ^ 2 * lam ^ 2 := by
    have : 2 * (R1 * R2 * (1 + C)) = (R1 + R2) ^ 2 - c ^ 2 := by rw [csq]; ring
    rw [sum, chord] at this
    linear_combination this / 2
  have h3 : p * c ^ 2 = (R1 + R2) * (R1 * R2 * (1 - C)) - e * R1 * R2 * S * c := by
    rw [hp]
    field_simp
    linear_combination (R1 + R2) * h1
  have h4 : e * R1 * R2 * S * (1 - lam ^ 2) = -2 * lam * (R1 * R2 * (1 - C)) := by
    have e1 : R1 * R2 * (1 - C) * c ^ 2 = s * (1 - lam) ^ 2 * ((R1 + R2) * (R1 * R2 * (1 - C)) - e * R1 * R2 * S * c) := by
      rw [← h3, hV]; ring
    rw [sum, chord] at e1
    apply mul_left_cancel₀ (mul_ne_zero (pow_ne_zero 2 hs.ne') (pow_ne_zero 2 hlam))
    linear_combination e1
  have h5 : (R1 * R2 * S) ^ 2 = R1 * R2 * (1 - C) * (2 * s ^ 2 * lam ^ 2) := by
    rw [← h2]
    linear_combination (R1 * R2) ^ 2 * tr
  have h6 : e ^ 2 * c ^ 2 = 2 * (R1 * R2 * (1 - C)) := by
    apply mul_left_cancel₀ (mul_ne_zero (mul_ne_zero two_ne_zero hk) (pow_ne_zero 2 hl0))
    rw [chord]
    have e2 : (e * R1 * R2 * S * (1 - lam ^ 2)) ^ 2 = e ^ 2 * (R1 * R2 * S) ^ 2 * (1 - lam ^ 2) ^ 2 := by ring
    rw [h4, h5] at e2
    linear_combination -e2
  rw [div_pow]
  field_simp
  linear_combination h6 - h1

/-- The function of the transverse eccentricity whose root is looked for. -/
noncomputable def phi (mu s lam tof : ℝ) (g : Geometry) (e : ℝ) : ℝ :=
  Real.log (0 + Real.sqrt (s ^ 3 / (2 * mu)) * (fun t => lancT lam t (lancY lam t) 0)
    (((1 - lam ^ 2) / Real.sqrt (g.r1Norm * g.r2Norm * (1 - Real.cos g.dtheta) / s / pOf g e) -
      Real.sqrt (g.r1Norm * g.r2Norm * (1 - Real.cos g.dtheta) / s / pOf g e)) / (2 * lam))) - Real.log tof

variable {pro : Bool} {r1 r2 : V3} {g : Geometry}

/-- The values of the code's function are those of a regular function. -/
theorem phi_spec (hG : Good pro r1 r2 g) (hcn : g.cNorm = V3.norm (r2 - r1)) {mu tof : ℝ} (hmu : 0 < mu) (ht : 0 < tof) :
    ∃ s lam, ∀ e T,
    e < Real.sqrt (1 - ((g.r1Norm - g.r2Norm) / g.cNorm) ^ 2) → keplerTofAtEccT e mu g = .ok T →
      0 < T ∧ Real.log T - Real.log tof = phi mu s lam tof g e ∧ Regular (phi mu s lam tof g) e := by
  have hc := hG.c
  have hR1 := hG.R1
  have hR2 := hG.R2
  have hcos1 := hG.angle.cos_lt_one
  have h0 : 0 ≤ 1 - ((g.r1Norm - g.r2Norm) / g.cNorm) ^ 2 := by linarith [hG.eF_lt]
  obtain ⟨hGeo, -⟩ := hG.angle.halfGeo hG.hna
  obtain ⟨s, lam, hS, hA⟩ := hGeo.semi
  have hs := hS.spos
  have hl := hS.lam_lt
  have hl0 : lam ≠ 0 := by
    rintro rfl
    exact hGeo.hA (by rw [hA, mul_zero])
  refine ⟨s, lam, fun e T hlt hT => ?_⟩
  obtain ⟨ecc, a, p, heap, hp, hpath⟩ := avanzini_path hmu hG hlt h0 hT
  obtain ⟨rfl, hne⟩ := eap_pOf hc.ne' heap
  have hTp : 0 < T := by
    have := hpath
    rw [hG.n1, hG.n2] at this
    exact (Path.arc hmu hGeo this).1
  have hk : 0 < g.r1Norm * g.r2Norm * (1 - Real.cos g.dtheta) := mul_pos (mul_pos hR1 hR2) (by linarith)
  rw [hG.n1, hG.n2, hA, hS.sum] at hpath
  obtain ⟨x, hx1, hV, hTx⟩ := hpath.lanc hmu hs hl hl0
  rw [← hG.n1, ← hG.n2] at hV
  have hL := lanc_lancY hl x
  have hη := hL.eta_pos
  unfold conicV at hV
  have hroot : Real.sqrt (g.r1Norm * g.r2Norm * (1 - Real.cos g.dtheta) / s / pOf g e) = lancY lam x - lam * x := by
    rw [div_right_comm, hV, mul_div_cancel_left₀ _ hs.ne', Real.sqrt_sq hη.le]
  have hxe : ((1 - lam ^ 2) / (lancY lam x - lam * x) - (lancY lam x - lam * x)) / (2 * lam) = x := by
    have : (lancY lam x - lam * x) * (lancY lam x + lam * x) = 1 - lam ^ 2 := by linear_combination hL.y_sq
    rw [← this, mul_div_cancel_left₀ _ hη.ne']
    field_simp
    ring
  have hx2 : x ≠ 1 := by
    rintro rfl
    apply hne
    have hy1 : lancY lam 1 = 1 := by unfold lancY; norm_num
    rw [hy1, mul_one, div_eq_iff hp.ne'] at hV
    exact parabola_ecc hR1 hR2 hs hl hl0 (by rw [hG.n1, hG.n2, hS.sum]) (by
      rw [hcn, hS.chord]) hG.csq (Real.sin_sq_add_cos_sq _) (by linarith) rfl (by rw [hV]; unfold pOf; ring)
  have hsq : Real.sqrt (s ^ 3 / (2 * mu)) ≠ 0 := by positivity
  refine ⟨hTp, ?_, ?_⟩
  · unfold phi
    simp only []
    rw [hroot, hxe, zero_add, ← hTx]
  · have g1 : Regular (pOf g) e := by
      have := regular_affine (a := -(g.r1Norm * g.r2Norm * Real.sin g.dtheta / g.cNorm)) (neg_ne_zero.2 (div_ne_zero
        (mul_ne_zero (mul_ne_zero hR1.ne' hR2.ne') hG.sin_ne) hc.ne'))
        ((g.r1Norm + g.r2Norm) / 2 * (1 - ((g.r1Norm - g.r2Norm) / g.cNorm) ^ 2)) e
      have e1 : pOf g = fun t => (g.r1Norm + g.r2Norm) / 2 * (1 - ((g.r1Norm - g.r2Norm) / g.cNorm) ^ 2) +
          -(g.r1Norm * g.r2Norm * Real.sin g.dtheta / g.cNorm) * t := by
        funext t; unfold pOf; ring
      rw [e1]; exact this
    have g2 := (regular_inv (a := g.r1Norm * g.r2Norm * (1 - Real.cos g.dtheta) / s) (by positivity) hp.ne').comp g1
    have g3 := (regular_sqrt (x := g.r1Norm * g.r2Norm * (1 - Real.cos g.dtheta) / s / pOf g e) (by positivity)).comp
      (h := fun e => g.r1Norm * g.r2Norm * (1 - Real.cos g.dtheta) / s / pOf g e) g2
    have g4 := (regular_eta hl hl0 (η := Real.sqrt (g.r1Norm * g.r2Norm * (1 - Real.cos g.dtheta) / s / pOf g e))
      (by rw [hroot]; exact hη)).comp (h := fun e => Real.sqrt (g.r1Norm * g.r2Norm * (1 - Real.cos g.dtheta) / s / pOf g e)) g3
    have e5 : ((1 - lam ^ 2) / Real.sqrt (g.r1Norm * g.r2Norm * (1 - Real.cos g.dtheta) / s / pOf g e) -
      Real.sqrt (g.r1Norm * g.r2Norm * (1 - Real.cos g.dtheta) / s / pOf g e)) / (2 * lam) = x := by rw [hroot, hxe]
    have g5 := Regular.comp (g := fun t => lancT lam t (lancY lam t) 0) (h := fun e =>
      ((1 - lam ^ 2) / Real.sqrt (g.r1Norm * g.r2Norm * (1 - Real.cos g.dtheta) / s / pOf g e) -
      Real.sqrt (g.r1Norm * g.r2Norm * (1 - Real.cos g.dtheta) / s / pOf g e)) / (2 * lam)) (r := e)
      (by rw [e5]; exact regular_time hl hl0 hx1 hx2) g4
    have g6 := (regular_affine hsq 0 _).comp g5
    have g7 := Regular.comp (g := fun t => Real.log t - Real.log tof) (regular_log (by
      rw [e5, zero_add, ← hTx]; exact hTp) _) g6
    exact g7

/-- The transverse eccentricity is a regular function of the variable of the iteration. -/
theorem eccT_regular (hG : Good pro r1 r2 g) {F : ℝ → Py ℝ} (hF : getEccTAtX g = .ok F) :
    ∃ E : ℝ → ℝ, (∀ x, F x = .ok (E x)) ∧ ∀ x, Regular E x := by
  have hc := hG.c
  have hcos := cos_half_ne hG
  have hlt := hG.eF_lt
  have hM : 1 ≤ (-1 / Real.cos (g.dtheta / 2)) ^ 2 := by
    rw [div_pow, neg_one_sq, le_div_iff₀ (by positivity), one_mul]
    exact Real.cos_sq_le_one _
  have hP : 0 < Real.sqrt (1 - ((g.r1Norm - g.r2Norm) / g.cNorm) ^ 2) := Real.sqrt_pos.2 (by linarith)
  have hcase : (∃ eH, 0 < eH ∧ F = eccTAbove eH (Real.sqrt (1 - ((g.r1Norm - g.r2Norm) / g.cNorm) ^ 2))) ∨
        F = eccTBelow (Real.sqrt (1 - ((g.r1Norm - g.r2Norm) / g.cNorm) ^ 2)) := by
    unfold getEccTAtX getEccTLimits eccHLimit at hF
    rw [fundamental_eq hc.ne', ok_bind] at hF
    simp only [] at hF
    rw [pdiv_eq hcos, ok_bind] at hF
    split at hF
    · rw [psqrt_eq (by linarith), ok_bind, ok_bind, psqrt_eq (by linarith), ok_bind, ok_bind] at hF
      exact .inl ⟨Real.sqrt ((-1 / Real.cos (g.dtheta / 2)) ^ 2 - ((g.r1Norm - g.r2Norm) / g.cNorm) ^ 2),
        Real.sqrt_pos.2 (by linarith), (Except.ok.inj hF).symm⟩
    · rw [ok_bind, psqrt_eq (by linarith), ok_bind, ok_bind] at hF
      exact .inr (Except.ok.inj hF).symm
  generalize Real.sqrt (1 - ((g.r1Norm - g.r2Norm) / g.cNorm) ^ 2) = eP at *
  rcases hcase with ⟨eH, hH, rfl⟩ | rfl
  · refine ⟨fun x => eP * eH * (Real.exp ((1 / eH + 1 / eP) * x) - 1) / (eP + eH * Real.exp ((1 / eH + 1 / eP) * x)),
      fun x => ?_, fun x => ?_⟩
    · unfold eccTAbove
      rw [pdiv_eq hH.ne', ok_bind, pdiv_eq hP.ne', ok_bind, pdiv_eq (by positivity)]
    · have hX := Real.exp_pos ((1 / eH + 1 / eP) * x)
      have r1 : Regular (fun x => Real.exp ((1 / eH + 1 / eP) * x)) x :=
        ⟨by fun_prop, _, by positivity, (((hasDerivAt_id x).const_mul (1 / eH + 1 / eP)).exp)⟩
      have r2 : Regular (fun X => eP * eH * (X - 1) / (eP + eH * X)) (Real.exp ((1 / eH + 1 / eP) * x)) := by
        generalize Real.exp ((1 / eH + 1 / eP) * x) = X at *
        have hD : eP + eH * X ≠ 0 := by positivity
        refine ⟨ContDiffAt.div (by fun_prop) (by fun_prop) hD, _, ?_, (((hasDerivAt_id X).sub_const 1).const_mul (eP * eH)).div
          (((hasDerivAt_id X).const_mul eH).const_add eP) hD⟩
        simp only [id]
        refine div_ne_zero ?_ (pow_ne_zero 2 hD)
        have : eP * eH * 1 * (eP + eH * X) - eP * eH * (X - 1) * (eH * 1) = eP * eH * (eP + eH) := by ring
        rw [this]; positivity
      exact r2.comp (h := fun x => Real.exp ((1 / eH + 1 / eP) * x)) r1
  · refine ⟨fun x => eP * (1 - Real.exp (-x / eP)), fun x => ?_, fun x => ?_⟩
    · unfold eccTBelow
      rw [pdiv_eq hP.ne', ok_bind]
    · have d := ((((hasDerivAt_id x).neg.div_const eP).exp).const_sub 1).const_mul eP
      refine ⟨by fun_prop, _, ?_, d⟩
      refine mul_ne_zero hP.ne' (neg_ne_zero.2 (mul_ne_zero (Real.exp_pos _).ne' (div_ne_zero (by norm_num) hP.ne')))

/-- The code's function, taken apart. -/
theorem f_split {F : ℝ → Py ℝ} {mu tof x v : ℝ} (hmu : 0 < mu) (hR : 0 < g.r1Norm) (h : f F mu g tof x = .ok v) :
    ∃ e T, F x = .ok e ∧ keplerTofAtEccT e mu g = .ok T ∧ 0 < T ∧ 0 < tof ∧ v = Real.log T - Real.log tof := by
  unfold f at h
  rw [pdiv_eq hmu.ne'] at h
  simp only [bind_ok, ok_bind, psqrt_ok, pdiv_ok, plog_ok] at h
  obtain ⟨e, he, T, hT, _, ⟨-, rfl⟩, _, ⟨-, rfl⟩, _, ⟨-, rfl⟩, _, ⟨h1, rfl⟩, _, ⟨h2, rfl⟩, h⟩ := h
  have hs : 0 < Real.sqrt (g.r1Norm ^ 3 / mu) := by positivity
  have hT0 : 0 < T := by rwa [div_pos_iff_of_pos_right hs] at h1
  have ht0 : 0 < tof := by rwa [div_pos_iff_of_pos_right hs] at h2
  refine ⟨e, T, he, hT, hT0, ht0, ?_⟩
  rw [← Except.ok.inj h, Real.log_div hT0.ne' hs.ne', Real.log_div ht0.ne' hs.ne']
  ring

/-- The Kepler equation is evaluated at the points of the orbit other than the apocentre. -/
theorem keplerFromNu_defined {ν ecc : ℝ} (h0 : 0 ≤ ecc) (h1 : ecc ≠ 1) (hc : Real.cos (ν / 2) ≠ 0) (hp : 0 < 1 + ecc * Real.cos ν) :
    ∃ M, keplerFromNu ν ecc = .ok M := by
  unfold keplerFromNu
  rw [if_neg (not_lt.2 h0)]
  split_ifs with q
  · unfold nuToE
    rw [pdiv_eq (by linarith), ok_bind, psqrt_eq (div_nonneg (by linarith) (by linarith)), ok_bind, ptan_ok.2 ⟨hc, rfl⟩, ok_bind,
      ok_bind]
    exact ⟨_, rfl⟩
  · have he : 1 < ecc := lt_of_le_of_ne (not_lt.1 fun h => q ⟨h0, h⟩) h1.symm
    have hq : 0 ≤ (ecc - 1) / (ecc + 1) := div_nonneg (by linarith) (by linarith)
    have hsq : (Real.sqrt ((ecc - 1) / (ecc + 1)) * Real.tan (ν / 2)) ^ 2 < 1 := by
      rw [mul_pow, Real.sq_sqrt hq, Real.tan_eq_sin_div_cos, div_pow, div_mul_div_comm, div_lt_one (by positivity)]
      have t := Real.sin_sq_add_cos_sq (ν / 2)
      have c : Real.cos ν = Real.cos (ν / 2) ^ 2 - Real.sin (ν / 2) ^ 2 := by
        rw [← Real.cos_two_mul']; congr 1; ring
      rw [c] at hp
      nlinarith
    have hab := abs_lt.1 ((sq_lt_one_iff_abs_lt_one _).1 hsq)
    unfold nuToH
    rw [pdiv_eq (by linarith), ok_bind, psqrt_eq hq, ok_bind, ptan_ok.2 ⟨hc, rfl⟩, ok_bind, partanh_ok.2 ⟨hab, rfl⟩, ok_bind, ok_bind]
    exact ⟨_, rfl⟩

theorem eap_ok {g : Geometry} (hc : g.cNorm ≠ 0) {e : ℝ} (hne : ((g.r1Norm - g.r2Norm) / g.cNorm) ^ 2 + e ^ 2 ≠ 1) :
    eapFromEccT e g = .ok (Real.sqrt (e ^ 2 + ((g.r1Norm - g.r2Norm) / g.cNorm) ^ 2),
      pOf g e / (1 - ((g.r1Norm - g.r2Norm) / g.cNorm) ^ 2 - e ^ 2), pOf g e) := by
  unfold eapFromEccT eccAtEccT pAtEccT aAtEccT
  rw [fundamental_eq hc, ok_bind]
  simp only []
  rw [psqrt_eq (by positivity), ok_bind, pdiv_eq hc, ok_bind, ok_bind, pdiv_eq (fun h => hne (by linarith)), ok_bind]
  rfl

theorem cos_half_iff (x : ℝ) : Real.cos (x / 2) ≠ 0 ↔ 1 + Real.cos x ≠ 0 := by
  have c : 1 + Real.cos x = 2 * Real.cos (x / 2) ^ 2 := by
    have := Real.cos_sq (x / 2)
    rw [show 2 * (x / 2) = x by ring] at this
    linarith
  rw [c]
  simp

/-- The time of flight is defined on the conics of positive semi-latus rectum that have neither position at the apocentre. -/
theorem tof_defined_of (hG : Good pro r1 r2 g) {mu e : ℝ} (hmu : 0 < mu) (hp : 0 < pOf g e)
    (hne : ((g.r1Norm - g.r2Norm) / g.cNorm) ^ 2 + e ^ 2 ≠ 1)
    (n1 : Real.cos (-wAtEccT e ((g.r1Norm - g.r2Norm) / g.cNorm) g.wC / 2) ≠ 0)
    (n2 : Real.cos ((-wAtEccT e ((g.r1Norm - g.r2Norm) / g.cNorm) g.wC + g.dtheta) / 2) ≠ 0) :
    ∃ T, keplerTofAtEccT e mu g = .ok T := by
  have hc := hG.c
  have heap := eap_ok hc.ne' hne
  have hC := eap_conic hG heap
  unfold keplerTofAtEccT
  rw [heap, ok_bind]
  simp only []
  rw [fundamental_eq hc.ne', ok_bind]
  simp only [getTrueAnomalies]
  generalize wAtEccT e ((g.r1Norm - g.r2Norm) / g.cNorm) g.wC = w at *
  have ha := hC.a_eq
  have h0 := hC.e0
  have h1 := hC.ne1
  generalize Real.sqrt (e ^ 2 + ((g.r1Norm - g.r2Norm) / g.cNorm) ^ 2) = ecc at *
  generalize pOf g e / (1 - ((g.r1Norm - g.r2Norm) / g.cNorm) ^ 2 - e ^ 2) = a at *
  obtain ⟨M1, hM1⟩ := keplerFromNu_defined h0 h1 n1 (by
    rw [Real.cos_neg]
    exact pos_of_mul_pos_right (a := g.r1Norm) (by rw [hC.at1]; exact hp) hG.R1.le)
  obtain ⟨M2, hM2⟩ := keplerFromNu_defined h0 h1 n2 (by
    refine pos_of_mul_pos_right (a := g.r2Norm) ?_ hG.R2.le
    rw [show -w + g.dtheta = g.dtheta - w by ring, Real.cos_sub]
    rw [← hC.at2] at hp
    linarith)
  rw [hM1, ok_bind, hM2, ok_bind]
  unfold tofFromDeltaM
  split_ifs with q
  · have : 0 < a := by rw [ha]; exact div_pos hp (by nlinarith [q.1, q.2])
    rw [pdiv_eq hmu.ne', ok_bind, psqrt_eq (by positivity), ok_bind]
    split_ifs <;> exact ⟨_, rfl⟩
  · have he : 1 < ecc := lt_of_le_of_ne (not_lt.1 fun h => q ⟨h0, h⟩) h1.symm
    have : a < 0 := by rw [ha]; exact div_neg_of_pos_of_neg hp (by nlinarith)
    have h3 : 0 ≤ -a ^ 3 / mu := by
      have : 0 < (-a) ^ 3 := by have : 0 < -a := by linarith
                                positivity
      exact div_nonneg (by nlinarith) hmu.le
    rw [pdiv_eq hmu.ne', ok_bind, psqrt_eq h3, ok_bind]
    exact ⟨_, rfl⟩

/-- The conics where the time of flight is defined form an open set. -/
theorem tof_open (hG : Good pro r1 r2 g) {mu e0 T0 : ℝ} (hmu : 0 < mu)
    (hlt : e0 < Real.sqrt (1 - ((g.r1Norm - g.r2Norm) / g.cNorm) ^ 2)) (h : keplerTofAtEccT e0 mu g = .ok T0) :
    ∀ᶠ e in 𝓝 e0, ∃ T, keplerTofAtEccT e mu g = .ok T := by
  have hc := hG.c
  obtain ⟨ecc0, a0, p0, heap, hp, -⟩ := avanzini_path hmu hG hlt (by linarith [hG.eF_lt]) h
  obtain ⟨rfl, hne⟩ := eap_pOf hc.ne' heap
  have cp : ContinuousAt (pOf g) e0 := by unfold pOf; fun_prop
  have v1 : ∀ᶠ e in 𝓝 e0, 0 < pOf g e := cp.eventually (lt_mem_nhds hp)
  have v2 : ∀ᶠ e in 𝓝 e0, ((g.r1Norm - g.r2Norm) / g.cNorm) ^ 2 + e ^ 2 ≠ 1 :=
    ContinuousAt.eventually_ne (g := fun e : ℝ => ((g.r1Norm - g.r2Norm) / g.cNorm) ^ 2 + e ^ 2) (by fun_prop) hne
  by_cases hz : e0 ^ 2 + ((g.r1Norm - g.r2Norm) / g.cNorm) ^ 2 = 0
  · obtain ⟨δ, hδ, hn⟩ := anomalies_near hG
    have he0 : e0 = 0 := by
      have := sq_nonneg ((g.r1Norm - g.r2Norm) / g.cNorm)
      nlinarith [sq_nonneg e0]
    subst he0
    have v3 : ∀ᶠ e : ℝ in 𝓝 0, |e| < δ := by
      filter_upwards [Metric.ball_mem_nhds (0 : ℝ) hδ] with e he
      simpa [Real.dist_eq] using he
    have v4 : ∀ᶠ e : ℝ in 𝓝 0, ((g.r1Norm - g.r2Norm) / g.cNorm) ^ 2 + e ^ 2 < 1 := by
      have : ContinuousAt (fun e : ℝ => ((g.r1Norm - g.r2Norm) / g.cNorm) ^ 2 + e ^ 2) 0 := by fun_prop
      exact this.eventually (gt_mem_nhds (by linarith))
    filter_upwards [v1, v2, v3, v4] with e k1 k2 k3 k4
    exact tof_defined_of hG hmu k1 k2 (hn e k3 k4).1 (hn e k3 k4).2
  · have hpos : ∀ e : ℝ, e ^ 2 + ((g.r1Norm - g.r2Norm) / g.cNorm) ^ 2 ≠ 0 →
        0 < Real.sqrt (e ^ 2 + ((g.r1Norm - g.r2Norm) / g.cNorm) ^ 2) := fun e he =>
      Real.sqrt_pos.2 (lt_of_le_of_ne (by positivity) he.symm)
    -- neither position is at the apocentre
    have key : ∀ e : ℝ, e ^ 2 + ((g.r1Norm - g.r2Norm) / g.cNorm) ^ 2 ≠ 0 → ((g.r1Norm - g.r2Norm) / g.cNorm) ^ 2 + e ^ 2 ≠ 1 →
        ((Real.cos (-wAtEccT e ((g.r1Norm - g.r2Norm) / g.cNorm) g.wC / 2) ≠ 0 ↔
          Real.sqrt (e ^ 2 + ((g.r1Norm - g.r2Norm) / g.cNorm) ^ 2) + exOf g e ≠ 0) ∧
        (Real.cos ((-wAtEccT e ((g.r1Norm - g.r2Norm) / g.cNorm) g.wC + g.dtheta) / 2) ≠ 0 ↔
          Real.sqrt (e ^ 2 + ((g.r1Norm - g.r2Norm) / g.cNorm) ^ 2) +
            (Real.cos g.dtheta * exOf g e + Real.sin g.dtheta * eyOf g e) ≠ 0)) := by
      intro e he hn
      have hC := eap_conic hG (eap_ok hc.ne' hn)
      have hs := hpos e he
      rw [cos_half_iff, cos_half_iff, hC.ex, hC.ey]
      generalize wAtEccT e ((g.r1Norm - g.r2Norm) / g.cNorm) g.wC = w at *
      generalize Real.sqrt (e ^ 2 + ((g.r1Norm - g.r2Norm) / g.cNorm) ^ 2) = ecc at *
      rw [Real.cos_neg, show -w + g.dtheta = g.dtheta - w by ring, Real.cos_sub,
        show ecc + ecc * Real.cos w = ecc * (1 + Real.cos w) by ring,
        show ecc + (Real.cos g.dtheta * (ecc * Real.cos w) + Real.sin g.dtheta * (ecc * Real.sin w)) =
          ecc * (1 + (Real.cos g.dtheta * Real.cos w + Real.sin g.dtheta * Real.sin w)) by ring]
      simp [hs.ne']
    have hn0 : Real.cos (-wAtEccT e0 ((g.r1Norm - g.r2Norm) / g.cNorm) g.wC / 2) ≠ 0 ∧
        Real.cos ((-wAtEccT e0 ((g.r1Norm - g.r2Norm) / g.cNorm) g.wC + g.dtheta) / 2) ≠ 0 := by
      have h1 := (eap_conic hG heap).ne1
      unfold keplerTofAtEccT at h
      rw [heap, ok_bind] at h
      simp only [] at h
      rw [fundamental_eq hc.ne', ok_bind] at h
      simp only [getTrueAnomalies, bind_ok] at h
      obtain ⟨M1, hM1, M2, hM2, -⟩ := h
      have inv : ∀ {ν M : ℝ}, keplerFromNu ν ecc0 = .ok M → Real.cos (ν / 2) ≠ 0 := by
        intro ν M hM
        unfold keplerFromNu at hM
        split_ifs at hM
        · unfold nuToE at hM
          simp only [bind_ok, ptan_ok] at hM
          obtain ⟨_, ⟨_, -, _, -, _, ⟨q, -⟩, -⟩, -⟩ := hM
          exact q
        · unfold nuToH at hM
          simp only [bind_ok, ptan_ok] at hM
          obtain ⟨_, ⟨_, -, _, -, _, ⟨q, -⟩, -⟩, -⟩ := hM
          exact q
      exact ⟨inv hM1, inv hM2⟩
    have k0 := key e0 hz hne
    have v3 : ∀ᶠ e in 𝓝 e0, e ^ 2 + ((g.r1Norm - g.r2Norm) / g.cNorm) ^ 2 ≠ 0 :=
      ContinuousAt.eventually_ne (g := fun e : ℝ => e ^ 2 + ((g.r1Norm - g.r2Norm) / g.cNorm) ^ 2) (by fun_prop) hz
    have v4 : ∀ᶠ e in 𝓝 e0, Real.sqrt (e ^ 2 + ((g.r1Norm - g.r2Norm) / g.cNorm) ^ 2) + exOf g e ≠ 0 :=
      ContinuousAt.eventually_ne (g := fun e : ℝ => Real.sqrt (e ^ 2 + ((g.r1Norm - g.r2Norm) / g.cNorm) ^ 2) + exOf g e)
        (by unfold exOf; fun_prop) (k0.1.1 hn0.1)
    have v5 : ∀ᶠ e in 𝓝 e0, Real.sqrt (e ^ 2 + ((g.r1Norm - g.r2Norm) / g.cNorm) ^ 2) +
        (Real.cos g.dtheta * exOf g e + Real.sin g.dtheta * eyOf g e) ≠ 0 :=
      ContinuousAt.eventually_ne (g := fun e : ℝ => Real.sqrt (e ^ 2 + ((g.r1Norm - g.r2Norm) / g.cNorm) ^ 2) +
        (Real.cos g.dtheta * exOf g e + Real.sin g.dtheta * eyOf g e)) (by unfold exOf eyOf; fun_prop) (k0.2.1 hn0.2)
    filter_upwards [v1, v2, v3, v4, v5] with e k1 k2 k3 k4 k5
    exact tof_defined_of hG hmu k1 k2 ((key e k3 k2).1.2 k4) ((key e k3 k2).2.2 k5)

/-- The powers of the golden ratio are below the Fibonacci numbers. -/
theorem golden_le_fib (k : ℕ) : Real.goldenRatio ^ (k + 1) ≤ (Nat.fib (k + 3) : ℝ) := by
  have h2 := Real.goldenRatio_lt_two
  have hq := Real.goldenRatio_sq
  induction k using Nat.strong_induction_on with
  | _ k ih =>
    match k, ih with
    | 0, _ => simp [Nat.fib]; linarith
    | 1, _ =>
      have : ((Nat.fib (1 + 3) : ℕ) : ℝ) = 3 := by norm_num [Nat.fib]
      rw [this, show (1 + 1 : ℕ) = 2 by rfl, hq]; linarith
    | k + 2, ih =>
      have a := ih k (by omega)
      have b := ih (k + 1) (by omega)
      rw [show k + 2 + 3 = (k + 3) + 2 by ring, Nat.fib_add_two, Nat.cast_add,
        show Real.goldenRatio ^ (k + 2 + 1) = Real.goldenRatio ^ (k + 1) * Real.goldenRatio ^ 2 by ring, hq]
      have : Real.goldenRatio ^ (k + 1) * (Real.goldenRatio + 1) = Real.goldenRatio ^ (k + 1 + 1) + Real.goldenRatio ^ (k + 1) := by ring
      rw [this]
      have e : k + 1 + 3 = k + 3 + 1 := by ring
      rw [e] at b
      linarith

end Avanzini

open Avanzini

/-- **C58, `avanzini2008`.** The secant method of `avanzini2008` converges with the order of the golden ratio to every
root `r` of its function, whatever the transfer asked for.  Near `r`, a pass from two different points `a` and `b` is
defined and its error is at most a constant times the product of the errors of `a` and `b`.  From there on, each further
pass of the loop multiplies the number of right digits by the golden ratio: if both errors are at most `q / C` with `q < 1`
when a pass of number `i` begins, and the loop stops at pass number `n`, then the error of what it returns is at most
`q ^ (φ ^ (n - i + 1)) / C`.  The function is defined near the root, and the loop does stop, in a number of passes
proportional to the logarithm of the tolerance at most. -/
theorem avanzini_secant_order {mu : ℝ} {r1 r2 : V3} {pro : Bool} {g : Geometry} {F : ℝ → Py ℝ} {tof r : ℝ} (hmu : 0 < mu)
    (hg : getGeometry r1 r2 pro = .ok g) (hF : getEccTAtX g = .ok F) (hr : f F mu g tof r = .ok 0) :
    ∃ C δ : ℝ, 0 < C ∧ 0 < δ ∧
      (∀ a b fa fb, |a - r| < δ → |b - r| < δ → a ≠ b → f F mu g tof a = .ok fa → f F mu g tof b = .ok fb →
        fb - fa ≠ 0 ∧ |b - fb * (b - a) / (fb - fa) - r| ≤ C * |a - r| * |b - r|) ∧
      (∀ atol rtol q : ℝ, 0 ≤ atol → 0 ≤ rtol → 0 < q → q < 1 → ∀ remaining i a b fa fb x n, |a - r| < δ → |b - r| < δ → a ≠ b →
        f F mu g tof a = .ok fa → f F mu g tof b = .ok fb → C * |a - r| ≤ q → C * |b - r| ≤ q →
        secantLoop (f F mu g tof) atol rtol remaining i a fa b fb = .ok (x, n) →
          i ≤ n ∧ C * |x - r| ≤ q ^ (Real.goldenRatio ^ (n - i + 1))) ∧
      ∃ δ' > 0, ∀ a b, |a - r| < δ' → |b - r| < δ' → ∃ fa fb, f F mu g tof a = .ok fa ∧ f F mu g tof b = .ok fb ∧
        (a ≠ b → ∀ atol rtol : ℝ, 0 ≤ rtol → ∀ k : ℕ, 1 / 2 ^ k ≤ atol → ∀ remaining i, k < remaining →
          ∃ x n, secantLoop (f F mu g tof) atol rtol remaining i a fa b fb = .ok (x, n)) := by
  obtain ⟨e0, T0, he0, hT0, -, ht, hv0⟩ : ∃ e T, F r = .ok e ∧ keplerTofAtEccT e mu g = .ok T ∧ True ∧ 0 < tof ∧
      (0 : ℝ) = Real.log T - Real.log tof := by
    have hR : 0 < g.r1Norm := by
      unfold f at hr
      simp only [bind_ok, psqrt_ok, pdiv_ok] at hr
      obtain ⟨_, -, _, -, _, ⟨-, rfl⟩, _, ⟨h1, rfl⟩, _, ⟨h2, -⟩, -⟩ := hr
      have hn : 0 ≤ g.r1Norm := by
        unfold getGeometry at hg
        simp only [bind_ok] at hg
        obtain ⟨_, -, _, -, _, -, hg⟩ := hg
        rw [← Except.ok.inj hg]
        exact norm_nonneg r1
      rcases hn.lt_or_eq with h | h
      · exact h
      · exact absurd (by rw [← h]; simp) h2
    obtain ⟨e, T, a, b, c, d, e'⟩ := f_split hmu hR hr
    exact ⟨e, T, a, b, trivial, d, e'⟩
  obtain ⟨hpi, h0, -⟩ := eccT_lt hF he0
  have hG := geometry_good hg hpi
  have hcn : g.cNorm = V3.norm (r2 - r1) := by
    unfold getGeometry at hg
    simp only [bind_ok] at hg
    obtain ⟨_, -, _, -, _, -, hg⟩ := hg
    rw [← Except.ok.inj hg]
  obtain ⟨E, hE, hEr⟩ := eccT_regular hG hF
  obtain ⟨s, lam, hphi⟩ := phi_spec hG hcn hmu ht
  have hval : ∀ x v, f F mu g tof x = .ok v → v = phi mu s lam tof g (E x) := by
    intro x v h
    obtain ⟨e, T, he, hT, -, -, rfl⟩ := f_split hmu hG.R1 h
    have hlt := (eccT_lt hF he).2.2
    rw [hE x] at he
    obtain rfl := Except.ok.inj he
    exact (hphi _ _ hlt hT).2.1
  have hreg : Regular (fun x => phi mu s lam tof g (E x)) r := by
    have hlt := (eccT_lt hF he0).2.2
    rw [hE r] at he0
    obtain rfl := Except.ok.inj he0
    exact Regular.comp (hphi _ _ hlt hT0).2.2 (hEr r)
  obtain ⟨C, δ, hC, hδ, hstep⟩ := hreg.secant (hval r 0 hr).symm
  have hstep' : ∀ a b fa fb, |a - r| < δ → |b - r| < δ → a ≠ b → f F mu g tof a = .ok fa → f F mu g tof b = .ok fb →
        fb - fa ≠ 0 ∧ |b - fb * (b - a) / (fb - fa) - r| ≤ C * |a - r| * |b - r| := by
    intro a b fa fb ha hb hab hfa hfb
    rw [hval a fa hfa, hval b fb hfb]
    exact hstep a b ha hb hab
  refine ⟨C, δ, hC, hδ, hstep', ?_, ?_⟩
  · intro atol rtol q hat hrt hq0 hq1 remaining i a b fa fb x n ha hb hab hfa hfb ca cb h
    obtain ⟨h1, h2⟩ := secantLoop_order (j := 1) hC hq0.le hq1.le hat hrt hstep' remaining hfa hfb hab ha hb
      (by simpa using ca) (by simpa using cb) h
    refine ⟨h1, h2.trans ?_⟩
    rw [← Real.rpow_natCast]
    refine Real.rpow_le_rpow_of_exponent_ge hq0 hq1.le ?_
    exact golden_le_fib (n - i)
  · obtain ⟨ε, hε, hdef⟩ : ∃ ε > 0, ∀ x, |x - r| < ε → ∃ v, f F mu g tof x = .ok v := by
      have hE0 := he0
      rw [hE r] at hE0
      have hev := tof_open hG hmu (eccT_lt hF he0).2.2 hT0
      rw [← Except.ok.inj hE0] at hev
      obtain ⟨ε, hε, hball⟩ := Metric.eventually_nhds_iff.1 ((hEr r).1.continuousAt.eventually hev)
      refine ⟨ε, hε, fun x hx => ?_⟩
      obtain ⟨T, hT⟩ := hball (y := x) (by rw [Real.dist_eq]; exact hx)
      have hTp := (hphi _ _ (eccT_lt hF (hE x)).2.2 hT).1
      have hR1 := hG.R1
      have hs : 0 < Real.sqrt (g.r1Norm ^ 3 / mu) := by positivity
      unfold f
      rw [hE x, ok_bind, hT, ok_bind, pdiv_eq hmu.ne', ok_bind, psqrt_eq (by positivity), ok_bind, pdiv_eq hs.ne', ok_bind,
        pdiv_eq hs.ne', ok_bind, plog_ok.2 ⟨by positivity, rfl⟩, ok_bind, plog_ok.2 ⟨by positivity, rfl⟩, ok_bind]
      exact ⟨_, rfl⟩
    refine ⟨min (min δ ε) (min (1 / 2) (1 / 2 / C)), by positivity, fun a b ha hb => ?_⟩
    have l1 := min_le_left (min δ ε) (min (1 / 2) (1 / 2 / C))
    have l2 := min_le_right (min δ ε) (min (1 / 2) (1 / 2 / C))
    have l3 := min_le_left δ ε
    have l4 := min_le_right δ ε
    have l5 := min_le_left (1 / 2) (1 / 2 / C)
    have l6 := min_le_right (1 / 2) (1 / 2 / C)
    obtain ⟨fa, hfa⟩ := hdef a (by linarith)
    obtain ⟨fb, hfb⟩ := hdef b (by linarith)
    refine ⟨fa, fb, hfa, hfb, fun hab atol rtol hrt k hk remaining i hrem => ?_⟩
    refine secantLoop_returns (δ := min (min δ ε) (min (1 / 2) (1 / 2 / C))) (q := 1 / 2) (C := C) (by norm_num) (by norm_num)
      (le_trans (by positivity) hk) hrt ?_ hC (fun a b fa fb ha hb => hstep' a b fa fb (by linarith) (by linarith))
      (fun x hx => hdef x (by linarith)) k hrem hfa hfb hab ha hb ?_
    · have : C * (1 / 2 / C) = 1 / 2 := by field_simp
      nlinarith
    · rw [one_div_pow]
      refine le_trans ?_ hk
      have : 0 < 1 / (2 : ℝ) ^ k := by positivity
      have hb2 : 2 * |b - r| ≤ 1 := by linarith
      nlinarith

/-- The hypotheses of `avanzini_secant_order` are met: a quarter of an inclined circle flown in the time of the circle,
whose root is `0`. -/
example : ∃ (g : Geometry) (F : ℝ → Py ℝ) (tof : ℝ), getGeometry ⟨1, 0, 0⟩ ⟨0, 3 / 5, 4 / 5⟩ true = .ok g ∧
    getEccTAtX g = .ok F ∧ f F 1 g tof 0 = .ok 0 := by
  have hna : NotAligned ⟨1, 0, 0⟩ ⟨0, 3 / 5, 4 / 5⟩ := by simp [NotAligned]
  obtain ⟨out, h⟩ := avanzini_returns one_pos hna (by simp [len]; norm_num) (transferAngle_eq hna true) true 33
    (by norm_num : (0 : ℝ) ≤ 1e-5) (rtol := 1e-7) false 0
  obtain ⟨-, hmu, g, F, x, n, eccT, el, hg, hF, -, hT, -⟩ := ok_split h
  have hG := geometry_good hg (eccT_lt hF hT).1
  obtain ⟨F', hF', hF0, -⟩ := eccTAtX_near hG
  rw [hF] at hF'
  obtain rfl := Except.ok.inj hF'
  obtain ⟨TF, hTF, hTF0, -⟩ := tof_near hG hmu
  have hR1 := hG.R1
  have hs : 0 < Real.sqrt (g.r1Norm ^ 3 / 1) := by positivity
  refine ⟨g, F, TF, hg, hF, ?_⟩
  unfold f
  rw [hF0, ok_bind, hTF0, ok_bind, pdiv_eq one_ne_zero, ok_bind, psqrt_eq (by positivity), ok_bind, pdiv_eq hs.ne', ok_bind,
    ok_bind, plog_ok.2 ⟨by positivity, rfl⟩, ok_bind, ok_bind, sub_self]

end Lamberthub
