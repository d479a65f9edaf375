import Verif.Proofs.GoodingMulti
import Verif.Props.IzzoFeasible

/-!
# C76: `gooding1990` refuses infeasible numbers of revolutions and keeps the feasible ones

For every geometry, from some number of revolutions on.  The specification is `Spec.Feasible`: a transfer with that
number of revolutions, sense and time exists.
-/

set_option autoImplicit false

namespace Lamberthub
open Filter Topology Spec LC

namespace Gooding

/-- The program does not end with the message of `gooding.py` l.463. -/
def NotRefused {α : Type} (p : Py α) : Prop := p ≠ .error (.valueError "No feasible solution, try lower M!")

theorem nr_ok {α : Type} (a : α) : NotRefused (.ok a : Py α) := by simp [NotRefused]

theorem nr_bind {α β : Type} {p : Py α} {f : α → Py β} (hp : NotRefused p) (hf : ∀ a, NotRefused (f a)) :
    NotRefused (p >>= f) := by
  cases p with
  | ok a => exact hf a
  | error e =>
    intro h
    rw [error_bind] at h
    exact hp (by rw [Except.error.inj h])

theorem nr_pdiv (a b : ℝ) : NotRefused (pdiv a b) := by unfold pdiv NotRefused; split <;> simp
theorem nr_psqrt (a : ℝ) : NotRefused (psqrt a) := by unfold psqrt NotRefused; split <;> simp
theorem nr_plog (a : ℝ) : NotRefused (plog a) := by unfold plog NotRefused; split <;> simp
theorem nr_plim (f : ℕ → ℝ) : NotRefused (plim f) := by unfold plim NotRefused; split <;> simp
theorem nr_ite {α : Type} {c : Prop} [Decidable c] {p p' : Py α} (h : NotRefused p) (h' : NotRefused p') :
    NotRefused (if c then p else p') := by split <;> assumption

theorem nr_d8rt (x : ℝ) : NotRefused (d8rt x) := nr_bind (nr_psqrt _) fun _ => nr_bind (nr_psqrt _) fun _ => nr_psqrt _

theorem nr_directCoeffs (q w x u z : ℝ) : NotRefused (directCoeffs q w x u z) := by
  unfold directCoeffs
  exact nr_ite (nr_ok _) (nr_bind (nr_pdiv _ _) fun _ => nr_bind (nr_pdiv _ _) fun _ => nr_ok _)

theorem nr_gValue (q x u z : ℝ) : NotRefused (gValue q x u z) := nr_ite (nr_ok _) (nr_pdiv _ _)

theorem nr_angleValue (m : ℤ) (x f g : ℝ) : NotRefused (angleValue m x f g) :=
  nr_ite (nr_ok _) (nr_ite (nr_plog _) (nr_bind (nr_pdiv _ _) fun _ => nr_plim _))

theorem nr_directDerivs (q w x u z a t : ℝ) (n : ℤ) : NotRefused (directDerivs q w x u z a t n) :=
  nr_ite (nr_bind (nr_pdiv _ _) fun _ => nr_bind (nr_pdiv _ _) fun _ => nr_bind (nr_pdiv _ _) fun _ =>
    nr_ite (nr_bind (nr_pdiv _ _) fun _ => nr_ite (nr_bind (nr_pdiv _ _) fun _ => nr_ok _) (nr_bind (nr_ok _) fun _ => nr_ok _))
      (nr_bind (nr_ok _) fun _ => nr_ite (nr_bind (nr_pdiv _ _) fun _ => nr_ok _) (nr_bind (nr_ok _) fun _ => nr_ok _)))
    (nr_ok _)

theorem nr_tlambDirect (m : ℤ) (q w x : ℝ) (n : ℤ) : NotRefused (tlambDirect m q w x n) :=
  nr_bind (nr_psqrt _) fun _ => nr_bind (nr_psqrt _) fun _ => nr_bind (nr_directCoeffs _ _ _ _ _) fun _ =>
    nr_bind (nr_gValue _ _ _ _) fun _ => nr_bind (nr_angleValue _ _ _ _) fun _ => nr_bind (nr_pdiv _ _) fun _ =>
      nr_bind (nr_pdiv _ _) fun _ => nr_bind (nr_directDerivs _ _ _ _ _ _ _ _) fun _ => nr_ok _

theorem nr_serInit (q w : ℝ) : NotRefused (serInit q w) :=
  nr_ite (nr_bind (nr_ok _) fun _ => nr_ok _) (nr_bind (nr_pdiv _ _) fun _ => nr_ok _)

theorem nr_tlambSeries (q w x : ℝ) (n : ℤ) : NotRefused (tlambSeries q w x n) :=
  nr_bind (nr_serInit _ _) fun _ => nr_bind (nr_plim _) fun _ => nr_bind (nr_plim _) fun _ => nr_bind (nr_plim _) fun _ =>
    nr_bind (nr_plim _) fun _ => nr_bind (nr_pdiv _ _) fun _ => nr_ok _

theorem nr_velCoeffs (q w x u z : ℝ) : NotRefused (velCoeffs q w x u z) :=
  nr_ite (nr_bind (nr_pdiv _ _) fun _ => nr_bind (nr_pdiv _ _) fun _ => nr_ite (nr_ok _) (nr_ok _))
    (nr_bind (nr_pdiv _ _) fun _ => nr_bind (nr_pdiv _ _) fun _ => nr_ok _)

theorem nr_tlamb (m : ℤ) (q w x : ℝ) (n : ℤ) : NotRefused (tlamb m q w x n) :=
  nr_ite (nr_bind (nr_psqrt _) fun _ => nr_bind (nr_psqrt _) fun _ => nr_bind (nr_velCoeffs _ _ _ _ _) fun _ => nr_ok _)
    (nr_ite (nr_tlambDirect _ _ _ _ _) (nr_tlambSeries _ _ _ _))

theorem nr_halleyStep (t dt d2t x xold : ℝ) : NotRefused (halleyStep t dt d2t x xold) :=
  nr_ite (nr_bind (nr_pdiv _ _) fun _ => nr_ok _) (nr_ok _)

theorem nr_xlambIter (m : ℤ) (q w tin atol rtol : ℝ) (maxiter : ℕ) : ∀ (k num : ℕ) (x xold : ℝ),
    NotRefused (xlambIter m q w tin atol rtol maxiter k num x xold) := by
  intro k
  induction k with
  | zero => intro num x xold; exact nr_ok _
  | succ k ih =>
    intro num x xold
    rw [xlambIter]
    exact nr_bind (nr_tlamb _ _ _ _ _) fun _ => nr_bind (nr_halleyStep _ _ _ _ _) fun _ => nr_bind (nr_pdiv _ _) fun _ =>
      nr_ite (nr_ok _) (ih _ _ _)

theorem nr_bilinear (tdiff t0 thr2 : ℝ) : NotRefused (bilinear tdiff t0 thr2) := by
  unfold bilinear
  exact nr_bind (nr_pdiv _ _) fun _ => nr_bind (nr_psqrt _) fun _ =>
    nr_ite (nr_bind (nr_d8rt _) fun _ => nr_bind (nr_psqrt _) fun _ => nr_bind (nr_pdiv _ _) fun _ =>
      nr_bind (nr_psqrt _) fun _ => nr_ok _) (nr_ok _)

theorem nr_firstStart (m : ℤ) (thr2 xm tdiffm d2t : ℝ) : NotRefused (firstStart m thr2 xm tdiffm d2t) :=
  nr_bind (nr_pdiv _ _) fun _ => nr_bind (nr_pdiv _ _) fun _ => nr_bind (nr_psqrt _) fun _ => nr_bind (nr_pdiv _ _) fun _ =>
    nr_bind (nr_psqrt _) fun _ => nr_bind (nr_pdiv _ _) fun _ => nr_ok _

theorem nr_secondStart (m : ℤ) (q w tin thr2 tmin tdiffm d2t2 xm xpl : ℝ) (n : ℤ) :
    NotRefused (secondStart m q w tin thr2 tmin tdiffm d2t2 xm xpl n) :=
  nr_bind (nr_tlamb _ _ _ _ _) fun _ => nr_ite
    (nr_bind (nr_pdiv _ _) fun _ => nr_bind (nr_pdiv _ _) fun _ => nr_bind (nr_pdiv _ _) fun _ =>
      nr_bind (nr_psqrt _) fun _ => nr_ok _)
    (nr_bind (nr_bilinear _ _ _) fun _ => nr_bind (nr_pdiv _ _) fun _ => nr_bind (nr_psqrt _) fun _ =>
      nr_bind (nr_pdiv _ _) fun _ => nr_ite (nr_ite (nr_ok _) (nr_ok _)) (nr_ok _))

theorem nr_finish (m : ℤ) (q w tin : ℝ) (maxiter : ℕ) (atol rtol : ℝ) (full : Bool) (clock : ℝ) (n : ℤ) (x xpl : ℝ) :
    NotRefused (finish m q w tin maxiter atol rtol full clock n x xpl) :=
  nr_bind (nr_xlambIter _ _ _ _ _ _ _ _ _ _ _) fun _ =>
    nr_ite (nr_bind (nr_pdiv _ _) fun _ => nr_ok _) (nr_bind (nr_ok _) fun _ => nr_ok _)

/-- What `xlamb` does after the search, in terms of the result of the search. -/
theorem xlamb_of_search {M : ℕ} (hM : 1 ≤ M) {q tin atol rtol clock x0 xm tmin d2t : ℝ} {maxiter num : ℕ} {full : Bool}
    (h0 : xmStart M (arctan2 (1 - q ^ 2) (2.0 * q) / Real.pi) = .ok x0)
    (hs : tminLoop M q (1 - q ^ 2) atol rtol maxiter 1 x0 = .ok (xm, tmin, d2t, num)) (hn : num + 1 ≠ maxiter) :
    (tin < tmin → xlamb M q (1 - q ^ 2) tin maxiter atol rtol full clock =
        .error (.valueError "No feasible solution, try lower M!")) ∧
      (tmin ≤ tin → NotRefused (xlamb M q (1 - q ^ 2) tin maxiter atol rtol full clock)) := by
  have hm0 : (M : ℤ) ≠ 0 := by omega
  unfold xlamb xlambMulti
  simp only []
  rw [if_neg hm0, h0, ok_bind, hs, ok_bind]
  simp only []
  rw [raiseIf_neg _ hn, ok_bind]
  constructor
  · intro h
    rw [raiseIf_pos _ (by linarith), error_bind]
  · intro h
    rw [raiseIf_neg _ (by linarith), ok_bind]
    exact nr_ite (nr_ok _) (nr_bind (nr_firstStart _ _ _ _ _) fun _ => nr_ite
      (nr_bind (nr_secondStart _ _ _ _ _ _ _ _ _ _ _) fun _ => nr_finish _ _ _ _ _ _ _ _ _ _ _ _)
      (nr_bind (nr_xlambIter _ _ _ _ _ _ _ _ _ _ _) fun _ => nr_bind (nr_secondStart _ _ _ _ _ _ _ _ _ _ _) fun _ =>
        nr_finish _ _ _ _ _ _ _ _ _ _ _ _))

/-- The search of the minimum time succeeds, for every geometry and from some number of revolutions on. -/
theorem search_many {q : ℝ} (hq : q ^ 2 < 1) :
    ∃ M0 : ℕ, 1 ≤ M0 ∧ ∀ M : ℕ, M0 ≤ M → ∀ m, Fastest q M m →
      rev1 q M m = 0 ∧ 0 < rev2 q M m ∧ rev2 q M m ≤ 6 * Real.pi * M ∧
      ∀ atol rtol : ℝ, 0 < atol → 0 ≤ rtol → ∀ n maxiter : ℕ, 1 ≤ atol * 2 ^ n → n + 3 ≤ maxiter → ∃ x0 xm y num,
        xmStart M (arctan2 (1 - q ^ 2) (2.0 * q) / Real.pi) = .ok x0 ∧
        tminLoop M q (1 - q ^ 2) atol rtol maxiter 1 x0 = .ok (xm, 2 * revT q M y, 2 * rev2 q M y, num) ∧ num + 1 ≠ maxiter ∧
        |xm - m| ≤ rtol + atol ∧ |y - m| ≤ 2 * (rtol + atol) ∧ revT q M m ≤ revT q M y ∧
        revT q M y ≤ revT q M m + 24 * Real.pi * M * (rtol + atol) ^ 2 ∧ 0 < rev2 q M y ∧ xm < 1 := by
  obtain ⟨ρ, hρ, hρ1, hst⟩ := min_step hq
  obtain ⟨M1, hM1⟩ := fastest_small hq (show 0 < ρ / 4 by positivity)
  obtain ⟨M2, hM2⟩ := exists_nat_gt (4 / ρ)
  obtain ⟨t0, t1⟩ := thr2_mem hq
  refine ⟨max (max M1 M2) 1, le_max_right _ _, fun M hM m hm => ?_⟩
  have hM1' : M1 ≤ M := (le_max_left _ _).trans ((le_max_left _ _).trans hM)
  have hM2' : M2 ≤ M := (le_max_right _ _).trans ((le_max_left _ _).trans hM)
  have hM' : 1 ≤ M := (le_max_right _ _).trans hM
  have hmρ := hM1 M m hM1' hM' hm
  have hMp : (0 : ℝ) < M := by exact_mod_cast hM'
  have hMr : 4 / ρ < M := hM2.trans_le (by exact_mod_cast hM2')
  have hε : 1 / (M : ℝ) < ρ / 4 := by
    rw [div_lt_iff₀ hρ] at hMr
    rw [div_lt_div_iff₀ hMp (by norm_num)]
    linarith
  have hmz : rev1 q M m = 0 := by
    have hloc : IsLocalMin (revT q M) m := by
      filter_upwards [Ioo_mem_nhds hm.mem.1 hm.mem.2] with t ht using hm.least t ht
    exact hloc.hasDerivAt_eq_zero (rev_deriv hq hm.mem.1 hm.mem.2 M).1
  obtain ⟨x0, hx0, x0p, x0l⟩ := xmStart_eq (M := M) t0 t1
  have hx0ρ : |x0| < ρ / 4 := by
    rw [abs_of_pos x0p]
    refine lt_of_le_of_lt (x0l.trans ?_) hε
    have hpi := Real.pi_gt_three
    rw [div_le_div_iff₀ (by norm_num; positivity) hMp]
    norm_num
    nlinarith
  have hstep := fun x hx => hst M x m hM' (by linarith) hx (by linarith) hmz
  refine ⟨hmz, (hstep m (by linarith)).1, ?_, fun atol rtol ha hr n maxiter hn hmax => ?_⟩
  · have hb := (rev_deriv hq hm.mem.1 hm.mem.2 M).2.1.le_of_lip' (C := 6 * Real.pi * M)
      (by have := Real.pi_pos; positivity) (by
        have hev : ∀ᶠ x in 𝓝 m, |x| < ρ := continuous_abs.continuousAt.eventually (gt_mem_nhds (by linarith))
        filter_upwards [hev] with x hx
        rw [hmz, sub_zero]
        exact (hstep x hx).2.1)
    exact (le_abs_self _).trans hb
  have hdist : |x0 - m| < ρ / 2 := by
    have := abs_sub x0 m
    linarith
  obtain ⟨xm, y, num, hs, c1, c2, c3, c4, c5, c6⟩ := min_search hq hM' hρ1 hmρ
    (fun x hx => ⟨(hstep x hx).1, (hstep x hx).2.2⟩) ha hr n maxiter 1 x0 hdist (by linarith) (by omega)
  have hy : |y| < ρ := by
    have := abs_sub_abs_le_abs_sub y m
    linarith
  have hy1 := abs_lt.1 (hy.trans_le hρ1)
  refine ⟨x0, xm, y, num, hx0, hs, by omega, c5, c4, hm.least y hy1, ?_, c6⟩
  · have hb := time_near_min hq (M := M) (L := 6 * Real.pi * M) (by have := Real.pi_pos; positivity) hm.mem hy1 (fun t ht => by
      refine (hstep t ?_).2.1
      rw [abs_lt]
      have h1 := abs_lt.1 hy
      have h2 := abs_lt.1 (hmρ.trans (show ρ / 4 < ρ by linarith))
      rcases Set.mem_uIcc.1 ht with ⟨h3, h4⟩ | ⟨h3, h4⟩
      · exact ⟨by linarith, by linarith⟩
      · exact ⟨by linarith, by linarith⟩)
    have h2 := (abs_le.1 hb).2
    have h3 : |y - m| ^ 2 ≤ (2 * (rtol + atol)) ^ 2 := pow_le_pow_left₀ (abs_nonneg _) c4 2
    have h4 : 0 ≤ 6 * Real.pi * M := by have := Real.pi_pos; positivity
    have h5 := mul_le_mul_of_nonneg_left h3 h4
    nlinarith

end Gooding

open Gooding in
/-- **C76, feasibility.**  For every geometry there is a number of revolutions from which on, with all tolerances
and enough iterations for them, `gooding1990` refuses every time of flight for which no transfer with so many
revolutions exists, and refuses no time of flight that exceeds the one of any such transfer by more than
`24 π M (rtol + atol)²` time units.  Missing: the numbers of revolutions below that one. -/
theorem gooding_feasibility_partial {mu : ℝ} (hmu : 0 < mu) {r1 r2 : V3} (hnp : NotPolar r1 r2) (pro : Bool) :
    ∃ M0 : ℕ, ∀ M : ℕ, M0 ≤ M → ∀ atol rtol : ℝ, 0 < atol → 0 ≤ rtol → ∀ n maxiter : ℕ, 1 ≤ atol * 2 ^ n → n + 3 ≤ maxiter →
      ∀ (low full : Bool) (clock tof : ℝ), 0 < tof →
        (¬ Feasible mu r1 r2 pro tof M → gooding1990 mu r1 r2 tof M pro low maxiter atol rtol full clock =
          .error (.valueError "No feasible solution, try lower M!")) ∧
        ∀ T, Feasible mu r1 r2 pro T M → T + 24 * Real.pi * M * (rtol + atol) ^ 2 * timeUnit mu r1 r2 ≤ tof →
          gooding1990 mu r1 r2 tof M pro low maxiter atol rtol full clock ≠
            .error (.valueError "No feasible solution, try lower M!") := by
  have hna : NotAligned r1 r2 := fun h => hnp h.2.2
  obtain ⟨s, q, hS, hG, hqs, -⟩ := gooding_eq (tof := 1) (M := 0) pro true 1 1 1 1 true hna hmu one_pos
  have hs := hS.spos
  have hq := hS.lam_lt
  have hq0 : q ≠ 0 := by rintro rfl; exact hG.hA (by ring)
  obtain ⟨M0, hM0, hsearch⟩ := search_many hq
  refine ⟨M0, fun M hM atol rtol ha hr n maxiter hn hmax low full clock tof htof => ?_⟩
  have hM' : 1 ≤ M := hM0.trans hM
  obtain ⟨m, hm⟩ := exists_fastest hq hM'
  obtain ⟨x0, xm, y, num, hx0, hl, hne, -, -, b1, b2, -⟩ := (hsearch M hM m hm).2.2.2 atol rtol ha hr n maxiter hn hmax
  obtain ⟨s', q', hS', hG', hqs', heq⟩ := gooding_eq (M := M) pro low maxiter atol rtol clock full hna hmu htof
  obtain ⟨e1, e2⟩ := semi_unique hS hS' hq0 (hqs.trans hqs'.symm)
  rw [e1, e2] at heq
  have hf := fun T => feasible_iff hmu hnp hS hq0 hqs hM' hm T
  have h8 : Real.sqrt (8 * mu / s ^ 3) = 2 * Real.sqrt (2 * mu / s ^ 3) := by
    rw [show 8 * mu / s ^ 3 = 2 ^ 2 * (2 * mu / s ^ 3) by ring, Real.sqrt_mul (by norm_num), Real.sqrt_sq (by norm_num)]
  obtain ⟨k1, k2⟩ := xlamb_of_search (tin := Real.sqrt (8 * mu / s ^ 3) * tof) (clock := clock) (full := full) hM' hx0 hl hne
  constructor
  · intro hnf
    rw [hf] at hnf
    push Not at hnf
    rw [heq, k1 (by rw [h8]; linarith), error_bind]
  · intro T hT hle
    rw [hf] at hT
    have hU : Real.sqrt (2 * mu / s ^ 3) * timeUnit mu r1 r2 = 1 := by
      rw [Der.unit_eq hS, ← Real.sqrt_mul (by positivity), show 2 * mu / s ^ 3 * (s ^ 3 / (2 * mu)) = 1 by field_simp,
        Real.sqrt_one]
    have hκ : 0 < Real.sqrt (2 * mu / s ^ 3) := by positivity
    have h5 := mul_le_mul_of_nonneg_left hle hκ.le
    have h6 : Real.sqrt (2 * mu / s ^ 3) * (T + 24 * Real.pi * M * (rtol + atol) ^ 2 * timeUnit mu r1 r2) =
        Real.sqrt (2 * mu / s ^ 3) * T + 24 * Real.pi * M * (rtol + atol) ^ 2 := by
      calc _ = Real.sqrt (2 * mu / s ^ 3) * T + 24 * Real.pi * M * (rtol + atol) ^ 2 *
            (Real.sqrt (2 * mu / s ^ 3) * timeUnit mu r1 r2) := by ring
        _ = _ := by rw [hU, mul_one]
    rw [h6] at h5
    rw [heq]
    refine nr_bind (k2 (by rw [h8]; linarith)) fun res => ?_
    cases res with
    | four _ _ _ => simp [NotRefused]
    | five _ _ _ _ _ => exact nr_ok _

/-- A quarter turn and the default tolerances: 35 iterations are enough. -/
example : ∃ M0 : ℕ, ∀ M : ℕ, M0 ≤ M → ∀ tof : ℝ, 0 < tof → ¬ Feasible 1 ⟨1, 0, 0⟩ ⟨0, 1, 0⟩ true tof M →
    gooding1990 1 ⟨1, 0, 0⟩ ⟨0, 1, 0⟩ tof M true true 35 1e-5 1e-7 false 1 =
      .error (.valueError "No feasible solution, try lower M!") := by
  obtain ⟨M0, h⟩ := gooding_feasibility_partial one_pos (r1 := ⟨1, 0, 0⟩) (r2 := ⟨0, 1, 0⟩) (by simp [NotPolar]) true
  exact ⟨M0, fun M hM tof ht hf =>
    (h M hM 1e-5 1e-7 (by norm_num) (by norm_num) 17 35 (by norm_num) (by norm_num) true false 1 tof ht).1 hf⟩

end Lamberthub
