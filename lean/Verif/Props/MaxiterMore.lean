import Verif.Props.Maxiter
import Verif.Props.AvanziniMore
import Verif.Props.GoodingMore
import Verif.Props.JiangFast
import Verif.Props.BattinWrong
import Verif.Props.ValladoFast

/-! # C94: cases of the theorems of `Maxiter`, and `gooding1990` -/

set_option autoImplicit false

namespace Lamberthub
open Spec LC

/-- A run that returns: `avanzini2008` on equal distances, the same answer for all `maxiter` from 2 on. -/
example : ∃ tof out, ∀ n ≥ 2, avanzini2008 1 ⟨1, 0, 0⟩ ⟨0, 3 / 5, 4 / 5⟩ tof 0 true true n 1e-5 1e-7 true 0 = .ok out := by
  have hna : NotAligned ⟨1, 0, 0⟩ ⟨0, 3 / 5, 4 / 5⟩ := by simp [NotAligned]
  obtain ⟨θ, hθ⟩ : ∃ θ, getTransferAngle ⟨1, 0, 0⟩ ⟨0, 3 / 5, 4 / 5⟩ true = .ok θ := ⟨_, transferAngle_eq hna true⟩
  obtain ⟨out, ho⟩ := avanzini_returns (mu := 1) one_pos hna (by simp [len]; norm_num) hθ true 0
    (atol := 1e-5) (rtol := 1e-7) (by norm_num) true 0
  refine ⟨Real.sqrt (len ⟨1, 0, 0⟩ ^ 3 / 1) * θ, out, fun n hn => ?_⟩
  rcases avanzini_maxiter (M := 0) (pro := true) (low := true) (full := true) hn with h | h
  · exact absurd (ho.symm.trans h) (by simp)
  · exact h.symm.trans ho

/-- The same for `battin1984`, from the first pass on. -/
example : ∃ r2 tof out, ∀ n ≥ 1, battin1984 1 ⟨1, 0, 0⟩ r2 tof 0 true true n 1e-5 1e-7 true 0 = .ok out := by
  obtain ⟨r2, tof, -, -, -, h⟩ := battin_wrong_reached
  obtain ⟨out, ho⟩ := h true 0 1e-5 1e-7 true 0 (by norm_num)
  refine ⟨r2, tof, out, fun n hn => ?_⟩
  rcases battin_maxiter (M := 0) (pro := true) (low := true) (full := true) hn with h | h
  · exact absurd (ho.symm.trans h) (by simp)
  · exact h.symm.trans ho

/-- The same for `izzo2015`. -/
example : ∃ tof v, ∀ n ≥ 1, izzo2015 1 ⟨1, 0, 0⟩ ⟨0, 3 / 5, 4 / 5⟩ tof 0 true true n 1e-5 1e-7 = .ok v := by
  obtain ⟨tof, v1, v2, -, ho⟩ := izzo_returns_minimum_energy (mu := 1) one_pos (r1 := ⟨1, 0, 0⟩) (r2 := ⟨0, 3 / 5, 4 / 5⟩)
    (by simp [NotAligned]) true true 0 (atol := 1e-5) (by norm_num) 1e-7
  refine ⟨tof, (v1, v2), fun n hn => ?_⟩
  rcases izzo_maxiter (M := 0) (pro := true) (low := true) hn with h | h
  · exact absurd (ho.symm.trans h) (by simp)
  · exact h.symm.trans ho

/-- A run that is stopped: `vallado2013` without passes on a problem that it solves with more of them. -/
example : ∃ tof N out, vallado2013 1 ⟨1, 0, 0⟩ ⟨0, 3 / 5, 4 / 5⟩ tof 0 true true 0 1e-5 1e-7 true 0 =
      .error (.valueError "Exceeded maximum number of iterations!") ∧
    ∀ n ≥ N, vallado2013 1 ⟨1, 0, 0⟩ ⟨0, 3 / 5, 4 / 5⟩ tof 0 true true n 1e-5 1e-7 true 0 = .ok out := by
  have hna : NotAligned ⟨1, 0, 0⟩ ⟨0, 3 / 5, 4 / 5⟩ := by simp [NotAligned]
  obtain ⟨N, hN⟩ := vallado_returns_elliptic (mu := 1) one_pos hna true
    (tof := max 1 (parabolicTime 1 ⟨1, 0, 0⟩ ⟨0, 3 / 5, 4 / 5⟩ true)) (lt_max_of_lt_left one_pos) (le_max_right _ _)
    (rtol := 1e-7) (by norm_num)
  obtain ⟨out, ho⟩ := hN N le_rfl 0 le_rfl true 1e-5 true 0
  refine ⟨max 1 (parabolicTime 1 ⟨1, 0, 0⟩ ⟨0, 3 / 5, 4 / 5⟩ true), N, out, ?_, fun n hn => ?_⟩
  · rcases vallado_maxiter (M := 0) (pro := true) (low := true) (full := true) (Nat.zero_le N) with h | h
    · exact h
    · rw [ho] at h
      unfold vallado2013 Vallado.loop at h
      simp only [bind_ok] at h
      obtain ⟨_, -, _, -, _, -, _, -, _, h, -⟩ := h
      cases h
  · rcases vallado_maxiter (M := 0) (pro := true) (low := true) (full := true) hn with h | h
    · exact absurd (ho.symm.trans h) (by simp)
    · exact h.symm.trans ho

open Gooding in
/-- **C94 fails for `gooding1990` (negation).** Without passes and with one pass it returns different velocities, and no error
in either case. -/
theorem gooding_maxiter_changes (low : Bool) (clock : ℝ) : ∃ tof, 0 < tof ∧ ∃ out out',
    gooding1990 64 ⟨4, -3, 0⟩ ⟨4, 3, 0⟩ tof 0 true low 0 1e-5 1e-7 false clock = .ok out ∧
    gooding1990 64 ⟨4, -3, 0⟩ ⟨4, 3, 0⟩ tof 0 true low 1 1e-5 1e-7 false clock = .ok out' ∧ out.v1 ≠ out'.v1 := by
  obtain ⟨tof, h1, h2, hst⟩ := witness_start
  have htof : 0 < tof := by norm_num at h1; linarith
  have hna : NotAligned ⟨4, -3, 0⟩ ⟨4, 3, 0⟩ := by simp [NotAligned]; norm_num
  have hsq : Real.sqrt (8 * 64 / 8 ^ 3) * tof = tof := by norm_num
  have hsq' : ∀ T : ℝ, Real.sqrt (8 * 64 / 8 ^ 3) * T = T := fun T => by norm_num
  have b1 : binC 1 = 1 / 2 := by simp [binC]
  have b2 : binC 2 = 3 / 8 := by simp [binC]; norm_num
  have hL := lanc_lancY (lam := 1 / 2) (by norm_num) 1
  have hK : 2 * lancT (1 / 2) 1 (lancY (1 / 2) 1) 0 = 7 / 6 := by
    rw [← serK_eq hL one_pos (by norm_num), serK, one_pow, sub_self, ps_zero, serC_half, binC]
    norm_num
  have htl : tlamb 0 (1 / 2) (1 - (1 / 2) ^ 2) 1 2 = .ok (7 / 6, -2 * (31 / 80),
      2 * (2 * (2 * (3 / 14 * (127 / 128))) - 31 / 80), 0) := by
    unfold tlamb
    rw [if_neg (by norm_num), if_neg (by norm_num), tlambSeries_eq hL one_pos (by norm_num), hK]
    have c1 : serC (1 / 2) 1 = 31 / 80 := by rw [serC_half, b1]; norm_num
    have c2 : serC (1 / 2) 2 = 3 / 14 * (127 / 128) := by rw [serC_half, b2]; norm_num
    rw [one_pow, sub_self, ps_zero, ps_zero, psD, psD, psD]
    norm_num
    norm_num at c1 c2
    rw [c1, c2]
    norm_num
  have hit : ∃ x, xlambIter 0 (1 / 2) (1 - (1 / 2) ^ 2) tof 1e-5 1e-7 1 1 1 1 1 = .ok (x, 1) ∧
      -1 < x ∧ x < 1 := by
    rw [xlambIter, htl, ok_bind]
    simp only [halleyStep]
    rw [show (2.0 : ℝ) = 2 by norm_num]
    set d2 : ℝ := 2 * (2 * (2 * (3 / 14 * (127 / 128))) - 31 / 80) with hd2
    have hd2v : 0.92 < d2 ∧ d2 < 0.93 := by rw [hd2]; constructor <;> norm_num
    set D : ℝ := -2 * (31 / 80) * (-2 * (31 / 80)) + (tof - 7 / 6) * d2 / 2 with hD
    have hDv : 0.6 < D ∧ D < 0.66 := by
      obtain ⟨a, b⟩ := hd2v
      rw [hD]
      constructor <;> norm_num at * <;> nlinarith
    have hs : -1 < (tof - 7 / 6) * (-2 * (31 / 80)) / D ∧ (tof - 7 / 6) * (-2 * (31 / 80)) / D < -0.05 := by
      constructor
      · rw [lt_div_iff₀ (by norm_num at hDv ⊢; linarith)]
        norm_num at *
        linarith
      · rw [div_lt_iff₀ (by norm_num at hDv ⊢; linarith)]
        norm_num at *
        linarith
    rw [if_pos (by norm_num), pdiv_eq (show D ≠ 0 by norm_num at hDv ⊢; linarith), ok_bind, ok_bind]
    simp only []
    rw [pdiv_eq one_ne_zero, ok_bind, if_neg]
    · refine ⟨_, rfl, ?_, ?_⟩ <;> norm_num at hs ⊢ <;> linarith
    · rintro ⟨hc, -⟩
      rw [add_sub_cancel_left] at hc
      have := abs_le.1 hc
      norm_num at this hs
      linarith
  obtain ⟨x, hx, hx1, hx2⟩ := hit
  obtain ⟨s, q, hS, hG, hqs, heq⟩ := gooding_eq (mu := 64) (M := 0) true low 0 1e-5 1e-7 clock false hna (by norm_num) htof
  obtain ⟨rfl, rfl⟩ := witness_geo hS hqs
  obtain ⟨s', q', hS', hG', hqs', heq'⟩ := gooding_eq (mu := 64) (M := 0) true low 1 1e-5 1e-7 clock false hna (by norm_num) htof
  obtain ⟨rfl, rfl⟩ := witness_geo hS' hqs'
  rw [hsq, Nat.cast_zero] at heq heq'
  rw [xlamb, if_pos rfl, hst, ok_bind, finish, xlambIter, ok_bind] at heq
  rw [xlamb, if_pos rfl, hst, ok_bind, finish, hx, ok_bind] at heq'
  simp only [] at heq heq'
  rw [if_neg (by simp), ok_bind, ok_bind] at heq heq'
  obtain ⟨T, hpath, hT⟩ := hL.path (μ := 64) (s := 8) (by norm_num) (by norm_num) (M := 0) (by norm_num) (Or.inl rfl)
  obtain ⟨T', hpath', hT'⟩ := (lanc_lancY (lam := 1 / 2) (by norm_num) x).path (μ := 64) (s := 8) (by norm_num) (by norm_num)
    (M := 0) hx1 (Or.inl rfl)
  have hsum := hS.sum
  rw [← hsum] at hpath hpath'
  have ha := hpath.arc (by norm_num) hG
  have ha' := hpath'.arc (by norm_num) hG
  refine ⟨tof, htof, _, _, heq, heq', fun hv => ?_⟩
  rw [mkOutput_v1, mkOutput_v1] at hv
  simp only [selectRoot] at hv
  rw [if_neg (by norm_num), if_neg (by norm_num)] at hv
  have hTT : T = T' := arc_time_unique (by norm_num) hna ha (by rw [hv]; exact ha')
  have h := lancT_strictAnti (lam := 1 / 2) (by norm_num) (by norm_num) (show x ∈ Set.Ioi (-1) from hx1)
    (show (1 : ℝ) ∈ Set.Ioi (-1) by norm_num) hx2
  simp only [← hT, ← hT', hTT] at h
  exact lt_irrefl _ h

end Lamberthub
