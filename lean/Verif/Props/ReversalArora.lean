import Verif.Props.Reversal
import Verif.Props.AroraMore

/-!
# Reversal of the motion in `arora2013` (property C59)

`arora.py` measures lengths in units of the first distance and times in units of the period factor of that
distance, l.94-101.  The absolute tolerance is compared with times in these units, so that reversing the motion
changes its meaning: the runs correspond when it is converted.
-/

set_option autoImplicit false

namespace Lamberthub
open Arora

namespace Arora

/-- Two times in different units. -/
abbrev Sc (c : ℝ) (x y : ℝ) : Prop := y = c * x

section
variable {c : ℝ} (hc : 0 < c)
include hc

theorem getTOF_sc (k tau S W : ℝ) : Agree (Sc c) (getTOF k tau S W) (getTOF k tau (c * S) W) := by
  unfold getTOF
  exact .same fun q _ => .ok (by simp only [Sc]; ring)

theorem tofLimit_sc (S tau n a : ℝ) : Agree (Sc c) (tofLimit S tau n a) (tofLimit (c * S) tau n a) := by
  unfold tofLimit
  exact .same fun q _ => .ok (by simp only [Sc]; ring)

theorem getX_sc (F0 F1 Fi Fs Z : ℝ) (n : ℕ) : getX (c * F0) (c * F1) (c * Fi) (c * Fs) Z n = getX F0 F1 Fi Fs Z n := by
  unfold getX
  rw [show Z * (c * F0 - c * Fs) * (c * F1 - c * Fi) = c ^ 2 * (Z * (F0 - Fs) * (F1 - Fi)) by ring,
    show (c * Fi - c * Fs) * (c * F1 - c * F0) * Z + (c * F0 - c * Fi) * (c * F1 - c * Fs) =
      c ^ 2 * ((Fi - Fs) * (F1 - F0) * Z + (F0 - Fi) * (F1 - Fs)) by ring, pdiv_scale (by positivity)]

theorem guessH_sc (tof tofP tau S : ℝ) (M : ℤ) :
    guessH (c * tof) (c * tofP) tau (c * S) M = guessH tof tofP tau S M := by
  refine Agree.eq ?_
  unfold guessH
  refine .same fun km _ => .same fun Z _ => .same fun W _ => (getTOF_sc hc _ _ _ _).bind fun Fi _ _ _ h => ?_
  obtain rfl := h
  have e : getX (c * tofP) 0.0 (c * Fi) (c * tof) Z 2 = getX tofP 0.0 Fi tof Z 2 := by
    have := getX_sc hc tofP 0.0 Fi tof Z 2
    rwa [show c * (0.0 : ℝ) = 0.0 by norm_num] at this
  rw [e]
  exact .refl fun _ _ => rfl

theorem guessH1_sc (tof tofP tof20 tau S : ℝ) (M : ℤ) :
    guessH1 (c * tof) (c * tofP) (c * tof20) tau (c * S) M = guessH1 tof tofP tof20 tau S M := by
  refine Agree.eq ?_
  unfold guessH1
  refine .same fun W _ => (getTOF_sc hc _ _ _ _).bind fun Fi _ _ _ h => ?_
  obtain rfl := h
  rw [getX_sc hc]
  exact .refl fun _ _ => rfl

theorem guessH2_sc (tof tof20 tof100 : ℝ) : guessH2 (c * tof) (c * tof20) (c * tof100) = guessH2 tof tof20 tof100 := by
  unfold guessH2
  rw [show c * tof100 * (c * tof20 - c * tof) * 10 - c * tof20 * Real.sqrt 20 * (c * tof100 - c * tof) =
    c ^ 2 * (tof100 * (tof20 - tof) * 10 - tof20 * Real.sqrt 20 * (tof100 - tof)) by ring,
    show c * tof * (c * tof20 - c * tof100) = c ^ 2 * (tof * (tof20 - tof100)) by ring, pdiv_scale (by positivity)]

theorem guessHyperbolic_sc (tof tofP tau S d : ℝ) (M : ℤ) :
    guessHyperbolic (c * tof) (c * tofP) tau (c * S) d M = guessHyperbolic tof tofP tau S d M := by
  refine Agree.eq ?_
  unfold guessHyperbolic
  split_ifs with hd
  · refine (tofLimit_sc hc _ _ _ _).bind fun t20 _ _ _ h => ?_
    obtain rfl := h
    refine (tofLimit_sc hc _ _ _ _).bind fun t100 _ _ _ h => ?_
    obtain rfl := h
    simp only [gt_iff_lt, mul_lt_mul_iff_right₀ hc, guessH1_sc hc, guessH2_sc hc]
    exact .refl fun _ _ => rfl
  · rw [guessH_sc hc]
    exact .refl fun _ _ => rfl

theorem guessRational_sc (c1 c2 c3 c4 alpha tofN tofI tof : ℝ) :
    guessRational c1 c2 c3 c4 alpha (c * tofN) (c * tofI) (c * tof) = guessRational c1 c2 c3 c4 alpha tofN tofI tof := by
  refine Agree.eq ?_
  unfold guessRational
  refine (agree_pdiv (c := 1) hc.ne' (by ring) rfl).bind fun Fn _ _ _ h => ?_
  subst h
  refine (agree_pdiv (c := 1) hc.ne' (by ring) rfl).bind fun Fi _ _ _ h => ?_
  subst h
  refine (agree_pdiv (c := 1) hc.ne' (by ring) rfl).bind fun Fs _ _ _ h => ?_
  subst h
  simp only [getGammas]
  generalize hi : 1 / c = i
  have hi0 : i ≠ 0 := by rw [← hi]; positivity
  rw [show (i * Fi * (i * Fs - i * Fn) * c1 - c3 * (i * Fn * (i * Fs - i * Fi))) * c2 +
      c3 * c1 * (i * Fs * (i * Fn - i * Fi)) =
      i ^ 2 * ((Fi * (Fs - Fn) * c1 - c3 * (Fn * (Fs - Fi))) * c2 + c3 * c1 * (Fs * (Fn - Fi))) by ring,
    show i * Fn * (i * Fs - i * Fi) * c1 - c3 * (i * Fi * (i * Fs - i * Fn)) - i * Fs * (i * Fn - i * Fi) * c2 =
      i ^ 2 * (Fn * (Fs - Fi) * c1 - c3 * (Fi * (Fs - Fn)) - Fs * (Fn - Fi) * c2) by ring,
    pdiv_scale (by positivity)]
  exact .refl fun _ _ => rfl

theorem guessElliptic_sc (tof tofP tau S : ℝ) :
    guessElliptic (c * tof) (c * tofP) tau (c * S) = guessElliptic tof tofP tau S := by
  refine Agree.eq ?_
  unfold guessElliptic
  refine .same fun kSq _ => ?_
  refine (getTOF_sc hc _ _ _ _).bind fun a1 _ _ _ h => ?_
  obtain rfl := h
  refine (getTOF_sc hc _ _ _ _).bind fun a2 _ _ _ h => ?_
  obtain rfl := h
  refine (getTOF_sc hc _ _ _ _).bind fun a3 _ _ _ h => ?_
  obtain rfl := h
  refine (getTOF_sc hc _ _ _ _).bind fun a4 _ _ _ h => ?_
  obtain rfl := h
  refine (getTOF_sc hc _ _ _ _).bind fun a5 _ _ _ h => ?_
  obtain rfl := h
  refine (getTOF_sc hc _ _ _ _).bind fun a6 _ _ _ h => ?_
  obtain rfl := h
  simp only [mul_le_mul_iff_right₀ hc, getX_sc hc, guessRational_sc hc]
  exact .refl fun _ _ => rfl

theorem tofPrime_sc (tofc cc S tau W Wp : ℝ) :
    Agree (Sc c) (tofPrime tofc cc S tau W Wp) (tofPrime (c * tofc) cc (c * S) tau W Wp) := by
  unfold tofPrime
  refine (agree_pdiv (c := c) (d := 1) one_ne_zero (by ring) (by ring)).bind fun a _ _ _ h => ?_
  subst h
  exact .same fun q _ => .ok (by simp only [Sc]; ring)

theorem tofSecond_sc (tofc cc S tau W Wp Wpp : ℝ) :
    Agree (Sc c) (tofSecond tofc cc S tau W Wp Wpp) (tofSecond (c * tofc) cc (c * S) tau W Wp Wpp) := by
  unfold tofSecond
  refine (agree_pdiv (c := c) (d := 1) one_ne_zero (by ring) (by ring)).bind fun a _ _ _ h => ?_
  subst h
  exact .same fun q _ => .same fun w _ => .ok (by simp only [Sc]; ring)

theorem boundK_sc (k tof tofP tau d : ℝ) : boundK k (c * tof) (c * tofP) tau d = boundK k tof tofP tau d := by
  unfold boundK
  simp only [gt_iff_lt, mul_lt_mul_iff_right₀ hc]

/-- The iteration does not depend on the unit of time. -/
theorem iterate_sc (tof tofP tau S d : ℝ) (M : ℤ) (atol : ℝ) (m n : ℕ) (k : ℝ) :
    iterate (c * tof) (c * tofP) tau (c * S) d M (c * atol) m n k = iterate tof tofP tau S d M atol m n k := by
  induction m generalizing n k with
  | zero => rfl
  | succ m ih =>
    refine Agree.eq ?_
    unfold iterate
    refine .same fun W _ => .same fun Wp _ => .same fun Wpp _ => .same fun cc _ =>
      (getTOF_sc hc _ _ _ _).bind fun tofc _ _ _ h => ?_
    obtain rfl := h
    have e : |c * tof - c * tofc| ≤ c * atol ↔ |tof - tofc| ≤ atol := by
      rw [← mul_sub, abs_mul, abs_of_pos hc, mul_le_mul_iff_right₀ hc]
    by_cases h : |tof - tofc| ≤ atol
    · rw [if_pos h, if_pos (e.2 h)]; exact .ok rfl
    rw [if_neg h, if_neg fun q => h (e.1 q)]
    refine (tofPrime_sc hc _ _ _ _ _ _).bind fun tp _ _ _ h => ?_
    obtain rfl := h
    refine (tofSecond_sc hc _ _ _ _ _ _ _).bind fun tpp _ _ _ h => ?_
    obtain rfl := h
    refine (agree_pdiv (c := c ^ 2) (d := c) hc.ne' (by ring) (mul_left_comm _ _ _)).bind fun e' _ _ _ h => ?_
    subst h
    refine (agree_pdiv (c := c) (d := c) hc.ne' (by ring) (by field_simp)).bind fun dk _ _ _ h => ?_
    subst h
    rw [div_self hc.ne', one_mul, boundK_sc hc]
    refine .same fun k' _ => ?_
    rw [ih]
    exact .refl fun _ _ => rfl

/-- The first guess of a zero-revolution problem does not depend on the unit of time. -/
theorem initialGuess_sc (mz : Minimizer) (b : Brent) (tof tofP tau S d : ℝ) (low : Bool) (atol atol' rtol : ℝ) :
    initialGuess mz b (c * tof) (c * tofP) tau (c * S) d 0 low atol' rtol =
      initialGuess mz b tof tofP tau S d 0 low atol rtol := by
  unfold initialGuess
  simp only [mul_le_mul_iff_right₀ hc, guessHyperbolic_sc hc, guessElliptic_sc hc, if_true]

end

/-- The velocities of the two problems, with `q = |r1|/|r2|` and `c = q^(3/2)`. -/
theorem reconstruct_reversed {q c : ℝ} (hq : 0 < q) (hc : 0 < c) (k tau S m L T : ℝ) (u1 u2 : V3) (n1 n2 : ℝ)
    (hn1 : n1 ≠ 0) (hn2 : n2 ≠ 0) (hT : T ≠ 0) :
    Agree (fun x y => y = (-x.2, -x.1)) (reconstruct k tau S m L T u1 u2 n1 n2)
      (reconstruct k tau (c * S) m (L / q) (T / c) (q • u2) (q • u1) (q * n2) (q * n1)) := by
  unfold reconstruct
  rw [show q * n2 + q * n1 = q * (n1 + n2) by ring,
    show (1 - k * tau) * (q * (n1 + n2)) = q * ((1 - k * tau) * (n1 + n2)) by ring, pdiv_scale hq.ne', pdiv_scale hq.ne',
    pdiv_eq hn1, pdiv_eq hn2]
  simp only [ok_bind]
  refine .same fun r _ => ?_
  rw [pdiv_eq hT, pdiv_eq (show T / c ≠ 0 by positivity)]
  simp only [ok_bind]
  by_cases hg : S * tau * r = 0
  · have hg' : c * S * tau * r = 0 := by rw [show c * S * tau * r = c * (S * tau * r) by ring, hg, mul_zero]
    refine .inl ⟨.undefined, ?_, ?_⟩ <;> simp [vdiv, hg, hg']
  have hg' : c * S * tau * r ≠ 0 := by rw [show c * S * tau * r = c * (S * tau * r) by ring]; positivity
  rw [vdiv_eq hg, vdiv_eq hg', vdiv_eq hg, vdiv_eq hg']
  simp only [ok_bind]
  refine .ok ?_
  have hS : S ≠ 0 := fun h => hg (by rw [h]; ring)
  have ht : tau ≠ 0 := fun h => hg (by rw [h]; ring)
  have hr : r ≠ 0 := fun h => hg (by rw [h]; ring)
  refine Prod.ext ?_ ?_
  · ext <;> simp <;> field_simp <;> ring
  · ext <;> simp <;> field_simp <;> ring

end Arora

/-- **C59 (partial)**, `arora2013` without revolutions: the reversed problem, with the absolute tolerance
converted from the units of the first distance to those of the second, stops with the same error or returns the
reversed velocities after the same number of iterations.

Missing: with the same number `atol` on both sides the property is false, without revolutions
(`arora_not_reversible`) and with them (`arora_revolutions_not_reversible`); with revolutions the search of the
fastest transfer mixes `atol` with fixed constants. -/
theorem arora_reversal_partial {r1 r2 : V3} (h1 : r1 ≠ 0) (h2 : r2 ≠ 0) (mz : Minimizer) (b : Brent) (mu tof : ℝ)
    (pro low : Bool) (N : ℕ) (atol rtol : ℝ) (full : Bool) (clock : ℝ) :
    arora2013 mz b mu r2 r1 tof 0 (!pro) low N (Real.sqrt ((V3.norm r1 / V3.norm r2) ^ 3) * atol) rtol full clock =
      (arora2013 mz b mu r1 r2 tof 0 pro low N atol rtol full clock).map Output.reversed := by
  refine Agree.map ?_
  have n1 := norm_pos_iff.2 h1
  have n2 := norm_pos_iff.2 h2
  obtain ⟨q, hq⟩ : ∃ q, q = V3.norm r1 / V3.norm r2 := ⟨_, rfl⟩
  obtain ⟨c, hcd⟩ : ∃ c, c = Real.sqrt (q ^ 3) := ⟨_, rfl⟩
  have hq0 : 0 < q := by rw [hq]; positivity
  have hc : 0 < c := by rw [hcd]; positivity
  have hc2 : c ^ 2 = q ^ 3 := by rw [hcd, Real.sq_sqrt (by positivity)]
  rw [← hq, ← hcd]
  unfold arora2013
  rw [assert_reversed h1 h2, transferAngle_reversed]
  simp only []
  refine .same fun _ ha => ?_
  obtain ⟨hmu, -⟩ := assertParameters_ok ha
  rw [vdiv_eq n1.ne', vdiv_eq n2.ne', vdiv_eq n2.ne', vdiv_eq n1.ne']
  simp only [ok_bind]
  refine .same fun θ _ => .same fun _ _ => ?_
  have hT1 : 0 < V3.norm r1 ^ 3 / mu := by positivity
  have hT2 : 0 < V3.norm r2 ^ 3 / mu := by positivity
  rw [pdiv_eq hmu.ne', ok_bind, psqrt_eq hT1.le, ok_bind, pdiv_eq hmu.ne', ok_bind, psqrt_eq hT2.le, ok_bind]
  have eT : Real.sqrt (V3.norm r2 ^ 3 / mu) = Real.sqrt (V3.norm r1 ^ 3 / mu) / c := by
    rw [eq_div_iff hc.ne', hcd, ← Real.sqrt_mul hT2.le, hq]
    congr 1; field_simp
  have eL : V3.norm r2 = V3.norm r1 / q := by rw [hq]; field_simp
  have eu1 : (V3.norm r2)⁻¹ • r2 = q • ((V3.norm r1)⁻¹ • r2) := by
    rw [smul_smul', eL]; congr 1; field_simp
  have eu2 : (V3.norm r2)⁻¹ • r1 = q • ((V3.norm r1)⁻¹ • r1) := by
    rw [smul_smul', eL]; congr 1; field_simp
  rw [eT, eu1, eu2]
  have hT0 := Real.sqrt_pos.2 hT1
  have hTs : Real.sqrt (V3.norm r1 ^ 3 / mu) ^ 2 = V3.norm r1 ^ 3 / mu := Real.sq_sqrt hT1.le
  generalize Real.sqrt (V3.norm r1 ^ 3 / mu) = T at *
  rw [pdiv_eq hT0.ne', ok_bind, pdiv_eq (by positivity), ok_bind, pdiv_eq (by positivity), ok_bind,
    pdiv_eq (by positivity), ok_bind, pdiv_eq (by positivity), ok_bind, pdiv_eq (by positivity), ok_bind]
  have em : mu * (T ^ 2 / V3.norm r1 ^ 3) = 1 := by rw [hTs]; field_simp
  have em' : mu * ((T / c) ^ 2 / V3.norm r2 ^ 3) = 1 := by
    rw [div_pow, hTs, hc2, eL]; field_simp
  have et : tof / (T / c) = c * (tof / T) := by field_simp
  have m1 : 0 < V3.norm ((V3.norm r1)⁻¹ • r1) := by
    rw [norm_scale (by positivity), inv_mul_cancel₀ n1.ne']; exact one_pos
  have m2 : 0 < V3.norm ((V3.norm r1)⁻¹ • r2) := by
    rw [norm_scale (by positivity)]; positivity
  rw [em, em', et, norm_scale hq0.le, norm_scale hq0.le]
  simp only [eL]
  generalize (V3.norm r1)⁻¹ • r1 = u1 at *
  generalize (V3.norm r1)⁻¹ • r2 = u2 at *
  generalize V3.norm u1 = a1 at *
  generalize V3.norm u2 = a2 at *
  refine (agree_psqrt (c := c) hc (by rw [hc2]; ring)).bind fun S _ _ _ h => ?_
  subst h
  refine (agree_psqrt (c := q) hq0 (by ring)).bind fun rt _ _ _ h => ?_
  subst h
  rw [show (if θ ≤ Real.pi then (1 : ℝ) else -1) * (q * rt) = q * ((if θ ≤ Real.pi then (1 : ℝ) else -1) * rt) by ring,
    show q * a2 + q * a1 = q * (a1 + a2) by ring, pdiv_scale hq0.ne']
  refine .same fun tau _ => .same fun rp _ => ?_
  rw [show c * S * rp * (tau + Real.sqrt 2) / 3 = c * (S * rp * (tau + Real.sqrt 2) / 3) by ring,
    initialGuess_sc hc mz b _ _ _ _ _ _ atol]
  refine .same fun k0 _ => ?_
  rw [iterate_sc hc]
  refine .same fun ⟨k, n⟩ _ => .same fun tpi _ => ?_
  exact Agree.reversed full (reconstruct_reversed hq0 hc k tau S 1 (V3.norm r1) T u1 u2 a1 a2 m1.ne' m2.ne' hT0.ne')

open Spec in
/-- A hyperbolic transfer solved in both directions. -/
example (mz : Minimizer) (b : Brent) : ∃ tof out, 0 < tof ∧
    arora2013 mz b 1 ⟨1, 0, 0⟩ ⟨0, 2, 0⟩ tof 0 true true 35 1e-5 1e-7 true 2 = .ok out ∧
    arora2013 mz b 1 ⟨0, 2, 0⟩ ⟨1, 0, 0⟩ tof 0 false true 35
      (Real.sqrt ((V3.norm ⟨1, 0, 0⟩ / V3.norm ⟨0, 2, 0⟩) ^ 3) * 1e-5) 1e-7 true 2 = .ok out.reversed := by
  obtain ⟨tof, out, ht, -, ho, -⟩ := arora_returns_hyperbolic mz b (mu := 1) one_pos (r1 := ⟨1, 0, 0⟩) (r2 := ⟨0, 2, 0⟩)
    (by simp [NotAligned]) (pro := true) (by simp [ShortWay, crossZ]) (by simp [V3.dot]) 0 true 34 (atol := 1e-5) (by norm_num)
    1e-7 true 2
  refine ⟨tof, out, ht, by exact_mod_cast ho, ?_⟩
  have := arora_reversal_partial (r1 := ⟨1, 0, 0⟩) (r2 := ⟨0, 2, 0⟩) (by simp [V3.ext_iff]) (by simp [V3.ext_iff]) mz b 1 tof
    true true 35 1e-5 1e-7 true 2
  rw [show arora2013 mz b 1 ⟨1, 0, 0⟩ ⟨0, 2, 0⟩ tof 0 true true 35 1e-5 1e-7 true 2 = .ok out by exact_mod_cast ho] at this
  exact this

end Lamberthub
