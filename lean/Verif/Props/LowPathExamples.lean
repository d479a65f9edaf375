import Verif.Props.DelatorreMulti
import Verif.Props.LowPathMore

/-!
# C41: cases that meet the hypotheses of the path theorems
-/

set_option autoImplicit false

namespace Lamberthub
open Spec LC Set

/-! ## McElreath -/

/-- The hypotheses of `mcelreath_low_path`: one revolution, a quarter turn and `m = 0`; the two
guesses exist. -/
example : ∃ tof tofMin xMin xShort xLong,
    McElreath.multiRevolutionInitialGuesses tof tofMin xMin 2 0 (Real.pi / 2) (1 : ℕ) = .ok (xShort, xLong) ∧
      2 * Real.pi * (1 : ℕ) < xMin ∧ xMin < 2 * Real.pi * ((1 : ℕ) + 1) := by
  have hpi := Real.pi_pos
  obtain ⟨xt, hxt⟩ : ∃ xt, xt = Real.pi / 2 + 2 * Real.pi * (1 : ℕ) := ⟨_, rfl⟩
  have hcos : Real.cos xt ≠ 1 := by
    rw [hxt, Nat.cast_one, mul_one, Real.cos_add_two_pi, Real.cos_pi_div_two]; norm_num
  obtain ⟨t, ht⟩ : ∃ t : ℝ, McElreath.tofEquation (xt : ℂ) (2 : ℝ) (0 : ℝ) = .ok (t : ℂ) :=
    ⟨_, McElreath.tofEquation_real (P := 2) (m := 0) (by norm_num) hcos⟩
  obtain ⟨tofMin, hmn⟩ : ∃ a : ℝ, a = t - 1 := ⟨_, rfl⟩
  obtain ⟨xm, hxm⟩ : ∃ a : ℝ, a = 3 * Real.pi := ⟨_, rfl⟩
  refine ⟨tofMin + 1, tofMin, xm, ?_⟩
  unfold McElreath.multiRevolutionInitialGuesses
  simp only []
  have e1 : ((Real.pi / 2 : ℝ) : ℝ) + 2 * Real.pi * (1 : ℕ) = xt := hxt.symm
  rw [e1, ht, ok_bind, Complex.ofReal_re, show t - tofMin = 1 by linarith, abs_one, one_mul]
  have hden : 0 < (2 * Real.pi * (1 : ℕ) - xt) ^ 2 * (2 * Real.pi * (1 : ℕ) + 2 * Real.pi - xt) ^ 2 := by
    have a : 2 * Real.pi * ((1 : ℕ) : ℝ) - xt ≠ 0 := by rw [hxt]; push_cast; intro h; linarith
    have b : 2 * Real.pi * ((1 : ℕ) : ℝ) + 2 * Real.pi - xt ≠ 0 := by rw [hxt]; push_cast; intro h; linarith
    positivity
  have hnum : 0 < (xm - xt) ^ 2 := by
    have a : xm - xt ≠ 0 := by rw [hxt, hxm]; push_cast; intro h; linarith
    positivity
  have hq := div_pos hnum hden
  rw [pdiv_eq hden.ne', ok_bind, show tofMin + 1 - tofMin = 1 by ring, one_mul, psqrt_eq hq.le, ok_bind]
  have hg := Real.sqrt_pos.2 hq
  generalize Real.sqrt _ = g at *
  have hp : 0 < (xm - 2 * Real.pi) * (4 * Real.pi - xm) := by rw [hxm]; exact mul_pos (by linarith) (by linarith)
  have hp2 : 0 < 4 * g * (g * ((xm - 2 * Real.pi) * (4 * Real.pi - xm))) := by positivity
  rw [psqrt_eq, ok_bind, pdiv_eq (by simp [hg.ne']), ok_bind, psqrt_eq, ok_bind, pdiv_eq (by simp [hg.ne']), ok_bind]
  · refine ⟨_, _, rfl, ?_, ?_⟩ <;> rw [hxm] <;> push_cast <;> linarith
  · have : (2 * Real.pi * ((1 : ℕ) + ((1 : ℕ) + 1)) * -g + 1) ^ 2 + 4 * -g * (-(2 * Real.pi) ^ 2 * (1 : ℕ) * ((1 : ℕ) + 1) * -g - xm) =
        (2 * g * xm - g * (6 * Real.pi) + 1) ^ 2 + 4 * g * (g * ((xm - 2 * Real.pi) * (4 * Real.pi - xm))) := by
      push_cast; ring
    rw [this]; positivity
  · have : (-(2 * Real.pi) * ((1 : ℕ) + ((1 : ℕ) + 1)) * -g + 1) ^ 2 - 4 * -g * ((2 * Real.pi) ^ 2 * (1 : ℕ) * ((1 : ℕ) + 1) * -g - xm) =
        (g * (6 * Real.pi) + 1 - 2 * g * xm) ^ 2 + 4 * g * (g * ((xm - 2 * Real.pi) * (4 * Real.pi - xm))) := by
      push_cast; ring
    rw [this]; positivity

/-! ## Arora -/

namespace Arora

/-- The closed form of the time with `M` revolutions. -/
theorem tofAt_ell {tau S k : ℝ} {M : ℕ} (hM : 1 ≤ M) (h1 : -Real.sqrt 2 < k) (h2 : k < Real.sqrt 2) (hq : 0 ≤ 1 - k * tau) :
    tofAt tau S M k = .ok (S * Real.sqrt (1 - k * tau) * (tau + (1 - k * tau) * ellW k 0) +
      M * (2 * Real.pi * S * (Real.sqrt (1 - k * tau) * (1 - k * tau) / Real.sqrt (2 - k ^ 2) ^ 3))) := by
  unfold tofAt getTOF
  rw [getW_ell h1 h2 (.inr hM), ok_bind, psqrt_eq hq, ok_bind]
  congr 1
  unfold ellW
  push_cast
  ring

/-- Far from the middle of the range a revolution takes longer than in the middle. -/
theorem slope_pos {tau k : ℝ} (hk : 2 * tau * k < k ^ 2) (hk2 : k ^ 2 < 2) :
    1 / Real.sqrt 2 ^ 3 < Real.sqrt (1 - k * tau) * (1 - k * tau) / Real.sqrt (2 - k ^ 2) ^ 3 := by
  have h0 : 0 < 2 - k ^ 2 := by linarith
  have h1 : (2 - k ^ 2) / 2 < 1 - k * tau := by linarith
  have h2 : 0 < 1 - k * tau := by linarith
  have hs2 : Real.sqrt 2 ^ 2 = 2 := Real.sq_sqrt (by norm_num)
  have hsp : 0 < Real.sqrt 2 := by positivity
  have hr := Real.sqrt_pos.2 h0
  have hrr : Real.sqrt (2 - k ^ 2) ^ 2 = 2 - k ^ 2 := Real.sq_sqrt h0.le
  have hu := Real.sqrt_pos.2 h2
  have huu : Real.sqrt (1 - k * tau) ^ 2 = 1 - k * tau := Real.sq_sqrt h2.le
  rw [div_lt_div_iff₀ (by positivity) (by positivity), one_mul]
  have e : Real.sqrt (1 - k * tau) * (1 - k * tau) * Real.sqrt 2 ^ 3 = (Real.sqrt (1 - k * tau) * Real.sqrt 2) ^ 3 := by
    conv_lhs => rw [← huu]
    rw [Real.sqrt_sq hu.le]; ring
  rw [e]
  refine pow_lt_pow_left₀ ?_ hr.le (by norm_num)
  rw [← Real.sqrt_mul h2.le]
  exact Real.sqrt_lt_sqrt h0.le (by linarith)

/-- A minimiser within the contract that always answers the middle of the interval. -/
noncomputable def midMinimizer : Minimizer := fun f lo hi _ => do
  let v ← f ((lo + hi) / 2)
  .ok ((lo + hi) / 2, v, true)

theorem midMinimizer_spec : MinimizerSpec midMinimizer := by
  intro f lo hi xatol x fx ok h hm
  unfold midMinimizer at hm
  simp only [bind_ok] at hm
  obtain ⟨v, -, hm⟩ := hm
  obtain ⟨rfl, -⟩ := Prod.mk.inj (Except.ok.inj hm)
  constructor <;> linarith

theorem midMinimizer_value {f : ℝ → Py ℝ} {lo hi xatol x fx : ℝ} {ok : Bool} (hm : midMinimizer f lo hi xatol = .ok (x, fx, ok)) :
    f x = .ok fx := by
  unfold midMinimizer at hm
  simp only [bind_ok] at hm
  obtain ⟨v, hv, hm⟩ := hm
  obtain ⟨rfl, h⟩ := Prod.mk.inj (Except.ok.inj hm)
  obtain ⟨rfl, -⟩ := Prod.mk.inj h
  exact hv

end Arora
open Arora

/-- The hypotheses of `arora_low_path`: with `mu = s = 1`, `lam = 1/2` and many revolutions both
paths have a guess away from the point of the minimiser. -/
example : ∃ (M : ℕ) (tof tofMin : ℝ), 1 ≤ M ∧ 1 / 2 < tof - tofMin ∧
    midMinimizer (tofAt (Real.sqrt 2 * 1 * (1 / 2) / (1 * (1 + (1 / 2) ^ 2))) (Real.sqrt ((1 * (1 + (1 / 2) ^ 2)) ^ 3 / 1)) M)
      (-Real.sqrt 2 + 1e-8) (Real.sqrt 2 - 1e-8) (max (1 / 2) 1e-13) = .ok (0, tofMin, true) ∧
    ∀ low, ∃ k, getMultirevKGuess midMinimizer exactBrent tof (Real.sqrt 2 * 1 * (1 / 2) / (1 * (1 + (1 / 2) ^ 2)))
      (Real.sqrt ((1 * (1 + (1 / 2) ^ 2)) ^ 3 / 1)) M low (1 / 2) 0 = .ok k := by
  obtain ⟨tau, htau⟩ : ∃ t, t = Real.sqrt 2 * 1 * (1 / 2) / (1 * (1 + (1 / 2) ^ 2)) := ⟨_, rfl⟩
  obtain ⟨S, hS⟩ : ∃ t, t = Real.sqrt ((1 * (1 + (1 / 2) ^ 2)) ^ 3 / 1) := ⟨_, rfl⟩
  rw [← htau, ← hS]
  have hS0 : 0 < S := by rw [hS]; positivity
  have hpi := Real.pi_pos
  have hr2 : Real.sqrt 2 ^ 2 = 2 := Real.sq_sqrt (by norm_num)
  have hl2 : (1.4 : ℝ) < Real.sqrt 2 := Real.lt_sqrt_of_sq_lt (by norm_num)
  have hu2 : Real.sqrt 2 < 1.5 := by rw [Real.sqrt_lt' (by norm_num)]; norm_num
  have ht : tau = 2 / 5 * Real.sqrt 2 := by rw [htau]; ring
  norm_num at hl2 hu2
  obtain ⟨kR, hkR⟩ : ∃ t, t = Real.sqrt 2 - 1e-8 := ⟨_, rfl⟩
  have hkL : -Real.sqrt 2 + 1e-8 = -kR := by rw [hkR]; ring
  have hR1 : kR < Real.sqrt 2 := by rw [hkR]; norm_num
  have hR2 : 2 * tau < kR := by rw [hkR, ht]; norm_num; linarith
  have hR0 : 0 < kR := by rw [ht] at hR2; linarith
  have hq2 : kR ^ 2 < 2 := by rw [← hr2]; exact pow_lt_pow_left₀ hR1 hR0.le (by norm_num)
  have htau0 : 0 < tau := by rw [ht]; positivity
  have hpos : ∀ k ∈ Icc (-kR) kR, 0 ≤ 1 - k * tau := by
    intro k hk
    have : k * tau ≤ kR * tau := mul_le_mul_of_nonneg_right hk.2 htau0.le
    have : kR * tau ≤ kR * (kR / 2) := mul_le_mul_of_nonneg_left (by linarith) hR0.le
    nlinarith
  have hF : ∀ (M : ℕ), 1 ≤ M → ∀ k ∈ Icc (-kR) kR, tofAt tau S M k = .ok (S * Real.sqrt (1 - k * tau) * (tau + (1 - k * tau) * ellW k 0) +
      M * (2 * Real.pi * S * (Real.sqrt (1 - k * tau) * (1 - k * tau) / Real.sqrt (2 - k ^ 2) ^ 3))) := fun M hM k hk =>
    tofAt_ell hM (by linarith [hk.1]) (by linarith [hk.2]) (hpos k hk)
  have s1 := slope_pos (tau := tau) (k := kR) (by nlinarith) hq2
  have s2 := slope_pos (tau := tau) (k := -kR) (by nlinarith) (by rwa [neg_sq])
  obtain ⟨c1, hc1⟩ : ∃ c, c = S * Real.sqrt (1 - kR * tau) * (tau + (1 - kR * tau) * ellW kR 0) := ⟨_, rfl⟩
  obtain ⟨c2, hc2⟩ : ∃ c, c = S * Real.sqrt (1 - -kR * tau) * (tau + (1 - -kR * tau) * ellW (-kR) 0) := ⟨_, rfl⟩
  obtain ⟨c0, hc0⟩ : ∃ c, c = S * Real.sqrt (1 - 0 * tau) * (tau + (1 - 0 * tau) * ellW 0 0) := ⟨_, rfl⟩
  obtain ⟨b1, hb1⟩ : ∃ c, c = Real.sqrt (1 - kR * tau) * (1 - kR * tau) / Real.sqrt (2 - kR ^ 2) ^ 3 := ⟨_, rfl⟩
  obtain ⟨b2, hb2⟩ : ∃ c, c = Real.sqrt (1 - -kR * tau) * (1 - -kR * tau) / Real.sqrt (2 - (-kR) ^ 2) ^ 3 := ⟨_, rfl⟩
  rw [← hb1] at s1
  rw [← hb2] at s2
  obtain ⟨b0, hb0⟩ : ∃ c, c = 1 / Real.sqrt 2 ^ 3 := ⟨_, rfl⟩
  rw [← hb0] at s1 s2
  have hb0' : Real.sqrt (1 - 0 * tau) * (1 - 0 * tau) / Real.sqrt (2 - 0 ^ 2) ^ 3 = b0 := by rw [hb0]; simp
  have p1 : 0 < 2 * Real.pi * S * (b1 - b0) := by have := sub_pos.2 s1; positivity
  have p2 : 0 < 2 * Real.pi * S * (b2 - b0) := by have := sub_pos.2 s2; positivity
  obtain ⟨M1, hM1⟩ := exists_nat_ge ((c0 - c1 + 1) / (2 * Real.pi * S * (b1 - b0)))
  obtain ⟨M2, hM2⟩ := exists_nat_ge ((c0 - c2 + 1) / (2 * Real.pi * S * (b2 - b0)))
  obtain ⟨M, hM⟩ : ∃ M, M = M1 + M2 + 1 := ⟨_, rfl⟩
  have hMM : 1 ≤ M := by omega
  have g1 : c0 + 1 + M * (2 * Real.pi * S * b0) ≤ c1 + M * (2 * Real.pi * S * b1) := by
    rw [div_le_iff₀ p1] at hM1
    have : (M1 : ℝ) * (2 * Real.pi * S * (b1 - b0)) ≤ M * (2 * Real.pi * S * (b1 - b0)) :=
      mul_le_mul_of_nonneg_right (by exact_mod_cast (by omega : M1 ≤ M)) p1.le
    linarith
  have g2 : c0 + 1 + M * (2 * Real.pi * S * b0) ≤ c2 + M * (2 * Real.pi * S * b2) := by
    rw [div_le_iff₀ p2] at hM2
    have : (M2 : ℝ) * (2 * Real.pi * S * (b2 - b0)) ≤ M * (2 * Real.pi * S * (b2 - b0)) :=
      mul_le_mul_of_nonneg_right (by exact_mod_cast (by omega : M2 ≤ M)) p2.le
    linarith
  have F0 : tofAt tau S M 0 = .ok (c0 + M * (2 * Real.pi * S * b0)) := by
    rw [hF M hMM 0 ⟨by linarith, hR0.le⟩, ← hc0, hb0']
  have F1 : tofAt tau S M kR = .ok (c1 + M * (2 * Real.pi * S * b1)) := by
    rw [hF M hMM kR ⟨by linarith, le_rfl⟩, ← hc1, ← hb1]
  have F2 : tofAt tau S M (-kR) = .ok (c2 + M * (2 * Real.pi * S * b2)) := by
    rw [hF M hMM (-kR) ⟨le_rfl, by linarith⟩, ← hc2, ← hb2]
  have hmid : midMinimizer (tofAt tau S M) (-kR) kR (max (1 / 2) 1e-13) = .ok (0, c0 + M * (2 * Real.pi * S * b0), true) := by
    unfold midMinimizer
    rw [show (-kR + kR) / 2 = 0 by ring, F0, ok_bind]
  refine ⟨M, c0 + M * (2 * Real.pi * S * b0) + 1, c0 + M * (2 * Real.pi * S * b0), hMM, by norm_num, by rw [hkL, ← hkR, hmid], fun low => ?_⟩
  obtain ⟨tof, htf⟩ : ∃ t, t = c0 + M * (2 * Real.pi * S * b0) + 1 := ⟨_, rfl⟩
  rw [← htf]
  have hcont : ContinuousOn (fun k => S * Real.sqrt (1 - k * tau) * (tau + (1 - k * tau) * ellW k 0) +
      M * (2 * Real.pi * S * (Real.sqrt (1 - k * tau) * (1 - k * tau) / Real.sqrt (2 - k ^ 2) ^ 3)) - tof) (Icc (-kR) kR) := by
    intro k hk
    have n1 : 0 < 2 - k ^ 2 := by nlinarith [hk.1, hk.2]
    have n2 : Real.sqrt (2 - k ^ 2) ≠ 0 := (Real.sqrt_pos.2 n1).ne'
    apply ContinuousAt.continuousWithinAt
    unfold ellW
    have c1 : ContinuousAt (fun k : ℝ => Real.arccos (k / Real.sqrt 2)) k :=
      (Real.continuous_arccos.comp (continuous_id.div_const _)).continuousAt
    have c2 : ContinuousAt (fun k : ℝ => Real.sqrt (2 - k ^ 2)) k := by fun_prop
    have c3 : ContinuousAt (fun k : ℝ => 2 - k ^ 2) k := by fun_prop
    have c4 : ContinuousAt (fun k : ℝ => (2 * Real.arccos (k / Real.sqrt 2) + 2 * Real.pi * (0 : ℕ)) / Real.sqrt (2 - k ^ 2) ^ 3 -
        k / (2 - k ^ 2)) k :=
      (((continuousAt_const.mul c1).add continuousAt_const).div (c2.pow 3) (pow_ne_zero _ n2)).sub
        (continuousAt_id.div c3 n1.ne')
    have c5 : ContinuousAt (fun k : ℝ => Real.sqrt (1 - k * tau) * (1 - k * tau) / Real.sqrt (2 - k ^ 2) ^ 3) k :=
      ContinuousAt.div (by fun_prop) (c2.pow 3) (pow_ne_zero _ n2)
    fun_prop
  have hroot : ∀ {lo hi : ℝ}, lo ≤ hi → -kR ≤ lo → hi ≤ kR →
      (∃ a b, tofAt tau S M lo = .ok a ∧ tofAt tau S M hi = .ok b ∧ (a ≤ tof ∧ tof ≤ b ∨ b ≤ tof ∧ tof ≤ a)) →
      ∃ k, exactBrent (fun k => do
        let t ← tofAt tau S M k
        .ok (t - tof)) lo hi (1 / 2) 0 100 = .ok k := by
    intro lo hi hlh hlo hhi ⟨a, b, ha, hb, hab⟩
    have hsub : Icc lo hi ⊆ Icc (-kR) kR := Icc_subset_Icc hlo hhi
    have ea := Except.ok.inj (ha.symm.trans (hF M hMM lo (hsub ⟨le_rfl, hlh⟩)))
    have eb := Except.ok.inj (hb.symm.trans (hF M hMM hi (hsub ⟨hlh, le_rfl⟩)))
    unfold exactBrent
    rw [if_neg, dif_pos]
    · exact ⟨_, rfl⟩
    · refine ⟨?_, by norm_num, by norm_num, le_rfl⟩
      have hc := hcont.mono hsub
      have hz : (0 : ℝ) ∈ (fun k => S * Real.sqrt (1 - k * tau) * (tau + (1 - k * tau) * ellW k 0) +
          M * (2 * Real.pi * S * (Real.sqrt (1 - k * tau) * (1 - k * tau) / Real.sqrt (2 - k ^ 2) ^ 3)) - tof) '' Icc lo hi := by
        rcases hab with ⟨h1, h2⟩ | ⟨h1, h2⟩
        · exact intermediate_value_Icc hlh hc ⟨by rw [← ea]; linarith, by rw [← eb]; linarith⟩
        · exact intermediate_value_Icc' hlh hc ⟨by rw [← eb]; linarith, by rw [← ea]; linarith⟩
      obtain ⟨k, hk, h0⟩ := hz
      refine ⟨k, hk, ?_⟩
      beta_reduce
      rw [hF M hMM k (hsub hk), ok_bind]
      exact congrArg _ h0
    · rintro ⟨x, y, hx, hy, hxy⟩
      beta_reduce at hx hy
      rw [ha, ok_bind] at hx
      rw [hb, ok_bind] at hy
      obtain rfl := Except.ok.inj hx
      obtain rfl := Except.ok.inj hy
      rcases hab with ⟨h1, h2⟩ | ⟨h1, h2⟩
      · exact absurd hxy (not_lt.2 (mul_nonpos_of_nonpos_of_nonneg (by linarith) (by linarith)))
      · exact absurd hxy (not_lt.2 (mul_nonpos_of_nonneg_of_nonpos (by linarith) (by linarith)))
  unfold getMultirevKGuess
  simp only []
  rw [hkL, ← hkR, hmid, ok_bind]
  simp only []
  rw [raiseIf_neg _ (by simp), ok_bind, raiseIf_neg _ (by rw [htf]; linarith), ok_bind,
    if_neg (by rw [htf, add_sub_cancel_left]; norm_num)]
  cases low
  · obtain ⟨⟨k, n⟩, hk⟩ := hroot (lo := -kR) (hi := 0) (by linarith) le_rfl hR0.le
      ⟨_, _, F2, F0, .inr ⟨by rw [htf]; linarith, by rw [htf]; linarith⟩⟩
    refine ⟨k, ?_⟩
    simp only [Bool.false_eq_true, if_false]
    rw [hk, ok_bind]
  · obtain ⟨⟨k, n⟩, hk⟩ := hroot (lo := 0) (hi := kR) hR0.le (by linarith) le_rfl
      ⟨_, _, F0, F1, .inl ⟨by rw [htf]; linarith, by rw [htf]; linarith⟩⟩
    refine ⟨k, ?_⟩
    simp only [if_true]
    rw [hk, ok_bind]

/-! ## De la Torre -/

namespace Delatorre

/-- With a tolerance as large as the interval the search stops after one pass, away from the ends
of the interval. -/
theorem golden_one_pass {F : ℝ → Py ℝ} {g : ℝ → ℝ} {lo hi m : ℝ} (hF : Unimodal F g lo hi m) {atol : ℝ}
    (ha : hi - lo ≤ atol) {n : ℕ} {z t : ℝ} (h : goldenSearch F atol 0 lo hi (n + 1) = .ok (z, t)) :
    z = lo + gr * (hi - lo) / 2 ∨ z = hi - gr * (hi - lo) / 2 := by
  have hg := gr_mem
  have hlh : lo ≤ hi := hF.mem.1.trans hF.mem.2
  have hw : gr * (hi - lo) ≤ hi - lo := by nlinarith [hg.2]
  have hw0 : 0 ≤ gr * (hi - lo) := mul_nonneg hg.1.le (by linarith)
  unfold goldenSearch at h
  simp only [bind_ok] at h
  obtain ⟨t1, -, t2, -, s, hs, t', -, h⟩ := h
  obtain ⟨rfl, -⟩ := Prod.mk.inj (Except.ok.inj h)
  rw [goldenLoop, bind_ok] at hs
  obtain ⟨s', hst, hs⟩ := hs
  unfold goldenStep at hst
  split at hst
  · simp only [bind_ok] at hst
    obtain ⟨_, -, hst⟩ := hst
    obtain rfl := Except.ok.inj hst
    simp only [] at hs
    rw [if_pos (by rw [sub_sub_cancel, abs_of_nonneg hw0]; linarith)] at hs
    obtain rfl := Except.ok.inj hs
    right; simp only []; norm_num; ring
  · simp only [bind_ok] at hst
    obtain ⟨_, -, hst⟩ := hst
    obtain rfl := Except.ok.inj hst
    simp only [] at hs
    rw [if_pos (by rw [add_sub_cancel_left, abs_of_nonneg hw0]; linarith)] at hs
    obtain rfl := Except.ok.inj hs
    left; simp only []; norm_num; ring

end Delatorre
open Delatorre

set_option maxHeartbeats 1000000 in
/-- The hypotheses of `delatorre_low_path` and the last clause of `delatorre_multi_returns`: the
quarter turn of the unit circle with many revolutions; the time of flight exceeds the least time
of the search by more than the tolerance, and both paths are solved. -/
example : ∃ (M : ℕ) (tof θ zMin tMin : ℝ), 1 ≤ M ∧ getTransferAngle ⟨1, 0, 0⟩ ⟨0, 1, 0⟩ true = .ok θ ∧
    findMinimumTime (fun z => tofEquation (V3.norm ⟨1, 0, 0⟩ + V3.norm ⟨0, 1, 0⟩)
      (2 * Real.sqrt (V3.norm ⟨1, 0, 0⟩ * V3.norm ⟨0, 1, 0⟩) * Real.cos (θ / 2)) 1 z M) 10 0 = .ok (zMin, tMin) ∧
    tMin + 10 < tof ∧
    ∃ N, ∀ low, ∃ out, delatorre2018 1 ⟨1, 0, 0⟩ ⟨0, 1, 0⟩ tof M true low N 10 0 false 0 = .ok out := by
  have hna : NotAligned ⟨1, 0, 0⟩ ⟨0, 1, 0⟩ := by simp [NotAligned, V3.cross]
  have hθ := transferAngle_eq hna true
  obtain ⟨θ, hθd⟩ : ∃ θ, getTransferAngle ⟨1, 0, 0⟩ ⟨0, 1, 0⟩ true = .ok θ := ⟨_, hθ⟩
  clear hθ
  have n1 : V3.norm ⟨1, 0, 0⟩ = 1 := by simp [V3.norm, V3.dot]
  have n2 : V3.norm ⟨0, 1, 0⟩ = 1 := by simp [V3.norm, V3.dot]
  obtain ⟨hG, -⟩ := (angle_of_eq hna hθd).halfGeo hna
  have hr2 : Real.sqrt 2 ^ 2 = 2 := Real.sq_sqrt (by norm_num)
  have hu2 : Real.sqrt 2 < 1.5 := by rw [Real.sqrt_lt' (by norm_num)]; norm_num
  have hQe : 2 * Real.sqrt (V3.norm ⟨1, 0, 0⟩ * V3.norm ⟨0, 1, 0⟩) * Real.cos (θ / 2) =
      Real.sqrt 2 * halfA (V3.norm ⟨1, 0, 0⟩) (V3.norm ⟨0, 1, 0⟩) θ := by
    unfold halfA
    linear_combination (-(Real.sqrt (V3.norm ⟨1, 0, 0⟩ * V3.norm ⟨0, 1, 0⟩) * Real.cos (θ / 2))) * hr2
  obtain ⟨A, hA⟩ : ∃ A, A = halfA (V3.norm ⟨1, 0, 0⟩) (V3.norm ⟨0, 1, 0⟩) θ := ⟨_, rfl⟩
  rw [← hA] at hG hQe
  have hA1 : A ^ 2 = 1 := by rw [hG.hA2, n1, n2]; simp [V3.dot]
  have hQ : |Real.sqrt 2 * A| = Real.sqrt 2 := by
    rw [← Real.sqrt_sq_eq_abs, mul_pow, hr2, hA1, mul_one]
  have hpi1 := Real.pi_gt_d2
  have hpi2 := Real.pi_lt_d2
  norm_num at hpi1 hpi2 hu2
  have hpp1 : 9.8 < Real.pi ^ 2 := by norm_num; nlinarith
  have hpp2 : Real.pi ^ 2 < 9.95 := by norm_num; nlinarith
  have hgr : 0.6 < gr ∧ gr < 0.62 := by
    have a : (2.2 : ℝ) < Real.sqrt 5 := Real.lt_sqrt_of_sq_lt (by norm_num)
    have b : Real.sqrt 5 < 2.24 := by rw [Real.sqrt_lt' (by norm_num)]; norm_num
    unfold gr
    norm_num at a b ⊢
    constructor <;> linarith
  obtain ⟨w, hw⟩ : ∃ w : ℝ, w = Real.pi ^ 2 - 1e-12 - 1e-12 := ⟨_, rfl⟩
  norm_num at hpp1 hpp2 hgr
  have hw1 : 9.7 < w := by rw [hw]; norm_num; linarith
  have hw2 : w < 10 := by rw [hw]; norm_num; linarith
  norm_num at hw1
  have hgw1 : 5.8 < gr * w := by norm_num; nlinarith
  have hgw2 : gr * w < 6.2 := by norm_num; nlinarith
  norm_num at hgw1 hgw2
  obtain ⟨za, hza⟩ : ∃ z : ℝ, z = 1e-12 + gr * w / 2 := ⟨_, rfl⟩
  obtain ⟨zb, hzb⟩ : ∃ z : ℝ, z = Real.pi ^ 2 - 1e-12 - gr * w / 2 := ⟨_, rfl⟩
  have hzi : ∀ z, z = za ∨ z = zb → 1 < z ∧ z < 7.1 := by
    rintro z (rfl | rfl)
    · rw [hza]; norm_num; constructor <;> linarith
    · rw [hzb]; norm_num; constructor <;> linarith
  obtain ⟨D, hD⟩ : ∃ D : ℝ, D = 2 - Real.sqrt 2 := ⟨_, rfl⟩
  have hD0 : 1 / 2 < D := by rw [hD]; linarith
  obtain ⟨M, hM⟩ := exists_nat_ge (|T0 2 (Real.sqrt 2 * A) 1 za| + |T0 2 (Real.sqrt 2 * A) 1 zb| + 10)
  have hMr : (10 : ℝ) ≤ M := le_trans (by linarith [abs_nonneg (T0 2 (Real.sqrt 2 * A) 1 za), abs_nonneg (T0 2 (Real.sqrt 2 * A) 1 zb)]) hM
  have hM1 : 1 ≤ M := by
    have : (1 : ℝ) ≤ M := by linarith
    exact_mod_cast this
  obtain ⟨K, hK⟩ : ∃ K : ℝ, K = Real.sqrt (D ^ 3 / (2 * 1)) := ⟨_, rfl⟩
  have hK0 : 1 / 4 ≤ K := by
    rw [hK]
    apply Real.le_sqrt_of_sq_le
    have : (1 / 2 : ℝ) ^ 3 ≤ D ^ 3 := pow_le_pow_left₀ (by norm_num) hD0.le 3
    linarith
  obtain ⟨tof, htof⟩ : ∃ t : ℝ, t = 1e18 * M * Real.pi * K := ⟨_, rfl⟩
  have hb : 1e17 * (M * Real.pi) ≤ tof := by
    have a : (0 : ℝ) ≤ M * Real.pi := by positivity
    have b := mul_le_mul_of_nonneg_left hK0 a
    rw [htof]; norm_num at b ⊢; linarith
  have htof0 : 0 < tof := lt_of_lt_of_le (by have : (0 : ℝ) < M := by linarith
                                             positivity) hb
  obtain ⟨zMin, tMin, hs, -, -, hret⟩ := delatorre_multi_returns one_pos hna hM1 htof0 (atol := 10) (rtol := 0) (by norm_num) hθd
    (Q := Real.sqrt 2) (D := D) (by rw [n1, n2]; simp [V3.dot]) (by rw [n1, n2, hD]; norm_num)
  have hs0 := hs
  rw [hQe, n1, n2, show (1 : ℝ) + 1 = 2 by norm_num] at hs
  have hlo : (1e-12 : ℝ) ∈ Ioo 0 (Real.pi ^ 2) := ⟨by norm_num, by norm_num; linarith⟩
  have hhi : Real.pi ^ 2 - 1e-12 ∈ Ioo 0 (Real.pi ^ 2) := ⟨by norm_num; linarith, by norm_num⟩
  have hlh : (1e-12 : ℝ) ≤ Real.pi ^ 2 - 1e-12 := by norm_num; linarith
  obtain ⟨g, m, hu⟩ : ∃ g m, Unimodal (fun z => tofEquation 2 (Real.sqrt 2 * A) 1 z M) g 1e-12 (Real.pi ^ 2 - 1e-12) m := by
    obtain ⟨s, lam, hS, hAe⟩ := hG.semi
    have hl0 : lam ≠ 0 := fun h => hG.hA (by rw [hAe, h, mul_zero])
    have hsum := hS.sum
    rw [n1, n2, show (1 : ℝ) + 1 = 2 by norm_num] at hsum
    have hun := unimodal one_pos hS.spos hS.lam_lt hl0 hM1 hlo.1 hlh hhi.2
    rw [← hsum, ← hAe] at hun
    exact hun
  have hz : zMin = za ∨ zMin = zb := by
    have := golden_one_pass hu (by rw [← hw]; linarith) hs
    rwa [← hw, ← hza, ← hzb] at this
  have hcc : ∀ {a b : ℝ}, Seg (Icc a b) := fun {a b} u hu v hv t h0 h1 => by
    constructor <;> nlinarith [hu.1, hu.2, hv.1, hv.2]
  obtain ⟨-, htm⟩ := goldenSearch_mem (hcc (a := 1e-12) (b := Real.pi ^ 2 - 1e-12)) hs ⟨le_rfl, hlh⟩ ⟨hlh, le_rfl⟩
  have hT := (tofEquation_ok one_pos htm).2.2
  rw [if_neg (by omega)] at hT
  obtain ⟨hz1, hz2⟩ := hzi _ hz
  have hz0 : 0 < zMin := by linarith
  have hsz := Real.sqrt_pos.2 hz0
  have q1 : 1 < Real.sqrt zMin := Real.lt_sqrt_of_sq_lt (by linarith)
  have q2 : Real.sqrt zMin < 2.7 := by rw [Real.sqrt_lt' (by norm_num)]; norm_num at hz2 ⊢; linarith
  norm_num at q2
  have hsin : 1 / 10 ≤ Real.sin (Real.sqrt zMin) := by
    have h2pi : 3 / 5 ≤ 2 / Real.pi := by rw [le_div_iff₀ Real.pi_pos]; linarith
    rcases le_total (Real.sqrt zMin) (Real.pi / 2) with h | h
    · have h1 := Real.mul_le_sin hsz.le h
      have h2 : 3 / 5 * 1 ≤ 2 / Real.pi * Real.sqrt zMin := mul_le_mul h2pi q1.le (by norm_num) (by positivity)
      linarith
    · rw [← Real.sin_pi_sub]
      have h1 := Real.mul_le_sin (x := Real.pi - Real.sqrt zMin) (by linarith) (by linarith)
      have h2 : 3 / 5 * (2 / 5) ≤ 2 / Real.pi * (Real.pi - Real.sqrt zMin) :=
        mul_le_mul h2pi (by linarith) (by norm_num) (by positivity)
      linarith
  have e : zMin = Real.sqrt zMin ^ 2 := (Real.sq_sqrt hz0.le).symm
  have e1 : VofZ 2 (Real.sqrt 2 * A) zMin = 2 - Real.sqrt 2 * A * Real.cos (Real.sqrt zMin) := by
    conv_lhs => rw [e, VofZ_sq]
  have e2 : stumpffSeries 1 zMin = Real.sin (Real.sqrt zMin) / Real.sqrt zMin := by
    conv_lhs => rw [e, series1_sq hsz.ne']
  have hab : |Real.sqrt 2 * A * Real.cos (Real.sqrt zMin)| ≤ Real.sqrt 2 := by
    rw [abs_mul, hQ]; exact mul_le_of_le_one_right (by positivity) (Real.abs_cos_le_one _)
  have hV1 : 0 < VofZ 2 (Real.sqrt 2 * A) zMin := by rw [e1]; linarith [(abs_le.1 hab).2]
  have hV2 : VofZ 2 (Real.sqrt 2 * A) zMin ≤ 4 := by rw [e1]; linarith [(abs_le.1 hab).1]
  have e3 : T1 2 (Real.sqrt 2 * A) 1 zMin M =
      M * Real.pi * Real.sqrt (VofZ 2 (Real.sqrt 2 * A) zMin ^ 3 / (2 * 1)) / Real.sin (Real.sqrt zMin) ^ 3 := by
    unfold T1
    have e4 : Real.sqrt (VofZ 2 (Real.sqrt 2 * A) zMin ^ 3 / (2 * 1 * zMin ^ 3)) =
        Real.sqrt (VofZ 2 (Real.sqrt 2 * A) zMin ^ 3 / (2 * 1)) / Real.sqrt zMin ^ 3 := by
      rw [← div_div, Real.sqrt_div (by positivity)]
      congr 1
      conv_lhs => rw [e, ← pow_mul, mul_comm, pow_mul, Real.sqrt_sq (by positivity)]
    rw [e2, e4, Int.cast_natCast]
    have : 0 < Real.sin (Real.sqrt zMin) := by linarith
    field_simp
  have hT1 : T1 2 (Real.sqrt 2 * A) 1 zMin M ≤ 6000 * (M * Real.pi) := by
    rw [e3]
    have h6 : Real.sqrt (VofZ 2 (Real.sqrt 2 * A) zMin ^ 3 / (2 * 1)) ≤ 6 := by
      rw [Real.sqrt_le_left (by norm_num)]
      have := pow_le_pow_left₀ hV1.le hV2 3
      linarith
    have h3 : (1 / 10 : ℝ) ^ 3 ≤ Real.sin (Real.sqrt zMin) ^ 3 := pow_le_pow_left₀ (by norm_num) hsin 3
    have hpi := Real.pi_pos
    calc _ ≤ M * Real.pi * 6 / (1 / 10) ^ 3 := by gcongr
      _ = _ := by ring
  have hT0 : T0 2 (Real.sqrt 2 * A) 1 zMin ≤ |T0 2 (Real.sqrt 2 * A) 1 za| + |T0 2 (Real.sqrt 2 * A) 1 zb| := by
    rcases hz with h | h
    · rw [h]; linarith [le_abs_self (T0 2 (Real.sqrt 2 * A) 1 za), abs_nonneg (T0 2 (Real.sqrt 2 * A) 1 zb)]
    · rw [h]; linarith [le_abs_self (T0 2 (Real.sqrt 2 * A) 1 zb), abs_nonneg (T0 2 (Real.sqrt 2 * A) 1 za)]
  have hMpi : (M : ℝ) ≤ M * Real.pi := by nlinarith
  have hlt : tMin + 10 < tof := by
    norm_num at hb
    linarith
  obtain ⟨N, hN⟩ := hret (by linarith) (by rw [htof, hK])
  exact ⟨M, tof, θ, zMin, tMin, hM1, hθd, hs0, hlt, N, fun low => hN N le_rfl low false 0⟩

end Lamberthub
