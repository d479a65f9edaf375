import Verif.Proofs.SimpleRoot
import Verif.Props.IzzoFeasible

/-!
# C55, C58: `_halley` never finds the fastest transfer

The defect behind `izzo_feasible_refused` is not special to that geometry: since `_halley` freezes the
time at that of `x = 0.1`, the fastest transfer is not a fixed point of its iteration, for any geometry and
any number of revolutions (except when the fastest transfer happens to be at `x = 0.1`).
-/

set_option autoImplicit false

namespace Lamberthub
open Spec LC Set Filter Topology

namespace Izzo

/-- At the fastest transfer the first and second derivatives `_halley` computes are positive as soon as
the frozen time exceeds the least one. -/
theorem frozen_derivs {ll m T0 : ℝ} {M : ℕ} (hl : ll ^ 2 < 1) (hM : 1 ≤ M) (hm : Fastest ll M m)
    (hT : revT ll M m < T0) :
    0 < lancT1 ll m (lancY ll m) T0 ∧ 0 < lancT2 ll m (lancY ll m) T0 (lancT1 ll m (lancY ll m) T0) := by
  obtain ⟨hm0, hm1, -, -⟩ := hm.valley hl hM
  have hL := lanc_lancY hl m
  have hy := hL.y_pos
  have hysq := hL.y_sq
  have hlt := hL.lam_x_lt
  have hw : 0 < 1 - m ^ 2 := by nlinarith
  have hcrit : lancT1 ll m (lancY ll m) (revT ll M m) = 0 := by
    refine IsLocalMin.hasDerivAt_eq_zero ?_ (revT_hasDerivAt hl hm.mem.1 hm.mem.2 M)
    filter_upwards [isOpen_Ioo.mem_nhds hm.mem] with x hx using hm.least x hx
  generalize lancY ll m = y at *
  generalize revT ll M m = t at *
  have e0 : 3 * t * m - 2 + 2 * ll ^ 3 * m / y = 0 := by
    unfold lancT1 at hcrit
    exact (div_eq_zero_iff.1 hcrit).resolve_right hw.ne'
  have e1 : 3 * t * m * y = 2 * y - 2 * ll ^ 3 * m := by
    have : (3 * t * m - 2 + 2 * ll ^ 3 * m / y) * y = 0 := by rw [e0, zero_mul]
    rw [add_mul, div_mul_cancel₀ _ hy.ne'] at this
    linarith
  have hf1 : 0 < lancT1 ll m y T0 := by
    unfold lancT1
    refine div_pos ?_ hw
    have : 0 < 3 * (T0 - t) * m := by have := sub_pos.2 hT; positivity
    linarith
  refine ⟨hf1, ?_⟩
  generalize lancT1 ll m y T0 = f1 at *
  unfold lancT2
  refine div_pos ?_ hw
  have h5 : ll ^ 5 * m ^ 3 < y ^ 3 := by
    refine (le_abs_self _).trans_lt ?_
    rw [show ll ^ 5 * m ^ 3 = ll ^ 2 * (ll * m) ^ 3 by ring, abs_mul, abs_of_nonneg (sq_nonneg ll), abs_pow]
    calc ll ^ 2 * |ll * m| ^ 3 ≤ 1 * |ll * m| ^ 3 := mul_le_mul_of_nonneg_right hl.le (by positivity)
      _ < y ^ 3 := by rw [one_mul]; exact pow_lt_pow_left₀ hlt (abs_nonneg _) (by norm_num)
  have hpos : 0 < m * y ^ 3 := by positivity
  refine pos_of_mul_pos_left (b := m * y ^ 3) ?_ hpos.le
  have e2 : (3 * T0 + 5 * m * f1 + 2 * (1 - ll ^ 2) * ll ^ 3 / y ^ 3) * (m * y ^ 3)
      = 3 * (T0 - t) * (m * y ^ 3) + 5 * m * f1 * (m * y ^ 3) + 2 * (y ^ 3 - ll ^ 5 * m ^ 3) := by
    have : 2 * (1 - ll ^ 2) * ll ^ 3 / y ^ 3 * (m * y ^ 3) = 2 * (1 - ll ^ 2) * ll ^ 3 * m := by
      field_simp
    rw [add_mul, this]
    linear_combination y ^ 2 * e1 - 2 * ll ^ 3 * m * hysq
  rw [e2]
  have a1 : 0 < 3 * (T0 - t) * (m * y ^ 3) := by have := sub_pos.2 hT; positivity
  have a2 : 0 < 5 * m * f1 * (m * y ^ 3) := by positivity
  linarith

/-- **C58, `_halley` of `izzo2015` does not converge to the minimum.**  For every geometry and every number
of revolutions whose fastest transfer is not at `x = 0.1`, the values `_halley` returns stay away from it,
whatever the starting point and the number of iterations, as soon as the tolerances are small enough. -/
theorem halley_misses_minimum {ll m : ℝ} {M : ℕ} (hl : ll ^ 2 < 1) (hM : 1 ≤ M) (hm : Fastest ll M m) (h10 : m ≠ 1 / 10) :
    ∃ ε : ℝ, 0 < ε ∧ ε < m ∧ m + ε < 1 ∧ ∀ (n : ℕ) (atol rtol p0 p : ℝ), atol ≤ ε → rtol ≤ ε →
      halley (revT ll M (1 / 10)) ll atol rtol n p0 = .ok p → ε ≤ |p - m| := by
  obtain ⟨hm0, hm1, hanti, hmono⟩ := hm.valley hl hM
  have hT : revT ll M m < revT ll M (1 / 10) := by
    rcases lt_or_gt_of_ne h10 with h | h
    · exact hmono ⟨le_rfl, by linarith⟩ ⟨h.le, by norm_num⟩ h
    · exact hanti ⟨by norm_num, h.le⟩ ⟨by linarith, le_rfl⟩ h
  obtain ⟨hp1, hp2⟩ := frozen_derivs hl hM hm hT
  obtain ⟨T0, hT0⟩ : ∃ T0, T0 = revT ll M (1 / 10) := ⟨_, rfl⟩
  rw [← hT0] at hT hp1 hp2 ⊢
  obtain ⟨F1, hF1⟩ : ∃ F1 : ℝ → ℝ, F1 = fun q => lancT1 ll q (lancY ll q) T0 := ⟨_, rfl⟩
  obtain ⟨F2, hF2⟩ : ∃ F2 : ℝ → ℝ, F2 = fun q => lancT2 ll q (lancY ll q) T0 (F1 q) := ⟨_, rfl⟩
  obtain ⟨F3, hF3⟩ : ∃ F3 : ℝ → ℝ, F3 = fun q => lancT3 ll q (lancY ll q) (F1 q) (F2 q) := ⟨_, rfl⟩
  have hw : 1 - m ^ 2 ≠ 0 := by nlinarith
  have hy := (lanc_lancY hl m).y_pos
  have cy : ContinuousAt (lancY ll) m := (lancY_hasDerivAt hl m).continuousAt
  have c1 : ContinuousAt F1 m := by
    rw [hF1]; unfold lancT1
    exact ContinuousAt.div (by fun_prop (disch := exact hy.ne')) (by fun_prop) hw
  have c2 : ContinuousAt F2 m := by
    rw [hF2]; unfold lancT2
    exact ContinuousAt.div (by fun_prop (disch := exact (pow_pos hy 3).ne')) (by fun_prop) hw
  have c3 : ContinuousAt F3 m := by
    rw [hF3]; unfold lancT3
    exact ContinuousAt.div (by fun_prop (disch := exact (pow_pos hy 5).ne')) (by fun_prop) hw
  have cN : ContinuousAt (fun q => 2 * F1 q * F2 q) m := by fun_prop
  have cD : ContinuousAt (fun q => |2 * F2 q ^ 2 - F1 q * F3 q|) m := by fun_prop
  have hN : 0 < 2 * F1 m * F2 m := by
    have e1 : 0 < F1 m := by rw [hF1]; exact hp1
    have e2 : 0 < F2 m := by rw [hF2, hF1]; exact hp2
    positivity
  obtain ⟨N0, hN0⟩ : ∃ N0, N0 = F1 m * F2 m := ⟨_, rfl⟩
  have hN0p : 0 < N0 := by rw [hN0]; nlinarith
  obtain ⟨B, hB⟩ : ∃ B, B = |2 * F2 m ^ 2 - F1 m * F3 m| + 1 := ⟨_, rfl⟩
  have hBp : 0 < B := by rw [hB]; positivity
  have ev : ∀ᶠ q in 𝓝 m, N0 < 2 * F1 q * F2 q ∧ |2 * F2 q ^ 2 - F1 q * F3 q| < B := by
    refine (cN.eventually (lt_mem_nhds ?_)).and (cD.eventually (gt_mem_nhds ?_))
    · show N0 < 2 * F1 m * F2 m
      rw [hN0]; nlinarith
    · show |2 * F2 m ^ 2 - F1 m * F3 m| < B
      rw [hB]; linarith
  obtain ⟨δ, hδ, hball⟩ := Metric.eventually_nhds_iff_ball.1 ev
  have hη : 0 < N0 / B := by positivity
  obtain ⟨ε, hε⟩ : ∃ ε, ε = min (min (1 / 4) (m / 2)) (min (δ / 7) (N0 / B / 6)) := ⟨_, rfl⟩
  have b1 : ε ≤ 1 / 4 := by rw [hε]; exact (min_le_left _ _).trans (min_le_left _ _)
  have b2 : ε ≤ m / 2 := by rw [hε]; exact (min_le_left _ _).trans (min_le_right _ _)
  have b3 : ε ≤ δ / 7 := by rw [hε]; exact (min_le_right _ _).trans (min_le_left _ _)
  have b4 : ε ≤ N0 / B / 6 := by rw [hε]; exact (min_le_right _ _).trans (min_le_right _ _)
  have hε0 : 0 < ε := by rw [hε]; positivity
  refine ⟨ε, hε0, by linarith, by linarith, fun n atol rtol p0 p ha hr h => ?_⟩
  obtain ⟨q, f1, f2, f3, -, h1, h2, h3, hd, hp, hc⟩ := halley_ok (fun _ => True) (fun _ _ _ _ _ _ _ _ => trivial) h trivial
  by_contra hn
  push Not at hn
  have hq1 : |q| ≤ |p - q| + (m + ε) := by
    have a1 := abs_lt.1 hn
    rcases abs_cases q with ⟨a, b⟩ | ⟨a, b⟩ <;> rcases abs_cases (p - q) with ⟨c, d⟩ | ⟨c, d⟩ <;> linarith [a1.1, a1.2]
  have hpq : |p - q| < 6 * ε := by
    have a1 : rtol * |q| ≤ ε * |q| := mul_le_mul_of_nonneg_right hr (abs_nonneg _)
    have a2 : ε * |q| ≤ ε * (|p - q| + 1) := mul_le_mul_of_nonneg_left (by linarith) hε0.le
    have a3 : ε * |p - q| ≤ 1 / 4 * |p - q| := mul_le_mul_of_nonneg_right b1 (abs_nonneg _)
    linarith
  have hqm : |q - m| < δ := by
    have := abs_sub_le q p m
    rw [abs_sub_comm q p] at this
    linarith
  obtain ⟨k1, k2⟩ := hball q (by rwa [Metric.mem_ball, Real.dist_eq])
  have e1 : f1 = F1 q := by rw [h1, hF1]
  have e2 : f2 = F2 q := by rw [h2, e1, hF2]
  have e3 : f3 = F3 q := by rw [h3, e1, e2, hF3]
  have hst : N0 / B ≤ |p - q| := by
    rw [hp, show q - 2 * f1 * f2 / (2 * f2 ^ 2 - f1 * f3) - q = -(2 * f1 * f2 / (2 * f2 ^ 2 - f1 * f3)) by ring, abs_neg,
      abs_div]
    rw [e1, e2, e3] at hd ⊢
    exact div_le_div₀ (abs_nonneg _) (k1.le.trans (le_abs_self _)) (abs_pos.2 hd) k2.le
  linarith

end Izzo

open Izzo in
/-- **C55 fails for every geometry.**  Let the fastest transfer with `M ≥ 1` revolutions not be at `x = 0.1`.
Then there is a window of times of flight from the least time on, all feasible, for which `_find_xy` refuses
`M` revolutions, for all small tolerances and all iteration counts: the only exception is a run in which
`_halley` leaves the elliptic range. -/
theorem izzo_window_refused {ll m : ℝ} {M : ℕ} (hl : ll ^ 2 < 1) (hM : 1 ≤ M) (hm : Fastest ll M m) (h10 : m ≠ 1 / 10) :
    ∃ ε T2 : ℝ, 0 < ε ∧ revT ll M m < T2 ∧ ∀ (T atol rtol : ℝ) (maxiter : ℕ) (low : Bool),
      revT ll M m ≤ T → T < T2 → atol ≤ ε → rtol ≤ ε →
      (∀ p, halley (revT ll M (1 / 10)) ll atol rtol maxiter (1 / 10) = .ok p → -1 < p ∧ p < 1) →
      (∃ x, -1 < x ∧ x < 1 ∧ revT ll M x = T) ∧ ∀ xy, findXY ll T M maxiter atol rtol low ≠ .ok xy := by
  obtain ⟨ε, hε, hεm, hεm1, hmiss⟩ := halley_misses_minimum hl hM hm h10
  obtain ⟨hm0, hm1, hanti, hmono⟩ := hm.valley hl hM
  have hpi := Real.pi_pos
  have g1 := hanti (a := m - ε) (b := m) ⟨by linarith, by linarith⟩ ⟨by linarith, le_rfl⟩ (by linarith)
  have g2 := hmono (a := m) (b := m + ε) ⟨le_rfl, by linarith⟩ ⟨by linarith, by linarith⟩ (by linarith)
  have g3 := hanti (a := 0) (b := m) ⟨by norm_num, hm0.le⟩ ⟨by linarith, le_rfl⟩ hm0
  have hgt := revT_gt hl hm.mem.1 hm.mem.2 M
  have hz := revT_at_zero ll M
  obtain ⟨hT0, hTpi⟩ := T00_bounds hl
  refine ⟨ε, min (min (revT ll M (m - ε)) (revT ll M (m + ε))) (revT ll M 0), hε, lt_min (lt_min g1 g2) g3,
    fun T atol rtol maxiter low h1 h2 ha hr hell => ⟨?_, fun xy hxy => ?_⟩⟩
  · rcases h1.eq_or_lt with h3 | h3
    · exact ⟨m, hm.mem.1, hm.mem.2, h3⟩
    · obtain ⟨m', -, -, -, -, hmin, hu, hsol⟩ := revT_solutions hl hM
      have hme : revT ll M m' < T := by
        refine lt_of_le_of_lt (hmin m hm.mem.1 hm.mem.2) h3
      obtain ⟨a, b, ha, ham, hmb, hb, hT, -⟩ := hsol _ hme
      exact ⟨a, ha, by linarith, hT⟩
  obtain ⟨h2a, h2c⟩ := lt_min_iff.1 h2
  obtain ⟨h2a, h2b⟩ := lt_min_iff.1 h2a
  have hM1 : (1 : ℝ) ≤ M := by exact_mod_cast hM
  unfold findXY at hxy
  simp only [bind_ok, raiseIf_ok, pacos_ok, psqrt_ok] at hxy
  obtain ⟨_, -, a, ⟨-, -, rfl⟩, q, ⟨-, rfl⟩, mMax, hmm, _, hle, -⟩ := hxy
  have hfl : ⌊T / Real.pi⌋ = (M : ℤ) := by
    rw [Int.floor_eq_iff, le_div_iff₀ hpi, div_lt_iff₀ hpi]
    push_cast
    constructor <;> linarith
  unfold refineMMax at hmm
  rw [hfl, if_pos ⟨by push_cast; linarith, by omega⟩, bind_ok] at hmm
  obtain ⟨t, ht, hmm⟩ := hmm
  obtain ⟨p, hh, hp⟩ := computeTMin_ok hl hM ht
  obtain ⟨hp0, hp1⟩ := hell p hh
  have hd := hmiss maxiter atol rtol _ p ha hr hh
  rw [tofEquation_eq hl (by linarith) (by linarith), sub_zero] at hp
  obtain rfl := Except.ok.inj hp
  have hTp : T < revT ll M p := by
    rcases le_abs.1 hd with h | h
    · have := hmono.monotoneOn (a := m + ε) (b := p) ⟨by linarith, by linarith⟩ ⟨by linarith, by linarith⟩ (by linarith)
      linarith
    · have := hanti.antitoneOn (a := p) (b := m - ε) ⟨by linarith, by linarith⟩ ⟨by linarith, by linarith⟩ (by linarith)
      linarith
  rw [if_pos hTp] at hmm
  obtain rfl := Except.ok.inj hmm
  exact hle (by push_cast; omega)

/-- Non-vacuity: `λ = 1/2`, ten revolutions; the fastest transfer is at `0.0187 ≤ x ≤ 0.0213`. -/
example : ∃ m, Fastest (1 / 2) 10 m ∧ m ≠ 1 / 10 := by
  obtain ⟨m, hm⟩ := exists_fastest (lam := 1 / 2) (M := 10) (by norm_num) (by norm_num)
  obtain ⟨h1, h2, -, -⟩ := Izzo.fastest_bounds hm
  exact ⟨m, hm, by intro h; rw [h] at h2; norm_num at h2⟩

end Lamberthub
