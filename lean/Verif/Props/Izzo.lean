import Verif.Proofs.IzzoDomain
import Verif.Proofs.IzzoLemmas

/-! # C18: what `izzo2015` returns is a true Kepler transfer -/

set_option autoImplicit false

namespace Lamberthub
open Spec LC

namespace Izzo

/-- The dimensionless time of the minimum-energy transfer lies between `0` and `π`. -/
theorem T00_bounds {ll : ℝ} (h : ll ^ 2 < 1) :
    0 < Real.arccos ll + ll * Real.sqrt (1 - ll ^ 2) ∧
      Real.arccos ll + ll * Real.sqrt (1 - ll ^ 2) < Real.pi := by
  have hl := abs_lt.1 ((sq_lt_one_iff_abs_lt_one _).1 h)
  have main : ∀ a : ℝ, 0 < a → a < Real.pi → 0 < a + Real.cos a * Real.sin a := by
    intro a h0 h1
    have h2 := Real.sin_lt h0
    have h3 := Real.sin_pos_of_pos_of_lt_pi h0 h1
    have h4 := Real.neg_one_le_cos a
    nlinarith
  have h0 : 0 < Real.arccos ll := Real.arccos_pos.2 hl.2
  have h1 : Real.arccos ll < Real.pi := by
    rcases (Real.arccos_le_pi ll).lt_or_eq with h3 | h3
    · exact h3
    · rw [Real.arccos_eq_pi] at h3; linarith
  have hs : Real.sqrt (1 - ll ^ 2) = Real.sin (Real.arccos ll) := (Real.sin_arccos ll).symm
  have hc : Real.cos (Real.arccos ll) = ll := Real.cos_arccos hl.1.le hl.2.le
  have m1 := main _ h0 h1
  have m2 := main (Real.pi - Real.arccos ll) (by linarith) (by linarith)
  rw [Real.cos_pi_sub, Real.sin_pi_sub] at m2
  rw [hs]
  rw [hc] at m1 m2
  constructor <;> linarith

/-- The returned value of `_householder` is one step away from an iterate that it
satisfies the convergence test with. -/
theorem householder_ok {T0 ll atol rtol : ℝ} {M : ℤ} :
    ∀ {n : ℕ} {p0 p : ℝ}, householder T0 ll M atol rtol n p0 = .ok p →
      ∃ p', householderStep p' T0 ll M = .ok p ∧ |p - p'| < rtol * |p'| + atol := by
  intro n
  induction n with
  | zero => intro p0 p h; simp [householder] at h
  | succ n ih =>
    intro p0 p h
    unfold householder at h
    rw [bind_ok] at h
    obtain ⟨q, hq, h⟩ := h
    split at h
    · rename_i hc
      obtain rfl := Except.ok.inj h
      exact ⟨p0, hq, hc⟩
    · exact ih h

theorem initialGuess_zero_time {ll : ℝ} (hl : ll ^ 2 < 1) {low : Bool} :
    initialGuess 0 ll 0 low = .error .undefined := by
  have hl' := abs_lt.1 ((sq_lt_one_iff_abs_lt_one _).1 hl)
  have hT := (T00_bounds hl).1
  unfold initialGuess initialGuess0
  rw [if_pos rfl, pacos, if_pos ⟨hl'.1.le, hl'.2.le⟩, ok_bind, psqrt_eq (by linarith), ok_bind]
  have h1 : ¬ (0 : ℝ) ≥ Real.arccos ll + ll * Real.sqrt (1 - ll ^ 2) + ((0 : ℤ) : ℝ) * Real.pi := by
    push_cast; linarith
  have h3 : ll ^ 3 < 1 := by nlinarith
  simp only [if_neg h1]
  rw [if_pos (by linarith)]
  simp [pdiv]

/-- `M_max` is at most the number of half turns of the time. -/
theorem refineMMax_le {ll T T00 : ℝ} {maxiter : ℕ} {atol rtol : ℝ} {m : ℤ}
    (h : refineMMax ll T T00 maxiter atol rtol = .ok m) : m ≤ ⌊T / Real.pi⌋ := by
  unfold refineMMax at h
  split at h
  · rw [bind_ok] at h
    obtain ⟨t, -, h⟩ := h
    have h := Except.ok.inj h
    split at h <;> omega
  · exact (Except.ok.inj h).ge

/-- No solution is found for zero time. -/
theorem findXY_zero {ll : ℝ} {M : ℕ} {maxiter : ℕ} {atol rtol : ℝ} {low : Bool} {xy : ℝ × ℝ} :
    findXY ll 0 (M : ℤ) maxiter atol rtol low ≠ .ok xy := by
  intro h
  unfold findXY at h
  simp only [bind_ok, raiseIf_ok, not_not] at h
  obtain ⟨_, hl, a, -, q, -, m, hm, _, hM, x0, hx0, -⟩ := h
  have hl2 : ll ^ 2 < 1 := (sq_lt_one_iff_abs_lt_one _).2 hl
  unfold refineMMax at hm
  simp at hm
  subst hm
  have hM0 : M = 0 := by
    push Not at hM
    exact_mod_cast le_antisymm hM (by positivity)
  subst hM0
  rw [Nat.cast_zero, initialGuess_zero_time hl2] at hx0
  cases hx0

end Izzo

open Izzo

/-- **C18 (partial).** Whenever `izzo2015` returns, for a number `M ≥ 0` of revolutions,
it has found a root `x` (with `y`) of its dimensionless time equation by one last
Householder step that met the convergence test, and the motion turns in the requested
sense.  If `x` lies in the domain of the time equation (`-1 < x`, and `x < 1` when
`M ≥ 1`) the velocities belong to one and the same Kepler orbit that goes from `r1` to
`r2` with exactly `M` complete revolutions, in the time given by the solver's own time
equation at `x`; this includes the series branch near the parabola.  It does lie in that
domain, and the flight time differs from `tof` by exactly the residual, as soon as the
residual of the time equation at `x` is at most half the time sought.

Missing for the full claim: the solver never substitutes the iterate it returns into the
time equation, so that nothing bounds that residual. -/
theorem izzo_kepler_transfer_partial {mu : ℝ} {r1 r2 : V3} {tof : ℝ} {M : ℕ} {pro low : Bool}
    {maxiter : ℕ} {atol rtol : ℝ} {v1 v2 : V3}
    (h : izzo2015 mu r1 r2 tof (M : ℤ) pro low maxiter atol rtol = .ok (v1, v2)) :
    ∃ s ll x p, s = (len r1 + len r2 + len (r2 - r1)) / 2 ∧
      householderStep p (Real.sqrt (2 * mu / s ^ 3) * tof) ll (M : ℤ) = .ok x ∧
      |x - p| < rtol * |p| + atol ∧
      (-1 < x → (M = 0 ∨ x < 1) → ∃ T, LambertArc mu r1 r2 v1 v2 T M ∧
        tofEquation x 0 ll (M : ℤ) = .ok (Real.sqrt (2 * mu / s ^ 3) * T)) ∧
      (∀ e, tofEquation x (Real.sqrt (2 * mu / s ^ 3) * tof) ll (M : ℤ) = .ok e →
        |e| ≤ Real.sqrt (2 * mu / s ^ 3) * tof / 2 → ∃ T, LambertArc mu r1 r2 v1 v2 T M ∧
          Real.sqrt (2 * mu / s ^ 3) * (T - tof) = e) ∧
      (NotPolar r1 r2 → Sense pro r1 v1) := by
  unfold izzo2015 at h
  simp only [bind_ok, pdiv_ok, psqrt_ok, vdiv_ok] at h
  obtain ⟨⟨s, ll, it1, it2⟩, hgeo, _, ⟨-, rfl⟩, _, ⟨hts, rfl⟩, ⟨x, y⟩, hxy, gamma, ⟨hg0, hg⟩, rho,
    ⟨-, hr⟩, sigma, ⟨hs0, hsg⟩, ⟨vr1, vr2, vt1, vt2⟩, hrec, _, ⟨-, rfl⟩, _, ⟨-, rfl⟩, h⟩ := h
  obtain ⟨ε, hε, hG, hS, hεl, rfl, rfl, hsw⟩ := geometry_ok hgeo
  have hs := hS.spos
  have hmu : 0 < mu := by
    have h1 : 0 ≤ mu := by
      have h2 : mu = 2 * mu / s ^ 3 * s ^ 3 / 2 := by field_simp
      rw [h2]; positivity
    rcases h1.lt_or_eq with h2 | h2
    · exact h2
    · exfalso
      rw [← h2] at hxy
      simp only [mul_zero, zero_div, Real.sqrt_zero, zero_mul] at hxy
      exact findXY_zero hxy
  have hxy' := hxy
  unfold findXY at hxy'
  simp only [bind_ok, raiseIf_ok, Except.ok.injEq, Prod.mk.injEq] at hxy'
  obtain ⟨_, -, a, -, q, -, m, hmm, _, hMm, x0, -, x', hx', y', hy', rfl, rfl⟩ := hxy'
  obtain ⟨p, hp1, hp2⟩ := householder_ok hx'
  have hL := computeY_ok hy' hS.lam_lt
  obtain ⟨hv1, hv2⟩ := reconstruct_ok hmu hε hG hS hεl hL hg hr hs0 hsg hrec
  simp only [Except.ok.injEq, Prod.mk.injEq] at h
  obtain ⟨e1, e2⟩ := h
  rw [hv1] at e1
  rw [hv2] at e2
  have hlen : ∀ v : V3, len v = V3.norm v := fun v => by
    unfold len V3.norm V3.dot; congr 1; ring
  have hdom : -1 < x' → (M = 0 ∨ x' < 1) → ∃ T, LambertArc mu r1 r2 v1 v2 T M ∧
      lancT ll x' y' M = Real.sqrt (2 * mu / s ^ 3) * T := by
    intro hx1 hx2
    obtain ⟨T, hpath, hT⟩ := hL.path hmu hs (M := M) hx1 hx2
    refine ⟨T, ?_, ?_⟩
    · rw [← hS.sum] at hpath
      rw [← e1, ← e2]
      exact hpath.arc hmu hG
    · exact hT.symm
  refine ⟨s, ll, x', p, ?_, hp1, hp2, ?_, ?_, ?_⟩
  · rw [hlen, hlen, hlen]; exact hS.hs
  · intro hx1 hx2
    obtain ⟨T, hT1, hT2⟩ := hdom hx1 hx2
    exact ⟨T, hT1, by rw [tofEquation, hy', ok_bind, tofEquationY_eq hL hx1 hx2, hT2, sub_zero]⟩
  · intro e he hle
    have hTM := refineMMax_le hmm
    have hTM : M * Real.pi ≤ Real.sqrt (2 * mu / s ^ 3) * tof := by
      have h3 : ((M : ℤ) : ℝ) ≤ ⌊Real.sqrt (2 * mu / s ^ 3) * tof / Real.pi⌋ := by
        exact_mod_cast (not_lt.1 hMm).trans hTM
      have h4 := Int.floor_le (Real.sqrt (2 * mu / s ^ 3) * tof / Real.pi)
      rw [← le_div_iff₀ Real.pi_pos]
      push_cast at h3
      linarith
    have hTpos : 0 < Real.sqrt (2 * mu / s ^ 3) * tof := by
      rcases (le_trans (by positivity) hTM).lt_or_eq with h5 | h5
      · exact h5
      · rw [← h5] at hxy
        exact absurd hxy findXY_zero
    obtain ⟨hx1, hx2⟩ := in_domain hS.lam_lt hTpos hTM he hle
    obtain ⟨T, hT1, hT2⟩ := hdom hx1 hx2
    refine ⟨T, hT1, ?_⟩
    rw [tofEquation, hy', ok_bind, tofEquationY_eq hL hx1 hx2, hT2] at he
    rw [← Except.ok.inj he]; ring
  · intro hnp
    rw [← e1]
    have hV : 0 < s * (y' - ll * x') ^ 2 := by have := hL.eta_pos; positivity
    refine sense_of_sign hmu hV hG.hA hnp ?_
    rw [← hsw hnp]
    have hr2p : 0 < Real.sqrt 2 := by positivity
    constructor
    · intro h1
      have : 0 < ll := pos_of_mul_pos_right h1 (by positivity)
      exact pos_of_mul_pos_left hεl this.le
    · intro h1
      have : 0 < ll := pos_of_mul_pos_right hεl h1.le
      positivity

/-- `geometry` succeeds for non-aligned positions. -/
theorem Izzo.geometry_eq {r1 r2 : V3} (hna : NotAligned r1 r2) (pro : Bool) :
    ∃ s ll it1 it2, geometry r1 r2 pro = .ok (s, ll, it1, it2) := by
  have hR1 := norm_pos_of_notAligned_left hna
  have hR2 := norm_pos_of_notAligned_right hna
  have hW := cross_norm_pos hna
  unfold geometry
  rw [vdiv_eq hR1.ne', ok_bind, vdiv_eq hR2.ne', ok_bind]
  simp only []
  rw [vdiv_eq (by rw [cross_smul_smul, norm_smul]; positivity), ok_bind]
  have hc := norm_nonneg (r2 - r1)
  rw [pdiv_eq (by positivity), ok_bind, psqrt_eq (by
    rw [sub_nonneg]; exact min_le_left _ _), ok_bind]
  exact ⟨_, _, _, _, rfl⟩

/-- `izzo2015` does return: for every pair of non-aligned positions, either sense, and the
time of flight of the minimum-energy transfer, with the root `x = 0`. -/
theorem izzo_returns_minimum_energy {mu : ℝ} (hmu : 0 < mu) {r1 r2 : V3}
    (hna : NotAligned r1 r2) (pro low : Bool) (n : ℕ) {atol : ℝ} (ha : 0 < atol) (rtol : ℝ) :
    ∃ tof v1 v2, 0 < tof ∧
      izzo2015 mu r1 r2 tof 0 pro low (n + 1) atol rtol = .ok (v1, v2) := by
  obtain ⟨s, ll, it1, it2, hgeo⟩ := geometry_eq hna pro
  obtain ⟨ε, hε, hG, hS, hεl, h1, h2, hsw⟩ := geometry_ok hgeo
  have hs := hS.spos
  have hl := hS.lam_lt
  have hl' := abs_lt.1 ((sq_lt_one_iff_abs_lt_one _).1 hl)
  obtain ⟨hT0, hTpi⟩ := T00_bounds hl
  have hq : 0 < Real.sqrt (2 * mu / s ^ 3) := by positivity
  set T := Real.arccos ll + ll * Real.sqrt (1 - ll ^ 2) with hT
  obtain ⟨y, hy, hL⟩ := computeY_eq (x := 0) hl
  have hyv : y = Real.sqrt (1 - ll ^ 2) := by
    have := (psqrt_ok.1 hy).2; rw [this]; norm_num
  have hlT : lancT ll 0 y 0 = T := by
    rw [lancT, if_pos one_pos, hT, hyv]; norm_num
  have hstep : householderStep 0 T ll 0 = .ok 0 := by
    unfold householderStep
    have h0 := tofEquationY_eq (T0 := T) hL (M := 0) (by norm_num) (Or.inl rfl)
    rw [hlT, sub_self, Nat.cast_zero] at h0
    rw [hy, ok_bind, h0, ok_bind]
    simp only [tofP, tofP2, tofP3]
    have hy0 := hL.y_pos
    rw [pdiv_eq hy0.ne', ok_bind, pdiv_eq (by norm_num), ok_bind, pdiv_eq (by positivity), ok_bind,
      pdiv_eq (by norm_num), ok_bind, pdiv_eq (by positivity), ok_bind, pdiv_eq (by norm_num), ok_bind,
      pdiv_eq (by norm_num), ok_bind]
    norm_num
  have hhh : householder T ll 0 atol rtol (n + 1) 0 = .ok 0 := by
    unfold householder
    rw [hstep, ok_bind, if_pos]
    simpa using ha
  have hfl : ⌊T / Real.pi⌋ = 0 := by
    rw [Int.floor_eq_zero_iff]
    exact ⟨by positivity, by rw [div_lt_one Real.pi_pos]; exact hTpi⟩
  have hgue : initialGuess T ll 0 low = .ok 0 := by
    unfold initialGuess initialGuess0
    rw [if_pos rfl, pacos, if_pos ⟨hl'.1.le, hl'.2.le⟩, ok_bind, psqrt_eq (by linarith), ok_bind]
    have e : Real.arccos ll + ll * Real.sqrt (1 - ll ^ 2) + ((0 : ℤ) : ℝ) * Real.pi = T := by
      rw [hT]; push_cast; ring
    simp only [e]
    rw [if_pos le_rfl, pdiv_eq hT0.ne', ok_bind, div_self hT0.ne', prpow, if_pos (Or.inl one_pos),
      ok_bind, Real.one_rpow, sub_self]
  have hfind : findXY ll T 0 (n + 1) atol rtol low = .ok (0, y) := by
    unfold findXY
    rw [raiseIf_neg _ (not_not.2 (abs_lt.2 hl')), ok_bind, pacos, if_pos ⟨hl'.1.le, hl'.2.le⟩, ok_bind,
      psqrt_eq (by linarith), ok_bind]
    simp only [refineMMax, hfl]
    rw [if_neg (by simp), ok_bind, raiseIf_neg _ (by simp), ok_bind, hgue, ok_bind, hhh, ok_bind, hy]
    rfl
  have hc := hS.cpos
  have hrho : 0 ≤ 1 - ((V3.norm r1 - V3.norm r2) / V3.norm (r2 - r1)) ^ 2 := by
    rw [div_pow, sub_nonneg, div_le_one (by positivity), sub_norm_sq]
    linarith [(abs_lt.1 (abs_dot_lt hna)).2]
  refine ⟨T / Real.sqrt (2 * mu / s ^ 3), ?_⟩
  have e : Real.sqrt (2 * mu / s ^ 3) * (T / Real.sqrt (2 * mu / s ^ 3)) = T := by field_simp
  unfold izzo2015
  rw [hgeo]
  simp only [ok_bind]
  rw [pdiv_eq (by positivity), ok_bind, psqrt_eq (by positivity), ok_bind, e, hfind, ok_bind,
    psqrt_eq (by positivity), ok_bind, pdiv_eq hc.ne', ok_bind, psqrt_eq hrho, ok_bind]
  simp only [reconstruct]
  rw [pdiv_eq hG.R1.ne', ok_bind, pdiv_eq hG.R2.ne', ok_bind, pdiv_eq hG.R1.ne', ok_bind,
    pdiv_eq hG.R2.ne', ok_bind, ok_bind]
  simp only [vdiv, if_neg hG.R1.ne', if_neg hG.R2.ne', ok_bind]
  exact ⟨_, _, by positivity, rfl⟩

/-- Non-vacuity of `izzo_kepler_transfer_partial`: a quarter turn in the equatorial plane. -/
example : ∃ tof v1 v2, izzo2015 1 ⟨1, 0, 0⟩ ⟨0, 1, 0⟩ tof ((0 : ℕ) : ℤ) true true 35 1e-5 1e-7 =
    .ok (v1, v2) ∧ NotPolar ⟨1, 0, 0⟩ ⟨0, 1, 0⟩ := by
  have hna : NotAligned ⟨1, 0, 0⟩ ⟨0, 1, 0⟩ := by simp [NotAligned]
  obtain ⟨tof, v1, v2, _, h⟩ := izzo_returns_minimum_energy one_pos hna true true 34
    (atol := 1e-5) (by norm_num) 1e-7
  exact ⟨tof, v1, v2, h, by simp [NotPolar]⟩

end Lamberthub
