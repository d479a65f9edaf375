import Verif.Props.LowPath
import Mathlib.Analysis.SpecialFunctions.Trigonometric.Bounds

/-!
# C55: the bound `izzo2015` puts on the number of revolutions

`_find_xy` computes the largest number of revolutions `M_max` for which a transfer exists and
refuses larger requests.  `Spec.Feasible` says that a transfer exists.
-/

set_option autoImplicit false

namespace Lamberthub
open Spec LC Set

/-- A Kepler transfer with `M` complete revolutions and the given sense exists. -/
def Spec.Feasible (mu : ℝ) (r1 r2 : V3) (pro : Bool) (T : ℝ) (M : ℕ) : Prop :=
  ∃ v1 v2, LambertArc mu r1 r2 v1 v2 T M ∧ Sense pro r1 v1

/-- The geometry determines the semiperimeter and Lancaster's `λ`. -/
theorem semi_unique {R1 R2 c s s' lam lam' : ℝ} (h : Semi R1 R2 c s lam) (h' : Semi R1 R2 c s' lam')
    (hl : lam ≠ 0) (hp : 0 < lam ↔ 0 < lam') : s' = s ∧ lam' = lam := by
  have e1 : s' = s := by
    have := h.sum
    have := h.chord
    have := h'.sum
    have := h'.chord
    linarith
  refine ⟨e1, ?_⟩
  have e2 : lam' ^ 2 = lam ^ 2 := by
    have h3 := h.sum
    have h4 := h'.sum
    rw [e1, h3] at h4
    have := mul_left_cancel₀ h.spos.ne' h4
    linarith
  rcases sq_eq_sq_iff_eq_or_eq_neg.1 e2 with h5 | h5
  · exact h5
  · exfalso
    rcases lt_or_gt_of_ne hl with h6 | h6
    · have := hp.2 (by linarith); linarith
    · have := hp.1 h6; linarith

/-- Transfers with `M ≥ 1` revolutions exist exactly from the least time of the time curve on. -/
theorem feasible_iff {mu : ℝ} (hmu : 0 < mu) {r1 r2 : V3} (hnp : NotPolar r1 r2) {pro : Bool} {s lam : ℝ}
    (hS : Semi (V3.norm r1) (V3.norm r2) (V3.norm (r2 - r1)) s lam) (hl0 : lam ≠ 0)
    (hsh : 0 < lam ↔ ShortWay pro r1 r2) {M : ℕ} (hM : 1 ≤ M) {m : ℝ} (hm : Fastest lam M m) (tof : ℝ) :
    Feasible mu r1 r2 pro tof M ↔ revT lam M m ≤ Real.sqrt (2 * mu / s ^ 3) * tof := by
  obtain ⟨s', lam', hS', hl0', hsh', hG', harc⟩ := rev_arcs hmu hnp pro
  obtain ⟨rfl, rfl⟩ := semi_unique hS hS' hl0 (hsh.trans hsh'.symm)
  have hs := hS.spos
  have hκ : 0 < Real.sqrt (s' ^ 3 / (2 * mu)) := by positivity
  have hκ1 : Real.sqrt (2 * mu / s' ^ 3) * Real.sqrt (s' ^ 3 / (2 * mu)) = 1 := by
    rw [← Real.sqrt_mul (by positivity), show 2 * mu / s' ^ 3 * (s' ^ 3 / (2 * mu)) = 1 by field_simp, Real.sqrt_one]
  constructor
  · rintro ⟨v1, v2, ha, hse⟩
    obtain ⟨x, h1, h2, rfl, -⟩ := (harc hM tof (v1, v2)).1 ⟨ha, hse⟩
    rw [← mul_assoc, hκ1, one_mul]
    exact hm.least x ⟨h1, h2⟩
  · intro h
    obtain ⟨m', h0, h1, -, -, hmin, hu, hsol⟩ := revT_solutions hS'.lam_lt hM
    have hme : m = m' := hu m hm.mem.1 hm.mem.2
      (le_antisymm (hm.least m' ⟨by linarith, by linarith⟩) (hmin m hm.mem.1 hm.mem.2))
    have hx : ∃ x, -1 < x ∧ x < 1 ∧ revT lam' M x = Real.sqrt (2 * mu / s' ^ 3) * tof := by
      rcases h.eq_or_lt with h3 | h3
      · exact ⟨m, hm.mem.1, hm.mem.2, h3⟩
      · rw [hme] at h3
        obtain ⟨a, b, ha, ham, -, -, hT, -⟩ := hsol _ h3
        exact ⟨a, ha, by linarith, hT⟩
    obtain ⟨x, hx1, hx2, hxT⟩ := hx
    have := (harc hM tof (revV mu r1 r2 s' lam' x)).2 ⟨x, hx1, hx2, by
      rw [hxT, ← mul_assoc, mul_comm (Real.sqrt (s' ^ 3 / (2 * mu))), hκ1, one_mul], rfl⟩
    exact ⟨_, _, this⟩

theorem revT_at_zero (lam : ℝ) (M : ℕ) :
    revT lam M 0 = Real.arccos lam + lam * Real.sqrt (1 - lam ^ 2) + M * Real.pi := by
  unfold revT lancT lancY
  rw [if_pos one_pos]
  norm_num
  ring

namespace Izzo

theorem tofEquation_eq {lam x T0 : ℝ} (hl : lam ^ 2 < 1) {M : ℕ} (h1 : -1 < x) (h2 : x < 1) :
    tofEquation x T0 lam (M : ℤ) = .ok (revT lam M x - T0) := by
  obtain ⟨y, hy, hL⟩ := computeY_eq (x := x) hl
  have hyv : y = lancY lam x := (psqrt_ok.1 hy).2
  rw [tofEquation, hy, ok_bind, tofEquationY_eq hL h1 (.inr h2), hyv]
  rfl

/-- The value `_halley` returns is one step from an iterate it satisfies the convergence test with;
`I` is any invariant of the step. -/
theorem halley_ok {T0 ll atol rtol : ℝ} (I : ℝ → Prop)
    (hI : ∀ q f1 f2 f3, I q → f1 = lancT1 ll q (lancY ll q) T0 → f2 = lancT2 ll q (lancY ll q) T0 f1 →
      f3 = lancT3 ll q (lancY ll q) f1 f2 → I (q - 2 * f1 * f2 / (2 * f2 ^ 2 - f1 * f3))) :
    ∀ {n : ℕ} {p0 p : ℝ}, halley T0 ll atol rtol n p0 = .ok p → I p0 →
      ∃ q f1 f2 f3, I q ∧ f1 = lancT1 ll q (lancY ll q) T0 ∧ f2 = lancT2 ll q (lancY ll q) T0 f1 ∧
        f3 = lancT3 ll q (lancY ll q) f1 f2 ∧ 2 * f2 ^ 2 - f1 * f3 ≠ 0 ∧
        p = q - 2 * f1 * f2 / (2 * f2 ^ 2 - f1 * f3) ∧ |p - q| < rtol * |q| + atol := by
  intro n
  induction n with
  | zero => intro p0 p h; simp [halley] at h
  | succ n ih =>
    intro p0 p h hp0
    unfold halley at h
    simp only [bind_ok, tofP, tofP2, tofP3, pdiv_ok, raiseIf_ok] at h
    obtain ⟨y, hy, f1, ⟨_, ⟨-, rfl⟩, -, hf1⟩, f2, ⟨_, ⟨-, rfl⟩, -, hf2⟩, _, -, f3, ⟨_, ⟨-, rfl⟩, -, hf3⟩, st, ⟨hd, rfl⟩, h⟩ := h
    have hyv : y = lancY ll p0 := (psqrt_ok.1 hy).2
    subst hyv
    split at h
    · rename_i hc
      obtain rfl := Except.ok.inj h
      exact ⟨p0, f1, f2, f3, hp0, hf1, hf2, hf3, hd, rfl, hc⟩
    · exact ih h (hI p0 f1 f2 f3 hp0 hf1 hf2 hf3)

/-- `_compute_T_min` evaluates the time at the point found by `_halley`, which never updates the
time it is given (that of `x = 0.1`). -/
theorem computeTMin_ok {ll : ℝ} (hl : ll ^ 2 < 1) {M : ℕ} (hM : 1 ≤ M) {maxiter : ℕ} {atol rtol t : ℝ}
    (h : computeTMin ll M maxiter atol rtol = .ok t) :
    ∃ p, halley (revT ll M (1 / 10)) ll atol rtol maxiter (1 / 10) = .ok p ∧ tofEquation p 0 ll M = .ok t := by
  unfold computeTMin at h
  rw [if_neg (by rintro rfl; norm_num at hl), if_neg (by omega),
    show (0.1 : ℝ) = 1 / 10 by norm_num, tofEquation_eq hl (by norm_num) (by norm_num), ok_bind, sub_zero, bind_ok] at h
  exact h

end Izzo

open Izzo in
/-- **C55, `izzo2015`.**  Every number of revolutions not above `M_max` is feasible; every
feasible number is at most `M_max + 1`, and it exceeds `M_max` only when the time of flight is
smaller than the time at the point `_halley` takes for the fastest transfer.

Missing for the full claim: exactly that last case (`izzo_feasible_refused` shows that it occurs),
and a proof that the point found by `_halley` is an elliptic one (`hp`). -/
theorem izzo_revolutions_partial {mu : ℝ} (hmu : 0 < mu) {r1 r2 : V3} (hnp : NotPolar r1 r2) {pro : Bool} {s ll : ℝ}
    {it1 it2 : V3} (hgeo : geometry r1 r2 pro = .ok (s, ll, it1, it2)) {tof T : ℝ} (ht : 0 < tof)
    (hT : T = Real.sqrt (2 * mu / s ^ 3) * tof) {maxiter : ℕ} {atol rtol : ℝ} {mMax : ℤ}
    (h : refineMMax ll T (Real.arccos ll + ll * Real.sqrt (1 - ll ^ 2)) maxiter atol rtol = .ok mMax)
    (hp : ∀ (M : ℕ) (p : ℝ), halley (revT ll M (1 / 10)) ll atol rtol maxiter (1 / 10) = .ok p → -1 < p ∧ p < 1)
    {M : ℕ} (hM : 1 ≤ M) :
    ((M : ℤ) ≤ mMax → Feasible mu r1 r2 pro tof M) ∧
      (Feasible mu r1 r2 pro tof M → (M : ℤ) ≤ mMax ∨ (M : ℤ) = mMax + 1 ∧
        ∃ p, halley (revT ll M (1 / 10)) ll atol rtol maxiter (1 / 10) = .ok p ∧ T < revT ll M p) := by
  obtain ⟨ε, hε, hG, hS, hεl, -, -, hsw⟩ := geometry_ok hgeo
  have hs := hS.spos
  have hl := hS.lam_lt
  have hl0 : ll ≠ 0 := fun h => hG.hA (by rw [h, mul_zero])
  have hsh : 0 < ll ↔ ShortWay pro r1 r2 := by
    rw [← hsw hnp]
    exact ⟨fun h => pos_of_mul_pos_left hεl h.le, fun h => pos_of_mul_pos_right hεl h.le⟩
  have hpi := Real.pi_pos
  have hTp : 0 < T := by rw [hT]; positivity
  obtain ⟨hT0, hTpi⟩ := T00_bounds hl
  -- feasible numbers
  have hfe : ∀ {k : ℕ}, 1 ≤ k → (∃ x, -1 < x ∧ x < 1 ∧ revT ll k x ≤ T) → Feasible mu r1 r2 pro tof k := by
    rintro k hk ⟨x, h1, h2, hx⟩
    obtain ⟨m, hm⟩ := exists_fastest hl hk
    rw [feasible_iff hmu hnp hS hl0 hsh hk hm, ← hT]
    exact (hm.least x ⟨h1, h2⟩).trans hx
  have hfl : (M : ℤ) < ⌊T / Real.pi⌋ → Feasible mu r1 r2 pro tof M := by
    intro h1
    refine hfe hM ⟨0, by norm_num, by norm_num, ?_⟩
    rw [revT_at_zero]
    have h2 : ((M + 1 : ℤ) : ℝ) ≤ T / Real.pi := Int.le_floor.1 (by omega)
    rw [le_div_iff₀ hpi] at h2
    push_cast at h2
    linarith
  have hgt : Feasible mu r1 r2 pro tof M → (M : ℤ) ≤ ⌊T / Real.pi⌋ := by
    intro hf
    obtain ⟨m, hm⟩ := exists_fastest hl hM
    rw [feasible_iff hmu hnp hS hl0 hsh hM hm, ← hT] at hf
    have := revT_gt hl hm.mem.1 hm.mem.2 M
    rw [Int.le_floor, le_div_iff₀ hpi]
    push_cast
    linarith
  unfold refineMMax at h
  split at h
  · rename_i hc
    rw [bind_ok] at h
    obtain ⟨Tm, hTm, h⟩ := h
    have h := Except.ok.inj h
    obtain ⟨k, hk⟩ : ∃ k : ℕ, ⌊T / Real.pi⌋ = (k : ℤ) := ⟨_, (Int.toNat_of_nonneg hc.2.le).symm⟩
    have hk1 : 1 ≤ k := by have := hc.2; omega
    rw [hk] at hTm h hfl hgt
    obtain ⟨p, hh, ht⟩ := computeTMin_ok hl hk1 hTm
    obtain ⟨hp1, hp2⟩ := hp k p hh
    rw [tofEquation_eq hl hp1 hp2, sub_zero] at ht
    obtain rfl := Except.ok.inj ht
    split at h
    · rename_i hlt
      refine ⟨fun h1 => hfl (by omega), fun hf => ?_⟩
      have := hgt hf
      rcases this.lt_or_eq with h2 | h2
      · left; omega
      · right
        have : M = k := by omega
        subst this
        exact ⟨by omega, p, hh, hlt⟩
    · rename_i hge
      push Not at hge
      refine ⟨fun h1 => ?_, fun hf => .inl (by have := hgt hf; omega)⟩
      rcases (show (M : ℤ) ≤ k by omega).lt_or_eq with h2 | h2
      · exact hfl h2
      · have : M = k := by omega
        subst this
        exact hfe hM ⟨p, hp1, hp2, hge⟩
  · rename_i hc
    have h := Except.ok.inj h
    subst h
    refine ⟨fun h1 => ?_, fun hf => .inl (hgt hf)⟩
    rcases h1.lt_or_eq with h2 | h2
    · exact hfl h2
    · have h3 : T ≥ Real.arccos ll + ll * Real.sqrt (1 - ll ^ 2) + ⌊T / Real.pi⌋ * Real.pi := by
        by_contra hn
        push Not at hn
        exact hc ⟨hn, by omega⟩
      rw [← h2] at h3
      push_cast at h3
      exact hfe hM ⟨0, by norm_num, by norm_num, by rw [revT_at_zero]; linarith⟩

open Izzo in
/-- The theorem for every pair of positions: at the time of flight of the minimum-energy transfer
with three revolutions `M_max` is three, whatever the tolerances. -/
example {mu : ℝ} (hmu : 0 < mu) {r1 r2 : V3} (hnp : NotPolar r1 r2) (pro : Bool) (atol rtol : ℝ) :
    ∃ s ll it1 it2 tof T, geometry r1 r2 pro = .ok (s, ll, it1, it2) ∧ 0 < tof ∧ T = Real.sqrt (2 * mu / s ^ 3) * tof ∧
      refineMMax ll T (Real.arccos ll + ll * Real.sqrt (1 - ll ^ 2)) 0 atol rtol = .ok 3 ∧
      Feasible mu r1 r2 pro tof 3 ∧ ¬ Feasible mu r1 r2 pro tof 5 := by
  obtain ⟨s, ll, it1, it2, hgeo⟩ := geometry_eq (fun h => hnp h.2.2) pro
  obtain ⟨ε, hε, hG, hS, -⟩ := geometry_ok hgeo
  have hs := hS.spos
  obtain ⟨hT0, hTpi⟩ := T00_bounds hS.lam_lt
  have hpi := Real.pi_pos
  have hq : 0 < Real.sqrt (2 * mu / s ^ 3) := by positivity
  set T0 := Real.arccos ll + ll * Real.sqrt (1 - ll ^ 2) with hT0d
  have hfl : ⌊(T0 + 3 * Real.pi) / Real.pi⌋ = 3 := by
    rw [Int.floor_eq_iff, le_div_iff₀ hpi, div_lt_iff₀ hpi]
    push_cast
    constructor <;> linarith
  have hr : refineMMax ll (T0 + 3 * Real.pi) T0 0 atol rtol = .ok 3 := by
    unfold refineMMax
    rw [hfl, if_neg (by push_cast; rintro ⟨h, -⟩; exact lt_irrefl _ h)]
  have ht : T0 + 3 * Real.pi = Real.sqrt (2 * mu / s ^ 3) * ((T0 + 3 * Real.pi) / Real.sqrt (2 * mu / s ^ 3)) := by
    field_simp
  have hp : ∀ (M : ℕ) (p : ℝ), halley (revT ll M (1 / 10)) ll atol rtol 0 (1 / 10) = .ok p → -1 < p ∧ p < 1 := by
    intro M p h; simp [halley] at h
  have h0 : 0 < (T0 + 3 * Real.pi) / Real.sqrt (2 * mu / s ^ 3) := by positivity
  refine ⟨s, ll, it1, it2, _, _, hgeo, h0, ht, hr, ?_, ?_⟩
  · exact (izzo_revolutions_partial hmu hnp hgeo h0 ht hr hp (M := 3) (by norm_num)).1 (by norm_num)
  · intro hf
    rcases (izzo_revolutions_partial hmu hnp hgeo h0 ht hr hp (M := 5) (by norm_num)).2 hf with h | ⟨h, -⟩ <;> norm_num at h

/-! ## A feasible request that is refused -/

namespace Izzo

theorem lancY_half_bounds {x : ℝ} (h : |x| ≤ 1 / 10) : 866 / 1000 ≤ lancY (1 / 2) x ∧ lancY (1 / 2) x ≤ 868 / 1000 := by
  have h2 : x ^ 2 ≤ 1 / 100 := by
    have := abs_le.1 h
    nlinarith
  unfold lancY
  constructor
  · apply Real.le_sqrt_of_sq_le
    nlinarith [sq_nonneg x]
  · rw [Real.sqrt_le_left (by norm_num)]
    nlinarith [sq_nonneg x]

/-- The time `_halley` works with, for `λ = 1/2` and ten revolutions. -/
theorem start_bounds : 3314 / 100 ≤ revT (1 / 2) 10 (1 / 10) ∧ revT (1 / 2) 10 (1 / 10) ≤ 333 / 10 := by
  obtain ⟨hy1, hy2⟩ := lancY_half_bounds (x := 1 / 10) (by norm_num)
  have hy0 : (867 : ℝ) / 1000 ≤ lancY (1 / 2) (1 / 10) := by
    unfold lancY; apply Real.le_sqrt_of_sq_le; norm_num
  have hp1 := Real.pi_gt_d4
  have hp2 := Real.pi_lt_d4
  unfold revT lancT
  rw [if_pos (by norm_num)]
  generalize lancY (1 / 2) (1 / 10) = y at *
  have hw1 : (9949 : ℝ) / 10000 ≤ Real.sqrt (1 - (1 / 10) ^ 2) := by apply Real.le_sqrt_of_sq_le; norm_num
  have hw2 : Real.sqrt (1 - (1 / 10) ^ 2) ≤ 9950 / 10000 := by rw [Real.sqrt_le_left (by norm_num)]; norm_num
  generalize Real.sqrt (1 - (1 / 10) ^ 2) = w at *
  have ha1 : (9 : ℝ) / 10 ≤ Real.arccos (1 / 10 * y + 1 / 2 * (1 - (1 / 10) ^ 2)) := by
    rw [← Real.arccos_cos (x := 9 / 10) (by norm_num) (by linarith)]
    apply Real.arccos_le_arccos
    have := Real.one_sub_sq_div_two_le_cos (x := 9 / 10)
    norm_num at this ⊢
    linarith
  have ha2 : Real.arccos (1 / 10 * y + 1 / 2 * (1 - (1 / 10) ^ 2)) ≤ Real.pi / 3 := by
    rw [← Real.arccos_cos (x := Real.pi / 3) (by linarith) (by linarith), Real.cos_pi_div_three]
    apply Real.arccos_le_arccos
    norm_num
    linarith
  generalize Real.arccos _ = ψ at *
  have hw0 : 0 < w := by linarith
  constructor
  · have h : (32477 : ℝ) / 1000 ≤ (ψ + ((10 : ℕ) : ℝ) * Real.pi) / w := by
      rw [le_div_iff₀ hw0]; push_cast; norm_num at *; linarith
    rw [le_div_iff₀ (by norm_num)]
    norm_num at *
    linarith
  · have h : (ψ + ((10 : ℕ) : ℝ) * Real.pi) / w ≤ 3263 / 100 := by
      rw [div_le_iff₀ hw0]; push_cast; norm_num at *; linarith
    rw [div_le_iff₀ (by norm_num)]
    norm_num at *
    linarith

/-- Sizes of the three derivatives the step uses, on `[0, 1/10]`. -/
theorem deriv_bounds {T q f1 f2 f3 : ℝ} (hT1 : 3314 / 100 ≤ T) (hT2 : T ≤ 333 / 10) (hq0 : 0 ≤ q) (hq1 : q ≤ 1 / 10)
    (h1 : f1 = lancT1 (1 / 2) q (lancY (1 / 2) q) T) (h2 : f2 = lancT2 (1 / 2) q (lancY (1 / 2) q) T f1)
    (h3 : f3 = lancT3 (1 / 2) q (lancY (1 / 2) q) f1 f2) :
    3 * T * q - 2 ≤ f1 * (1 - q ^ 2) ∧ f1 * (1 - q ^ 2) ≤ 3 * T * q - 2 + 3 / 10 * q ∧
      3 * T + 5 * q * f1 ≤ f2 * (1 - q ^ 2) ∧ f2 * (1 - q ^ 2) ≤ 3 * T + 5 * q * f1 + 3 / 10 ∧
      7 * q * f2 + 8 * f1 - 3 / 10 * q ≤ f3 * (1 - q ^ 2) ∧ f3 * (1 - q ^ 2) ≤ 7 * q * f2 + 8 * f1 := by
  have hy := (lancY_half_bounds (x := q) (abs_le.2 ⟨by linarith, hq1⟩)).1
  have hw : (1 - q ^ 2) ≠ 0 := by nlinarith
  have hy0 : 0 < lancY (1 / 2) q := by linarith
  have e1 : f1 * (1 - q ^ 2) = 3 * T * q - 2 + 2 * (1 / 2) ^ 3 * q / lancY (1 / 2) q := by rw [h1, lancT1]; field_simp
  have e2 : f2 * (1 - q ^ 2) = 3 * T + 5 * q * f1 + 2 * (1 - (1 / 2) ^ 2) * (1 / 2) ^ 3 / lancY (1 / 2) q ^ 3 := by
    rw [h2, lancT2, div_mul_cancel₀ _ hw]
  have e3 : f3 * (1 - q ^ 2) = 7 * q * f2 + 8 * f1 - 6 * (1 - (1 / 2) ^ 2) * (1 / 2) ^ 5 * q / lancY (1 / 2) q ^ 5 := by
    rw [h3, lancT3, div_mul_cancel₀ _ hw]
  have a1 : 0 ≤ 2 * (1 / 2) ^ 3 * q / lancY (1 / 2) q := by positivity
  have b1 : 2 * (1 / 2) ^ 3 * q / lancY (1 / 2) q ≤ 3 / 10 * q := by
    rw [div_le_iff₀ hy0]; nlinarith
  have hy3 : (866 / 1000 : ℝ) ^ 3 ≤ lancY (1 / 2) q ^ 3 := pow_le_pow_left₀ (by norm_num) hy 3
  have hy5 : (866 / 1000 : ℝ) ^ 5 ≤ lancY (1 / 2) q ^ 5 := pow_le_pow_left₀ (by norm_num) hy 5
  have a2 : 0 ≤ 2 * (1 - (1 / 2) ^ 2) * (1 / 2) ^ 3 / lancY (1 / 2) q ^ 3 := by
    apply div_nonneg (by norm_num); positivity
  have b2 : 2 * (1 - (1 / 2) ^ 2) * (1 / 2) ^ 3 / lancY (1 / 2) q ^ 3 ≤ 3 / 10 := by
    rw [div_le_iff₀ (by positivity)]; norm_num at hy3 ⊢; linarith
  have a3 : 0 ≤ 6 * (1 - (1 / 2) ^ 2) * (1 / 2) ^ 5 * q / lancY (1 / 2) q ^ 5 := by
    apply div_nonneg _ (by positivity); norm_num; linarith
  have b3 : 6 * (1 - (1 / 2) ^ 2) * (1 / 2) ^ 5 * q / lancY (1 / 2) q ^ 5 ≤ 3 / 10 * q := by
    rw [div_le_iff₀ (by positivity)]; norm_num at hy5 ⊢; nlinarith
  refine ⟨by linarith, by linarith, by linarith, by linarith, by linarith, by linarith⟩

set_option maxHeartbeats 2000000 in
/-- The step maps `[0, 1/10]` to itself. -/
theorem step_mem {T q f1 f2 f3 : ℝ} (hT1 : 3314 / 100 ≤ T) (hT2 : T ≤ 333 / 10) (hq : q ∈ Icc 0 (1 / 10))
    (h1 : f1 = lancT1 (1 / 2) q (lancY (1 / 2) q) T) (h2 : f2 = lancT2 (1 / 2) q (lancY (1 / 2) q) T f1)
    (h3 : f3 = lancT3 (1 / 2) q (lancY (1 / 2) q) f1 f2) :
    q - 2 * f1 * f2 / (2 * f2 ^ 2 - f1 * f3) ∈ Icc 0 (1 / 10) := by
  obtain ⟨hq0, hq1⟩ := hq
  obtain ⟨l1, u1, l2, u2, l3, u3⟩ := deriv_bounds hT1 hT2 hq0 hq1 h1 h2 h3
  clear h1 h2 h3
  have hw1 : 99 / 100 ≤ 1 - q ^ 2 := by nlinarith
  have hw2 : 1 - q ^ 2 ≤ 1 := by nlinarith
  obtain ⟨w, hw⟩ : ∃ w, w = 1 - q ^ 2 := ⟨_, rfl⟩
  rw [← hw] at *
  have hTq : 3 * T * q ≤ 999 / 100 := by nlinarith
  have hTq0 : 3 * (3314 / 100) * q ≤ 3 * T * q := by nlinarith
  have hTq1 : 3 * T * q ≤ 3 * (333 / 10) * q := by nlinarith
  have hf1l : -(203 / 100) ≤ f1 := by
    by_contra h; push Not at h; nlinarith
  have hf1u : f1 ≤ 82 / 10 := by
    by_contra h; push Not at h; nlinarith
  have hqf1 : 5 * q * f1 ≤ 41 / 10 := by nlinarith
  have hqf1' : -(1 / 9) ≤ 5 * q * f1 := by
    rcases le_or_gt 0 f1 with h | h
    · have : 0 ≤ 5 * q * f1 := by positivity
      linarith
    · have hq2 : q ≤ 203 / 10000 := by nlinarith
      nlinarith
  have hf2l : 993 / 10 ≤ f2 := by
    by_contra h; push Not at h; nlinarith
  have hf2u : f2 ≤ 1055 / 10 := by
    by_contra h; push Not at h; nlinarith
  have hf2p : 0 < f2 := by linarith
  rcases le_or_gt 0 f1 with h | h
  · have hqf2 : q * f2 ≤ 1055 / 100 := by nlinarith
    have hqf2' : 0 ≤ q * f2 := by positivity
    have hf3u : f3 ≤ 142 := by
      by_contra h'; push Not at h'; nlinarith
    have hf3l : 0 ≤ f3 := by
      by_contra h'; push Not at h'; nlinarith
    -- D is close to 2 f2²
    have hD : 2 * f2 ^ 2 * (94 / 100) ≤ 2 * f2 ^ 2 - f1 * f3 := by
      have h5 : f1 * f3 ≤ 82 / 10 * 142 := mul_le_mul hf1u hf3u hf3l (by norm_num)
      have h6 : (993 / 10 : ℝ) ^ 2 ≤ f2 ^ 2 := pow_le_pow_left₀ (by norm_num) hf2l 2
      norm_num at h6
      linarith
    have hD0 : 0 < 2 * f2 ^ 2 - f1 * f3 := lt_of_lt_of_le (by positivity) hD
    constructor
    · rw [sub_nonneg, div_le_iff₀ hD0]
      have hf1q : f1 ≤ 94 / 100 * (f2 * q) := by
        have : f1 * (99 / 100) ≤ 3 * (333 / 10) * q - 2 + 3 / 10 * q := by nlinarith
        nlinarith
      have h5 : q * (2 * f2 ^ 2 * (94 / 100)) ≤ q * (2 * f2 ^ 2 - f1 * f3) := mul_le_mul_of_nonneg_left hD hq0
      have h6 : f1 * f2 ≤ 94 / 100 * (f2 * q) * f2 := mul_le_mul_of_nonneg_right hf1q hf2p.le
      linarith
    · have : 0 ≤ 2 * f1 * f2 / (2 * f2 ^ 2 - f1 * f3) := by positivity
      linarith
  · have hq2 : q ≤ 203 / 10000 := by nlinarith
    have hqf2' : 0 ≤ q * f2 := by positivity
    have hf3l : -17 ≤ f3 := by
      by_contra h'; push Not at h'; nlinarith
    have hff : f1 * f3 ≤ 35 := by
      rcases le_or_gt 0 f3 with h7 | h7
      · nlinarith
      · nlinarith
    have h6 : (993 / 10 : ℝ) ^ 2 ≤ f2 ^ 2 := pow_le_pow_left₀ (by norm_num) hf2l 2
    have hD0 : 19600 ≤ 2 * f2 ^ 2 - f1 * f3 := by norm_num at h6; linarith
    have hDp : 0 < 2 * f2 ^ 2 - f1 * f3 := by linarith
    constructor
    · have : 2 * f1 * f2 / (2 * f2 ^ 2 - f1 * f3) ≤ 0 :=
        div_nonpos_of_nonpos_of_nonneg
          (mul_nonpos_of_nonpos_of_nonneg (by linarith) hf2p.le) hDp.le
      linarith
    · have : -(5 / 100) ≤ 2 * f1 * f2 / (2 * f2 ^ 2 - f1 * f3) := by
        have h8 : -f1 * f2 ≤ 203 / 100 * (1055 / 10) := mul_le_mul (by linarith) hf2u hf2p.le (by norm_num)
        rw [le_div_iff₀ hDp]
        linarith
      linarith

/-- Where the fastest transfer is. -/
theorem fastest_bounds {m : ℝ} (hm : Fastest (1 / 2) 10 m) :
    187 / 10000 ≤ m ∧ m ≤ 213 / 10000 ∧ revT (1 / 2) 10 m ≤ 329 / 10 ∧
      3 * revT (1 / 2) 10 m * m - 2 + 2 * (1 / 2) ^ 3 * m / lancY (1 / 2) m = 0 := by
  have hl : (1 / 2 : ℝ) ^ 2 < 1 := by norm_num
  obtain ⟨hm0, hm1, -, -⟩ := hm.valley hl (by norm_num)
  have hp1 := Real.pi_gt_d4
  have hp2 := Real.pi_lt_d4
  norm_num at hp1 hp2
  have hgt := revT_gt hl hm.mem.1 hm.mem.2 10
  have hle : revT (1 / 2) 10 m ≤ 329 / 10 := by
    refine (hm.least 0 (by norm_num)).trans ?_
    have e := revT_at_zero (1 / 2) 10
    unfold revT at e
    rw [e]
    have h3 : Real.arccos (1 / 2) = Real.pi / 3 := by
      rw [← Real.cos_pi_div_three, Real.arccos_cos (by linarith) (by linarith)]
    have h4 : Real.sqrt (1 - (1 / 2) ^ 2) ≤ 867 / 1000 := by rw [Real.sqrt_le_left (by norm_num)]; norm_num
    rw [h3]
    push_cast
    linarith
  have hd := revT_hasDerivAt hl hm.mem.1 hm.mem.2 10
  have hmin : IsLocalMin (revT (1 / 2) 10) m := by
    filter_upwards [Ioo_mem_nhds hm.mem.1 hm.mem.2] with x hx
    exact hm.least x hx
  have h0 := hmin.hasDerivAt_eq_zero hd
  have hw : (1 - m ^ 2) ≠ 0 := by nlinarith
  rw [lancT1, div_eq_zero_iff, or_iff_left hw] at h0
  have hy : 866 / 1000 ≤ lancY (1 / 2) m := by
    unfold lancY; apply Real.le_sqrt_of_sq_le; nlinarith [sq_nonneg m]
  have hy0 : 0 < lancY (1 / 2) m := by linarith
  have a1 : 0 ≤ 2 * (1 / 2) ^ 3 * m / lancY (1 / 2) m := by positivity
  have b1 : 2 * (1 / 2) ^ 3 * m / lancY (1 / 2) m ≤ 29 / 100 * m := by
    rw [div_le_iff₀ hy0]; nlinarith
  push_cast at hgt
  generalize revT (1 / 2) 10 m = t at *
  refine ⟨?_, ?_, hle, h0⟩
  · by_contra h; push Not at h; nlinarith
  · by_contra h; push Not at h; nlinarith

set_option maxHeartbeats 1000000 in
/-- Whatever `_halley` accepts with the default tolerances is away from the fastest transfer. -/
theorem halley_misses {m : ℝ} (hm : Fastest (1 / 2) 10 m) {n : ℕ} {atol rtol p : ℝ} (ha : atol ≤ 1e-5) (hr : rtol ≤ 1e-7)
    (h : halley (revT (1 / 2) 10 (1 / 10)) (1 / 2) atol rtol n (1 / 10) = .ok p) :
    p ∈ Icc 0 (1 / 10) ∧ 1 / 100000 < |p - m| := by
  obtain ⟨hT1, hT2⟩ := start_bounds
  obtain ⟨hm1, hm2, hTm, hG⟩ := fastest_bounds hm
  obtain ⟨q, f1, f2, f3, hq, h1, h2, h3, -, hp, hc⟩ := halley_ok (fun q => q ∈ Icc 0 (1 / 10))
    (fun q f1 f2 f3 hq h1 h2 h3 => step_mem hT1 hT2 hq h1 h2 h3) h (by norm_num)
  refine ⟨hp ▸ step_mem hT1 hT2 hq h1 h2 h3, ?_⟩
  by_contra hn
  push Not at hn
  obtain ⟨hq0, hq1⟩ := hq
  have hc' : |p - q| < 11 / 1000000 := by
    rw [abs_of_nonneg hq0] at hc
    norm_num at ha hr
    nlinarith
  obtain ⟨c1, c2⟩ := abs_lt.1 hc'
  obtain ⟨d1, d2⟩ := abs_le.1 hn
  obtain ⟨l1, u1, l2, u2, l3, u3⟩ := deriv_bounds hT1 hT2 hq0 hq1 h1 h2 h3
  clear h3 h2 h
  have hqb1 : 186 / 10000 ≤ q := by linarith
  have hqb2 : q ≤ 214 / 10000 := by linarith
  have hyq := lancY_half_bounds (x := q) (by rw [abs_of_nonneg hq0]; exact hq1)
  have hym := lancY_half_bounds (x := m) (by rw [abs_of_nonneg (by linarith)]; linarith)
  -- the numerator of the first derivative, compared with the equation of the fastest transfer
  have hN : 1 / 100 ≤ f1 * (1 - q ^ 2) := by
    have hw : (1 - q ^ 2) ≠ 0 := by nlinarith
    have e1 : f1 * (1 - q ^ 2) = 3 * revT (1 / 2) 10 (1 / 10) * q - 2 + 2 * (1 / 2) ^ 3 * q / lancY (1 / 2) q := by
      rw [h1, lancT1, div_mul_cancel₀ _ hw]
    have a1 : 2 * (1 / 2) ^ 3 * q / (868 / 1000) ≤ 2 * (1 / 2) ^ 3 * q / lancY (1 / 2) q :=
      div_le_div_of_nonneg_left (by positivity) (by linarith) hyq.2
    have a2 : 2 * (1 / 2) ^ 3 * m / lancY (1 / 2) m ≤ 2 * (1 / 2) ^ 3 * m / (866 / 1000) :=
      div_le_div_of_nonneg_left (by positivity) (by norm_num) hym.1
    generalize revT (1 / 2) 10 (1 / 10) = T at *
    generalize revT (1 / 2) 10 m = t at *
    have h5 : 3 * T * (m - 21 / 1000000) ≤ 3 * T * q := mul_le_mul_of_nonneg_left (by linarith) (by linarith)
    have h6 : (24 / 100) * (187 / 10000) ≤ (T - t) * m := mul_le_mul (by linarith) hm1 (by norm_num) (by linarith)
    norm_num at a1 a2 h6
    linarith
  generalize revT (1 / 2) 10 (1 / 10) = T at *
  clear h1 hG hyq hym
  have hw1 : 999 / 1000 ≤ 1 - q ^ 2 := by nlinarith
  have hw2 : 1 - q ^ 2 ≤ 1 := by nlinarith
  generalize 1 - q ^ 2 = w at *
  have hwp : 0 < w := by linarith
  have low : ∀ {f : ℝ}, 0 ≤ f * w → f * w ≤ f ∧ f * (999 / 1000) ≤ f * w := fun {f} h' => by
    have hf : 0 ≤ f := nonneg_of_mul_nonneg_left h' hwp
    exact ⟨mul_le_of_le_one_right hf hw2, mul_le_mul_of_nonneg_left hw1 hf⟩
  obtain ⟨k1, k1'⟩ := low (f := f1) (by linarith)
  have hf1 : 1 / 100 ≤ f1 := by linarith
  have hTq : T * q ≤ 333 / 10 * (214 / 10000) := mul_le_mul hT2 hqb2 hq0 (by norm_num)
  have hf1u : f1 ≤ 2 / 10 := by linarith
  have hqf : q * f1 ≤ 214 / 10000 * (2 / 10) := mul_le_mul hqb2 hf1u (by linarith) (by norm_num)
  have hqf0 : 0 ≤ q * f1 := mul_nonneg hq0 (by linarith)
  obtain ⟨k2, k2'⟩ := low (f := f2) (by linarith)
  have hf2l : 99 ≤ f2 := by linarith
  have hf2u : f2 ≤ 101 := by linarith
  have hqf2 : q * f2 ≤ 214 / 10000 * 101 := mul_le_mul hqb2 hf2u (by linarith) (by norm_num)
  have hqf2' : 186 / 10000 * 99 ≤ q * f2 := mul_le_mul hqb1 hf2l (by norm_num) hq0
  obtain ⟨k3, k3'⟩ := low (f := f3) (by linarith)
  have hf3l : 0 ≤ f3 := by linarith
  have hf3u : f3 ≤ 20 := by linarith
  have hff : f1 * f3 ≤ 2 / 10 * 20 := mul_le_mul hf1u hf3u hf3l (by norm_num)
  have hff0 : 0 ≤ f1 * f3 := mul_nonneg (by linarith) hf3l
  have h6 : (99 : ℝ) ^ 2 ≤ f2 ^ 2 := pow_le_pow_left₀ (by norm_num) hf2l 2
  have hD : 0 < 2 * f2 ^ 2 - f1 * f3 := by norm_num at h6; linarith
  have hst : 1 / 20000 ≤ 2 * f1 * f2 / (2 * f2 ^ 2 - f1 * f3) := by
    rw [le_div_iff₀ hD]
    have : 1 / 100 * f2 ≤ f1 * f2 := mul_le_mul_of_nonneg_right hf1 (by linarith)
    have : f2 * f2 ≤ 101 * f2 := mul_le_mul_of_nonneg_right hf2u (by linarith)
    linarith
  rw [hp] at c1
  linarith

end Izzo

open Izzo in
/-- **C55 fails near the minimum time.**  Between two positions at the same distance there is a
window of times of flight for which transfers with ten revolutions exist, yet `izzo2015` returns
none, with the default tolerances or tighter ones, whatever the number of iterations: `_halley`
keeps the time of `x = 0.1` and so overestimates the least time. -/
theorem izzo_feasible_refused : ∃ tof1 tof2 : ℝ, 0 < tof1 ∧ tof1 < tof2 ∧ ∀ tof, tof1 ≤ tof → tof < tof2 →
    Feasible 1 ⟨5 / 2, 0, 0⟩ ⟨7 / 10, 12 / 5, 0⟩ true tof 10 ∧
      ∀ (low : Bool) (maxiter : ℕ) (atol rtol : ℝ), atol ≤ 1e-5 → rtol ≤ 1e-7 → ∀ v,
        izzo2015 1 ⟨5 / 2, 0, 0⟩ ⟨7 / 10, 12 / 5, 0⟩ tof 10 true low maxiter atol rtol ≠ .ok v := by
  have hnp : NotPolar ⟨5 / 2, 0, 0⟩ ⟨7 / 10, 12 / 5, 0⟩ := by simp [NotPolar]
  obtain ⟨s, ll, it1, it2, hgeo⟩ := geometry_eq (fun h => hnp h.2.2) true
  obtain ⟨ε, hε, hG, hS, hεl, -, -, hsw⟩ := geometry_ok hgeo
  have hl0 : ll ≠ 0 := fun h => hG.hA (by rw [h, mul_zero])
  have hSW : ShortWay true ⟨5 / 2, 0, 0⟩ ⟨7 / 10, 12 / 5, 0⟩ := by simp [ShortWay, crossZ]
  have hlp : 0 < ll := pos_of_mul_pos_right hεl ((hsw hnp).2 hSW).le
  have n1 : V3.norm ⟨5 / 2, 0, 0⟩ = 5 / 2 := by
    rw [V3.norm, Real.sqrt_eq_iff_mul_self_eq (by norm_num [V3.dot]) (by norm_num)]; norm_num [V3.dot]
  have n2 : V3.norm ⟨7 / 10, 12 / 5, 0⟩ = 5 / 2 := by
    rw [V3.norm, Real.sqrt_eq_iff_mul_self_eq (by norm_num [V3.dot]) (by norm_num)]; norm_num [V3.dot]
  have n3 : V3.norm (⟨7 / 10, 12 / 5, 0⟩ - ⟨5 / 2, 0, 0⟩) = 3 := by
    rw [V3.norm, Real.sqrt_eq_iff_mul_self_eq (by norm_num [V3.dot]) (by norm_num)]; norm_num [V3.dot]
  have hs4 : s = 4 := by
    have := hS.hs
    rw [n1, n2, n3] at this
    rw [this]; norm_num
  have hll : ll = 1 / 2 := by
    have := hS.sum
    rw [n1, n2, hs4] at this
    nlinarith
  have hsh : 0 < ll ↔ ShortWay true ⟨5 / 2, 0, 0⟩ ⟨7 / 10, 12 / 5, 0⟩ := by simp [hlp, hSW]
  subst hs4 hll
  have hl : (1 / 2 : ℝ) ^ 2 < 1 := by norm_num
  obtain ⟨m, hm⟩ := exists_fastest hl (by norm_num : 1 ≤ 10)
  obtain ⟨hm0, hm1, hanti, hmono⟩ := hm.valley hl (by norm_num)
  obtain ⟨hmb1, hmb2, -, -⟩ := fastest_bounds hm
  have hpi := Real.pi_pos
  have hκ : 0 < Real.sqrt (2 * 1 / 4 ^ 3) := by positivity
  have g1 := hanti (a := m - 1 / 100000) (b := m) ⟨by linarith, by linarith⟩ ⟨by linarith, le_rfl⟩ (by linarith)
  have g2 := hmono (a := m) (b := m + 1 / 100000) ⟨le_rfl, by linarith⟩ ⟨by linarith, by linarith⟩ (by linarith)
  have g3 := hanti (a := 0) (b := m) ⟨by norm_num, hm0.le⟩ ⟨by linarith, le_rfl⟩ hm0
  have hgt := revT_gt hl hm.mem.1 hm.mem.2 10
  have hz := revT_at_zero (1 / 2) 10
  obtain ⟨hT0, hTpi⟩ := T00_bounds hl
  obtain ⟨T2, hT2⟩ : ∃ T2, T2 = min (min (revT (1 / 2) 10 (m - 1 / 100000)) (revT (1 / 2) 10 (m + 1 / 100000)))
    (revT (1 / 2) 10 0) := ⟨_, rfl⟩
  have hlt : revT (1 / 2) 10 m < T2 := by rw [hT2]; exact lt_min (lt_min g1 g2) g3
  have h2a : T2 ≤ revT (1 / 2) 10 (m - 1 / 100000) := by rw [hT2]; exact (min_le_left _ _).trans (min_le_left _ _)
  have h2b : T2 ≤ revT (1 / 2) 10 (m + 1 / 100000) := by rw [hT2]; exact (min_le_left _ _).trans (min_le_right _ _)
  have h2c : T2 ≤ revT (1 / 2) 10 0 := by rw [hT2]; exact min_le_right _ _
  push_cast at hgt hz
  refine ⟨revT (1 / 2) 10 m / Real.sqrt (2 * 1 / 4 ^ 3), T2 / Real.sqrt (2 * 1 / 4 ^ 3),
    div_pos (by linarith) hκ, div_lt_div_of_pos_right hlt hκ, fun tof h1 h2 => ?_⟩
  rw [div_le_iff₀ hκ, mul_comm] at h1
  rw [lt_div_iff₀ hκ, mul_comm] at h2
  refine ⟨(feasible_iff one_pos hnp hS hl0 hsh (by norm_num) hm tof).2 h1, ?_⟩
  intro low maxiter atol rtol ha hr v hv
  unfold izzo2015 at hv
  rw [hgeo] at hv
  simp only [ok_bind] at hv
  rw [pdiv_eq (by norm_num), ok_bind, psqrt_eq (by positivity), ok_bind] at hv
  obtain ⟨T, hT⟩ : ∃ T, T = Real.sqrt (2 * 1 / 4 ^ 3) * tof := ⟨_, rfl⟩
  rw [← hT] at h1 h2 hv
  rw [bind_ok] at hv
  obtain ⟨xy, hxy, -⟩ := hv
  unfold findXY at hxy
  simp only [bind_ok, raiseIf_ok, pacos_ok, psqrt_ok] at hxy
  obtain ⟨_, -, a, ⟨-, -, rfl⟩, q, ⟨-, rfl⟩, mMax, hmm, _, hle, -⟩ := hxy
  have hfl : ⌊T / Real.pi⌋ = ((10 : ℕ) : ℤ) := by
    rw [Int.floor_eq_iff, le_div_iff₀ hpi, div_lt_iff₀ hpi]
    push_cast
    constructor <;> linarith
  unfold refineMMax at hmm
  rw [hfl, if_pos ⟨by push_cast; linarith, by norm_num⟩, bind_ok] at hmm
  obtain ⟨t, ht, hmm⟩ := hmm
  obtain ⟨p, hh, hp⟩ := computeTMin_ok hl (by norm_num) ht
  obtain ⟨⟨hp0, hp1⟩, hd⟩ := halley_misses hm ha hr hh
  rw [tofEquation_eq hl (by linarith) (by linarith), sub_zero] at hp
  obtain rfl := Except.ok.inj hp
  have hTp : T < revT (1 / 2) 10 p := by
    rcases lt_abs.1 hd with h | h
    · have := hmono.monotoneOn (a := m + 1 / 100000) (b := p) ⟨by linarith, by linarith⟩ ⟨by linarith, by linarith⟩ (by linarith)
      linarith
    · have := hanti.antitoneOn (a := p) (b := m - 1 / 100000) ⟨by linarith, by linarith⟩ ⟨by linarith, by linarith⟩ (by linarith)
      linarith
  rw [if_pos hTp] at hmm
  obtain rfl := Except.ok.inj hmm
  exact hle (by norm_num)

end Lamberthub
