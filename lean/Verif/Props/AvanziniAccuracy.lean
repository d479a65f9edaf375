import Verif.Props.AvanziniFast
import Verif.Props.AvanziniOutcome

/-! # C93: `avanzini2008` with small tolerances -/

set_option autoImplicit false

namespace Lamberthub
open Spec LC

namespace Avanzini

/-- With small enough tolerances the loop only returns roots. -/
theorem secantLoop_exact {f : ℝ → Py ℝ} (hinj : ∀ a b y, f a = .ok y → f b = .ok y → a = b) (k : ℕ) :
    ∀ (i : ℕ) (a fa b fb : ℝ), a ≠ b → f a = .ok fa → f b = .ok fb → ∃ δ > 0, ∀ atol rtol : ℝ, 0 ≤ atol → atol < δ →
      0 ≤ rtol → rtol < δ → ∀ x n, secantLoop f atol rtol k i a fa b fb = .ok (x, n) → f x = .ok 0 := by
  induction k with
  | zero =>
    intro i a fa b fb _ _ _
    refine ⟨1, one_pos, fun atol rtol _ _ _ _ x n h => ?_⟩
    unfold secantLoop at h
    cases h
  | succ k ih =>
    intro i a fa b fb hab hfa hfb
    have hne : fb ≠ fa := fun h => hab (hinj a b fa hfa (by rw [hfb, h]))
    have hun : ∀ atol rtol : ℝ, secantLoop f atol rtol (k + 1) i a fa b fb =
        if |b - fb * (b - a) / (fb - fa) - b| ≤ atol + rtol * |b - fb * (b - a) / (fb - fa)| then
          .ok (b - fb * (b - a) / (fb - fa), i)
        else (f (b - fb * (b - a) / (fb - fa))).bind fun y =>
          secantLoop f atol rtol k (i + 1) b fb (b - fb * (b - a) / (fb - fa)) y := by
      intro atol rtol
      conv_lhs => unfold secantLoop
      rw [if_neg hne, pdiv_eq (sub_ne_zero.2 hne), ok_bind]
      rfl
    rcases eq_or_ne fb 0 with h0 | h0
    · refine ⟨1, one_pos, fun atol rtol ha _ hr _ x n h => ?_⟩
      have e1 : b - fb * (b - a) / (fb - fa) = b := by rw [h0]; simp
      rw [hun, e1, sub_self, abs_zero, if_pos (by positivity)] at h
      have : x = b := by simpa using (congrArg Prod.fst (Except.ok.inj h)).symm
      rw [this, hfb, h0]
    · have hq : fb * (b - a) / (fb - fa) ≠ 0 :=
        div_ne_zero (mul_ne_zero h0 (sub_ne_zero.2 hab.symm)) (sub_ne_zero.2 hne)
      generalize fb * (b - a) / (fb - fa) = q at *
      have hpos : 0 < |q| / (1 + |b - q|) := by positivity
      have hfail : ∀ atol rtol : ℝ, 0 ≤ atol → atol < |q| / (1 + |b - q|) → 0 ≤ rtol → rtol < |q| / (1 + |b - q|) →
          ¬ |b - q - b| ≤ atol + rtol * |b - q| := by
        intro atol rtol _ h1 _ h2 h3
        have h4 : |b - q - b| = |q| := by rw [show b - q - b = -q by ring, abs_neg]
        rw [h4] at h3
        have h5 := mul_le_mul_of_nonneg_right h2.le (abs_nonneg (b - q))
        have h6 : |q| / (1 + |b - q|) + |q| / (1 + |b - q|) * |b - q| = |q| := by field_simp
        linarith
      rcases hf : f (b - q) with e | y
      · refine ⟨_, hpos, fun atol rtol ha ha' hr hr' x n h => ?_⟩
        rw [hun, if_neg (hfail atol rtol ha ha' hr hr'), hf] at h
        cases h
      · obtain ⟨δ, hδ, hI⟩ := ih (i + 1) b fb (b - q) y (by intro h; apply hq; linarith) hfb hf
        refine ⟨min (|q| / (1 + |b - q|)) δ, lt_min hpos hδ, fun atol rtol ha ha' hr hr' x n h => ?_⟩
        rw [hun, if_neg (hfail atol rtol ha (ha'.trans_le (min_le_left _ _)) hr (hr'.trans_le (min_le_left _ _))), hf] at h
        exact hI atol rtol ha (ha'.trans_le (min_le_right _ _)) hr (hr'.trans_le (min_le_right _ _)) x n h

theorem secant_exact {f : ℝ → Py ℝ} (hinj : ∀ a b y, f a = .ok y → f b = .ok y → a = b) (maxiter : ℕ) :
    ∃ δ > 0, ∀ atol rtol : ℝ, 0 ≤ atol → atol < δ → 0 ≤ rtol → rtol < δ → ∀ x n,
      secant f 0.0 maxiter atol rtol = .ok (x, n) → f x = .ok 0 := by
  unfold secant
  rcases h0 : f 0.0 with e | y0
  · refine ⟨1, one_pos, fun atol rtol _ _ _ _ x n h => ?_⟩
    cases h
  simp only [ok_bind]
  rcases h1 : f (if (0.0 : ℝ) ≥ 0 then 0.0 + 1e-4 else 0.0 - 1e-4) with e | y1
  · refine ⟨1, one_pos, fun atol rtol _ _ _ _ x n h => ?_⟩
    cases h
  simp only [ok_bind]
  exact secantLoop_exact hinj maxiter 1 _ y0 _ y1 (by norm_num) h0 h1

/-- The function of the code takes each value once. -/
theorem f_injective {pro : Bool} {r1 r2 : V3} {g : Geometry} {mu tof : ℝ} {F : ℝ → Py ℝ} (hmu : 0 < mu)
    (hg : getGeometry r1 r2 pro = .ok g) (hna : NotAligned r1 r2) (hF : getEccTAtX g = .ok F) :
    ∀ a b y, f F mu g tof a = .ok y → f F mu g tof b = .ok y → a = b := by
  obtain ⟨g', hg', hG⟩ := geometry_exists hna pro
  rw [hg] at hg'
  obtain rfl := Except.ok.inj hg'
  obtain ⟨F', E, hF', hFE, hmono, hlt, -⟩ := eccT_range hG
  rw [hF] at hF'
  obtain rfl := Except.ok.inj hF'
  intro a b y hya hyb
  obtain ⟨e, T, he, hT, hT0, -, h1⟩ := f_split hmu hG.R1 hya
  obtain ⟨e', T', he', hT', hT0', -, h2⟩ := f_split hmu hG.R1 hyb
  rw [hFE] at he he'
  obtain rfl := Except.ok.inj he
  obtain rfl := Except.ok.inj he'
  obtain rfl : T = T' := Real.log_injOn_pos hT0 hT0' (by linarith)
  rcases lt_trichotomy a b with h | h | h
  · exact absurd ((tof_lt_iff hG hmu (hlt a) (hlt b) hT hT').2 (hmono h)) (lt_irrefl _)
  · exact h
  · exact absurd ((tof_lt_iff hG hmu (hlt b) (hlt a) hT' hT).2 (hmono h)) (lt_irrefl _)

end Avanzini
open Avanzini

/-- **C93.** For every problem and every number of passes there is a `δ` such that whatever `avanzini2008` returns with
tolerances below `δ` comes from an exact root of its equation: outside the equatorial plane its velocities are exactly those
of the transfer in the time and the sense asked for. -/
theorem avanzini_accurate {mu : ℝ} {r1 r2 : V3} (hmu : 0 < mu) (hna : NotAligned r1 r2) (hplane : ¬ (r1.z = 0 ∧ r2.z = 0))
    (pro : Bool) (tof : ℝ) (maxiter : ℕ) :
    ∃ δ > 0, ∀ (atol rtol : ℝ) (M : ℤ) (low full : Bool) (clock : ℝ) (out : Output), 0 ≤ atol → atol < δ → 0 ≤ rtol → rtol < δ →
      avanzini2008 mu r1 r2 tof M pro low maxiter atol rtol full clock = .ok out →
      LambertArc mu r1 r2 out.v1 out.v2 tof 0 ∧ (NotPolar r1 r2 → Sense pro r1 out.v1) := by
  obtain ⟨g, hg, hG⟩ := geometry_exists hna pro
  obtain ⟨F, -, hF, -⟩ := eccT_range hG
  obtain ⟨δ, hδ, hex⟩ := secant_exact (f_injective (tof := tof) hmu hg hna hF) maxiter
  refine ⟨δ, hδ, fun atol rtol M low full clock out ha ha' hr hr' h => ?_⟩
  obtain ⟨-, -, g', F', x, n, eccT, el, hg', hF', hsec, hx, hel, hv⟩ := ok_split h
  rw [hg] at hg'
  obtain rfl := Except.ok.inj hg'
  rw [hF] at hF'
  obtain rfl := Except.ok.inj hF'
  exact avanzini_root_exact hmu hg hF (hex atol rtol ha ha' hr hr' x n hsec) hx hel hv hplane

/-- **C93.** The transfers for which the equation has no root (C91) are never returned: for every such problem and every
number of passes, `avanzini2008` fails with all small enough tolerances. -/
theorem avanzini_exceptional_refused {mu tof : ℝ} {r1 r2 v1 v2 : V3} {pro : Bool} (hmu : 0 < mu) (hnp : NotPolar r1 r2)
    (harc : LambertArc mu r1 r2 v1 v2 tof 0) (hs : Sense pro r1 v1)
    (hexc : Spec.inner v1 v1 = 2 * mu / len r1 ∨ (Spec.inner r1 v1 = 0 ∧ Spec.inner v1 v1 < mu / len r1) ∨
      (Spec.inner r2 v2 = 0 ∧ Spec.inner v2 v2 < mu / len r2)) (maxiter : ℕ) :
    ∃ δ > 0, ∀ (atol rtol : ℝ) (M : ℤ) (low full : Bool) (clock : ℝ) (out : Output), 0 ≤ atol → atol < δ → 0 ≤ rtol → rtol < δ →
      avanzini2008 mu r1 r2 tof M pro low maxiter atol rtol full clock ≠ .ok out := by
  have hna : NotAligned r1 r2 := fun h => hnp h.2.2
  obtain ⟨g, F, hg, hF, -, hiff⟩ := avanzini_root_iff hmu hnp harc hs
  obtain ⟨δ, hδ, hex⟩ := secant_exact (f_injective (tof := tof) hmu hg hna hF) maxiter
  refine ⟨δ, hδ, fun atol rtol M low full clock out ha ha' hr hr' h => ?_⟩
  obtain ⟨-, -, g', F', x, n, eccT, el, hg', hF', hsec, -⟩ := ok_split h
  rw [hg] at hg'
  obtain rfl := Except.ok.inj hg'
  rw [hF] at hF'
  obtain rfl := Except.ok.inj hF'
  have := hiff.1 ⟨x, hex atol rtol ha ha' hr hr' x n hsec⟩
  tauto

/-- **C93.** In particular `avanzini2008` refuses the exact time of flight of the parabola with all small enough tolerances. -/
theorem avanzini_parabola_refused {mu : ℝ} {r1 r2 : V3} (hmu : 0 < mu) (hnp : NotPolar r1 r2) (pro : Bool) (maxiter : ℕ) :
    ∃ δ > 0, ∀ (atol rtol : ℝ) (M : ℤ) (low full : Bool) (clock : ℝ) (out : Output), 0 ≤ atol → atol < δ → 0 ≤ rtol → rtol < δ →
      avanzini2008 mu r1 r2 (parabolicTime mu r1 r2 pro) M pro low maxiter atol rtol full clock ≠ .ok out := by
  have hna : NotAligned r1 r2 := fun h => hnp h.2.2
  obtain ⟨g, F, hg, hF, -, hno⟩ := avanzini_fast_root hmu hnp pro
  obtain ⟨δ, hδ, hex⟩ := secant_exact (f_injective (tof := parabolicTime mu r1 r2 pro) hmu hg hna hF) maxiter
  refine ⟨δ, hδ, fun atol rtol M low full clock out ha ha' hr hr' h => ?_⟩
  obtain ⟨-, -, g', F', x, n, eccT, el, hg', hF', hsec, -⟩ := ok_split h
  rw [hg] at hg'
  obtain rfl := Except.ok.inj hg'
  rw [hF] at hF'
  obtain rfl := Except.ok.inj hF'
  exact hno x (hex atol rtol ha ha' hr hr' x n hsec)

/-- Non-vacuity of `avanzini_accurate`: on a quarter of an inclined circle `avanzini2008` returns with every tolerance. -/
example (k : ℕ) : ∃ tof δ : ℝ, 0 < δ ∧ ∀ atol rtol : ℝ, 0 ≤ atol → atol < δ → 0 ≤ rtol → rtol < δ → ∃ out,
    avanzini2008 1 ⟨1, 0, 0⟩ ⟨0, 3 / 5, 4 / 5⟩ tof 0 true true (k + 2) atol rtol false 0 = .ok out ∧
    LambertArc 1 ⟨1, 0, 0⟩ ⟨0, 3 / 5, 4 / 5⟩ out.v1 out.v2 tof 0 := by
  have hna : NotAligned ⟨1, 0, 0⟩ ⟨0, 3 / 5, 4 / 5⟩ := by simp [NotAligned]
  have hlen : len ⟨1, 0, 0⟩ = len ⟨0, 3 / 5, 4 / 5⟩ := by simp [len]; norm_num
  obtain ⟨θ, hθ⟩ : ∃ θ, getTransferAngle ⟨1, 0, 0⟩ ⟨0, 3 / 5, 4 / 5⟩ true = .ok θ := ⟨_, transferAngle_eq hna true⟩
  obtain ⟨δ, hδ, h⟩ := avanzini_accurate (mu := 1) one_pos hna (by norm_num) true (Real.sqrt (len ⟨1, 0, 0⟩ ^ 3 / 1) * θ) (k + 2)
  refine ⟨Real.sqrt (len ⟨1, 0, 0⟩ ^ 3 / 1) * θ, δ, hδ, fun atol rtol ha ha' hr hr' => ?_⟩
  obtain ⟨out, ho⟩ := avanzini_returns (mu := 1) one_pos hna hlen hθ true k (rtol := rtol) ha false 0
  exact ⟨out, ho, (h atol rtol 0 true false 0 out ha ha' hr hr' ho).1⟩

/-- Non-vacuity of `avanzini_exceptional_refused`: a transfer from an apocentre. -/
example (maxiter : ℕ) : ∃ tof δ : ℝ, 0 < δ ∧ ∀ atol rtol : ℝ, 0 ≤ atol → atol < δ → 0 ≤ rtol → rtol < δ → ∀ out,
    avanzini2008 1 ⟨1, 0, 0⟩ ⟨0, 1 / 2, 0⟩ tof 0 true true maxiter atol rtol false 0 ≠ .ok out := by
  have h2 := Real.mul_self_sqrt (show (0 : ℝ) ≤ 2 by norm_num)
  have n1 : V3.norm ⟨1, 0, 0⟩ = 1 := by simp [V3.norm, V3.dot]
  have n2 : V3.norm ⟨0, 1 / 2, 0⟩ = 1 / 2 := by
    unfold V3.norm V3.dot
    rw [show (0 : ℝ) * 0 + 1 / 2 * (1 / 2) + 0 * 0 = (1 / 2) ^ 2 by norm_num, Real.sqrt_sq (by norm_num)]
  have hG : Geo ⟨1, 0, 0⟩ ⟨0, 1 / 2, 0⟩ (Real.sqrt 2 / 2) := ⟨by positivity, by
    rw [n1, n2]; norm_num [V3.dot, div_pow], by simp [NotAligned]⟩
  have harc := arc_ell (μ := 1) one_pos hG (φ := Real.pi / 3) (V := 1) (M := 0) (by simp; positivity) (by
    have := Real.pi_pos
    norm_num; linarith) one_pos (by
    rw [n1, n2, Real.cos_pi_div_three]
    linear_combination h2 / 4)
  have e1 : fgV1 1 ⟨1, 0, 0⟩ ⟨0, 1 / 2, 0⟩ (Real.sqrt 2 / 2) 1 = ⟨0, (Real.sqrt 2)⁻¹, 0⟩ := by
    have h3 : Real.sqrt 2 * 2⁻¹ = (Real.sqrt 2)⁻¹ := by
      apply eq_inv_of_mul_eq_one_left
      linear_combination h2 / 2
    unfold fgV1; rw [n1]; ext <;> simp [h3]
  rw [e1] at harc
  obtain ⟨δ, hδ, h⟩ := avanzini_exceptional_refused (pro := true) one_pos (by simp [NotPolar]) harc (by simp [Sense, angMomZ]) (by
    right; left
    rw [len_eq_norm, n1]
    refine ⟨by simp [Spec.inner], ?_⟩
    simp only [Spec.inner, mul_zero, zero_add, add_zero, ← mul_inv, h2]
    norm_num) maxiter
  exact ⟨_, δ, hδ, fun atol rtol ha ha' hr hr' out => h atol rtol 0 true false 0 out ha ha' hr hr'⟩

end Lamberthub
