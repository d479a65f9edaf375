import Verif.Props.AvanziniDefined

/-! # C92: how the secant method of `avanzini2008` ends -/

set_option autoImplicit false

namespace Lamberthub
open Spec LC

namespace Avanzini

/-- How a run of the secant method on `f` ends: with a point `x` obtained by a secant through two different points of the
graph and within the tolerances of the second of them, with the error of the last pass, or with the error of `f` at a point. -/
def Spec.SecantOutcome (f : ℝ → Py ℝ) (atol rtol : ℝ) (first last : ℕ) (out : Py (ℝ × ℕ)) : Prop :=
  (∃ x n a b fa fb, out = .ok (x, n) ∧ first ≤ n ∧ n ≤ last ∧ a ≠ b ∧ f a = .ok fa ∧ f b = .ok fb ∧ fa ≠ fb ∧
    x = b - fb * (b - a) / (fb - fa) ∧ |x - b| ≤ atol + rtol * |x|) ∨
  out = .error (.runtimeError "Failed to converge") ∨ ∃ x e, f x = .error e ∧ out = .error e

theorem secantLoop_outcome {f : ℝ → Py ℝ} (hinj : ∀ a b y, f a = .ok y → f b = .ok y → a = b) {atol rtol : ℝ} (ha : 0 ≤ atol)
    (hr : 0 ≤ rtol) (k : ℕ) : ∀ (i : ℕ) (a fa b fb : ℝ), a ≠ b → f a = .ok fa → f b = .ok fb →
    Spec.SecantOutcome f atol rtol i (i + k - 1) (secantLoop f atol rtol k i a fa b fb) := by
  induction k with
  | zero => intro i a fa b fb _ _ _; exact .inr (.inl rfl)
  | succ k ih =>
    intro i a fa b fb hab hfa hfb
    have hne : fb ≠ fa := fun h => hab (hinj a b fa hfa (by rw [hfb, h]))
    unfold secantLoop
    rw [if_neg hne, pdiv_eq (sub_ne_zero.2 hne), ok_bind]
    simp only []
    split_ifs with h
    · exact .inl ⟨_, i, a, b, fa, fb, rfl, le_rfl, by omega, hab, hfa, hfb, hne.symm, rfl, h⟩
    · have hx : b ≠ b - fb * (b - a) / (fb - fa) := by
        intro hx
        apply h
        rw [← hx, sub_self, abs_zero]
        positivity
      rcases hf : f (b - fb * (b - a) / (fb - fa)) with e | y
      · exact .inr (.inr ⟨_, e, hf, rfl⟩)
      · rw [ok_bind]
        rcases ih (i + 1) b fb _ y hx hfb hf with ⟨x, n, a', b', fa', fb', h1, h2, h3, h4⟩ | h1 | h1
        · exact .inl ⟨x, n, a', b', fa', fb', h1, by omega, by omega, h4⟩
        · exact .inr (.inl h1)
        · exact .inr (.inr h1)

theorem secant_outcome {f : ℝ → Py ℝ} (hinj : ∀ a b y, f a = .ok y → f b = .ok y → a = b) {atol rtol : ℝ} (ha : 0 ≤ atol)
    (hr : 0 ≤ rtol) (maxiter : ℕ) : Spec.SecantOutcome f atol rtol 1 maxiter (secant f 0.0 maxiter atol rtol) := by
  unfold secant
  rcases h0 : f 0.0 with e | y0
  · exact .inr (.inr ⟨_, e, h0, rfl⟩)
  rw [ok_bind]
  simp only []
  rcases h1 : f (if (0.0 : ℝ) ≥ 0 then 0.0 + 1e-4 else 0.0 - 1e-4) with e | y1
  · exact .inr (.inr ⟨_, e, h1, rfl⟩)
  rw [ok_bind]
  have := secantLoop_outcome hinj ha hr maxiter 1 _ y0 _ y1 (by norm_num) h0 h1
  rwa [Nat.add_sub_cancel_left] at this

end Avanzini
open Avanzini

/-- **C92.** With tolerances that are not negative the secant method of `avanzini2008` ends in one of three ways, whatever
the problem and the number of passes: with a point that passed the test of the tolerances and was obtained from two different
points of the graph of the function, with `RuntimeError`, or at one of the points, three at most for each geometry, where
the function is not defined.  So it never divides by zero, and the average of two points that the code returns when the
function takes equal values is never returned. -/
theorem avanzini_secant_outcome {mu : ℝ} {r1 r2 : V3} (hmu : 0 < mu) (hna : NotAligned r1 r2) (pro : Bool) :
    ∃ g F, getGeometry r1 r2 pro = .ok g ∧ getEccTAtX g = .ok F ∧ ∃ S : Finset ℝ, S.card ≤ 3 ∧
      ∀ tof atol rtol : ℝ, 0 < tof → 0 ≤ atol → 0 ≤ rtol → ∀ maxiter,
        Spec.SecantOutcome (f F mu g tof) atol rtol 1 maxiter (secant (f F mu g tof) 0.0 maxiter atol rtol) ∧
        ∀ x e, f F mu g tof x = .error e → x ∈ S := by
  obtain ⟨g, F, hg, hF, S, hS, hd⟩ := avanzini_defined hmu hna pro
  obtain ⟨g', hg', hG⟩ := geometry_exists hna pro
  rw [hg] at hg'
  obtain rfl := Except.ok.inj hg'
  obtain ⟨F', E, hF', hFE, hmono, hlt, -⟩ := eccT_range hG
  rw [hF] at hF'
  obtain rfl := Except.ok.inj hF'
  refine ⟨g, F, hg, hF, S, hS, fun tof atol rtol ht ha hr maxiter => ⟨secant_outcome ?_ ha hr maxiter, fun x e he => ?_⟩⟩
  · intro a b y hya hyb
    obtain ⟨e, T, he, hT, hT0, -, h1⟩ := f_split hmu hG.R1 hya
    obtain ⟨e', T', he', hT', hT0', -, h2⟩ := f_split hmu hG.R1 hyb
    rw [hFE] at he he'
    obtain rfl := Except.ok.inj he
    obtain rfl := Except.ok.inj he'
    obtain rfl : T = T' := Real.log_injOn_pos hT0 hT0' (by linarith)
    rcases lt_trichotomy a b with h | h | h
    · exact absurd ((tof_lt_iff hG hmu (hlt a) (hlt b) hT hT').2 (hmono h)) (lt_irrefl _)
    · exact h
    · exact absurd ((tof_lt_iff hG hmu (hlt b) (hlt a) hT' hT).2 (hmono h)) (lt_irrefl _)
  · by_contra hx
    obtain ⟨y, hy⟩ := (hd tof ht x).2 hx
    rw [hy] at he
    cases he

/-- Non-vacuity: the default tolerances, and zero passes or more. -/
example (maxiter : ℕ) : ∃ g F, getGeometry ⟨1, 0, 0⟩ ⟨0, 0, 2⟩ true = .ok g ∧ getEccTAtX g = .ok F ∧
    Spec.SecantOutcome (f F 1 g 3) 1e-5 1e-7 1 maxiter (secant (f F 1 g 3) 0.0 maxiter 1e-5 1e-7) := by
  obtain ⟨g, F, hg, hF, S, -, h⟩ := avanzini_secant_outcome one_pos (r1 := ⟨1, 0, 0⟩) (r2 := ⟨0, 0, 2⟩) (by simp [NotAligned]) true
  exact ⟨g, F, hg, hF, (h 3 1e-5 1e-7 (by norm_num) (by norm_num) (by norm_num) maxiter).1⟩

end Lamberthub
