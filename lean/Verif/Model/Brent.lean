import Verif.Model.Py
import Mathlib.Topology.Instances.Real.Lemmas
import Mathlib.Topology.ContinuousOn

/-! # `scipy.optimize.brentq`

External code: the solvers take the root finder as a parameter.  `BrentSpec` is its
documented contract (scipy manual: the function values at the ends must not have the same
sign, otherwise `ValueError`; without convergence in `maxiter` passes `RuntimeError`; the
returned `x0` "will satisfy `np.isclose(x, x0, atol=xtol, rtol=rtol)` where `x` is the exact
root" of the continuous function). -/

set_option autoImplicit false

namespace Lamberthub

/-- `brentq(f, lower, upper, xtol, rtol, maxiter)`: the root and the number of iterations. -/
abbrev Brent := (ℝ → Py ℝ) → ℝ → ℝ → ℝ → ℝ → ℕ → Py (ℝ × ℕ)

/-- The documented contract of `brentq`. -/
structure BrentSpec (b : Brent) : Prop where
  mem : ∀ {f : ℝ → Py ℝ} {lo hi xtol rtol : ℝ} {maxiter : ℕ} {x : ℝ} {n : ℕ}, lo ≤ hi →
    b f lo hi xtol rtol maxiter = .ok (x, n) → x ∈ Set.Icc lo hi ∧ n ≤ maxiter
  root : ∀ {f : ℝ → Py ℝ} {g : ℝ → ℝ} {lo hi xtol rtol : ℝ} {maxiter : ℕ} {x : ℝ} {n : ℕ}, lo ≤ hi →
    ContinuousOn g (Set.Icc lo hi) → (∀ t ∈ Set.Icc lo hi, f t = .ok (g t)) →
    b f lo hi xtol rtol maxiter = .ok (x, n) →
    ∃ x0 ∈ Set.Icc lo hi, g x0 = 0 ∧ |x - x0| ≤ xtol + rtol * |x0|
  refuses : ∀ {f : ℝ → Py ℝ} {lo hi xtol rtol : ℝ} {maxiter : ℕ} {flo fhi : ℝ},
    f lo = .ok flo → f hi = .ok fhi → 0 < flo * fhi →
    ∃ msg, b f lo hi xtol rtol maxiter = .error (.valueError msg)

open Classical in
/-- A root finder that satisfies the contract: it returns an exact root. -/
noncomputable def exactBrent : Brent := fun f lo hi xtol rtol maxiter =>
  if ∃ flo fhi, f lo = .ok flo ∧ f hi = .ok fhi ∧ 0 < flo * fhi then
    .error (.valueError "f(a) and f(b) must have different signs")
  else if h : (∃ x ∈ Set.Icc lo hi, f x = .ok 0) ∧ 1 ≤ maxiter ∧ 0 ≤ xtol ∧ 0 ≤ rtol then
    .ok (Classical.choose h.1, 1)
  else .error (.runtimeError "Failed to converge")

theorem exactBrent_spec : BrentSpec exactBrent := by
  have key : ∀ {f : ℝ → Py ℝ} {lo hi xtol rtol : ℝ} {maxiter : ℕ} {x : ℝ} {n : ℕ},
      exactBrent f lo hi xtol rtol maxiter = .ok (x, n) →
      x ∈ Set.Icc lo hi ∧ f x = .ok 0 ∧ n ≤ maxiter ∧ 0 ≤ xtol ∧ 0 ≤ rtol := by
    intro f lo hi xtol rtol maxiter x n h
    unfold exactBrent at h
    split at h
    · cases h
    · split at h
      · rename_i hh
        have := Classical.choose_spec hh.1
        simp only [Except.ok.injEq, Prod.mk.injEq] at h
        obtain ⟨h1, h2⟩ := h
        rw [h1] at this
        exact ⟨this.1, this.2, by omega, hh.2.2.1, hh.2.2.2⟩
      · cases h
  refine ⟨fun _ h => ⟨(key h).1, (key h).2.2.1⟩, fun _ _ hg h => ?_, fun h1 h2 h3 => ?_⟩
  · obtain ⟨h1, h2, -, h4, h5⟩ := key h
    refine ⟨_, h1, ?_, ?_⟩
    · have := hg _ h1
      rw [h2] at this
      exact (Except.ok.inj this).symm
    · rw [sub_self, abs_zero]; positivity
  · unfold exactBrent
    rw [if_pos ⟨_, _, h1, h2, h3⟩]
    exact ⟨_, rfl⟩

end Lamberthub
