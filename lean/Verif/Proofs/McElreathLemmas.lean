import Verif.Model.McElreath
import Verif.Proofs.PyLemmas

/-! # Evaluation of the McElreath time equation at real arguments -/

set_option autoImplicit false

namespace Lamberthub
namespace McElreath

theorem cdiv_ok {a b c : ℂ} : cdiv a b = Except.ok c ↔ b ≠ 0 ∧ c = a / b := by
  unfold cdiv
  split <;> simp_all [eq_comm]

theorem cdiv_eq {a b : ℂ} (h : b ≠ 0) : cdiv a b = Except.ok (a / b) := cdiv_ok.2 ⟨h, rfl⟩

theorem cdiv_zero (a : ℂ) : cdiv a 0 = .error .undefined := by simp [cdiv]

theorem csqrt_ofReal {a : ℝ} (h : 0 ≤ a) : csqrt (a : ℂ) = ((Real.sqrt a : ℝ) : ℂ) := by
  unfold csqrt
  rw [Real.sqrt_eq_rpow, Complex.ofReal_cpow h]
  norm_num

theorem csqrt_zero : csqrt 0 = 0 := by
  have := csqrt_ofReal (le_refl (0 : ℝ))
  simpa using this

/-- The formulas of `_tof_equation_full` over the reals. -/
noncomputable def rDerivs (x α αi w wi ui m : ℝ) : ℝ × ℝ × ℝ × ℝ :=
  let u0 := Real.cos x
  let u0Star := Real.cos (x / 2)
  let u1 := Real.sin x * wi
  let u1Star := Real.sin (x / 2) * wi
  let u2 := (1 - u0) * αi
  let u3 := (x * wi - u1) * αi
  let t := 2 * u1Star * m + u3
  let a1 := 1 / 2 * ui * w * (2 * u0Star - m * α)
  let a2 := -1 / 2 * α + (1 / 2 * u0Star * wi - m * w) * a1 * ui
  let a3 :=
    (1 / 4 * m * ui ^ 2 * (m * α - 1 / 2 * u0Star) -
      1 / 2 * wi * ui * (1 / 2 * u0Star * αi + m) * a1 - 3 / 4) * a1 +
    1 / 2 * wi * ui * (u0Star - 2 * m * α) * a2
  let t1 := αi * ((m * u0Star + u2) * w - 1 / 2 * (t + 2 * u3) * a1)
  let t2 := αi * ((-3 * t1 + 2 * m * u0Star * wi) * a1 -
    3 / 4 * t * αi * a1 ^ 2 + u1 - 1 / 2 * m * α * u1Star -
    (1 / 2 * t + u3) * a2)
  let t3 := αi * (u0 * wi - 1 / 4 * m * u0Star * w -
    a1 * (9 / 2 * t2 + 3 / 2 * m * u1Star +
      (9 / 4 * t1 * αi - 3 / 8 * αi ^ 2 * t * a1) * a1) +
    (2 * m * u0Star * wi - u2 * wi - 7 / 2 * t1 +
      (u3 * αi - 7 / 4 * t * αi) * a1) * a2 -
    (1 / 2 * t + u3) * a3)
  (t, t1, t2, t3)

theorem lits : (0.5 : ℂ) = 1 / 2 ∧ (0.25 : ℂ) = 1 / 4 ∧ (0.75 : ℂ) = 3 / 4 ∧ (4.5 : ℂ) = 9 / 2 ∧
    (1.5 : ℂ) = 3 / 2 ∧ (2.25 : ℂ) = 9 / 4 ∧ (0.375 : ℂ) = 3 / 8 ∧ (3.5 : ℂ) = 7 / 2 ∧
    (1.75 : ℂ) = 7 / 4 ∧ (-0.5 : ℂ) = -1 / 2 := by norm_num

theorem half_real (x : ℝ) : (0.5 : ℂ) * x = ((x / 2 : ℝ) : ℂ) := by
  rw [lits.1]; push_cast; ring

theorem tofDerivatives_ofReal (x α αi w wi ui m : ℝ) :
    tofDerivatives x α αi w wi ui m =
     (((rDerivs x α αi w wi ui m).1 : ℂ), ((rDerivs x α αi w wi ui m).2.1 : ℂ),
      ((rDerivs x α αi w wi ui m).2.2.1 : ℂ), ((rDerivs x α αi w wi ui m).2.2.2 : ℂ)) := by
  obtain ⟨h1, h2, h3, h4, h5, h6, h7, h8, h9, -⟩ := lits
  have hx := half_real x
  simp only [tofDerivatives, rDerivs, hx]
  simp only [h1, h2, h3, h4, h5, h6, h7, h8, h9, neg_div]
  push_cast
  rfl

/-- `alpha` at a real argument. -/
noncomputable def rAlpha (P m x : ℝ) : ℝ := (1 - Real.cos x) / (P - 2 * m * Real.cos (x / 2))

/-- The four values of `_tof_equation_full` at a real argument. -/
noncomputable def rFull (P m x : ℝ) : ℝ × ℝ × ℝ × ℝ :=
  rDerivs x (rAlpha P m x) (1 / rAlpha P m x) (Real.sqrt (rAlpha P m x)) (1 / Real.sqrt (rAlpha P m x))
    (1 / (Real.sin (x / 2) * (1 / Real.sqrt (rAlpha P m x)))) m

theorem V_pos {P m x : ℝ} (hP : |2 * m| < P) : 0 < P - 2 * m * Real.cos (x / 2) := by
  have h1 : |2 * m * Real.cos (x / 2)| ≤ |2 * m| := by
    rw [abs_mul]; exact mul_le_of_le_one_right (abs_nonneg _) (Real.abs_cos_le_one _)
  have := le_abs_self (2 * m * Real.cos (x / 2))
  linarith

theorem one_sub_cos (x : ℝ) : 1 - Real.cos x = 2 * Real.sin (x / 2) ^ 2 := by
  have h := Real.cos_two_mul (x / 2)
  rw [mul_div_cancel₀ _ two_ne_zero] at h
  have := Real.sin_sq_add_cos_sq (x / 2)
  linear_combination -h - 2 * this

theorem rAlpha_pos {P m x : ℝ} (hP : |2 * m| < P) (hx : Real.cos x ≠ 1) : 0 < rAlpha P m x := by
  have := Real.cos_le_one x
  exact div_pos (by rcases this.lt_or_eq with h | h; · linarith
                    · exact absurd h hx) (V_pos hP)

theorem alpha_real (P m x : ℝ) :
    (1 - Complex.cos x) / ((P : ℂ) - 2 * m * Complex.cos (0.5 * x)) = (rAlpha P m x : ℂ) := by
  rw [half_real]; unfold rAlpha; push_cast; rfl

theorem den_real {P m x : ℝ} (hP : |2 * m| < P) : ((P : ℂ) - 2 * m * Complex.cos (0.5 * x)) ≠ 0 := by
  rw [half_real]
  have h := (V_pos (x := x) hP).ne'
  exact_mod_cast h

theorem tofEquationFull_real {P m x : ℝ} (hP : |2 * m| < P) (hx : Real.cos x ≠ 1) :
    tofEquationFull x P m = .ok ((rFull P m x).1, (rFull P m x).2.1, (rFull P m x).2.2.1, (rFull P m x).2.2.2) := by
  have hα := rAlpha_pos hP hx
  have hw := Real.sqrt_pos.2 hα
  have hs : Real.sin (x / 2) ≠ 0 := by
    intro h
    have := one_sub_cos x
    rw [h] at this
    apply hx; linarith
  unfold tofEquationFull
  simp only []
  rw [cdiv_eq (den_real hP), ok_bind, alpha_real, cdiv_eq (by exact_mod_cast hα.ne'), ok_bind,
    csqrt_ofReal hα.le, cdiv_eq (by exact_mod_cast hw.ne'), ok_bind, half_real,
    show Complex.sin ((x / 2 : ℝ) : ℂ) * (1 / ((Real.sqrt (rAlpha P m x) : ℝ) : ℂ)) =
      ((Real.sin (x / 2) * (1 / Real.sqrt (rAlpha P m x)) : ℝ) : ℂ) by push_cast; rfl,
    cdiv_eq (by
      have : Real.sin (x / 2) * (1 / Real.sqrt (rAlpha P m x)) ≠ 0 := by positivity
      exact_mod_cast this), ok_bind]
  have := tofDerivatives_ofReal x (rAlpha P m x) (1 / rAlpha P m x) (Real.sqrt (rAlpha P m x))
    (1 / Real.sqrt (rAlpha P m x)) (1 / (Real.sin (x / 2) * (1 / Real.sqrt (rAlpha P m x)))) m
  unfold rFull
  rw [← this]
  push_cast
  rfl

theorem tofEquationFull_undefined {P m x : ℝ} (hP : |2 * m| < P) (hx : Real.cos x = 1) :
    tofEquationFull x P m = .error .undefined := by
  unfold tofEquationFull
  simp only []
  rw [cdiv_eq (den_real hP), ok_bind, alpha_real,
    show rAlpha P m x = 0 by simp [rAlpha, hx], Complex.ofReal_zero, cdiv_zero, error_bind]

theorem tofEquation_real {P m x : ℝ} (hP : |2 * m| < P) (hx : Real.cos x ≠ 1) :
    tofEquation x P m = .ok ((rFull P m x).1 : ℂ) := by
  have hα := rAlpha_pos hP hx
  have hw := Real.sqrt_pos.2 hα
  unfold tofEquation
  simp only []
  rw [cdiv_eq (den_real hP), ok_bind, alpha_real, cdiv_eq (by exact_mod_cast hα.ne'), ok_bind,
    csqrt_ofReal hα.le, cdiv_eq (by exact_mod_cast hw.ne'), ok_bind, half_real]
  unfold rFull rDerivs
  simp only []
  congr 1
  push_cast
  ring

/-! ### Complex numbers that are real -/

def Rl (z : ℂ) : Prop := ∃ r : ℝ, z = r

theorem Rl.ofReal (r : ℝ) : Rl r := ⟨r, rfl⟩
theorem Rl.add {a b : ℂ} : Rl a → Rl b → Rl (a + b) := by
  rintro ⟨x, rfl⟩ ⟨y, rfl⟩; exact ⟨x + y, by push_cast; rfl⟩
theorem Rl.sub {a b : ℂ} : Rl a → Rl b → Rl (a - b) := by
  rintro ⟨x, rfl⟩ ⟨y, rfl⟩; exact ⟨x - y, by push_cast; rfl⟩
theorem Rl.mul {a b : ℂ} : Rl a → Rl b → Rl (a * b) := by
  rintro ⟨x, rfl⟩ ⟨y, rfl⟩; exact ⟨x * y, by push_cast; rfl⟩
theorem Rl.div {a b : ℂ} : Rl a → Rl b → Rl (a / b) := by
  rintro ⟨x, rfl⟩ ⟨y, rfl⟩; exact ⟨x / y, by push_cast; rfl⟩
theorem Rl.neg {a : ℂ} : Rl a → Rl (-a) := by
  rintro ⟨x, rfl⟩; exact ⟨-x, by push_cast; rfl⟩
theorem Rl.pow {a : ℂ} (h : Rl a) (n : ℕ) : Rl (a ^ n) := by
  obtain ⟨x, rfl⟩ := h; exact ⟨x ^ n, by push_cast; rfl⟩
theorem Rl.nat (n : ℕ) [n.AtLeastTwo] : Rl (OfNat.ofNat n : ℂ) := ⟨OfNat.ofNat n, by simp⟩
theorem Rl.half : Rl (0.5 : ℂ) := ⟨1 / 2, by rw [lits.1]; push_cast; rfl⟩

theorem Rl.cleanRoot {a : ℂ} (h : Rl a) : Rl (cleanRoot a) := by
  unfold McElreath.cleanRoot
  split
  · exact ⟨_, rfl⟩
  · exact h

theorem Rl.towardsBoundary {x r z : ℂ} {lo : ℝ} {hi : Option ℝ} (hx : Rl x)
    (h : towardsBoundary x r lo hi = .ok z) : Rl z := by
  unfold McElreath.towardsBoundary at h
  split at h
  · cases hi with
    | none => simp at h
    | some b =>
      rw [← Except.ok.inj h]
      exact hx.add (Rl.half.mul ((Rl.ofReal b).sub hx))
  · rw [← Except.ok.inj h]
    exact hx.add (Rl.half.mul ((Rl.ofReal lo).sub hx))

theorem Rl.newtonStep {x r t1 z : ℂ} {lo : ℝ} {hi : Option ℝ} (hx : Rl x) (hr : Rl r) (h1 : Rl t1)
    (h : newtonStep x r t1 lo hi = .ok z) : Rl z := by
  unfold McElreath.newtonStep at h
  simp only [bind_ok, cdiv_ok] at h
  obtain ⟨q, ⟨-, rfl⟩, h⟩ := h
  split at h
  · exact hx.towardsBoundary h
  · rw [← Except.ok.inj h]; exact hx.sub (hr.div h1)

theorem Rl.halleyStep {x r t1 t2 z : ℂ} {lo : ℝ} {hi : Option ℝ} (hx : Rl x) (hr : Rl r) (h1 : Rl t1)
    (h2 : Rl t2) (h : halleyStep x r t1 t2 lo hi = .ok z) : Rl z := by
  unfold McElreath.halleyStep at h
  simp only [bind_ok, cdiv_ok] at h
  obtain ⟨q, ⟨-, rfl⟩, h⟩ := h
  split at h
  · exact hx.newtonStep hr h1 h
  · rw [← Except.ok.inj h]
    exact hx.sub ((((Rl.nat 2).mul hr).mul h1).div (((Rl.nat 2).mul (h1.pow 2)).sub (hr.mul h2)))

theorem Rl.householderStep {x t t1 t2 t3 z : ℂ} {tof lo : ℝ} {hi : Option ℝ} (hx : Rl x) (ht : Rl t)
    (h1 : Rl t1) (h2 : Rl t2) (h3 : Rl t3) (h : householderStep x tof t t1 t2 t3 lo hi = .ok z) : Rl z := by
  unfold McElreath.householderStep at h
  simp only [bind_ok, cdiv_ok] at h
  obtain ⟨q, ⟨-, rfl⟩, h⟩ := h
  have hr : Rl (t - tof) := ht.sub (Rl.ofReal tof)
  split at h
  · exact hx.halleyStep hr h1 h2 h
  · rw [← Except.ok.inj h]
    refine hx.add (Rl.neg (Rl.div ?_ ?_))
    · exact (((Rl.nat 6).mul hr).mul (h1.pow 2)).sub (((Rl.nat 3).mul (hr.pow 2)).mul h2)
    · exact (((Rl.nat 6).mul (h1.pow 3)).sub ((((Rl.nat 6).mul hr).mul h1).mul h2)).add ((hr.pow 2).mul h3)

/-- The iteration started at a real value stays real. -/
theorem Rl.desiredLoop {tof P m lo tol : ℝ} {M : ℕ} {hi : Option ℝ} (hP : |2 * m| < P) :
    ∀ {n k kr : ℕ} {x xr : ℂ}, Rl x → desiredLoop tof P m M lo hi tol n k x = .ok (xr, kr) →
      Rl xr ∧ k ≤ kr ∧ kr < k + n := by
  intro n
  induction n with
  | zero => intro k kr x xr _ h; simp [McElreath.desiredLoop] at h
  | succ n ih =>
    rintro k kr _ xr ⟨x, rfl⟩ h
    rw [McElreath.desiredLoop, bind_ok] at h
    obtain ⟨⟨t, t1, t2, t3⟩, ht, h⟩ := h
    by_cases hx : Real.cos x = 1
    · rw [tofEquationFull_undefined hP hx] at ht; cases ht
    rw [tofEquationFull_real hP hx] at ht
    simp only [Except.ok.injEq, Prod.mk.injEq] at ht
    obtain ⟨rfl, rfl, rfl, rfl⟩ := ht
    simp only [bind_ok] at h
    obtain ⟨x', hx', q, -, h⟩ := h
    have hR := (Rl.ofReal x).householderStep (Rl.ofReal _) (Rl.ofReal _) (Rl.ofReal _) (Rl.ofReal _) hx'
    split at h
    · simp only [Except.ok.injEq, Prod.mk.injEq] at h
      obtain ⟨rfl, rfl⟩ := h
      exact ⟨hR.cleanRoot, le_rfl, by omega⟩
    · obtain ⟨h1, h2, h3⟩ := ih hR h
      exact ⟨h1, by omega, by omega⟩

theorem Rl.findMulti {tof P m dtheta atol rtol : ℝ} {M maxiter k : ℕ} {low : Bool} {x : ℂ} (hP : |2 * m| < P)
    (h : findMultiRevolutionX tof P m dtheta M low maxiter atol rtol = .ok (x, k)) : Rl x := by
  unfold findMultiRevolutionX at h
  simp only [bind_ok] at h
  obtain ⟨x0, -, ⟨xMin, kMin⟩, -, tMin, -, -, -, h⟩ := h
  split at h
  · simp only [Except.ok.injEq, Prod.mk.injEq] at h
    rw [← h.1]; exact Rl.ofReal _
  · unfold solvePair at h
    simp only [bind_ok] at h
    obtain ⟨⟨g1, g2⟩, -, ⟨x', k'⟩, hs, h⟩ := h
    simp only [Except.ok.injEq, Prod.mk.injEq] at h
    rw [← h.1]
    exact (Rl.desiredLoop hP (Rl.ofReal _) hs).1

theorem ellipticStart_real {tof tofP P m dtheta : ℝ} {x : ℂ} (h : ellipticStart tof tofP P m dtheta = .ok x) :
    Rl x := by
  unfold ellipticStart at h
  simp only [bind_ok] at h
  obtain ⟨_, -, _, -, _, -, _, -, _, -, h⟩ := h
  rw [← Except.ok.inj h]; exact Rl.ofReal _

/-- Which values of `x` come out of the search. -/
theorem findX_ok {tof R1 R2 m dtheta atol rtol : ℝ} {M maxiter k : ℕ} {low : Bool} {x : ℂ}
    (hP : |2 * m| < R1 + R2)
    (h : findX tof R1 R2 m dtheta M low maxiter atol rtol = .ok (x, k)) :
    Rl x ∨ M = 0 ∧ ∃ tp, getParabolicTof (R1 + R2) m = .ok tp ∧ tof ≤ tp := by
  unfold findX at h
  split at h
  · rename_i hM
    unfold findSingleRevolutionX at h
    rw [bind_ok] at h
    obtain ⟨tp, htp, h⟩ := h
    split at h
    · simp only [Except.ok.injEq, Prod.mk.injEq] at h
      rw [← h.1]; exact .inl ⟨0, by simp⟩
    split at h
    · rw [bind_ok] at h
      obtain ⟨x0, hx0, h⟩ := h
      exact .inl (Rl.desiredLoop hP (ellipticStart_real hx0) h).1
    · rename_i h1 h2
      exact .inr ⟨hM, tp, htp, not_lt.1 h2⟩
  · exact .inl (Rl.findMulti hP h)

end McElreath
end Lamberthub
