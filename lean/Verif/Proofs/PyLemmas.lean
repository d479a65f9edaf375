import Verif.Model.Py

/-! # Inversion lemmas for the outcome monad -/

set_option autoImplicit false

namespace Lamberthub

theorem bind_ok {α β : Type} {x : Py α} {f : α → Py β} {b : β} :
    (x >>= f) = Except.ok b ↔ ∃ a, x = Except.ok a ∧ f a = Except.ok b := by
  cases x <;> simp [bind, Except.bind]

@[simp] theorem pure_ok {α : Type} {a b : α} : ((pure a : Py α) = Except.ok b) ↔ a = b := by
  simp [pure, Except.pure]

@[simp] theorem ok_bind {α β : Type} (a : α) (f : α → Py β) :
    ((Except.ok a : Py α) >>= f) = f a := rfl

@[simp] theorem error_bind {α β : Type} (e : PyErr) (f : α → Py β) :
    ((Except.error e : Py α) >>= f) = Except.error e := rfl

theorem raiseIf_ok {c : Prop} {_ : Decidable c} {e : PyErr} {u : Unit} :
    raiseIf c e = Except.ok u ↔ ¬ c := by
  unfold raiseIf; split <;> simp_all

theorem raiseIf_neg {c : Prop} {_ : Decidable c} (e : PyErr) (h : ¬ c) :
    raiseIf c e = Except.ok () := by simp [raiseIf, h]

theorem raiseIf_congr {c d : Prop} {_ : Decidable c} {_ : Decidable d} (e : PyErr) (h : c ↔ d) :
    raiseIf c e = raiseIf d e := by unfold raiseIf; simp only [h]

theorem raiseIf_pos {c : Prop} {_ : Decidable c} (e : PyErr) (h : c) :
    raiseIf c e = Except.error e := by simp [raiseIf, h]

theorem pdiv_ok {a b c : ℝ} : pdiv a b = Except.ok c ↔ b ≠ 0 ∧ c = a / b := by
  unfold pdiv
  split <;> simp_all [eq_comm]

theorem pdiv_eq {a b : ℝ} (h : b ≠ 0) : pdiv a b = Except.ok (a / b) := pdiv_ok.2 ⟨h, rfl⟩

theorem psqrt_ok {a c : ℝ} : psqrt a = Except.ok c ↔ 0 ≤ a ∧ c = Real.sqrt a := by
  unfold psqrt
  split
  · simp; intro h; linarith
  · simp_all [eq_comm]

theorem psqrt_eq {a : ℝ} (h : 0 ≤ a) : psqrt a = Except.ok (Real.sqrt a) := psqrt_ok.2 ⟨h, rfl⟩

theorem pacos_ok {a c : ℝ} :
    pacos a = Except.ok c ↔ (-1 ≤ a ∧ a ≤ 1) ∧ c = Real.arccos a := by
  unfold pacos
  split <;> simp_all [eq_comm]

theorem pasin_ok {a c : ℝ} :
    pasin a = Except.ok c ↔ (-1 ≤ a ∧ a ≤ 1) ∧ c = Real.arcsin a := by
  unfold pasin
  split <;> simp_all [eq_comm]

theorem plog_ok {a c : ℝ} : plog a = Except.ok c ↔ 0 < a ∧ c = Real.log a := by
  unfold plog
  split <;> simp_all [eq_comm]

theorem ptan_ok {a c : ℝ} : ptan a = Except.ok c ↔ Real.cos a ≠ 0 ∧ c = Real.tan a := by
  unfold ptan
  split <;> simp_all [eq_comm]

theorem partanh_ok {a c : ℝ} :
    partanh a = Except.ok c ↔ (-1 < a ∧ a < 1) ∧ c = Real.artanh a := by
  unfold partanh
  split <;> simp_all [eq_comm]

theorem pacosh_ok {a c : ℝ} : pacosh a = Except.ok c ↔ 1 ≤ a ∧ c = Real.arcosh a := by
  unfold pacosh
  split <;> simp_all [eq_comm]

theorem prpow_ok {a b c : ℝ} : prpow a b = Except.ok c ↔ (0 < a ∨ (a = 0 ∧ 0 < b)) ∧ c = a ^ b := by
  unfold prpow
  split <;> simp_all [eq_comm]

theorem vdiv_ok {v w : V3} {c : ℝ} : vdiv v c = Except.ok w ↔ c ≠ 0 ∧ w = c⁻¹ • v := by
  unfold vdiv
  split <;> simp_all [eq_comm]

theorem vdiv_eq {v : V3} {c : ℝ} (h : c ≠ 0) : vdiv v c = Except.ok (c⁻¹ • v) :=
  vdiv_ok.2 ⟨h, rfl⟩

theorem pacos_eq {a : ℝ} (h1 : -1 ≤ a) (h2 : a ≤ 1) : pacos a = Except.ok (Real.arccos a) :=
  pacos_ok.2 ⟨⟨h1, h2⟩, rfl⟩

section While
variable {σ : Type} {cond : σ → Prop} {body : σ → Py σ}

theorem whileRun_false {s : σ} (h : ¬ cond s) (n : ℕ) :
    whileRun cond body n s = some (.ok s) := by
  unfold whileRun; simp [h]

theorem whileRun_zero {s : σ} (h : cond s) : whileRun cond body 0 s = none := by
  unfold whileRun; simp [h]

theorem whileRun_succ {s : σ} (h : cond s) (n : ℕ) :
    whileRun cond body (n + 1) s =
      match body s with
      | .error e => some (.error e)
      | .ok s' => whileRun cond body n s' := by
  conv_lhs => unfold whileRun
  simp [h]
  cases body s <;> rfl

theorem whileRun_mono {s : σ} {r : Py σ} {n : ℕ} (h : whileRun cond body n s = some r) :
    ∀ m, n ≤ m → whileRun cond body m s = some r := by
  induction n generalizing s with
  | zero =>
    intro m _
    by_cases hc : cond s
    · rw [whileRun_zero hc] at h; cases h
    · rw [whileRun_false hc] at h ⊢; exact h
  | succ n ih =>
    intro m hm
    by_cases hc : cond s
    · obtain ⟨m', rfl⟩ : ∃ m', m = m' + 1 := ⟨m - 1, by omega⟩
      rw [whileRun_succ hc] at h ⊢
      cases hb : body s with
      | error e => rw [hb] at h; exact h
      | ok s' => rw [hb] at h; exact ih h m' (by omega)
    · rw [whileRun_false hc] at h ⊢; exact h

theorem whileRun_unique {s : σ} {r r' : Py σ} {n n' : ℕ}
    (h : whileRun cond body n s = some r) (h' : whileRun cond body n' s = some r') : r = r' := by
  have h1 := whileRun_mono h (max n n') (le_max_left _ _)
  have h2 := whileRun_mono h' (max n n') (le_max_right _ _)
  rw [h1] at h2; exact Option.some.inj h2

theorem whileLoop_eq_of_run {s : σ} {r : Py σ} {n : ℕ}
    (h : whileRun cond body n s = some r) : whileLoop cond body s = r := by
  unfold whileLoop
  have hex : ∃ r, ∃ n, whileRun cond body n s = some r := ⟨r, n, h⟩
  rw [dif_pos hex]
  obtain ⟨m, hm⟩ := Classical.choose_spec hex
  exact whileRun_unique hm h

theorem whileLoop_ok {s s' : σ} (h : whileLoop cond body s = .ok s') :
    ∃ n, whileRun cond body n s = some (.ok s') := by
  unfold whileLoop at h
  split at h
  · rename_i hex
    obtain ⟨m, hm⟩ := Classical.choose_spec hex
    exact ⟨m, by rw [hm, h]⟩
  · cases h

theorem whileLoop_false {s : σ} (h : ¬ cond s) : whileLoop cond body s = .ok s :=
  whileLoop_eq_of_run (whileRun_false (body := body) h 0)

theorem whileLoop_true {s s' : σ} (h : cond s) (hb : body s = .ok s') :
    whileLoop cond body s = whileLoop cond body s' := by
  by_cases hex : ∃ r, ∃ n, whileRun cond body n s' = some r
  · obtain ⟨r, n, hn⟩ := hex
    rw [whileLoop_eq_of_run hn]
    apply whileLoop_eq_of_run (n := n + 1)
    rw [whileRun_succ h, hb]; exact hn
  · have hex' : ¬ ∃ r, ∃ n, whileRun cond body n s = some r := by
      rintro ⟨r, n, hn⟩
      cases n with
      | zero => rw [whileRun_zero h] at hn; cases hn
      | succ n => rw [whileRun_succ h, hb] at hn; exact hex ⟨r, n, hn⟩
    unfold whileLoop
    rw [dif_neg hex, dif_neg hex']

/-- Invariant rule: what holds at entry and is preserved by each pass holds at exit,
together with the negated loop condition. -/
theorem whileLoop_inv (I : σ → Prop) {s s' : σ} (h : whileLoop cond body s = .ok s')
    (h0 : I s) (hstep : ∀ a b, I a → cond a → body a = .ok b → I b) : I s' ∧ ¬ cond s' := by
  obtain ⟨n, hn⟩ := whileLoop_ok h
  clear h
  induction n generalizing s with
  | zero =>
    by_cases hc : cond s
    · rw [whileRun_zero hc] at hn; cases hn
    · rw [whileRun_false hc] at hn; cases hn; exact ⟨h0, hc⟩
  | succ n ih =>
    by_cases hc : cond s
    · rw [whileRun_succ hc] at hn
      cases hb : body s with
      | error e => rw [hb] at hn; simp at hn
      | ok a => rw [hb] at hn; exact ih (hstep s a h0 hc hb) hn
    · rw [whileRun_false hc] at hn; cases hn; exact ⟨h0, hc⟩

/-- A loop whose condition is kept true for ever diverges. -/
theorem whileLoop_diverges (I : σ → Prop) {s : σ} (h0 : I s)
    (hstep : ∀ a, I a → cond a ∧ ∃ b, body a = .ok b ∧ I b) :
    whileLoop cond body s = .error .diverges := by
  unfold whileLoop
  rw [dif_neg]
  rintro ⟨r, n, hn⟩
  induction n generalizing s with
  | zero => rw [whileRun_zero (hstep s h0).1] at hn; cases hn
  | succ n ih =>
    obtain ⟨hc, b, hb, hI⟩ := hstep s h0
    rw [whileRun_succ hc, hb] at hn
    exact ih hI hn

end While
end Lamberthub
