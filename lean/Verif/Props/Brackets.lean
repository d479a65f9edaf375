import Verif.Props.ValladoMore
import Verif.Props.Pan
import Verif.Props.Jiang
import Verif.Props.Delatorre
import Mathlib.Logic.Relation

/-! # C35 and C36: brackets

"Only points of the bracket are evaluated" is stated as locality: two residuals that agree
on the initial bracket give the same run, whatever they are elsewhere.  The bracket
invariant is stated on every state that the loop can reach: `pass` is one pass of the loop
(`Sum.inl` is a `return`), and a link theorem shows that the modelled loop is the iteration
of `pass`. -/

set_option autoImplicit false

namespace Lamberthub
open Spec LC

/-- The residual is defined at both ends and changes sign (or vanishes at an end). -/
def Spec.SignChange (F : ℝ → Py ℝ) (lo hi : ℝ) : Prop :=
  ∃ a b, F lo = .ok a ∧ F hi = .ok b ∧ a * b ≤ 0

/-- What a bracketed search has to maintain, `lo`, `hi` being the initial bracket. -/
structure Spec.Bracketed (F : ℝ → Py ℝ) (lo hi x l u : ℝ) : Prop where
  nested : lo ≤ l ∧ u ≤ hi
  inside : l ≤ x ∧ x ≤ u
  sign : SignChange F l u

/-- States reached by iterating `pass`. -/
def Reaches {σ ρ : Type} (pass : σ → Py (ρ ⊕ σ)) : σ → σ → Prop :=
  Relation.ReflTransGen fun s s' => pass s = .ok (.inr s')

theorem Reaches.inv {σ ρ : Type} {pass : σ → Py (ρ ⊕ σ)} {s s' : σ} (h : Reaches pass s s') (I : σ → Prop)
    (h0 : I s) (hs : ∀ a b, I a → pass a = .ok (.inr b) → I b) : I s' := by
  induction h with
  | refl => exact h0
  | tail _ h ih => exact hs _ _ ih h

theorem signChange_split {F : ℝ → Py ℝ} {a b c x l u : ℝ} (hl : F l = .ok a) (hu : F u = .ok b) (hx : F x = .ok c)
    (hs : a * b ≤ 0) : (a * c ≤ 0 → SignChange F l x) ∧ (¬ a * c ≤ 0 → SignChange F x u) := by
  refine ⟨fun h => ⟨a, c, hl, hx, h⟩, fun h => ⟨c, b, hx, hu, ?_⟩⟩
  rw [not_le] at h
  by_contra h'
  rw [not_le] at h'
  nlinarith [mul_pos h h', mul_nonneg_of_nonpos_of_nonpos hs (neg_nonpos.2 (sq_nonneg c)), sq_nonneg c]

/-! ## Jiang -/

namespace Jiang

/-- `(x, lower, upper, f_lower)`. -/
abbrev St := ℝ × ℝ × ℝ × ℝ

/-- One pass of the loop of `_solve_semimajor_axis`. -/
noncomputable def pass (F : ℝ → Py ℝ) (atol rtol : ℝ) : St → Py (ℝ ⊕ St) := fun (x, lower, upper, fLower) => do
  let fx ← F x
  if |fx| ≤ atol then .ok (.inl x)
  else do
    let lower' := if fLower * fx ≤ 0 then lower else x
    let upper' := if fLower * fx ≤ 0 then x else upper
    let fLower' := if fLower * fx ≤ 0 then fLower else fx
    let xNew ← nextX F x fx lower' upper'
    let fNew ← F xNew
    if |fNew| ≤ atol ∨ (|xNew - x| ≤ atol + rtol * |xNew| ∧ |fNew| ≤ |fx|) then .ok (.inl xNew)
    else .ok (.inr (xNew, lower', upper', fLower'))

theorem loop_pass (F : ℝ → Py ℝ) (atol rtol : ℝ) (r n : ℕ) (x l u fl : ℝ) :
    solveLoop F atol rtol (r + 1) n x l u fl =
      (pass F atol rtol (x, l, u, fl) >>= fun o =>
        match o with
        | .inl z => .ok (z, n)
        | .inr (x', l', u', fl') => solveLoop F atol rtol r (n + 1) x' l' u' fl') := by
  rw [solveLoop]
  simp only [pass]
  rcases F x with e | fx
  · rfl
  simp only [ok_bind]
  by_cases h : |fx| ≤ atol
  · rw [if_pos h, if_pos h]; rfl
  rw [if_neg h, if_neg h]
  rcases nextX F x fx (if fl * fx ≤ 0 then l else x) (if fl * fx ≤ 0 then x else u) with e | xn
  · rfl
  simp only [ok_bind]
  rcases F xn with e | fn
  · rfl
  simp only [ok_bind]
  split <;> rfl

theorem nextX_Icc {F : ℝ → Py ℝ} {x fx l u z : ℝ} (hlu : l ≤ u) (h : nextX F x fx l u = .ok z) : l ≤ z ∧ z ≤ u := by
  simp only [nextX, bind_ok] at h
  obtain ⟨d, -, h⟩ := h
  split at h
  · cases h; constructor <;> linarith
  · split at h
    · rename_i h'; cases h; exact ⟨h'.1.le, h'.2.le⟩
    · cases h; constructor <;> linarith

theorem nextX_local {F G : ℝ → Py ℝ} {x fx l u : ℝ} (hx : l ≤ x ∧ x ≤ u) (h : ∀ z ∈ Set.Icc l u, F z = G z) :
    nextX F x fx l u = nextX G x fx l u := by
  have he : 0 ≤ eps * max 1 |x| := by unfold eps; positivity
  have hd : derivative F x l u = derivative G x l u := by
    unfold derivative
    simp only []
    rw [h (min u (x + eps * max 1 |x|)) ⟨le_min (by linarith) (by linarith), min_le_left _ _⟩,
      h (max l (x - eps * max 1 |x|)) ⟨le_max_left _ _, max_le (by linarith) (by linarith)⟩]
  unfold nextX
  rw [hd]

theorem solveLoop_local {F G : ℝ → Py ℝ} {atol rtol : ℝ} : ∀ (r n : ℕ) {x l u fl : ℝ}, l ≤ x → x ≤ u →
    (∀ z ∈ Set.Icc l u, F z = G z) → solveLoop F atol rtol r n x l u fl = solveLoop G atol rtol r n x l u fl
  | 0, n, x, l, u, fl, h1, h2, h => by simp only [solveLoop]
  | r + 1, n, x, l, u, fl, h1, h2, h => by
    rw [solveLoop, solveLoop, h x ⟨h1, h2⟩]
    rcases G x with e | fx
    · rfl
    simp only [ok_bind]
    split
    · rfl
    obtain ⟨l', hl'⟩ : ∃ l', l' = if fl * fx ≤ 0 then l else x := ⟨_, rfl⟩
    obtain ⟨u', hu'⟩ : ∃ u', u' = if fl * fx ≤ 0 then x else u := ⟨_, rfl⟩
    obtain ⟨f', hf'⟩ : ∃ f', f' = if fl * fx ≤ 0 then fl else fx := ⟨_, rfl⟩
    rw [← hl', ← hu', ← hf']
    have b : l ≤ l' ∧ l' ≤ x ∧ x ≤ u' ∧ u' ≤ u := by
      rw [hl', hu']
      split <;> simp [h1, h2]
    have hsub : ∀ z ∈ Set.Icc l' u', F z = G z := fun z hz => h z ⟨b.1.trans hz.1, hz.2.trans b.2.2.2⟩
    rw [nextX_local ⟨b.2.1, b.2.2.1⟩ hsub]
    rcases hn : nextX G x fx l' u' with e | xn
    · rfl
    simp only [ok_bind]
    have hm := nextX_Icc (b.2.1.trans b.2.2.1) hn
    rw [hsub xn hm]
    rcases G xn with e | fn
    · rfl
    simp only [ok_bind]
    split
    · rfl
    · exact solveLoop_local r (n + 1) hm.1 hm.2 hsub

theorem solveLoop_mem {F : ℝ → Py ℝ} {atol rtol : ℝ} : ∀ (r n : ℕ) {x l u fl z : ℝ} {k : ℕ}, l ≤ x → x ≤ u →
    solveLoop F atol rtol r n x l u fl = .ok (z, k) → l ≤ z ∧ z ≤ u
  | 0, n, x, l, u, fl, z, k, h1, h2, h => by simp [solveLoop] at h
  | r + 1, n, x, l, u, fl, z, k, h1, h2, h => by
    rw [solveLoop] at h
    simp only [bind_ok] at h
    obtain ⟨fx, -, h⟩ := h
    split at h
    · cases h; exact ⟨h1, h2⟩
    simp only [bind_ok] at h
    obtain ⟨xn, hn, fn, -, h⟩ := h
    obtain ⟨l', hl'⟩ : ∃ l', l' = if fl * fx ≤ 0 then l else x := ⟨_, rfl⟩
    obtain ⟨u', hu'⟩ : ∃ u', u' = if fl * fx ≤ 0 then x else u := ⟨_, rfl⟩
    rw [← hl', ← hu'] at h hn
    have b : l ≤ l' ∧ l' ≤ x ∧ x ≤ u' ∧ u' ≤ u := by
      rw [hl', hu']
      split <;> simp [h1, h2]
    have hm := nextX_Icc (b.2.1.trans b.2.2.1) hn
    split at h
    · cases h; exact ⟨b.1.trans hm.1, hm.2.trans b.2.2.2⟩
    · have := solveLoop_mem r (n + 1) hm.1 hm.2 h
      exact ⟨b.1.trans this.1, this.2.trans b.2.2.2⟩

end Jiang

/-- **C35 for `jiang2016`**, for every residual `F`: the search only evaluates points of the
initial bracket, returns a point of it, and keeps a sign change in the current bracket. -/
theorem jiang_bracket {F : ℝ → Py ℝ} {lo hi : ℝ} (hlh : lo ≤ hi) (atol rtol : ℝ) :
    (∀ (G : ℝ → Py ℝ), (∀ x ∈ Set.Icc lo hi, F x = G x) → ∀ maxiter,
      Jiang.solveSemimajorAxis F lo hi maxiter atol rtol = Jiang.solveSemimajorAxis G lo hi maxiter atol rtol) ∧
    (∀ maxiter x n, Jiang.solveSemimajorAxis F lo hi maxiter atol rtol = .ok (x, n) → x ∈ Set.Icc lo hi) ∧
    (SignChange F lo hi → ∀ fl x l u f, F lo = .ok fl →
      Reaches (Jiang.pass F atol rtol) ((lo + hi) / 2, lo, hi, fl) (x, l, u, f) →
      Bracketed F lo hi x l u ∧ F l = .ok f) := by
  refine ⟨fun G h N => ?_, fun N x n h => ?_, fun ⟨a, b, ha, hb, hs⟩ fl x l u f hfl hr => ?_⟩
  · unfold Jiang.solveSemimajorAxis
    rw [h lo ⟨le_rfl, hlh⟩]
    rcases G lo with e | fl
    · rfl
    simp only [ok_bind]
    exact Jiang.solveLoop_local N 1 (by linarith) (by linarith) h
  · simp only [Jiang.solveSemimajorAxis, bind_ok] at h
    obtain ⟨fl, -, h⟩ := h
    exact Jiang.solveLoop_mem N 1 (by linarith) (by linarith) h
  · obtain rfl : a = fl := by rw [ha] at hfl; cases hfl; rfl
    refine hr.inv (fun s => Bracketed F lo hi s.1 s.2.1 s.2.2.1 ∧ F s.2.1 = .ok s.2.2.2)
      ⟨⟨⟨le_rfl, le_rfl⟩, ⟨by linarith, by linarith⟩, a, b, ha, hb, hs⟩, ha⟩ ?_
    rintro ⟨x, l, u, f⟩ ⟨x', l', u', f'⟩ ⟨⟨hn, hi, a, b, ha, hb, hs⟩, hf⟩ h
    simp only at hn hi ha hb hf
    obtain rfl : a = f := by rw [ha] at hf; cases hf; rfl
    simp only [Jiang.pass, bind_ok] at h
    obtain ⟨fx, hfx, h⟩ := h
    split at h
    · simp at h
    simp only [bind_ok] at h
    obtain ⟨xn, hxn, fn, -, h⟩ := h
    split at h
    · simp at h
    simp only [Except.ok.injEq, Sum.inr.injEq, Prod.mk.injEq] at h
    obtain ⟨rfl, rfl, rfl, rfl⟩ := h
    obtain ⟨s1, s2⟩ := signChange_split ha hb hfx hs
    by_cases hc : a * fx ≤ 0
    · simp only [if_pos hc] at hxn ⊢
      exact ⟨⟨⟨hn.1, hi.2.trans hn.2⟩, Jiang.nextX_Icc hi.1 hxn, s1 hc⟩, ha⟩
    · simp only [if_neg hc] at hxn ⊢
      exact ⟨⟨⟨hn.1.trans hi.1, hn.2⟩, Jiang.nextX_Icc hi.2 hxn, s2 hc⟩, hfx⟩

/-! ## De La Torre -/

namespace Delatorre

/-- One pass of the loop of `_solve_bracketed`, on `(z, z_low, z_high, f_low)`. -/
noncomputable def pass (F : ℝ → Py ℝ) (tof atol rtol : ℝ) : Jiang.St → Py (ℝ ⊕ Jiang.St) :=
  fun (z, zLow, zHigh, fLow) => do
  let t ← F z
  let f := t - tof
  if |f| ≤ atol + rtol * tof then .ok (.inl z)
  else if fLow * f ≤ 0 then .ok (.inr (nextZ F f z zLow z, zLow, z, fLow))
  else .ok (.inr (nextZ F f z z zHigh, z, zHigh, f))

theorem loop_pass (F : ℝ → Py ℝ) (tof atol rtol : ℝ) (r n : ℕ) (x l u fl : ℝ) :
    bracketLoop F tof atol rtol (r + 1) n x l u fl =
      (pass F tof atol rtol (x, l, u, fl) >>= fun o =>
        match o with
        | .inl z => .ok (z, n)
        | .inr (x', l', u', fl') => bracketLoop F tof atol rtol r (n + 1) x' l' u' fl') := by
  rw [bracketLoop]
  simp only [pass]
  rcases F x with e | fx
  · rfl
  simp only [ok_bind]
  split
  · rfl
  · split <;> rfl

/-- The Newton step of l.165 is never taken: after the update of the bracket `z` is one of
its ends, the step of the finite difference is zero and `_tof_derivative` returns 0. -/
theorem nextZ_end (F : ℝ → Py ℝ) (f z l u : ℝ) (h : z = l ∨ z = u) : nextZ F f z l u = 0.5 * (l + u) := by
  have : tofDerivative F z l u = .ok 0 := by
    unfold tofDerivative
    have z0 : (0.0 : ℝ) = 0 := by norm_num
    simp only [z0]
    rw [if_pos]
    rcases h with rfl | rfl
    · exact (min_le_left _ _).trans ((min_le_right _ _).trans (by simp))
    · exact (min_le_right _ _).trans (by simp)
  unfold nextZ
  rw [this]
  simp

theorem bracketLoop_local {F G : ℝ → Py ℝ} {tof atol rtol : ℝ} : ∀ (r n : ℕ) {x l u fl : ℝ}, l ≤ x → x ≤ u →
    (∀ z ∈ Set.Icc l u, F z = G z) → bracketLoop F tof atol rtol r n x l u fl = bracketLoop G tof atol rtol r n x l u fl
  | 0, n, x, l, u, fl, h1, h2, h => by simp only [bracketLoop]
  | r + 1, n, x, l, u, fl, h1, h2, h => by
    rw [bracketLoop, bracketLoop, h x ⟨h1, h2⟩]
    rcases G x with e | fx
    · rfl
    simp only [ok_bind, nextZ_end _ _ _ _ _ (.inl rfl), nextZ_end _ _ _ _ _ (.inr rfl)]
    split
    · rfl
    split
    · exact bracketLoop_local r (n + 1) (by linarith) (by linarith) fun z hz => h z ⟨hz.1, hz.2.trans h2⟩
    · exact bracketLoop_local r (n + 1) (by linarith) (by linarith) fun z hz => h z ⟨h1.trans hz.1, hz.2⟩

end Delatorre

/-- **C35 for `delatorre2018`**, for every time equation `F`, with residual `F z - tof`. -/
theorem delatorre_bracket {F : ℝ → Py ℝ} {lo hi : ℝ} (hlh : lo ≤ hi) (tof atol rtol : ℝ) :
    (∀ (G : ℝ → Py ℝ), (∀ x ∈ Set.Icc lo hi, F x = G x) → ∀ maxiter,
      Delatorre.solveBracketed F tof lo hi maxiter atol rtol = Delatorre.solveBracketed G tof lo hi maxiter atol rtol) ∧
    (∀ maxiter x n, Delatorre.solveBracketed F tof lo hi maxiter atol rtol = .ok (x, n) → x ∈ Set.Icc lo hi) ∧
    (SignChange (fun z => (F z >>= fun t => .ok (t - tof))) lo hi → ∀ tl x l u f, F lo = .ok tl →
      Reaches (Delatorre.pass F tof atol rtol) (0.5 * (lo + hi), lo, hi, tl - tof) (x, l, u, f) →
      Bracketed (fun z => (F z >>= fun t => .ok (t - tof))) lo hi x l u) := by
  refine ⟨fun G h N => ?_, fun N x n h => ?_, fun ⟨a, b, ha, hb, hs⟩ tl x l u f hfl hr => ?_⟩
  · unfold Delatorre.solveBracketed
    rw [h lo ⟨le_rfl, hlh⟩, h hi ⟨hlh, le_rfl⟩]
    simp only [Delatorre.bracketLoop_local N 1 (show lo ≤ 0.5 * (lo + hi) by linarith)
      (show 0.5 * (lo + hi) ≤ hi by linarith) h]
  · have hS : Delatorre.Seg (Set.Icc lo hi) := by
      intro a ha b hb t h0 h1
      constructor <;> nlinarith [ha.1, ha.2, hb.1, hb.2]
    exact (Delatorre.solveBracketed_ok hS ⟨le_rfl, hlh⟩ ⟨hlh, le_rfl⟩ h).1
  · have ha' := ha
    simp only [hfl, ok_bind, Except.ok.injEq] at ha'
    subst ha'
    refine (hr.inv (fun s => Bracketed _ lo hi s.1 s.2.1 s.2.2.1 ∧ (F s.2.1 >>= fun t => .ok (t - tof)) = .ok s.2.2.2)
      ⟨⟨⟨le_rfl, le_rfl⟩, ⟨by linarith, by linarith⟩, _, b, ha, hb, hs⟩, ha⟩ ?_).1
    rintro ⟨x, l, u, f⟩ ⟨x', l', u', f'⟩ ⟨⟨hn, hi, a, b, ha, hb, hs⟩, hf⟩ h
    simp only at hn hi ha hb hf
    obtain rfl : a = f := by rw [ha] at hf; cases hf; rfl
    simp only [Delatorre.pass, bind_ok] at h
    obtain ⟨t, ht, h⟩ := h
    have hx : (F x >>= fun t => .ok (t - tof)) = .ok (t - tof) := by rw [ht, ok_bind]
    obtain ⟨s1, s2⟩ := signChange_split (F := fun z => (F z >>= fun t => .ok (t - tof))) ha hb hx hs
    split at h
    · simp at h
    split at h
    · rename_i hc
      simp only [Except.ok.injEq, Sum.inr.injEq, Prod.mk.injEq] at h
      obtain ⟨rfl, rfl, rfl, rfl⟩ := h
      rw [Delatorre.nextZ_end _ _ _ _ _ (.inr rfl)]
      exact ⟨⟨⟨hn.1, hi.2.trans hn.2⟩, ⟨by linarith, by linarith⟩, s1 hc⟩, ha⟩
    · rename_i hc
      simp only [Except.ok.injEq, Sum.inr.injEq, Prod.mk.injEq] at h
      obtain ⟨rfl, rfl, rfl, rfl⟩ := h
      rw [Delatorre.nextZ_end _ _ _ _ _ (.inl rfl)]
      exact ⟨⟨⟨hn.1.trans hi.1, hn.2⟩, ⟨by linarith, by linarith⟩, s2 hc⟩, hx⟩

/-! ## Pan -/

/-- `brentq` only evaluates its function on the bracket (assumption on scipy). -/
def BrentLocal (b : Brent) : Prop := ∀ (f g : ℝ → Py ℝ) (lo hi xtol rtol : ℝ) (n : ℕ), lo ≤ hi →
  (∀ x ∈ Set.Icc lo hi, f x = g x) → b f lo hi xtol rtol n = b g lo hi xtol rtol n

open Classical in
theorem exactBrent_local : BrentLocal exactBrent := by
  intro f g lo hi xtol rtol n hlh h
  have e : (fun x => x ∈ Set.Icc lo hi ∧ f x = .ok 0) = fun x => x ∈ Set.Icc lo hi ∧ g x = .ok 0 := by
    funext x
    by_cases hx : x ∈ Set.Icc lo hi
    · rw [h x hx]
    · simp [hx]
  unfold exactBrent
  rw [h lo ⟨le_rfl, hlh⟩, h hi ⟨hlh, le_rfl⟩]
  split
  · rfl
  · have : ∀ (p q : ℝ → Prop) (_ : p = q) (c : Prop) [Decidable c],
        (if h : (∃ x, p x) ∧ c then (.ok (Classical.choose h.1, 1) : Py (ℝ × ℕ))
          else .error (.runtimeError "Failed to converge")) =
        (if h : (∃ x, q x) ∧ c then .ok (Classical.choose h.1, 1)
          else .error (.runtimeError "Failed to converge")) := by
      rintro p q rfl c _; rfl
    exact this _ _ e _

namespace Pan

/-- `(previous, lower, upper, f_lower, f_upper)`. -/
abbrev St := ℝ × ℝ × ℝ × ℝ × ℝ

/-- One pass of the loop of `_bezier_root`. -/
noncomputable def pass (f : ℝ → Py ℝ) (atol rtol : ℝ) : St → Py (ℝ ⊕ St) := fun (previous, lower, upper, fLower, fUpper) => do
  let est ← linearBezierEstimate lower upper fLower fUpper
  let root := clip est lower upper
  let fRoot ← f root
  if |fRoot| ≤ atol ∨ |root - previous| ≤ atol + rtol * |root| then .ok (.inl root)
  else if fLower * fRoot ≤ 0 then .ok (.inr (root, lower, root, fLower, fRoot))
  else .ok (.inr (root, root, upper, fRoot, fUpper))

theorem loop_pass (b : Brent) (f : ℝ → Py ℝ) (N : ℕ) (atol rtol : ℝ) (r n : ℕ) (p l u fl fu : ℝ) :
    bezierLoop b f N atol rtol (r + 1) n p l u fl fu =
      (pass f atol rtol (p, l, u, fl, fu) >>= fun o =>
        match o with
        | .inl z => .ok (z, n)
        | .inr (p', l', u', fl', fu') => bezierLoop b f N atol rtol r (n + 1) p' l' u' fl' fu') := by
  rw [bezierLoop]
  simp only [pass]
  rcases linearBezierEstimate l u fl fu with e | est
  · rfl
  simp only [ok_bind]
  rcases f (clip est l u) with e | fr
  · rfl
  simp only [ok_bind]
  split
  · rfl
  · split <;> rfl

theorem bezierLoop_local {b : Brent} (hb : BrentLocal b) {f g : ℝ → Py ℝ} {N : ℕ} {atol rtol : ℝ} :
    ∀ (r n : ℕ) {p l u fl fu : ℝ}, l ≤ u → (∀ z ∈ Set.Icc l u, f z = g z) →
      bezierLoop b f N atol rtol r n p l u fl fu = bezierLoop b g N atol rtol r n p l u fl fu
  | 0, n, p, l, u, fl, fu, h1, h => by simp only [bezierLoop]; rw [hb f g l u atol rtol N h1 h]
  | r + 1, n, p, l, u, fl, fu, h1, h => by
    rw [bezierLoop, bezierLoop]
    rcases linearBezierEstimate l u fl fu with e | est
    · rfl
    simp only [ok_bind]
    have hm := clip_mem (x := est) h1
    rw [h _ hm]
    rcases g (clip est l u) with e | fr
    · rfl
    simp only [ok_bind]
    split
    · rfl
    split
    · exact bezierLoop_local hb r (n + 1) hm.1 fun z hz => h z ⟨hz.1, hz.2.trans hm.2⟩
    · exact bezierLoop_local hb r (n + 1) hm.2 fun z hz => h z ⟨hm.1.trans hz.1, hz.2⟩

theorem bezierLoop_mem {b : Brent} (hb : BrentSpec b) {f : ℝ → Py ℝ} {N : ℕ} {atol rtol : ℝ} :
    ∀ (r n : ℕ) {p l u fl fu z : ℝ} {k : ℕ}, l ≤ u →
      bezierLoop b f N atol rtol r n p l u fl fu = .ok (z, k) → z ∈ Set.Icc l u
  | 0, n, p, l, u, fl, fu, z, k, h1, h => by
    simp only [bezierLoop, bind_ok] at h
    obtain ⟨⟨x, m⟩, hx, h⟩ := h
    cases h
    exact (hb.mem h1 hx).1
  | r + 1, n, p, l, u, fl, fu, z, k, h1, h => by
    rw [bezierLoop] at h
    simp only [bind_ok] at h
    obtain ⟨est, -, fr, -, h⟩ := h
    have hm := clip_mem (x := est) h1
    split at h
    · cases h; exact hm
    split at h
    · have := bezierLoop_mem hb r (n + 1) hm.1 h
      exact ⟨this.1, this.2.trans hm.2⟩
    · have := bezierLoop_mem hb r (n + 1) hm.2 h
      exact ⟨hm.1.trans this.1, this.2⟩

end Pan

/-- **C35 for `pan2016`**, for every residual and every local `brentq`: the search only
evaluates points of the initial bracket, returns a point of it and keeps a sign change.
In particular the final call of `brentq` gets a valid bracket. -/
theorem pan_bracket {b : Brent} (hb : BrentSpec b) (hl : BrentLocal b) {F : ℝ → Py ℝ} {lo hi : ℝ} (hlh : lo ≤ hi)
    (atol rtol : ℝ) :
    (∀ (G : ℝ → Py ℝ), (∀ x ∈ Set.Icc lo hi, F x = G x) → ∀ maxiter,
      Pan.bezierRoot b F lo hi maxiter atol rtol = Pan.bezierRoot b G lo hi maxiter atol rtol) ∧
    (∀ maxiter x n, Pan.bezierRoot b F lo hi maxiter atol rtol = .ok (x, n) → x ∈ Set.Icc lo hi) ∧
    (∀ fl fu p l u f g, F lo = .ok fl → F hi = .ok fu → fl * fu ≤ 0 →
      Reaches (Pan.pass F atol rtol) (hi, lo, hi, fl, fu) (p, l, u, f, g) →
      Bracketed F lo hi p l u ∧ F l = .ok f ∧ F u = .ok g) := by
  refine ⟨fun G h N => ?_, fun N x n h => ?_, fun fl fu p l u f g ha hb' hs hr => ?_⟩
  · unfold Pan.bezierRoot
    rw [h lo ⟨le_rfl, hlh⟩, h hi ⟨hlh, le_rfl⟩]
    rcases G lo with e | fl
    · rfl
    rcases G hi with e | fu
    · rfl
    simp only [ok_bind]
    exact Pan.bezierLoop_local hl N 1 hlh h
  · simp only [Pan.bezierRoot, bind_ok] at h
    obtain ⟨fl, -, fu, -, h⟩ := h
    exact Pan.bezierLoop_mem hb N 1 hlh h
  · refine hr.inv (fun s => Bracketed F lo hi s.1 s.2.1 s.2.2.1 ∧ F s.2.1 = .ok s.2.2.2.1 ∧ F s.2.2.1 = .ok s.2.2.2.2)
      ⟨⟨⟨le_rfl, le_rfl⟩, ⟨hlh, le_rfl⟩, _, _, ha, hb', hs⟩, ha, hb'⟩ ?_
    rintro ⟨x, l, u, f, g⟩ ⟨x', l', u', f', g'⟩ ⟨⟨hn, hi, a, b, ha, hb, hs⟩, hf, hg⟩ h
    simp only at hn hi ha hb hf hg
    obtain rfl : a = f := by rw [ha] at hf; cases hf; rfl
    obtain rfl : b = g := by rw [hb] at hg; cases hg; rfl
    simp only [Pan.pass, bind_ok] at h
    obtain ⟨est, -, fr, hfr, h⟩ := h
    have hm := Pan.clip_mem (x := est) (hi.1.trans hi.2)
    obtain ⟨s1, s2⟩ := signChange_split ha hb hfr hs
    split at h
    · simp at h
    split at h
    · rename_i hc
      simp only [Except.ok.injEq, Sum.inr.injEq, Prod.mk.injEq] at h
      obtain ⟨rfl, rfl, rfl, rfl, rfl⟩ := h
      exact ⟨⟨⟨hn.1, hm.2.trans hn.2⟩, ⟨hm.1, le_rfl⟩, s1 hc⟩, ha, hfr⟩
    · rename_i hc
      simp only [Except.ok.injEq, Sum.inr.injEq, Prod.mk.injEq] at h
      obtain ⟨rfl, rfl, rfl, rfl, rfl⟩ := h
      exact ⟨⟨⟨hn.1.trans hm.1, hn.2⟩, ⟨le_rfl, hm.2⟩, s2 hc⟩, hfr, hb⟩

/-- The hypotheses of the three theorems: `x ↦ x² - 2` on `[1, 2]`, and a state reached by
one pass of Pan's search. -/
example : SignChange (fun x => .ok (x ^ 2 - 2)) 1 2 ∧ ∃ s, Reaches (Pan.pass (fun x => .ok (x ^ 2 - 2)) 0 0) (2, 1, 2, -1, 2) s ∧
    s = (4 / 3, 4 / 3, 2, -2 / 9, 2) := by
  refine ⟨⟨_, _, rfl, rfl, by norm_num⟩, _, .tail .refl ?_, rfl⟩
  have h1 : Pan.linearBezierEstimate 1 2 (-1) 2 = .ok (4 / 3) := by
    unfold Pan.linearBezierEstimate
    rw [pdiv_eq (by norm_num), ok_bind]
    norm_num
  have h2 : Pan.clip (4 / 3) 1 2 = 4 / 3 := by unfold Pan.clip; norm_num
  simp only [Pan.pass]
  rw [h1, ok_bind]
  simp only [h2, ok_bind]
  rw [if_neg (by norm_num [abs_le]), if_neg (by norm_num)]
  norm_num

/-! ## Vallado -/

namespace Vallado

/-- One pass of the loop of `vallado2013` on `(psi, psi_low, psi_up)`. -/
noncomputable def pass (mu R1 R2 A tof rtol : ℝ) : ℝ × ℝ × ℝ → Py ((ℝ × ℝ) ⊕ (ℝ × ℝ × ℝ)) := fun (psi, lo, up) => do
  let y0 ← yAtPsi psi R1 R2 A
  let s ← readjust R1 R2 A ⟨lo, psi, y0⟩
  let X ← xAtPsi s.psi s.y
  let tofNew ← tofVallado mu s.psi X A s.y
  let e ← pdiv (tofNew - tof) tof
  if |e| < rtol then .ok (.inl (s.y, s.psi))
  else
    let lo' := if tofNew ≤ tof then s.psi else s.psiLow
    let up' := if tofNew ≤ tof then up else s.psi
    .ok (.inr ((up' + lo') / 2, lo', up'))

theorem loop_pass (mu R1 R2 A tof rtol : ℝ) (r n : ℕ) (psi lo up : ℝ) :
    loop mu R1 R2 A tof rtol (r + 1) n psi lo up =
      (pass mu R1 R2 A tof rtol (psi, lo, up) >>= fun o =>
        match o with
        | .inl (y, p) => .ok (y, p, n)
        | .inr (psi', lo', up') => loop mu R1 R2 A tof rtol r (n + 1) psi' lo' up') := by
  rw [loop]
  simp only [pass]
  rcases yAtPsi psi R1 R2 A with e | y0
  · rfl
  simp only [ok_bind]
  rcases readjust R1 R2 A ⟨lo, psi, y0⟩ with e | s
  · rfl
  simp only [ok_bind]
  rcases xAtPsi s.psi s.y with e | X
  · rfl
  simp only [ok_bind]
  rcases tofVallado mu s.psi X A s.y with e | t
  · rfl
  simp only [ok_bind]
  rcases pdiv (t - tof) tof with e | q
  · rfl
  simp only [ok_bind]
  by_cases h : |q| < rtol
  · rw [if_pos h, if_pos h]; rfl
  · rw [if_neg h, if_neg h]; rfl

/-- A pass where `y` needs no readjustment. -/
theorem pass_eq {mu R1 R2 A tof rtol : ℝ} (hmu : 0 < mu) (htof : 0 < tof) {psi : ℝ} (h1 : psi < 4 * Real.pi ^ 2)
    (hy : 0 ≤ uvY (R1 + R2) A psi) (lo up : ℝ) :
    pass mu R1 R2 A tof rtol (psi, lo, up) =
      if |(uvT mu (R1 + R2) A psi - tof) / tof| < rtol then .ok (.inl (uvY (R1 + R2) A psi, psi))
      else if uvT mu (R1 + R2) A psi ≤ tof then .ok (.inr ((up + psi) / 2, psi, up))
      else .ok (.inr ((psi + lo) / 2, lo, psi)) := by
  have hc2 := c2_pos h1
  have hm := Real.sqrt_pos.2 hmu
  unfold pass
  simp only []
  rw [yAtPsi_eq hc2, ok_bind, readjust_nonneg hy, ok_bind]
  simp only [xAtPsi, c2_eq, tofVallado, c3_eq, ok_bind]
  rw [pdiv_eq hc2.ne', ok_bind, psqrt_eq (div_nonneg hy hc2.le), ok_bind, psqrt_eq hy, ok_bind, psqrt_eq hmu.le,
    ok_bind, pdiv_eq hm.ne', ok_bind]
  have : (Real.sqrt (uvY (R1 + R2) A psi / stumpffSeries 2 psi) ^ 3 * stumpffSeries 3 psi +
      A * Real.sqrt (uvY (R1 + R2) A psi)) / Real.sqrt mu = uvT mu (R1 + R2) A psi := rfl
  rw [this, pdiv_eq htof.ne', ok_bind]
  split
  · rfl
  · split <;> rfl

end Vallado

/-- **C35 for `vallado2013`, the part that holds**: on the long way, and for every elliptic
time of flight, the bisection stays in its initial bracket `[-4π², 4π²]` and keeps inside
the current bracket the value `p` of the universal variable that solves the problem,
provided the initial bracket contains it.
Missing: the hyperbolic short way, where `vallado_leaves_bracket` refutes it. -/
theorem vallado_bracket_partial {mu : ℝ} (hmu : 0 < mu) {r1 r2 : V3} (hna : NotAligned r1 r2) {pro : Bool}
    {tof : ℝ} (htof : 0 < tof) (hc : ¬ ShortWay pro r1 r2 ∨ parabolicTime mu r1 r2 pro ≤ tof) (rtol : ℝ)
    {psi lo up : ℝ}
    (hr : Reaches (Vallado.pass mu (V3.norm r1) (V3.norm r2) (signedA pro r1 r2) tof rtol)
      (0, -4 * Real.pi ^ 2, 4 * Real.pi ^ 2) (psi, lo, up)) :
    (-4 * Real.pi ^ 2 ≤ lo ∧ up ≤ 4 * Real.pi ^ 2 ∧ lo < psi ∧ psi < up) ∧
    ∃ p < 4 * Real.pi ^ 2, uvT mu (V3.norm r1 + V3.norm r2) (signedA pro r1 r2) p = tof ∧
      (-4 * Real.pi ^ 2 ≤ p → lo ≤ p ∧ p ≤ up) := by
  have hpi := Real.pi_pos
  obtain ⟨-, hG⟩ := getA_signedA (angle_of_eq hna (transferAngle_eq hna pro)) hna
  obtain ⟨hy0, hT0⟩ := Vallado.parabolic hmu hna pro
  have hP := Vallado.bound hG
  set R1 := V3.norm r1
  set R2 := V3.norm r2
  obtain ⟨p, ⟨hpd, hpT⟩, -⟩ := uvT_exists_unique hmu hG.hA hP htof
  have hmono := uvT_strictMonoOn (μ := mu) hmu hP
  have h00 : (0 : ℝ) ∈ uvDom (R1 + R2) (signedA pro r1 r2) := ⟨by positivity, hy0⟩
  -- the values visited are in the domain
  obtain ⟨L, hL, hdom, hstart⟩ : ∃ L, L ≤ 0 ∧ (∀ x, L ≤ x → x < 4 * Real.pi ^ 2 → x ∈ uvDom (R1 + R2) (signedA pro r1 r2)) ∧
      (L ≤ -4 * Real.pi ^ 2 ∨ (L = 0 ∧ 0 ≤ p)) := by
    by_cases hsw : ShortWay pro r1 r2
    · have hc := hc.resolve_left (not_not.2 hsw)
      refine ⟨0, le_rfl, fun x h1 h2 => ⟨h2, Vallado.uvY_pos hG.R1 hG.R2 hG.A2_lt h1 h2⟩, .inr ⟨rfl, ?_⟩⟩
      rw [← hmono.le_iff_le h00 hpd, hpT, hT0]; exact hc
    · refine ⟨-4 * Real.pi ^ 2, by nlinarith, fun x h1 h2 => ⟨h2, ?_⟩, .inl le_rfl⟩
      rcases le_or_gt 0 x with h | h
      · exact Vallado.uvY_pos hG.R1 hG.R2 hG.A2_lt h h2
      · obtain ⟨φ, hφ, rfl⟩ := half_sqrt_neg h
        rw [uvY_neg_sq hφ]
        have hA : signedA pro r1 r2 ≤ 0 := by
          unfold signedA
          rw [if_neg hsw]
          have := Real.sqrt_nonneg (V3.norm r1 * V3.norm r2 + V3.dot r1 r2)
          linarith
        have h3 : Real.sqrt 2 * signedA pro r1 r2 * Real.cosh φ ≤ 0 :=
          mul_nonpos_of_nonpos_of_nonneg (mul_nonpos_of_nonneg_of_nonpos (Real.sqrt_nonneg _) hA) (Real.cosh_pos φ).le
        have := hG.R1
        have := hG.R2
        linarith
  have key := hr.inv (fun s => -4 * Real.pi ^ 2 ≤ s.2.1 ∧ s.2.2 ≤ 4 * Real.pi ^ 2 ∧ s.2.1 < s.1 ∧ s.1 < s.2.2 ∧ L ≤ s.1 ∧
      (L ≤ s.2.1 ∨ s.1 = 0) ∧ (-4 * Real.pi ^ 2 ≤ p → s.2.1 ≤ p ∧ p ≤ s.2.2))
    ⟨le_rfl, le_rfl, by nlinarith, by positivity, hL, .inr rfl, fun h => ⟨h, hpd.1.le⟩⟩ (by
    rintro ⟨psi, lo, up⟩ ⟨psi', lo', up'⟩ ⟨h1, h2, h3, h4, h5, h6, h7⟩ h
    simp only at h1 h2 h3 h4 h5 h6 h7
    have hd := hdom psi h5 (by linarith)
    rw [Vallado.pass_eq hmu htof hd.1 hd.2.le] at h
    split at h
    · simp at h
    split at h
    · rename_i hle
      rw [← hpT, hmono.le_iff_le hd hpd] at hle
      simp only [Except.ok.injEq, Sum.inr.injEq, Prod.mk.injEq] at h
      obtain ⟨rfl, rfl, rfl⟩ := h
      exact ⟨by simp only; linarith, h2, by simp only; linarith, by simp only; linarith, by simp only; linarith, .inl h5,
        fun hp => ⟨hle, (h7 hp).2⟩⟩
    · rename_i hle
      rw [← hpT, hmono.le_iff_le hd hpd, not_le] at hle
      simp only [Except.ok.injEq, Sum.inr.injEq, Prod.mk.injEq] at h
      obtain ⟨rfl, rfl, rfl⟩ := h
      have hLlo : L ≤ lo := by
        rcases h6 with h | h
        · exact h
        · rcases hstart with h' | ⟨h', h''⟩
          · linarith
          · linarith
      exact ⟨h1, by simp only; linarith, by simp only; linarith, by simp only; linarith, by simp only; linarith, .inl hLlo,
        fun hp => ⟨(h7 hp).1, hle.le⟩⟩)
  exact ⟨⟨key.1, key.2.1, key.2.2.1, key.2.2.2.1⟩, p, hpd.1, hpT, key.2.2.2.2.2.2⟩

/-- The hypotheses of `vallado_bracket_partial`, with a state after one pass. -/
example : NotAligned ⟨1, 0, 0⟩ ⟨0, 1, 0⟩ ∧ ∃ tof : ℝ, 0 < tof ∧ parabolicTime 1 ⟨1, 0, 0⟩ ⟨0, 1, 0⟩ true ≤ tof ∧
    Reaches (Vallado.pass 1 (V3.norm ⟨1, 0, 0⟩) (V3.norm ⟨0, 1, 0⟩) (signedA true ⟨1, 0, 0⟩ ⟨0, 1, 0⟩) tof 0)
      (0, -4 * Real.pi ^ 2, 4 * Real.pi ^ 2) ((4 * Real.pi ^ 2 + 0) / 2, 0, 4 * Real.pi ^ 2) := by
  have hna : NotAligned ⟨1, 0, 0⟩ ⟨0, 1, 0⟩ := by simp [NotAligned]
  have hpi := Real.pi_pos
  obtain ⟨hy0, hT0⟩ := Vallado.parabolic one_pos hna true
  obtain ⟨t, ht⟩ : ∃ t, t = max 1 (parabolicTime 1 ⟨1, 0, 0⟩ ⟨0, 1, 0⟩ true) := ⟨_, rfl⟩
  have h0 : 0 < t := by rw [ht]; exact lt_of_lt_of_le one_pos (le_max_left _ _)
  have h1 : parabolicTime 1 ⟨1, 0, 0⟩ ⟨0, 1, 0⟩ true ≤ t := by rw [ht]; exact le_max_right _ _
  refine ⟨hna, t, h0, h1, .tail .refl ?_⟩
  rw [Vallado.pass_eq one_pos h0 (by positivity) hy0.le, if_neg (not_lt.2 (abs_nonneg _)), if_pos (by rw [hT0]; exact h1)]

/-- **C35 is false for `vallado2013`** on the hyperbolic short way: in units of length for
which `|r1||r2| ≥ 24 A`, the first readjustment evaluates `y` at a value below the initial
bracket `[-4π², 4π²]`. -/
theorem vallado_leaves_bracket {mu : ℝ} (hmu : 0 < mu) {r1 r2 : V3} (hna : NotAligned r1 r2) {pro : Bool}
    (hsw : ShortWay pro r1 r2) {A : ℝ} (hA : A = Real.sqrt (V3.norm r1 * V3.norm r2 + V3.dot r1 r2))
    (hK : 24 * A ≤ V3.norm r1 * V3.norm r2) (hP : V3.norm r1 + V3.norm r2 ≤ 4 * A) {tof rtol : ℝ} (htof : 0 < tof)
    (hT : tof * (1 + rtol) ≤ parabolicTime mu r1 r2 pro) (hT' : tof < parabolicTime mu r1 r2 pro) :
    Vallado.pass mu (V3.norm r1) (V3.norm r2) (signedA pro r1 r2) tof rtol (0, -4 * Real.pi ^ 2, 4 * Real.pi ^ 2) =
      .ok (.inr (-2 * Real.pi ^ 2, -4 * Real.pi ^ 2, 0)) ∧
    ∃ y < 0, Vallado.yAtPsi (-2 * Real.pi ^ 2) (V3.norm r1) (V3.norm r2) (signedA pro r1 r2) = .ok y ∧
    ∃ s, Vallado.readjustBody (V3.norm r1) (V3.norm r2) (signedA pro r1 r2) ⟨-4 * Real.pi ^ 2, -2 * Real.pi ^ 2, y⟩ = .ok s ∧
      s.psi < -4 * Real.pi ^ 2 := by
  obtain ⟨-, hG⟩ := getA_signedA (angle_of_eq hna (transferAngle_eq hna pro)) hna
  obtain ⟨hy0, hT0⟩ := Vallado.parabolic hmu hna pro
  have hAe : signedA pro r1 r2 = A := by unfold signedA; rw [if_pos hsw, one_mul, hA]
  rw [hAe] at hG hy0 hT0 ⊢
  have hA0 : 0 < A := lt_of_le_of_ne (by rw [hA]; positivity) (Ne.symm hG.hA)
  have hpi := Real.pi_pos
  have h2 : Real.sqrt 2 ^ 2 = 2 := Real.sq_sqrt (by norm_num)
  have hr2p : 0 < Real.sqrt 2 := by positivity
  obtain ⟨h, hh⟩ : ∃ h, h = Real.pi / Real.sqrt 2 := ⟨_, rfl⟩
  have hψ : -2 * Real.pi ^ 2 = -(2 * h) ^ 2 := by
    rw [hh, mul_pow, div_pow, h2]; ring
  have hpi3 := Real.pi_gt_d2
  have hpi4 := Real.pi_lt_d2
  have hr2a : 1.4142 ≤ Real.sqrt 2 := Real.le_sqrt_of_sq_le (by norm_num)
  have hr2b : Real.sqrt 2 ≤ 1.4143 := Real.sqrt_le_iff.2 ⟨by norm_num, by norm_num⟩
  have h1 : 2.22 ≤ h := by rw [hh, le_div_iff₀ hr2p]; linarith
  have h3 : h ≤ 2.2275 := by rw [hh, div_le_iff₀ hr2p]; linarith
  have hh0 : 0 < h := by linarith
  obtain ⟨hS, hC⟩ := Vallado.sinh_ge hh0.le
  have hC' := Vallado.cosh_le hh0.le (by linarith)
  have hy : uvY (V3.norm r1 + V3.norm r2) A (-(2 * h) ^ 2) < 0 := by
    rw [uvY_neg_sq hh0]
    have h5 : 3.4 ≤ Real.cosh h := by nlinarith [sq_nonneg (h ^ 2)]
    have h6 : (1.4142 : ℝ) * 3.4 ≤ Real.sqrt 2 * Real.cosh h := by gcongr
    nlinarith
  refine ⟨?_, uvY (V3.norm r1 + V3.norm r2) A (-(2 * h) ^ 2), hy, ?_, ?_⟩
  · rw [Vallado.pass_eq hmu htof (by positivity) hy0.le, hT0, if_neg (by
      rw [not_lt]
      refine le_trans ?_ (le_abs_self _)
      rw [le_div_iff₀ htof]; linarith), if_neg (not_le.2 hT')]
    congr 4
    ring
  · rw [hψ, Vallado.yAtPsi_eq (c2_pos (by nlinarith [sq_nonneg (2 * h)]))]
  have hs : 0 < Real.sinh (2 * h) - 2 * h := by
    have := Real.self_lt_sinh_iff.2 (show 0 < 2 * h by linarith)
    linarith
  have key : 0.8 * ((2 * h) ^ 3 / (Real.sinh (2 * h) - 2 * h)) *
      (1 - V3.norm r1 * V3.norm r2 * (Real.sinh h / (Real.sqrt 2 * h)) / A) < -4 * Real.pi ^ 2 := by
    obtain ⟨g, hg⟩ : ∃ g, g = V3.norm r1 * V3.norm r2 / (A * Real.sqrt 2) := ⟨_, rfl⟩
    have e : 0.8 * ((2 * h) ^ 3 / (Real.sinh (2 * h) - 2 * h)) *
        (1 - V3.norm r1 * V3.norm r2 * (Real.sinh h / (Real.sqrt 2 * h)) / A) =
        -(32 / 5 * h ^ 2 * (g * Real.sinh h - h) / (Real.sinh (2 * h) - 2 * h)) := by
      rw [hg, show (0.8 : ℝ) = 4 / 5 by norm_num]
      field_simp
      ring
    have hg1 : 16.9 ≤ g := by
      rw [hg, le_div_iff₀ (by positivity)]
      nlinarith
    rw [e, show -4 * Real.pi ^ 2 = -(4 * Real.pi ^ 2) by ring, neg_lt_neg_iff, lt_div_iff₀ hs,
      show 4 * Real.pi ^ 2 = 8 * h ^ 2 by rw [hh, div_pow, h2]; ring, Real.sinh_two_mul]
    have hS0 : 0 < Real.sinh h := Real.sinh_pos_iff.2 hh0
    have hCu : Real.cosh h ≤ 6.6 := by
      have t1 : h ^ 2 ≤ 4.962 := by nlinarith
      have t2 : h ^ 4 ≤ 4.962 ^ 2 := by
        rw [show h ^ 4 = (h ^ 2) ^ 2 by ring]
        gcongr
      linarith
    have h7 : Real.sinh h * Real.cosh h ≤ Real.sinh h * 6.6 := mul_le_mul_of_nonneg_left hCu hS0.le
    have h8 : 16.9 * Real.sinh h ≤ g * Real.sinh h := mul_le_mul_of_nonneg_right hg1 hS0.le
    have h9 : 8 * (2 * Real.sinh h * Real.cosh h - 2 * h) < 32 / 5 * (g * Real.sinh h - h) := by
      linarith
    have := mul_lt_mul_of_pos_left h9 (show 0 < h ^ 2 by positivity)
    linarith
  refine ⟨_, by rw [hψ]; exact Vallado.readjustBody_eq hA0.ne' hh0 _ _ (c2_pos (by nlinarith)), key⟩

/-- The hypotheses of `vallado_leaves_bracket`: a quarter turn at distance 40. -/
example : NotAligned ⟨40, 0, 0⟩ ⟨0, 40, 0⟩ ∧ ShortWay true ⟨40, 0, 0⟩ ⟨0, 40, 0⟩ ∧
    ∃ A, A = Real.sqrt (V3.norm ⟨40, 0, 0⟩ * V3.norm ⟨0, 40, 0⟩ + V3.dot ⟨40, 0, 0⟩ ⟨0, 40, 0⟩) ∧
      24 * A ≤ V3.norm ⟨40, 0, 0⟩ * V3.norm ⟨0, 40, 0⟩ ∧ V3.norm ⟨40, 0, 0⟩ + V3.norm ⟨0, 40, 0⟩ ≤ 4 * A ∧
      ∃ tof, 0 < tof ∧ tof * (1 + 1e-7) ≤ parabolicTime 1 ⟨40, 0, 0⟩ ⟨0, 40, 0⟩ true ∧
        tof < parabolicTime 1 ⟨40, 0, 0⟩ ⟨0, 40, 0⟩ true := by
  have hna : NotAligned ⟨40, 0, 0⟩ ⟨0, 40, 0⟩ := by simp [NotAligned]
  have n1 : V3.norm ⟨40, 0, 0⟩ = 40 := by simp [V3.norm, V3.dot]
  have n2 : V3.norm ⟨0, 40, 0⟩ = 40 := by simp [V3.norm, V3.dot]
  have hd : V3.dot ⟨40, 0, 0⟩ ⟨0, 40, 0⟩ = 0 := by simp [V3.dot]
  have hs : Real.sqrt (40 * 40 + 0) = 40 := by rw [add_zero]; exact Real.sqrt_mul_self (by norm_num)
  have hpt := (vallado_returns_parabolic one_pos hna true true 0 0 one_pos false 0).1
  rw [(Vallado.parabolic one_pos hna true).2] at hpt
  refine ⟨hna, by simp [ShortWay, crossZ], 40, by rw [n1, n2, hd, hs], by rw [n1, n2]; norm_num,
    by rw [n1, n2]; norm_num,
    parabolicTime 1 ⟨40, 0, 0⟩ ⟨0, 40, 0⟩ true / 2, by linarith, by linarith, by linarith⟩

end Lamberthub
