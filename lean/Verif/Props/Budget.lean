import Verif.Props.Catalogue
import Verif.Props.JiangMore
import Verif.Props.GoodingMore
import Verif.Props.Avanzini
import Verif.Props.Pan
import Verif.Props.Negrete
import Verif.Props.Thorne

/-! # C31 and C32: the iteration budget and `full_output` -/

set_option autoImplicit false

namespace Lamberthub
open Spec LC

/-- The number of iterations a call reports (only with `full_output=True`). -/
def Output.iterations : Output → Option ℕ
  | .plain _ _ => none
  | .full _ _ n _ => some n

@[simp] theorem mkOutput_iterations (v1 v2 : V3) (n : ℕ) (t : ℝ) :
    (mkOutput true v1 v2 n t).iterations = some n := rfl

/-! ## The loops -/

theorem Gauss.loop_count {s w atol : ℝ} : ∀ {r n : ℕ} {y x : ℝ} {k : ℕ},
    Gauss.loop s w atol r n y = .ok (x, k) → n ≤ k ∧ k < n + r := by
  intro r
  induction r with
  | zero => intro n y x k h; simp [Gauss.loop] at h
  | succ r ih =>
    intro n y x k h
    unfold Gauss.loop at h
    simp only [bind_ok] at h
    obtain ⟨_, -, h⟩ := h
    split at h
    · obtain ⟨-, rfl⟩ := Prod.mk.inj (Except.ok.inj h); omega
    · have := ih h; omega

theorem Battin.loop_count {ll m atol : ℝ} : ∀ {r n : ℕ} {x0 x y : ℝ} {k : ℕ},
    Battin.loop ll m atol r n x0 = .ok (x, y, k) → n ≤ k ∧ k < n + r := by
  intro r
  induction r with
  | zero => intro n x0 x y k h; simp [Battin.loop] at h
  | succ r ih =>
    intro n x0 x y k h
    unfold Battin.loop at h
    simp only [bind_ok] at h
    obtain ⟨⟨_, _⟩, -, _, -, _, -, _, -, h⟩ := h
    split at h
    · have := Except.ok.inj h; simp only [Prod.mk.injEq] at this; omega
    · have := ih h; omega

theorem Vallado.loop_count {mu R1 R2 A tof rtol : ℝ} : ∀ {r n : ℕ} {p l u y q : ℝ} {k : ℕ},
    Vallado.loop mu R1 R2 A tof rtol r n p l u = .ok (y, q, k) → n ≤ k ∧ k < n + r := by
  intro r
  induction r with
  | zero => intro n p l u y q k h; simp [Vallado.loop] at h
  | succ r ih =>
    intro n p l u y q k h
    unfold Vallado.loop at h
    simp only [bind_ok] at h
    obtain ⟨_, -, _, -, _, -, _, -, _, -, h⟩ := h
    split at h
    · have := Except.ok.inj h; simp only [Prod.mk.injEq] at this; omega
    · have := ih h; omega

theorem Avanzini.secantLoop_count {f : ℝ → Py ℝ} {atol rtol : ℝ} : ∀ {r n : ℕ} {x0 f0 x1 f1 z : ℝ} {k : ℕ},
    Avanzini.secantLoop f atol rtol r n x0 f0 x1 f1 = .ok (z, k) → n ≤ k ∧ k < n + r := by
  intro r
  induction r with
  | zero => intro n x0 f0 x1 f1 z k h; simp [Avanzini.secantLoop] at h
  | succ r ih =>
    intro n x0 f0 x1 f1 z k h
    unfold Avanzini.secantLoop at h
    split at h
    · obtain ⟨-, rfl⟩ := Prod.mk.inj (Except.ok.inj h); omega
    · simp only [bind_ok] at h
      obtain ⟨_, -, h⟩ := h
      split at h
      · obtain ⟨-, rfl⟩ := Prod.mk.inj (Except.ok.inj h); omega
      · simp only [bind_ok] at h
        obtain ⟨_, -, h⟩ := h
        have := ih h; omega

theorem Arora.iterate_count {tof tofP tau S d : ℝ} {M : ℤ} {atol : ℝ} : ∀ {r n : ℕ} {k0 z : ℝ} {k : ℕ},
    Arora.iterate tof tofP tau S d M atol r n k0 = .ok (z, k) → n < k ∧ k ≤ n + r := by
  intro r
  induction r with
  | zero => intro n k0 z k h; simp [Arora.iterate] at h
  | succ r ih =>
    intro n k0 z k h
    unfold Arora.iterate at h
    simp only [bind_ok] at h
    obtain ⟨_, -, _, -, _, -, _, -, _, -, h⟩ := h
    split at h
    · obtain ⟨-, rfl⟩ := Prod.mk.inj (Except.ok.inj h); omega
    · simp only [bind_ok] at h
      obtain ⟨_, -, _, -, _, -, _, -, _, -, h⟩ := h
      have := ih h; omega

theorem Pan.bezierLoop_count {b : Brent} {f : ℝ → Py ℝ} {N : ℕ} {atol rtol : ℝ} :
    ∀ {r n : ℕ} {p l u fl fu z : ℝ} {k : ℕ}, n + r = N + 1 →
      Pan.bezierLoop b f N atol rtol r n p l u fl fu = .ok (z, k) → k ≤ N ∧ (1 ≤ n → 1 ≤ N → 1 ≤ k) := by
  intro r
  induction r with
  | zero =>
    intro n p l u fl fu z k hn h
    unfold Pan.bezierLoop at h
    simp only [bind_ok] at h
    obtain ⟨⟨_, _⟩, -, h⟩ := h
    obtain ⟨-, rfl⟩ := Prod.mk.inj (Except.ok.inj h)
    exact ⟨le_rfl, fun _ h => h⟩
  | succ r ih =>
    intro n p l u fl fu z k hn h
    unfold Pan.bezierLoop at h
    simp only [bind_ok] at h
    obtain ⟨_, -, _, -, h⟩ := h
    split at h
    · obtain ⟨-, rfl⟩ := Prod.mk.inj (Except.ok.inj h); exact ⟨by omega, fun h _ => h⟩
    · split at h
      · have := ih (by omega) h; exact ⟨this.1, fun h h' => this.2 (by omega) h'⟩
      · have := ih (by omega) h; exact ⟨this.1, fun h h' => this.2 (by omega) h'⟩

theorem Jiang.solveLoop_count {F : ℝ → Py ℝ} {atol rtol : ℝ} : ∀ {r n : ℕ} {x l u fl z : ℝ} {k : ℕ},
    Jiang.solveLoop F atol rtol r n x l u fl = .ok (z, k) → n ≤ k ∧ k < n + r := by
  intro r
  induction r with
  | zero => intro n x l u fl z k h; simp [Jiang.solveLoop] at h
  | succ r ih =>
    intro n x l u fl z k h
    unfold Jiang.solveLoop at h
    simp only [bind_ok] at h
    obtain ⟨_, -, h⟩ := h
    split at h
    · obtain ⟨-, rfl⟩ := Prod.mk.inj (Except.ok.inj h); omega
    · simp only [bind_ok] at h
      obtain ⟨_, -, _, -, h⟩ := h
      split at h
      · obtain ⟨-, rfl⟩ := Prod.mk.inj (Except.ok.inj h); omega
      · have := ih h; omega

theorem Gooding.xlambIter_count {m : ℤ} {q q1 tin atol rtol : ℝ} {N : ℕ} : ∀ {r n : ℕ} {x xo z : ℝ} {k : ℕ},
    n + r = N + 1 → Gooding.xlambIter m q q1 tin atol rtol N r n x xo = .ok (z, k) → k ≤ N ∧ (1 ≤ n → 1 ≤ N → 1 ≤ k) := by
  intro r
  induction r with
  | zero =>
    intro n x xo z k hn h
    simp only [Gooding.xlambIter] at h
    obtain ⟨-, rfl⟩ := Prod.mk.inj (Except.ok.inj h)
    exact ⟨le_rfl, fun _ h => h⟩
  | succ r ih =>
    intro n x xo z k hn h
    unfold Gooding.xlambIter at h
    simp only [bind_ok] at h
    obtain ⟨⟨_, _, _, _⟩, -, ⟨_, _⟩, -, _, -, h⟩ := h
    split at h
    · obtain ⟨-, rfl⟩ := Prod.mk.inj (Except.ok.inj h); exact ⟨by omega, fun h _ => h⟩
    · have := ih (by omega) h
      exact ⟨this.1, fun h h' => this.2 (by omega) h'⟩

theorem McElreath.desiredLoop_count {tof rs m : ℝ} {M : ℕ} {lo : ℝ} {hi : Option ℝ} {tol : ℝ} :
    ∀ {r n : ℕ} {x z : ℂ} {k : ℕ}, McElreath.desiredLoop tof rs m M lo hi tol r n x = .ok (z, k) → n ≤ k ∧ k < n + r := by
  intro r
  induction r with
  | zero => intro n x z k h; simp [McElreath.desiredLoop] at h
  | succ r ih =>
    intro n x z k h
    unfold McElreath.desiredLoop at h
    simp only [bind_ok] at h
    obtain ⟨⟨_, _, _, _⟩, -, _, -, _, -, h⟩ := h
    split at h
    · obtain ⟨-, rfl⟩ := Prod.mk.inj (Except.ok.inj h); omega
    · have := ih h; omega

theorem McElreath.minimumLoop_count {tof rs m : ℝ} {M : ℕ} {lo hi : ℝ} :
    ∀ {r n : ℕ} {x : ℂ} {tol z : ℝ} {k : ℕ}, McElreath.minimumLoop tof rs m M lo hi r n x tol = .ok (z, k) →
      n ≤ k ∧ k < n + r := by
  intro r
  induction r with
  | zero => intro n x tol z k h; simp [McElreath.minimumLoop] at h
  | succ r ih =>
    intro n x tol z k h
    unfold McElreath.minimumLoop at h
    simp only [bind_ok] at h
    obtain ⟨⟨_, _, _, _⟩, -, _, -, q, -, g, -, h⟩ := h
    generalize (if g < 1e-4 then _ else _ : ℝ) = tol' at h
    split at h
    · obtain ⟨-, rfl⟩ := Prod.mk.inj (Except.ok.inj h); omega
    · have := ih h; omega

theorem Der.ellipticLoop_count {σ τ : ℝ} {M : ℤ} {x0 : ℝ} {N : ℕ} {atol rtol : ℝ} :
    ∀ {r n : ℕ} {x z y : ℝ} {k : ℕ}, n + r = N → Der.ellipticLoop σ τ M x0 N atol rtol r n x = .ok (z, y, k, false) →
      n < k ∧ k ≤ N := by
  intro r
  induction r with
  | zero => intro n x z y k hn h; simp [Der.ellipticLoop] at h
  | succ r ih =>
    intro n x z y k hn h
    unfold Der.ellipticLoop at h
    simp only [bind_ok] at h
    obtain ⟨_, -, h⟩ := h
    split at h
    · have := (Except.ok.inj h); simp only [Prod.mk.injEq] at this; omega
    · simp only [bind_ok] at h
      obtain ⟨_, -, _, -, h⟩ := h
      split at h
      · simp at h
      · have := ih (by omega) h; omega

theorem Der.hyperbolicLoop_count {σ τ : ℝ} {N : ℕ} {atol rtol : ℝ} :
    ∀ {r n : ℕ} {x z y : ℝ} {k : ℕ}, n + r = N → Der.hyperbolicLoop σ τ N atol rtol r n x = .ok (z, y, k, false) →
      n < k ∧ k ≤ N := by
  intro r
  induction r with
  | zero => intro n x z y k hn h; simp [Der.hyperbolicLoop] at h
  | succ r ih =>
    intro n x z y k hn h
    unfold Der.hyperbolicLoop at h
    simp only [bind_ok] at h
    obtain ⟨_, -, h⟩ := h
    split at h
    · have := (Except.ok.inj h); simp only [Prod.mk.injEq] at this; omega
    · simp only [bind_ok] at h
      obtain ⟨⟨_, _⟩, -, h⟩ := h
      split at h
      · simp at h
      · have := ih (by omega) h; omega

/-! ## The functions that count -/

theorem Avanzini.secant_count {f : ℝ → Py ℝ} {x0 : ℝ} {N : ℕ} {atol rtol z : ℝ} {k : ℕ}
    (h : Avanzini.secant f x0 N atol rtol = .ok (z, k)) : 1 ≤ k ∧ k ≤ N := by
  unfold Avanzini.secant at h
  simp only [bind_ok] at h
  obtain ⟨_, -, _, -, h⟩ := h
  have := Avanzini.secantLoop_count h
  omega

theorem Delatorre.findZ_count {P Q mu tof : ℝ} {M : ℤ} {low : Bool} {N : ℕ} {atol rtol z : ℝ} {k : ℕ}
    (h : Delatorre.findZ P Q mu tof M low N atol rtol = .ok (z, k)) : 1 ≤ k ∧ k ≤ max 1 N := by
  unfold Delatorre.findZ at h
  simp only [bind_ok] at h
  obtain ⟨⟨_, _⟩, -, h⟩ := h
  have hS : Delatorre.Seg Set.univ := fun _ _ _ _ _ _ _ => trivial
  exact (Delatorre.solveBracketed_ok hS (Set.mem_univ _) (Set.mem_univ _) h).2.2

theorem Der.findPathParameter_count {b : Brent} {σ τ τp : ℝ} {M : ℤ} {low : Bool} {N : ℕ} {atol rtol x y : ℝ} {k : ℕ}
    (h : Der.findPathParameter b σ τ τp M low N atol rtol = .ok (x, y, k)) : k ≤ max 1 N ∧ (1 ≤ N → 1 ≤ k) := by
  unfold Der.findPathParameter at h
  split at h
  · have := Except.ok.inj h; simp only [Prod.mk.injEq] at this; omega
  · simp only [bind_ok] at h
    obtain ⟨_, -, h⟩ := h
    split at h
    · unfold Der.solveElliptic Der.solveEllipticJit at h
      simp only [bind_ok] at h
      obtain ⟨⟨_, _, _, f⟩, hj, h⟩ := h
      cases f
      · have := Except.ok.inj h; simp only [Prod.mk.injEq] at this
        have := Der.ellipticLoop_count (by omega) hj
        omega
      · simp only [if_true, Der.solveEllipticBracketed, bind_ok] at h
        obtain ⟨⟨_, _⟩, -, h⟩ := h
        have := Except.ok.inj h; simp only [Prod.mk.injEq] at this; omega
    · unfold Der.solveHyperbolic Der.solveHyperbolicJit at h
      simp only [bind_ok] at h
      obtain ⟨⟨_, _, _, f⟩, hj, h⟩ := h
      cases f
      · have := Except.ok.inj h; simp only [Prod.mk.injEq] at this
        have := Der.hyperbolicLoop_count (by omega) hj
        omega
      · simp only [if_true, Der.solveHyperbolicBracketed, bind_ok] at h
        obtain ⟨_, -, ⟨_, _⟩, -, h⟩ := h
        have := Except.ok.inj h; simp only [Prod.mk.injEq] at this; omega

theorem Jiang.semiLatusRectum_count {mu tof tp R1 R2 c s θ : ℝ} {N : ℕ} {atol rtol p : ℝ} {k : ℕ}
    (h : Jiang.semiLatusRectum mu tof tp R1 R2 c s θ N atol rtol = .ok (p, k)) :
    k ≤ N ∧ (k = 0 ↔ |tof - tp| ≤ atol + rtol * |tp|) := by
  unfold Jiang.semiLatusRectum at h
  split at h
  · rename_i hc
    unfold Jiang.solveParabolic at h
    simp only [bind_ok] at h
    obtain ⟨_, -, h⟩ := h
    obtain ⟨-, rfl⟩ := Prod.mk.inj (Except.ok.inj h)
    exact ⟨Nat.zero_le _, by simp [hc]⟩
  · rename_i hc
    have key : 1 ≤ k ∧ k ≤ N → k ≤ N ∧ (k = 0 ↔ |tof - tp| ≤ atol + rtol * |tp|) := fun h =>
      ⟨h.2, by simp only [hc, iff_false]; omega⟩
    split at h
    · unfold Jiang.solveElliptic Jiang.findAndSolveElliptic Jiang.solveSemimajorAxis at h
      simp only [bind_ok] at h
      obtain ⟨_, -, ⟨_, _⟩, ⟨⟨_, _⟩, -, _, -, hl⟩, _, -, h⟩ := h
      obtain ⟨-, rfl⟩ := Prod.mk.inj (Except.ok.inj h)
      have := Jiang.solveLoop_count hl
      exact key (by omega)
    · unfold Jiang.solveHyperbolic Jiang.findAndSolveHyperbolic Jiang.solveSemimajorAxis at h
      simp only [bind_ok] at h
      obtain ⟨⟨_, _⟩, ⟨⟨_, _⟩, -, _, -, hl⟩, _, -, h⟩ := h
      obtain ⟨-, rfl⟩ := Prod.mk.inj (Except.ok.inj h)
      have := Jiang.solveLoop_count hl
      exact key (by omega)

theorem Pan.findArgumentOfPeriapsis_count {b : Brent} {mu : ℝ} {g : Pan.Geometry} {tof : ℝ} {N : ℕ} {atol rtol w : ℝ}
    {k : ℕ} (h : Pan.findArgumentOfPeriapsis b mu g tof N atol rtol = .ok (w, k)) : k ≤ N ∧ (1 ≤ N → 1 ≤ k) := by
  unfold Pan.findArgumentOfPeriapsis at h
  split at h
  · cases h
  · unfold Pan.bezierRoot at h
    simp only [bind_ok] at h
    obtain ⟨_, -, _, -, h⟩ := h
    have := Pan.bezierLoop_count (by omega) h
    exact ⟨this.1, this.2 le_rfl⟩

/-- The root finder reports at least one iteration (the contract of `brentq` does not
promise it: when one end of the interval is an exact root scipy reports none). -/
def BrentCounts (b : Brent) : Prop := ∀ {f lo hi xtol rtol maxiter x n}, b f lo hi xtol rtol maxiter = .ok (x, n) → 1 ≤ n

theorem exactBrent_counts : BrentCounts exactBrent := by
  intro f lo hi xtol rtol maxiter x n h
  unfold exactBrent at h
  split at h
  · cases h
  · split at h
    · simp only [Except.ok.injEq, Prod.mk.injEq] at h; omega
    · cases h

theorem Thorne.getSemimajorAxis_count {b : Brent} (hb : BrentSpec b) (hc : BrentCounts b)
    {mu s c tof tP tMin mp : ℝ} {N : ℕ} {atol rtol a : ℝ} {br : Thorne.Branch} {k : ℕ} (hmu : 0 < mu) (hs : 0 < s)
    (hc0 : 0 ≤ c) (hcs : c ≤ s)
    (h : Thorne.getSemimajorAxis b mu s c tof tP tMin mp N atol rtol = .ok (a, br, k)) : 1 ≤ k ∧ k ≤ max 1 N := by
  have h2 : k ≤ max 1 N := by
    rcases Thorne.getSemimajorAxis_ok hb hmu hs hc0 hcs h with h | h
    · omega
    · have := h.2.1; omega
  refine ⟨?_, h2⟩
  have key : ∀ {br' : Thorne.Branch} {lo up : ℝ},
      Thorne.solveBranch b mu s c tof mp br' lo up N atol rtol = .ok (a, br, k) → 1 ≤ k := by
    intro br' lo up h
    unfold Thorne.solveBranch at h
    simp only [bind_ok] at h
    obtain ⟨⟨_, n⟩, hbr, h⟩ := h
    have := Except.ok.inj h; simp only [Prod.mk.injEq] at this
    obtain ⟨-, -, rfl⟩ := this
    exact hc hbr
  unfold Thorne.getSemimajorAxis at h
  split at h
  · have := Except.ok.inj h; simp only [Prod.mk.injEq] at this; omega
  · split at h
    · simp only [bind_ok] at h
      obtain ⟨_, -, h⟩ := h; exact key h
    · split at h
      · simp only [bind_ok] at h
        obtain ⟨_, -, h⟩ := h; exact key h
      · simp only [bind_ok] at h
        obtain ⟨_, -, h⟩ := h; exact key h

theorem McElreath.findX_count {tof R1 R2 m θ : ℝ} {M : ℕ} {low : Bool} {N : ℕ} {atol rtol : ℝ} {x : ℂ} {k : ℕ}
    (h : McElreath.findX tof R1 R2 m θ M low N atol rtol = .ok (x, k)) :
    1 ≤ k ∧ (M = 0 → k ≤ max 1 N) ∧ k ≤ max 1 (2 * N) := by
  have key : ∀ {x0 : ℂ} {tof rs m : ℝ} {M : ℕ} {lo : ℝ} {hi : Option ℝ} {rtol : ℝ} {z : ℂ} {n : ℕ},
      McElreath.solveDesiredX x0 tof rs m M lo hi N rtol = .ok (z, n) → 1 ≤ n ∧ n ≤ N := by
    intro x0 tof rs m M lo hi rtol z n h
    have := McElreath.desiredLoop_count h
    omega
  unfold McElreath.findX at h
  split at h
  · have key' : 1 ≤ k ∧ k ≤ N → 1 ≤ k ∧ (M = 0 → k ≤ max 1 N) ∧ k ≤ max 1 (2 * N) := fun h => by omega
    unfold McElreath.findSingleRevolutionX at h
    simp only [bind_ok] at h
    obtain ⟨_, -, h⟩ := h
    split at h
    · obtain ⟨-, rfl⟩ := Prod.mk.inj (Except.ok.inj h); omega
    · split at h
      · simp only [bind_ok] at h
        obtain ⟨_, -, h⟩ := h; exact key' (key h)
      · split at h
        · simp only [bind_ok] at h
          obtain ⟨_, -, _, -, h⟩ := h; exact key' (key h)
        · simp only [bind_ok] at h
          obtain ⟨_, -, h⟩ := h; exact key' (key h)
  · rename_i hM
    unfold McElreath.findMultiRevolutionX at h
    simp only [bind_ok] at h
    obtain ⟨_, -, ⟨_, n1⟩, hm, _, -, _, -, h⟩ := h
    have h1 := McElreath.minimumLoop_count hm
    split at h
    · obtain ⟨-, h⟩ := Prod.mk.inj (Except.ok.inj h)
      split at h <;> omega
    · unfold McElreath.solvePair at h
      simp only [bind_ok] at h
      obtain ⟨⟨_, _⟩, -, ⟨_, n2⟩, hd, h⟩ := h
      have h2 := key hd
      obtain ⟨-, h⟩ := Prod.mk.inj (Except.ok.inj h)
      split at h <;> omega

/-! ## Two runs of the same solver -/

/-- Two runs raise the same exception or return related values. -/
def Agree {α β : Type} (R : α → β → Prop) (x : Py α) (y : Py β) : Prop :=
  (∃ e, x = .error e ∧ y = .error e) ∨ ∃ a b, x = .ok a ∧ y = .ok b ∧ R a b

theorem Agree.bind {α β γ δ : Type} {R : α → β → Prop} {S : γ → δ → Prop} {x : Py α} {y : Py β} {f : α → Py γ}
    {g : β → Py δ} (h : Agree R x y) (hfg : ∀ a b, x = .ok a → y = .ok b → R a b → Agree S (f a) (g b)) :
    Agree S (x >>= f) (y >>= g) := by
  rcases h with ⟨e, rfl, rfl⟩ | ⟨a, b, rfl, rfl, hr⟩
  · exact .inl ⟨e, rfl, rfl⟩
  · exact hfg a b rfl rfl hr

theorem Agree.same {α γ δ : Type} {S : γ → δ → Prop} {x : Py α} {f : α → Py γ} {g : α → Py δ}
    (hfg : ∀ a, x = .ok a → Agree S (f a) (g a)) : Agree S (x >>= f) (x >>= g) := by
  cases x with
  | error e => exact .inl ⟨e, rfl, rfl⟩
  | ok a => exact hfg a rfl

theorem Agree.ok {α β : Type} {R : α → β → Prop} {a : α} {b : β} (h : R a b) : Agree R (.ok a) (.ok b) :=
  .inr ⟨a, b, rfl, rfl, h⟩

theorem Agree.mono {α β : Type} {R S : α → β → Prop} {x : Py α} {y : Py β} (h : Agree R x y) (hs : ∀ a b, R a b → S a b) :
    Agree S x y := by
  rcases h with h | ⟨a, b, hx, hy, hr⟩
  · exact .inl h
  · exact .inr ⟨a, b, hx, hy, hs a b hr⟩

/-- The outputs without and with `full_output`: the same velocities, and a number of
iterations with the property `P`. -/
def Outs (P : ℕ → Prop) (a b : Output) : Prop :=
  ∃ v1 v2 n t, a = .plain v1 v2 ∧ b = .full v1 v2 n t ∧ P n

theorem Outs.mk {P : ℕ → Prop} {v1 v2 : V3} {n : ℕ} {t t' : ℝ} (h : P n) :
    Outs P (mkOutput false v1 v2 n t) (mkOutput true v1 v2 n t') := ⟨v1, v2, n, t', rfl, rfl, h⟩

theorem Agree.tpi {γ δ : Type} {S : γ → δ → Prop} {c c' : ℝ} {n : ℕ} {f : ℝ → Py γ} {g : ℝ → Py δ} (hn : 1 ≤ n)
    (h : ∀ t t', Agree S (f t) (g t')) : Agree S (timePerIter false c n >>= f) (timePerIter true c' n >>= g) := by
  obtain ⟨t, ht⟩ := timePerIter_pos false c hn
  obtain ⟨t', ht'⟩ := timePerIter_pos true c' hn
  rw [ht, ht', ok_bind, ok_bind]
  exact h _ _

section
variable {mu : ℝ} {r1 r2 : V3} {tof : ℝ} {M : ℤ} {pro low : Bool} {N : ℕ} {atol rtol c c' : ℝ}

theorem gauss_runs : Agree (Outs fun n => 1 ≤ n ∧ n ≤ N) (gauss1809 mu r1 r2 tof M pro low N atol rtol false c)
    (gauss1809 mu r1 r2 tof M pro low N atol rtol true c') := by
  unfold gauss1809
  refine Agree.same fun _ _ => Agree.same fun _ _ => Agree.same fun _ _ => Agree.same fun _ _ => Agree.same fun _ _ =>
    Agree.same fun _ _ => Agree.same fun ⟨x, n⟩ hl => ?_
  have := Gauss.loop_count hl
  exact Agree.tpi (by omega) fun _ _ => Agree.same fun ⟨_, _⟩ _ => Agree.ok (Outs.mk (by omega))

theorem battin_runs : Agree (Outs fun n => 1 ≤ n ∧ n ≤ N) (battin1984 mu r1 r2 tof M pro low N atol rtol false c)
    (battin1984 mu r1 r2 tof M pro low N atol rtol true c') := by
  unfold battin1984
  refine Agree.same fun _ _ => Agree.same fun _ _ => Agree.same fun _ _ => Agree.same fun _ _ => Agree.same fun _ _ =>
    Agree.same fun _ _ => Agree.same fun _ _ => Agree.same fun ⟨x, y, n⟩ hl => ?_
  have := Battin.loop_count hl
  exact Agree.tpi (by omega) fun _ _ => Agree.same fun ⟨_, _⟩ _ => Agree.ok (Outs.mk (by omega))

theorem vallado_runs : Agree (Outs fun n => 1 ≤ n ∧ n ≤ N) (vallado2013 mu r1 r2 tof M pro low N atol rtol false c)
    (vallado2013 mu r1 r2 tof M pro low N atol rtol true c') := by
  unfold vallado2013
  refine Agree.same fun _ _ => Agree.same fun _ _ => Agree.same fun _ _ => Agree.same fun _ _ =>
    Agree.same fun ⟨y, q, n⟩ hl => ?_
  have := Vallado.loop_count hl
  exact Agree.same fun _ _ => Agree.same fun _ _ => Agree.same fun _ _ => Agree.same fun _ _ => Agree.same fun _ _ =>
    Agree.same fun _ _ => Agree.ok (Outs.mk (by omega))

theorem avanzini_runs : Agree (Outs fun n => 1 ≤ n ∧ n ≤ N) (avanzini2008 mu r1 r2 tof M pro low N atol rtol false c)
    (avanzini2008 mu r1 r2 tof M pro low N atol rtol true c') := by
  unfold avanzini2008
  refine Agree.same fun _ _ => Agree.same fun _ _ => Agree.same fun _ _ => Agree.same fun _ _ =>
    Agree.same fun ⟨x, n⟩ hl => ?_
  have := Avanzini.secant_count hl
  exact Agree.tpi (by omega) fun _ _ => Agree.same fun _ _ => Agree.same fun _ _ => Agree.same fun ⟨_, _⟩ _ =>
    Agree.ok (Outs.mk this)

theorem arora_runs {mz : Minimizer} {b : Brent} : Agree (Outs fun n => 1 ≤ n ∧ n ≤ N)
    (arora2013 mz b mu r1 r2 tof M pro low N atol rtol false c)
    (arora2013 mz b mu r1 r2 tof M pro low N atol rtol true c') := by
  unfold arora2013
  refine Agree.same fun _ _ => Agree.same fun _ _ => Agree.same fun _ _ => Agree.same fun _ _ => Agree.same fun _ _ =>
    Agree.same fun _ _ => Agree.same fun _ _ => Agree.same fun _ _ => Agree.same fun _ _ => Agree.same fun _ _ =>
    Agree.same fun _ _ => Agree.same fun _ _ => Agree.same fun _ _ => Agree.same fun _ _ => Agree.same fun _ _ =>
    Agree.same fun _ _ => Agree.same fun _ _ => Agree.same fun ⟨k, n⟩ hl => ?_
  have := Arora.iterate_count hl
  exact Agree.tpi (by omega) fun _ _ => Agree.same fun ⟨_, _⟩ _ => Agree.ok (Outs.mk (by omega))

theorem jiang_runs : Agree (Outs fun n => n ≤ N) (jiang2016 mu r1 r2 tof M pro low N atol rtol false c)
    (jiang2016 mu r1 r2 tof M pro low N atol rtol true c') := by
  unfold jiang2016
  refine Agree.same fun _ _ => Agree.same fun _ _ => Agree.same fun _ _ => Agree.same fun _ _ => Agree.same fun _ _ =>
    Agree.same fun _ _ => Agree.same fun ⟨p, n⟩ hl => ?_
  have := Jiang.semiLatusRectum_count hl
  exact Agree.same fun ⟨_, _⟩ _ => Agree.ok (Outs.mk this.1)

theorem delatorre_runs : Agree (Outs fun n => 1 ≤ n ∧ n ≤ max 1 N)
    (delatorre2018 mu r1 r2 tof M pro low N atol rtol false c)
    (delatorre2018 mu r1 r2 tof M pro low N atol rtol true c') := by
  unfold delatorre2018
  refine Agree.same fun _ _ => Agree.same fun _ _ => Agree.same fun _ _ => Agree.same fun ⟨z, n⟩ hl => ?_
  have hc := Delatorre.findZ_count hl
  have hn : (n : ℝ) ≠ 0 := by
    have : n ≠ 0 := by omega
    exact_mod_cast this
  refine Agree.same fun _ _ => Agree.same fun _ _ => Agree.same fun _ _ => Agree.same fun _ _ => Agree.same fun _ _ =>
    Agree.same fun _ _ => Agree.same fun _ _ => Agree.same fun _ _ => ?_
  rw [pdiv_eq hn, pdiv_eq hn, ok_bind, ok_bind]
  exact Agree.ok (Outs.mk hc)

theorem der_runs {b : Brent} (hN : 1 ≤ N) : Agree (Outs fun n => 1 ≤ n ∧ n ≤ N)
    (der2011 b mu r1 r2 tof M pro low N atol rtol false c) (der2011 b mu r1 r2 tof M pro low N atol rtol true c') := by
  unfold der2011
  refine Agree.same fun _ _ => Agree.same fun _ _ => Agree.same fun _ _ => Agree.same fun _ _ => Agree.same fun _ _ =>
    Agree.same fun _ _ => Agree.same fun _ _ => Agree.same fun ⟨x, y, n⟩ hl => ?_
  have := Der.findPathParameter_count hl
  exact Agree.tpi (by omega) fun _ _ => Agree.same fun ⟨_, _⟩ _ => Agree.ok (Outs.mk (by omega))

theorem thorne_runs {b : Brent} (hb : BrentSpec b) (hbc : BrentCounts b) (hN : 1 ≤ N) :
    Agree (Outs fun n => 1 ≤ n ∧ n ≤ N) (thorne2004 b mu r1 r2 tof M pro low N atol rtol false c)
      (thorne2004 b mu r1 r2 tof M pro low N atol rtol true c') := by
  unfold thorne2004
  refine Agree.same fun _ _ => Agree.same fun _ hv => Agree.same fun _ _ => Agree.same fun _ _ => Agree.same fun _ _ =>
    Agree.same fun ⟨a, br, n⟩ hl => ?_
  obtain ⟨hmu, h1, -, -, -⟩ := assertParameters_iff.1 hv
  have hR1 : 0 < V3.norm r1 := norm_pos_iff.2 h1
  have hR2 : 0 ≤ V3.norm r2 := norm_nonneg _
  have hc : 0 ≤ V3.norm (r2 - r1) := norm_nonneg _
  have htri : V3.norm (r2 - r1) ≤ V3.norm r1 + V3.norm r2 := by
    have h1 := abs_dot_le r1 r2
    have h2 := norm_sq (r2 - r1)
    have h3 := norm_sq r1
    have h4 := norm_sq r2
    have h5 := neg_abs_le (V3.dot r1 r2)
    simp only [V3.sub_x, V3.sub_y, V3.sub_z] at h2
    simp only [V3.dot] at h1 h5
    exact abs_le_of_sq_le_sq' (by nlinarith) (by linarith) |>.2
  have := Thorne.getSemimajorAxis_count hb hbc hmu (by linarith) hc (by linarith) hl
  exact Agree.tpi (by omega) fun _ _ => Agree.same fun _ _ => Agree.same fun _ _ => Agree.same fun ⟨_, _⟩ _ =>
    Agree.ok (Outs.mk (by omega))

theorem mcelreath_runs : Agree (Outs fun n => 1 ≤ n ∧ (M = 0 → n ≤ max 1 N) ∧ n ≤ max 1 (2 * N))
    (mcelreath2025 mu r1 r2 tof M pro low N atol rtol false c)
    (mcelreath2025 mu r1 r2 tof M pro low N atol rtol true c') := by
  unfold mcelreath2025
  refine Agree.same fun _ _ => Agree.same fun _ _ => Agree.same fun _ _ => Agree.same fun _ _ =>
    Agree.same fun ⟨x, n⟩ hl => ?_
  have := McElreath.findX_count hl
  exact Agree.tpi (by omega) fun _ _ => Agree.same fun ⟨_, _⟩ _ =>
    Agree.ok (Outs.mk ⟨this.1, fun h => this.2.1 (by simp [h]), this.2.2⟩)

theorem negrete_runs : Agree (Outs fun n => n = max 4 N) (negrete2024 mu r1 r2 tof M pro low N atol rtol false c)
    (negrete2024 mu r1 r2 tof M pro low N atol rtol true c') := by
  unfold negrete2024
  refine Agree.same fun _ _ => Agree.same fun _ _ => Agree.same fun _ _ => Agree.same fun _ _ => Agree.same fun _ _ =>
    Agree.same fun _ _ => ?_
  exact Agree.tpi (by omega) fun _ _ => Agree.same fun ⟨_, _⟩ _ => Agree.ok (Outs.mk rfl)

theorem pan_runs {b : Brent} (hN : 1 ≤ N) : Agree (Outs fun n => 1 ≤ n ∧ n ≤ N)
    (pan2016 b mu r1 r2 tof M pro low N atol rtol false c) (pan2016 b mu r1 r2 tof M pro low N atol rtol true c') := by
  unfold pan2016
  refine Agree.same fun _ _ => Agree.same fun _ _ => Agree.same fun _ _ => Agree.same fun _ _ => Agree.same fun _ _ => ?_
  split
  · exact vallado_runs
  · refine Agree.same fun g _ => ?_
    split
    · rename_i w n hl
      have := Pan.findArgumentOfPeriapsis_count hl
      unfold Pan.finish
      exact Agree.tpi (by omega) fun _ _ => Agree.same fun _ _ => Agree.same fun ⟨_, _⟩ _ =>
        Agree.ok (Outs.mk (by omega))
    · exact vallado_runs
    · exact .inl ⟨_, rfl, rfl⟩

end

/-- The values of `xlamb` without and with `full_output`. -/
def XOuts (N : ℕ) (a b : Gooding.XRes) : Prop :=
  (∃ n x k, a = .four n x k ∧ b = .four n x k) ∨
  ∃ n x xpl k t t', a = .five n x xpl k t ∧ b = .five n x xpl k t' ∧ 1 ≤ k ∧ k ≤ N

theorem Gooding.finish_runs {m : ℤ} {q q1 tin : ℝ} {N : ℕ} {atol rtol : ℝ} {c c' : ℝ} {n : ℤ} {x xpl : ℝ} (hN : 1 ≤ N) :
    Agree (XOuts N) (Gooding.finish m q q1 tin N atol rtol false c n x xpl)
      (Gooding.finish m q q1 tin N atol rtol true c' n x xpl) := by
  unfold Gooding.finish
  refine Agree.same fun ⟨x', k⟩ hi => ?_
  have := Gooding.xlambIter_count (by omega) hi
  exact Agree.tpi (c := c) (this.2 le_rfl hN) fun t t' => Agree.ok (.inr ⟨_, _, _, _, _, _, rfl, rfl, this.2 le_rfl hN, this.1⟩)

theorem Gooding.xlamb_runs {m : ℤ} {q q1 tin : ℝ} {N : ℕ} {atol rtol : ℝ} {c c' : ℝ} (hN : 1 ≤ N) :
    Agree (XOuts N) (Gooding.xlamb m q q1 tin N atol rtol false c) (Gooding.xlamb m q q1 tin N atol rtol true c') := by
  unfold Gooding.xlamb
  simp only []
  split
  · exact Agree.same fun _ _ => Gooding.finish_runs hN
  · unfold Gooding.xlambMulti
    refine Agree.same fun _ _ => Agree.same fun ⟨_, _, _, _⟩ _ => Agree.same fun _ _ => Agree.same fun _ _ => ?_
    simp only []
    split
    · exact Agree.ok (.inl ⟨_, _, _, rfl, rfl⟩)
    · refine Agree.same fun _ _ => ?_
      split
      · exact Agree.same fun ⟨_, _⟩ _ => Gooding.finish_runs hN
      · exact Agree.same fun ⟨_, _⟩ _ => Agree.same fun ⟨_, _⟩ _ => Gooding.finish_runs hN

theorem gooding_runs {mu : ℝ} {r1 r2 : V3} {tof : ℝ} {M : ℤ} {pro low : Bool} {N : ℕ} {atol rtol c c' : ℝ} (hN : 1 ≤ N) :
    Agree (Outs fun n => 1 ≤ n ∧ n ≤ N) (gooding1990 mu r1 r2 tof M pro low N atol rtol false c)
      (gooding1990 mu r1 r2 tof M pro low N atol rtol true c') := by
  have hv : ∀ {R1 R2 θ : ℝ}, Agree (fun a b => a.1 = b.1 ∧ a.2.1 = b.2.1 ∧ 1 ≤ b.2.1 ∧ b.2.1 ≤ N)
      (Gooding.vlamb mu R1 R2 θ tof low N atol rtol false c) (Gooding.vlamb mu R1 R2 θ tof low N atol rtol true c') := by
    intro R1 R2 θ
    unfold Gooding.vlamb
    refine Agree.same fun ⟨_, _⟩ _ => Agree.same fun ⟨_, _, _, _, _, _⟩ _ => Agree.same fun _ _ =>
      Agree.bind (Gooding.xlamb_runs hN) fun a b _ _ hab => ?_
    rcases hab with ⟨n, x, k, rfl, rfl⟩ | ⟨n, x, xpl, k, t, t', rfl, rfl, h1, h2⟩
    · exact .inl ⟨_, rfl, rfl⟩
    · exact Agree.same fun _ _ => Agree.ok ⟨rfl, rfl, h1, h2⟩
  unfold gooding1990
  refine Agree.same fun _ _ => Agree.same fun _ _ => Agree.same fun _ _ => Agree.same fun _ _ => Agree.same fun _ _ =>
    Agree.same fun _ _ => Agree.bind hv fun ⟨⟨_, _, _, _⟩, k, t⟩ ⟨⟨_, _, _, _⟩, k', t'⟩ _ _ hab => ?_
  simp only [Prod.mk.injEq] at hab
  obtain ⟨⟨rfl, rfl, rfl, rfl⟩, rfl, h1, h2⟩ := hab
  exact Agree.ok (Outs.mk ⟨h1, h2⟩)

/-! ## The properties -/

/-- The velocities of a returned value, without the other fields. -/
def Output.velocities : Output → V3 × V3
  | .plain v1 v2 => (v1, v2)
  | .full v1 v2 _ _ => (v1, v2)

theorem Agree.velocities {P : ℕ → Prop} {x y : Py Output} (h : Agree (Outs P) x y) :
    x.map Output.velocities = y.map Output.velocities ∧ ((∃ e, x = .error e) ↔ ∃ e, y = .error e) := by
  rcases h with ⟨e, rfl, rfl⟩ | ⟨a, b, rfl, rfl, v1, v2, n, t, rfl, rfl, -⟩
  · exact ⟨rfl, by simp⟩
  · exact ⟨rfl, by simp⟩

theorem Agree.count {P : ℕ → Prop} {x y : Py Output} (h : Agree (Outs P) x y) {out : Output} (ho : y = .ok out) :
    ∃ n, out.iterations = some n ∧ P n := by
  rcases h with ⟨e, rfl, rfl⟩ | ⟨a, b, rfl, rfl, v1, v2, n, t, rfl, rfl, hP⟩
  · cases ho
  · obtain rfl := Except.ok.inj ho
    exact ⟨n, rfl, hP⟩

/-- **C32 (partial).** For every solver that has the argument `full_output` (all but
`izzo2015`), for every input with `maxiter ≥ 1` and whatever the clock measures, a call with
`full_output=True` and one with `full_output=False` return the same velocities or raise the
same exception.

Missing, because false there: `maxiter = 0`, see `full_output_wrong`; and, for `thorne2004`,
a `brentq` that reports no iteration (an end of the interval is an exact root). -/
theorem full_output_harmless_partial {env : Env} (hb : BrentSpec env.brentq) (hbc : BrentCounts env.brentq)
    {s : Solver} (hs : s ≠ .izzo2015) (a : Args) (hN : 1 ≤ a.maxiter) (c c' : ℝ) :
    (solve env s a false c).map Output.velocities = (solve env s a true c').map Output.velocities ∧
      ((∃ e, solve env s a false c = .error e) ↔ ∃ e, solve env s a true c' = .error e) := by
  cases s with
  | avanzini2008 => simp only [solve]; exact (avanzini_runs (low := a.isLowPath)).velocities
  | battin1984 => simp only [solve]; exact (battin_runs (low := a.isLowPath)).velocities
  | gauss1809 => simp only [solve]; exact (gauss_runs (low := a.isLowPath)).velocities
  | jiang2016 => simp only [solve]; exact (jiang_runs (low := a.isLowPath)).velocities
  | pan2016 => simp only [solve]; exact (pan_runs (low := a.isLowPath) hN).velocities
  | delatorre2018 => simp only [solve]; exact (delatorre_runs (low := a.isLowPath)).velocities
  | thorne2004 => simp only [solve]; exact (thorne_runs (low := a.isLowPath) hb hbc hN).velocities
  | arora2013 => simp only [solve]; exact (arora_runs (low := a.isLowPath)).velocities
  | der2011 => simp only [solve]; exact (der_runs (low := a.isLowPath) hN).velocities
  | gooding1990 => simp only [solve]; exact (gooding_runs (low := a.isLowPath) hN).velocities
  | izzo2015 => exact absurd rfl hs
  | mcelreath2025 => simp only [solve]; exact (mcelreath_runs (low := a.isLowPath)).velocities
  | negrete2024 => simp only [solve]; exact (negrete_runs (low := a.isLowPath)).velocities
  | vallado2013 => simp only [solve]; exact (vallado_runs (low := a.isLowPath)).velocities

/-- For these nine solvers the statement of C32 holds for all inputs and every `maxiter`,
including 0, and whatever the routines of scipy do. -/
theorem full_output_harmless {env : Env} {s : Solver}
    (hs : s ∈ [.avanzini2008, .battin1984, .gauss1809, .jiang2016, .delatorre2018, .arora2013, .mcelreath2025,
      .negrete2024, .vallado2013]) (a : Args) (c c' : ℝ) :
    (solve env s a false c).map Output.velocities = (solve env s a true c').map Output.velocities ∧
      ((∃ e, solve env s a false c = .error e) ↔ ∃ e, solve env s a true c' = .error e) := by
  simp only [List.mem_cons, List.not_mem_nil, or_false] at hs
  rcases hs with rfl | rfl | rfl | rfl | rfl | rfl | rfl | rfl | rfl
  · simp only [solve]; exact (avanzini_runs (low := a.isLowPath)).velocities
  · simp only [solve]; exact (battin_runs (low := a.isLowPath)).velocities
  · simp only [solve]; exact (gauss_runs (low := a.isLowPath)).velocities
  · simp only [solve]; exact (jiang_runs (low := a.isLowPath)).velocities
  · simp only [solve]; exact (delatorre_runs (low := a.isLowPath)).velocities
  · simp only [solve]; exact (arora_runs (low := a.isLowPath)).velocities
  · simp only [solve]; exact (mcelreath_runs (low := a.isLowPath)).velocities
  · simp only [solve]; exact (negrete_runs (low := a.isLowPath)).velocities
  · simp only [solve]; exact (vallado_runs (low := a.isLowPath)).velocities

/-- **C32 is false for `gooding1990` with `maxiter=0`**: the call that returns velocities
with `full_output=False` divides by zero with `full_output=True`. -/
theorem full_output_wrong (env : Env) (low : Bool) (c : ℝ) : ∃ tof, 0 < tof ∧
    (∃ out, solve env .gooding1990 ⟨64, ⟨4, -3, 0⟩, ⟨4, 3, 0⟩, tof, 0, true, low, 0, 1e-5, 1e-7⟩ false c = .ok out) ∧
    solve env .gooding1990 ⟨64, ⟨4, -3, 0⟩, ⟨4, 3, 0⟩, tof, 0, true, low, 0, 1e-5, 1e-7⟩ true c =
      .error .undefined := by
  obtain ⟨tof, htof, -, ⟨out, T, ho, -⟩, he⟩ := gooding_unconverged_accepted low c
  exact ⟨tof, htof, ⟨out, ho⟩, he⟩

/-- **C31 (partial), the reported count.** Whenever one of these nine solvers returns with
`full_output=True`, the reported number of iterations is between 1 and `maxiter`.

Missing, because false there: `jiang2016` reports 0 for the parabola
(`jiang_reports_zero`), `negrete2024` always reports at least 4 (`negrete_reports`),
`mcelreath2025` adds up two loops when `M ≥ 1` (`mcelreath_reports`); `izzo2015` reports
nothing.  `maxiter = 0`: `delatorre2018`, `der2011`, `thorne2004` may still report 1. -/
theorem iterations_bounded_partial {env : Env} (hb : BrentSpec env.brentq) (hbc : BrentCounts env.brentq) {s : Solver}
    (hs : s ∈ [.avanzini2008, .battin1984, .gauss1809, .pan2016, .delatorre2018, .thorne2004, .arora2013, .der2011,
      .gooding1990, .vallado2013]) {a : Args} (hN : 1 ≤ a.maxiter) {c : ℝ} {out : Output}
    (h : solve env s a true c = .ok out) : ∃ n, out.iterations = some n ∧ 1 ≤ n ∧ n ≤ a.maxiter := by
  simp only [List.mem_cons, List.not_mem_nil, or_false] at hs
  rcases hs with rfl | rfl | rfl | rfl | rfl | rfl | rfl | rfl | rfl | rfl
  · simp only [solve] at h; exact (avanzini_runs (c := 0) (low := a.isLowPath)).count h
  · simp only [solve] at h; exact (battin_runs (c := 0) (low := a.isLowPath)).count h
  · simp only [solve] at h; exact (gauss_runs (c := 0) (low := a.isLowPath)).count h
  · simp only [solve] at h; exact (pan_runs (c := 0) (low := a.isLowPath) hN).count h
  · simp only [solve] at h
    obtain ⟨n, h1, h2, h3⟩ := (delatorre_runs (c := 0)).count h
    exact ⟨n, h1, h2, by omega⟩
  · simp only [solve] at h; exact (thorne_runs (c := 0) (low := a.isLowPath) hb hbc hN).count h
  · simp only [solve] at h; exact (arora_runs (c := 0) (low := a.isLowPath)).count h
  · simp only [solve] at h; exact (der_runs (c := 0) (low := a.isLowPath) hN).count h
  · simp only [solve] at h; exact (gooding_runs (c := 0) (low := a.isLowPath) hN).count h
  · simp only [solve] at h; exact (vallado_runs (c := 0) (low := a.isLowPath)).count h

/-- For these five solvers the count is within the budget for every `maxiter`; with
`maxiter = 0` they raise. -/
theorem iterations_bounded {env : Env} {s : Solver}
    (hs : s ∈ [.avanzini2008, .battin1984, .gauss1809, .arora2013, .vallado2013]) {a : Args} {c : ℝ} {out : Output}
    (h : solve env s a true c = .ok out) : ∃ n, out.iterations = some n ∧ 1 ≤ n ∧ n ≤ a.maxiter := by
  simp only [List.mem_cons, List.not_mem_nil, or_false] at hs
  rcases hs with rfl | rfl | rfl | rfl | rfl
  · simp only [solve] at h; exact (avanzini_runs (c := 0) (low := a.isLowPath)).count h
  · simp only [solve] at h; exact (battin_runs (c := 0) (low := a.isLowPath)).count h
  · simp only [solve] at h; exact (gauss_runs (c := 0) (low := a.isLowPath)).count h
  · simp only [solve] at h; exact (arora_runs (c := 0) (low := a.isLowPath)).count h
  · simp only [solve] at h; exact (vallado_runs (c := 0) (low := a.isLowPath)).count h

/-- What `mcelreath2025` reports. -/
theorem mcelreath_reports {mu : ℝ} {r1 r2 : V3} {tof : ℝ} {M : ℤ} {pro low : Bool} {N : ℕ} {atol rtol c : ℝ} {out : Output}
    (h : mcelreath2025 mu r1 r2 tof M pro low N atol rtol true c = .ok out) :
    ∃ n, out.iterations = some n ∧ 1 ≤ n ∧ (M = 0 → n ≤ max 1 N) ∧ n ≤ max 1 (2 * N) :=
  (mcelreath_runs (c := 0)).count h

/-- **C31 is false for `negrete2024`**: the reported number is the number of nodes of the
contour, which exceeds `maxiter` whenever `maxiter < 4`. -/
theorem negrete_reports {mu : ℝ} {r1 r2 : V3} {tof : ℝ} {M : ℤ} {pro low : Bool} {N : ℕ} {atol rtol c : ℝ} {out : Output}
    (h : negrete2024 mu r1 r2 tof M pro low N atol rtol true c = .ok out) :
    out.iterations = some (max 4 N) ∧ (N < 4 → N < max 4 N) := by
  obtain ⟨n, h1, rfl⟩ := (negrete_runs (c := 0)).count h
  exact ⟨h1, fun h => lt_max_of_lt_left h⟩

/-- **C31 is false for `jiang2016`**: for all non-aligned positions, whatever the budget,
the answer for a time of flight close to the parabolic one reports no iteration. -/
theorem jiang_reports_zero {mu : ℝ} {r1 r2 : V3} {tof : ℝ} {pro : Bool} {atol rtol : ℝ} (hmu : 0 < mu)
    (htof : 0 < tof) (hna : NotAligned r1 r2)
    (hcl : |tof - parabolicTime mu r1 r2 pro| ≤ atol + rtol * |parabolicTime mu r1 r2 pro|) (low : Bool) (N : ℕ)
    (clock : ℝ) :
    ∃ out, jiang2016 mu r1 r2 tof 0 pro low N atol rtol true clock = .ok out ∧ out.iterations = some 0 := by
  obtain ⟨s, ll, θ, -, hll, hA, hG, hS, hsg, hb, hhalf, hp, hj⟩ := jiang_eq (pro := pro) hmu htof hna
  have hs := hS.spos
  have hL : Lanc ll 1 1 := ⟨hS.lam_lt, by ring, one_pos⟩
  have hη := hL.eta_pos
  obtain ⟨tpi, ho⟩ := (hj low N atol rtol true clock).1 _ 0 (s * (1 - ll * 1) ^ 2) (by
    unfold Jiang.semiLatusRectum
    rw [if_pos hcl, Jiang.solveParabolic, Jiang.parabolicP_eq hS (Jiang.chord_sq hA) hb, ok_bind]) (by positivity) rfl
  exact ⟨_, ho, rfl⟩

/-- The hypotheses of `jiang_reports_zero` are met at the parabolic time itself. -/
example : ∃ tof : ℝ, 0 < tof ∧ NotAligned ⟨1, 0, 0⟩ ⟨0, 1, 0⟩ ∧
    |tof - parabolicTime 1 ⟨1, 0, 0⟩ ⟨0, 1, 0⟩ true| ≤ 1e-5 + 1e-7 * |parabolicTime 1 ⟨1, 0, 0⟩ ⟨0, 1, 0⟩ true| := by
  have hna : NotAligned ⟨1, 0, 0⟩ ⟨0, 1, 0⟩ := by simp [NotAligned]
  refine ⟨parabolicTime 1 ⟨1, 0, 0⟩ ⟨0, 1, 0⟩ true, ?_, hna, ?_⟩
  · obtain ⟨s, ll, θ, -, -, -, -, hS, -, -, -, hp, -⟩ := jiang_eq (pro := true) one_pos one_pos hna
    rw [hp]
    have := hS.spos
    exact mul_pos (Real.sqrt_pos.2 (by positivity)) (jiang_parabolic_pos hS.lam_lt)
  · rw [sub_self, abs_zero]; positivity

end Lamberthub
