import Verif.Model.Avanzini
import Verif.Model.Vallado
import Verif.Model.Gauss
import Verif.Model.Battin
import Verif.Model.Jiang
import Verif.Model.Delatorre
import Verif.Model.Izzo
import Verif.Model.McElreath
import Verif.Model.Arora

/-! # C94: a larger iteration budget never changes an answer -/

set_option autoImplicit false

namespace Lamberthub

namespace Maxiter

/-- `a` fails with the error `E`, or does what `b` does. -/
def Ext {α : Type} (E : PyErr) (a b : Py α) : Prop := a = .error E ∨ a = b

theorem Ext.refl {α : Type} {E : PyErr} (a : Py α) : Ext E a a := Or.inr rfl

theorem Ext.bind {α β : Type} {E : PyErr} {a b : Py α} {f g : α → Py β} (h : Ext E a b) (hf : ∀ v, Ext E (f v) (g v)) :
    Ext E (a >>= f) (b >>= g) := by
  rcases h with rfl | rfl
  · exact Or.inl rfl
  · rcases a with e | v
    · exact Or.inr rfl
    · exact hf v

theorem Ext.ite {α : Type} {E : PyErr} {c : Prop} [Decidable c] {a b a' b' : Py α} (h : Ext E a b) (h' : Ext E a' b') :
    Ext E (if c then a else a') (if c then b else b') := by
  split_ifs
  exacts [h, h']

/-- Walks through two copies of a program that differ in a part covered by the hypotheses only. -/
macro "ext_walk" : tactic => `(tactic| repeat' first
  | exact Ext.refl _
  | assumption
  | (apply_assumption <;> omega)
  | refine Ext.bind (Ext.refl _) fun _ => ?_
  | refine Ext.bind ?_ fun _ => Ext.refl _
  | refine Ext.bind ?_ fun _ => ?_
  | refine Ext.ite ?_ ?_)

theorem secantLoop_ext (f : ℝ → Py ℝ) (atol rtol : ℝ) : ∀ (k k' : ℕ), k ≤ k' → ∀ i a b c d,
    Ext (.runtimeError "Failed to converge") (Avanzini.secantLoop f atol rtol k i a b c d) (Avanzini.secantLoop f atol rtol k' i a b c d) := by
  intro k
  induction k with
  | zero => intro k' _ i a b c d; exact Or.inl rfl
  | succ k ih =>
    rintro (_ | k') hk i a b c d
    · omega
    unfold Avanzini.secantLoop
    ext_walk

theorem vallado_ext (mu R1 R2 A tof rtol : ℝ) : ∀ (k k' : ℕ), k ≤ k' → ∀ i a b c,
    Ext (.valueError "Exceeded maximum number of iterations!") (Vallado.loop mu R1 R2 A tof rtol k i a b c) (Vallado.loop mu R1 R2 A tof rtol k' i a b c) := by
  intro k
  induction k with
  | zero => intro k' _ i a b c; exact Or.inl rfl
  | succ k ih =>
    rintro (_ | k') hk i a b c
    · omega
    unfold Vallado.loop
    ext_walk

theorem gauss_ext (s w atol : ℝ) : ∀ (k k' : ℕ), k ≤ k' → ∀ i a,
    Ext (.valueError "Exceeded maximum number of iterations.") (Gauss.loop s w atol k i a) (Gauss.loop s w atol k' i a) := by
  intro k
  induction k with
  | zero => intro k' _ i a; exact Or.inl rfl
  | succ k ih =>
    rintro (_ | k') hk i a
    · omega
    unfold Gauss.loop
    ext_walk

theorem battin_ext (ll m atol : ℝ) : ∀ (k k' : ℕ), k ≤ k' → ∀ i a,
    Ext (.valueError "Exceeded maximum number of iterations!") (Battin.loop ll m atol k i a) (Battin.loop ll m atol k' i a) := by
  intro k
  induction k with
  | zero => intro k' _ i a; exact Or.inl rfl
  | succ k ih =>
    rintro (_ | k') hk i a
    · omega
    unfold Battin.loop
    ext_walk

theorem jiang_ext (F : ℝ → Py ℝ) (atol rtol : ℝ) : ∀ (k k' : ℕ), k ≤ k' → ∀ i a b c d,
    Ext (.valueError "Exceeded maximum number of iterations!") (Jiang.solveLoop F atol rtol k i a b c d) (Jiang.solveLoop F atol rtol k' i a b c d) := by
  intro k
  induction k with
  | zero => intro k' _ i a b c d; exact Or.inl rfl
  | succ k ih =>
    rintro (_ | k') hk i a b c d
    · omega
    unfold Jiang.solveLoop
    ext_walk

theorem delatorre_ext (F : ℝ → Py ℝ) (tof atol rtol : ℝ) : ∀ (k k' : ℕ), k ≤ k' → ∀ i a b c d,
    Ext (.valueError "Exceeded maximum number of iterations!") (Delatorre.bracketLoop F tof atol rtol k i a b c d) (Delatorre.bracketLoop F tof atol rtol k' i a b c d) := by
  intro k
  induction k with
  | zero => intro k' _ i a b c d; exact Or.inl rfl
  | succ k ih =>
    rintro (_ | k') hk i a b c d
    · omega
    unfold Delatorre.bracketLoop
    ext_walk

theorem halley_ext (T0 ll atol rtol : ℝ) : ∀ (k k' : ℕ), k ≤ k' → ∀ a,
    Ext (.runtimeError "Failed to converge") (Izzo.halley T0 ll atol rtol k a) (Izzo.halley T0 ll atol rtol k' a) := by
  intro k
  induction k with
  | zero => intro k' _ a; exact Or.inl rfl
  | succ k ih =>
    rintro (_ | k') hk a
    · omega
    unfold Izzo.halley
    ext_walk

theorem householder_ext (T0 ll : ℝ) (M : ℤ) (atol rtol : ℝ) : ∀ (k k' : ℕ), k ≤ k' → ∀ a,
    Ext (.runtimeError "Failed to converge") (Izzo.householder T0 ll M atol rtol k a) (Izzo.householder T0 ll M atol rtol k' a) := by
  intro k
  induction k with
  | zero => intro k' _ a; exact Or.inl rfl
  | succ k ih =>
    rintro (_ | k') hk a
    · omega
    unfold Izzo.householder
    ext_walk

theorem desired_ext (tof R m : ℝ) (M : ℕ) (lo : ℝ) (hi : Option ℝ) (tol : ℝ) : ∀ (k k' : ℕ), k ≤ k' → ∀ i a,
    Ext (.runtimeError "Failed to converge") (McElreath.desiredLoop tof R m M lo hi tol k i a) (McElreath.desiredLoop tof R m M lo hi tol k' i a) := by
  intro k
  induction k with
  | zero => intro k' _ i a; exact Or.inl rfl
  | succ k ih =>
    rintro (_ | k') hk i a
    · omega
    unfold McElreath.desiredLoop
    ext_walk

theorem minimum_ext (tof R m : ℝ) (M : ℕ) (lo hi : ℝ) : ∀ (k k' : ℕ), k ≤ k' → ∀ i a b,
    Ext (.runtimeError "Failed to converge") (McElreath.minimumLoop tof R m M lo hi k i a b) (McElreath.minimumLoop tof R m M lo hi k' i a b) := by
  intro k
  induction k with
  | zero => intro k' _ i a b; exact Or.inl rfl
  | succ k ih =>
    rintro (_ | k') hk i a b
    · omega
    unfold McElreath.minimumLoop
    ext_walk

theorem arora_ext (tof tofP tau S d : ℝ) (M : ℤ) (atol : ℝ) : ∀ (k k' : ℕ), k ≤ k' → ∀ i a,
    Ext (.runtimeError "Failed to converge") (Arora.iterate tof tofP tau S d M atol k i a) (Arora.iterate tof tofP tau S d M atol k' i a) := by
  intro k
  induction k with
  | zero => intro k' _ i a; exact Or.inl rfl
  | succ k ih =>
    rintro (_ | k') hk i a
    · omega
    unfold Arora.iterate
    iterate 5 refine Ext.bind (Ext.refl _) fun _ => ?_
    refine Ext.ite (Ext.refl _) ?_
    iterate 5 refine Ext.bind (Ext.refl _) fun _ => ?_
    exact ih k' (by omega) _ _

end Maxiter

open Maxiter

section
variable {mu tof atol rtol clock : ℝ} {r1 r2 : V3} {M : ℤ} {pro low full : Bool} {n n' : ℕ}

/-- **C94.** The only effect of `maxiter` on `avanzini2008` is to stop it: with some `maxiter` it raises the error
of no convergence or does exactly what it does with every larger one. -/
theorem avanzini_maxiter (hn : n ≤ n') :
    avanzini2008 mu r1 r2 tof M pro low n atol rtol full clock = .error (.runtimeError "Failed to converge") ∨
      avanzini2008 mu r1 r2 tof M pro low n atol rtol full clock = avanzini2008 mu r1 r2 tof M pro low n' atol rtol full clock := by
  have hl := fun f i a b c d => secantLoop_ext f atol rtol n n' hn i a b c d
  change Ext _ _ _
  unfold avanzini2008 Avanzini.secant
  ext_walk

/-- **C94.** The same for `vallado2013`. -/
theorem vallado_maxiter (hn : n ≤ n') :
    vallado2013 mu r1 r2 tof M pro low n atol rtol full clock = .error (.valueError "Exceeded maximum number of iterations!") ∨
      vallado2013 mu r1 r2 tof M pro low n atol rtol full clock = vallado2013 mu r1 r2 tof M pro low n' atol rtol full clock := by
  have hl := fun A i a b c => vallado_ext mu (V3.norm r1) (V3.norm r2) A tof rtol n n' hn i a b c
  change Ext _ _ _
  unfold vallado2013
  ext_walk

/-- **C94.** The same for `gauss1809`. -/
theorem gauss_maxiter (hn : n ≤ n') :
    gauss1809 mu r1 r2 tof M pro low n atol rtol full clock = .error (.valueError "Exceeded maximum number of iterations.") ∨
      gauss1809 mu r1 r2 tof M pro low n atol rtol full clock = gauss1809 mu r1 r2 tof M pro low n' atol rtol full clock := by
  have hl := fun s w i a => gauss_ext s w atol n n' hn i a
  change Ext _ _ _
  unfold gauss1809
  ext_walk

/-- **C94.** The same for `battin1984`. -/
theorem battin_maxiter (hn : n ≤ n') :
    battin1984 mu r1 r2 tof M pro low n atol rtol full clock = .error (.valueError "Exceeded maximum number of iterations!") ∨
      battin1984 mu r1 r2 tof M pro low n atol rtol full clock = battin1984 mu r1 r2 tof M pro low n' atol rtol full clock := by
  have hl := fun ll m i a => battin_ext ll m atol n n' hn i a
  change Ext _ _ _
  unfold battin1984
  ext_walk

/-- **C94.** The same for `jiang2016`. -/
theorem jiang_maxiter (hn : n ≤ n') :
    jiang2016 mu r1 r2 tof M pro low n atol rtol full clock = .error (.valueError "Exceeded maximum number of iterations!") ∨
      jiang2016 mu r1 r2 tof M pro low n atol rtol full clock = jiang2016 mu r1 r2 tof M pro low n' atol rtol full clock := by
  have hl := fun F i a b c d => jiang_ext F atol rtol n n' hn i a b c d
  change Ext _ _ _
  unfold jiang2016 Jiang.semiLatusRectum Jiang.solveElliptic Jiang.solveHyperbolic Jiang.findAndSolveElliptic
    Jiang.findAndSolveHyperbolic Jiang.solveSemimajorAxis
  ext_walk

/-- **C94.** The same for `delatorre2018`. -/
theorem delatorre_maxiter (hn : n ≤ n') :
    delatorre2018 mu r1 r2 tof M pro low n atol rtol full clock = .error (.valueError "Exceeded maximum number of iterations!") ∨
      delatorre2018 mu r1 r2 tof M pro low n atol rtol full clock = delatorre2018 mu r1 r2 tof M pro low n' atol rtol full clock := by
  have hl := fun F i a b c d => delatorre_ext F tof atol rtol n n' hn i a b c d
  change Ext _ _ _
  unfold delatorre2018 Delatorre.findZ Delatorre.solveBracketed
  ext_walk

/-- **C94.** The same for `mcelreath2025`. -/
theorem mcelreath_maxiter (hn : n ≤ n') :
    mcelreath2025 mu r1 r2 tof M pro low n atol rtol full clock = .error (.runtimeError "Failed to converge") ∨
      mcelreath2025 mu r1 r2 tof M pro low n atol rtol full clock = mcelreath2025 mu r1 r2 tof M pro low n' atol rtol full clock := by
  have hl := fun tof R m M lo hi tol i a => desired_ext tof R m M lo hi tol n n' hn i a
  have hm := fun tof R m M lo hi i a b => minimum_ext tof R m M lo hi n n' hn i a b
  change Ext _ _ _
  unfold mcelreath2025 McElreath.findX McElreath.findSingleRevolutionX McElreath.findMultiRevolutionX McElreath.solvePair
    McElreath.solveDesiredX McElreath.solveMinimumX
  ext_walk

/-- **C94.** The same for `arora2013`. -/
theorem arora_maxiter {minimize : Minimizer} {brentq : Brent} (hn : n ≤ n') :
    arora2013 minimize brentq mu r1 r2 tof M pro low n atol rtol full clock = .error (.runtimeError "Failed to converge") ∨
      arora2013 minimize brentq mu r1 r2 tof M pro low n atol rtol full clock = arora2013 minimize brentq mu r1 r2 tof M pro low n' atol rtol full clock := by
  have hl := fun tof tofP tau S d i a => arora_ext tof tofP tau S d M atol n n' hn i a
  change Ext _ _ _
  unfold arora2013
  iterate 17 refine Ext.bind (Ext.refl _) fun _ => ?_
  exact Ext.bind (hl _ _ _ _ _ _ _) fun _ => Ext.refl _

/-- **C94.** The same for `izzo2015`, including the search for the largest number of revolutions. -/
theorem izzo_maxiter (hn : n ≤ n') :
    izzo2015 mu r1 r2 tof M pro low n atol rtol = .error (.runtimeError "Failed to converge") ∨
      izzo2015 mu r1 r2 tof M pro low n atol rtol = izzo2015 mu r1 r2 tof M pro low n' atol rtol := by
  have hl := fun T ll a => householder_ext T ll M atol rtol n n' hn a
  have hm := fun T ll a => halley_ext T ll atol rtol n n' hn a
  change Ext _ _ _
  unfold izzo2015 Izzo.findXY Izzo.refineMMax Izzo.computeTMin
  ext_walk

end

end Lamberthub
