import Verif.Model.Battin
import Verif.Proofs.PyLemmas
import Mathlib.Tactic.FieldSimp
import Mathlib.Tactic.Linarith
import Mathlib.Tactic.Positivity
import Mathlib.Tactic.LinearCombination

/-! # Battin's continued fractions -/

set_option autoImplicit false

namespace Lamberthub

namespace Spec

/-- The truncated continued fraction `1 / (1 - a k / (1 - a (k+1) / (1 - ...)))` with `n`
levels. -/
noncomputable def contFrac (a : ℕ → ℝ) : ℕ → ℕ → ℝ
  | _, 0 => 1
  | k, n + 1 => 1 / (1 - a k * contFrac a (k + 1) n)

end Spec

namespace Battin
open Spec

/-- The partial numerators of the fraction of `_K_at_u`, in order. -/
noncomputable def coefK (j : ℕ) : ℝ := if j % 2 = 0 then gamma2 (j / 2) else gamma1 (j / 2 + 1)

theorem coefK_even (n : ℕ) : coefK (2 * n) = gamma2 n := by
  unfold coefK; rw [if_pos (by omega)]; congr 1; omega

theorem coefK_odd (n : ℕ) : coefK (2 * n + 1) = gamma1 (n + 1) := by
  unfold coefK; rw [if_neg (by omega)]; congr 2; omega

theorem gamma1_succ (n : ℕ) :
    gamma1 (n + 1) * ((2 * n + 5 / 2) / (n + 4 / 3)) = (n + 5 / 6) / (2 * n + 3 / 2) := by
  unfold gamma1
  push_cast
  rw [show 4 * ((n : ℝ) + 1) - 1 = 4 * n + 3 by ring]
  have h1 : (4 * (n : ℝ) + 3) ≠ 0 := by positivity
  have h2 : (4 * ((n : ℝ) + 1) + 1) ≠ 0 := by positivity
  have h3 : ((n : ℝ) + 4 / 3) ≠ 0 := by positivity
  have h4 : (2 * (n : ℝ) + 3 / 2) ≠ 0 := by positivity
  field_simp
  ring

theorem gamma2_eq (n : ℕ) :
    gamma2 n * ((2 * n + 3 / 2) / (n + 2 / 3)) = (n + 1 / 6) / (2 * n + 1 / 2) := by
  unfold gamma2
  have h2 : (4 * (n : ℝ) + 1) ≠ 0 := by positivity
  have h5 : (4 * (n : ℝ) + 3) ≠ 0 := by positivity
  have h3 : ((n : ℝ) + 2 / 3) ≠ 0 := by positivity
  have h4 : (2 * (n : ℝ) + 1 / 2) ≠ 0 := by positivity
  field_simp
  ring

theorem gamma1_pos (n : ℕ) : 0 < gamma1 (n + 1) := by
  have h := gamma1_succ n
  have h1 : 0 < gamma1 (n + 1) * ((2 * (n : ℝ) + 5 / 2) / (n + 4 / 3)) := by rw [h]; positivity
  exact pos_of_mul_pos_left h1 (by positivity)

theorem gamma2_pos (n : ℕ) : 0 < gamma2 n := by
  have h := gamma2_eq n
  have h1 : 0 < gamma2 n * ((2 * (n : ℝ) + 3 / 2) / (n + 2 / 3)) := by rw [h]; positivity
  exact pos_of_mul_pos_left h1 (by positivity)

theorem inv_bound {a t g c u : ℝ} (ha : 0 < a) (ht : 0 < t) (htg : t ≤ g) (hu : u ≤ 1) (hc : a * g = 1 - c)
    (hc0 : 0 < c) (hc1 : c ≤ 1) : 0 < 1 / (1 - a * u * t) ∧ 1 / (1 - a * u * t) ≤ 1 / c := by
  have h : c ≤ 1 - a * u * t := by
    rcases le_or_gt u 0 with h0 | h0
    · have : a * u * t ≤ 0 := mul_nonpos_of_nonpos_of_nonneg (mul_nonpos_of_nonneg_of_nonpos ha.le h0) ht.le
      linarith
    · have : a * u * t ≤ a * g := by
        calc a * u * t ≤ a * 1 * g := mul_le_mul (by nlinarith) htg ht.le (by linarith)
          _ = a * g := by ring
      linarith
  exact ⟨one_div_pos.2 (by linarith), one_div_le_one_div_of_le hc0 h⟩

/-- The tails of the fraction of `_K_at_u` are positive and bounded (all `u ≤ 1`). -/
theorem tail_bounds {u : ℝ} (hu : u ≤ 1) (m : ℕ) : ∀ n : ℕ,
    (0 < contFrac (fun j => coefK j * u) (2 * n + 1) m ∧
      contFrac (fun j => coefK j * u) (2 * n + 1) m ≤ (2 * n + 3 / 2) / (n + 2 / 3)) ∧
    (0 < contFrac (fun j => coefK j * u) (2 * n + 2) m ∧
      contFrac (fun j => coefK j * u) (2 * n + 2) m ≤ (2 * n + 5 / 2) / (n + 4 / 3)) := by
  induction m with
  | zero =>
    intro n
    have h0 : (0 : ℝ) ≤ n := Nat.cast_nonneg n
    simp only [contFrac]
    refine ⟨⟨one_pos, ?_⟩, one_pos, ?_⟩
    · rw [one_le_div (by positivity)]; linarith
    · rw [one_le_div (by positivity)]; linarith
  | succ m ih =>
    intro n
    have h0 : (0 : ℝ) ≤ n := Nat.cast_nonneg n
    refine ⟨?_, ?_⟩
    · rw [contFrac, coefK_odd]
      have h := inv_bound (gamma1_pos n) (ih n).2.1 (ih n).2.2 hu (c := (n + 2 / 3) / (2 * n + 3 / 2)) ?_ (by positivity) ?_
      · rw [one_div_div] at h; exact h
      · rw [gamma1_succ]; field_simp; ring
      · rw [div_le_one (by positivity)]; linarith
    · rw [contFrac, show 2 * n + 2 = 2 * (n + 1) by ring, coefK_even]
      have h := inv_bound (gamma2_pos (n + 1)) (ih (n + 1)).1.1 (ih (n + 1)).1.2 hu
        (c := (n + 4 / 3) / (2 * n + 5 / 2)) ?_ (by positivity) ?_
      · rw [one_div_div] at h; exact h
      · rw [gamma2_eq]; push_cast; field_simp; ring
      · rw [div_le_one (by positivity)]; linarith

theorem tail_pos {u : ℝ} (hu : u ≤ 1) (m k : ℕ) : 0 < contFrac (fun j => coefK j * u) (k + 1) m := by
  rcases Nat.even_or_odd' k with ⟨n, rfl | rfl⟩
  · exact (tail_bounds hu m n).1.1
  · exact (tail_bounds hu m n).2.1

theorem front_bounds {u : ℝ} (hu : u ≤ 1) (m : ℕ) : 0 < contFrac (fun j => coefK j * u) 0 m ∧
    contFrac (fun j => coefK j * u) 0 m ≤ 3 / 2 := by
  cases m with
  | zero => simp only [contFrac]; norm_num
  | succ m =>
    have ht := (tail_bounds hu m 0).1
    have h1 := gamma2_eq 0
    norm_num at ht h1
    rw [contFrac, show coefK 0 = gamma2 0 from coefK_even 0]
    have h := inv_bound (gamma2_pos 0) ht.1 ht.2 hu (c := 2 / 3) (by rw [h1]; norm_num) (by norm_num) (by norm_num)
    norm_num at h ⊢
    exact h

/-- For a negative argument the fraction lies between its first two truncations. -/
theorem front_neg {u : ℝ} (hu : u ≤ 0) (m : ℕ) : 1 / (1 - 4 / 27 * u) ≤ contFrac (fun j => coefK j * u) 0 m ∧
    contFrac (fun j => coefK j * u) 0 m ≤ 1 := by
  have h27 : (1 : ℝ) ≤ 1 - 4 / 27 * u := by linarith
  have hle : ∀ m, contFrac (fun j => coefK j * u) 1 m ≤ 1 := by
    intro m
    cases m with
    | zero => simp [contFrac]
    | succ m =>
      have h2 := tail_pos (show u ≤ 1 by linarith) m 1
      have h1 := gamma1_pos 0
      rw [contFrac, show coefK 1 = gamma1 (0 + 1) from coefK_odd 0]
      rw [div_le_one (by nlinarith [mul_nonpos_of_nonneg_of_nonpos h1.le hu])]
      nlinarith [mul_nonpos_of_nonneg_of_nonpos h1.le hu]
  have hc : coefK 0 = 4 / 27 := by
    rw [show coefK 0 = gamma2 0 from coefK_even 0, gamma2]; norm_num
  cases m with
  | zero =>
    simp only [contFrac]
    exact ⟨by rw [div_le_one (by linarith)]; exact h27, le_rfl⟩
  | succ m =>
    have h2 := tail_pos (show u ≤ 1 by linarith) m 0
    have h3 := hle m
    rw [zero_add] at h2
    rw [contFrac, zero_add, hc]
    generalize contFrac (fun j => coefK j * u) 1 m = t at *
    have : -(4 / 27 * u * t) ≤ -(4 / 27 * u) := by nlinarith
    have : 0 ≤ -(4 / 27 * u * t) := by nlinarith
    exact ⟨one_div_le_one_div_of_le (by linarith) (by linarith), by rw [div_le_one (by linarith)]; linarith⟩

/-- The state of the forward evaluation after `j` steps. -/
def Inv (a : ℕ → ℝ) (j : ℕ) (st : ℝ × ℝ × ℝ) : Prop :=
  ∃ B B' A A' : ℝ, B ≠ 0 ∧ B' ≠ 0 ∧ st.1 = B' / B ∧ st.2.1 = A / B - A' / B' ∧ st.2.2 = A / B ∧
    st.2.2 = contFrac a 0 j ∧
    ∀ m, (A - a j * A' * contFrac a (j + 1) m) / (B - a j * B' * contFrac a (j + 1) m) = contFrac a 0 (j + 1 + m)

theorem Inv.init (a : ℕ → ℝ) : Inv a 0 (1, 1, 1) := by
  refine ⟨1, 1, 1, 0, one_ne_zero, one_ne_zero, by norm_num, by norm_num, by norm_num, rfl, fun m => ?_⟩
  rw [show 0 + 1 + m = m + 1 by ring, contFrac]
  simp

theorem Inv.step {a : ℕ → ℝ} {j : ℕ} {st st' : ℝ × ℝ × ℝ} {u γ : ℝ} (h : Inv a j st) (hγ : γ * u = a j)
    (ht : ∀ m, 1 - a (j + 1) * contFrac a (j + 2) m ≠ 0) (hs : kStep u γ st = .ok st') : Inv a (j + 1) st' := by
  obtain ⟨B, B', A, A', hB, hB', h1, h2, h3, h4, h5⟩ := h
  unfold kStep at hs
  simp only [bind_ok, pdiv_ok] at hs
  obtain ⟨δ, ⟨hne, rfl⟩, hs⟩ := hs
  rw [← Except.ok.inj hs]
  rw [h1, hγ] at hne
  have hD : B - a j * B' ≠ 0 := fun h0 => hne (by field_simp; linear_combination h0)
  have e1 : 1 / (1 - γ * u * st.1) = B / (B - a j * B') := by
    rw [h1, hγ]; field_simp
  have e2 : st.2.2 + st.2.1 * (1 / (1 - γ * u * st.1) - 1) = (A - a j * A') / (B - a j * B') := by
    rw [e1, h2, h3]
    clear e1 hne hs h5
    obtain ⟨D, hDD⟩ : ∃ D, D = B - a j * B' := ⟨_, rfl⟩
    rw [← hDD] at hD ⊢
    field_simp
    linear_combination A' * B * hDD
  refine ⟨B - a j * B', B, A - a j * A', A, hD, hB, e1, ?_, e2, ?_, fun m => ?_⟩
  · show st.2.1 * (1 / (1 - γ * u * st.1) - 1) = _
    rw [← e2, h3]; ring
  · show st.2.2 + st.2.1 * (1 / (1 - γ * u * st.1) - 1) = _
    rw [e2]
    have := h5 0
    simp only [contFrac, mul_one, add_zero] at this
    exact this
  · have h6 := h5 (m + 1)
    rw [contFrac, show j + 1 + 1 = j + 2 by ring] at h6
    have := ht m
    rw [show j + 1 + 1 = j + 2 by ring, show j + 2 + m = j + 1 + (m + 1) by ring, ← h6]
    generalize contFrac a (j + 2) m = t at *
    have en : A - a j * A' * (1 / (1 - a (j + 1) * t)) =
        (A - a j * A' - a (j + 1) * A * t) / (1 - a (j + 1) * t) := by field_simp; ring
    have ed : B - a j * B' * (1 / (1 - a (j + 1) * t)) =
        (B - a j * B' - a (j + 1) * B * t) / (1 - a (j + 1) * t) := by field_simp; ring
    rw [en, ed, div_div_div_cancel_right₀ this]

theorem tail_ne {u : ℝ} (hu : u ≤ 1) (j m : ℕ) :
    1 - coefK (j + 1) * u * contFrac (fun j => coefK j * u) (j + 2) m ≠ 0 := by
  have h := tail_pos hu (m + 1) j
  rw [contFrac] at h
  intro h0
  simp only [show j + 1 + 1 = j + 2 by ring] at h
  rw [h0] at h
  simp at h

theorem kLoop_ok {u : ℝ} (hu : u ≤ 1) : ∀ (rem : ℕ) {st : ℝ × ℝ × ℝ} (n1 : ℕ) {σ : ℝ},
    Inv (fun j => coefK j * u) (2 * n1 - 1) st → kLoop u rem st n1 = .ok σ →
    ∃ n, 2 * n1 - 1 ≤ n ∧ n ≤ 2 * (n1 + rem) - 1 ∧ σ = contFrac (fun j => coefK j * u) 0 n
  | 0, st, n1, σ, hI, h => by
    rw [kLoop] at h
    obtain ⟨B, B', A, A', -, -, -, -, -, h4, -⟩ := hI
    exact ⟨2 * n1 - 1, le_rfl, by omega, by rw [← Except.ok.inj h, h4]⟩
  | rem + 1, st, n1, σ, hI, h => by
    rw [kLoop] at h
    split at h
    · split at h
      · rename_i hn
        subst hn
        simp only [bind_ok] at h
        obtain ⟨st', hs, h⟩ := h
        have hI' := hI.step (by rw [show coefK (2 * 0 - 1) = gamma2 0 from coefK_even 0, gamma2]; norm_num)
          (fun m => tail_ne hu 0 m) hs
        obtain ⟨n, h1, h2, h3⟩ := kLoop_ok hu rem (0 + 1) hI' h
        exact ⟨n, by omega, by omega, h3⟩
      · rename_i hn
        obtain ⟨k, rfl⟩ := Nat.exists_eq_succ_of_ne_zero hn
        simp only [bind_ok] at h
        obtain ⟨st', hs, st'', hs', h⟩ := h
        rw [show 2 * k.succ - 1 = 2 * k + 1 by omega] at hI
        have hI' := hI.step (by rw [coefK_odd]) (fun m => tail_ne hu (2 * k + 1) m) hs
        have hI'' := hI'.step (by rw [show 2 * k + 1 + 1 = 2 * (k + 1) by ring, coefK_even])
          (fun m => tail_ne hu (2 * k + 1 + 1) m) hs'
        obtain ⟨n, h1, h2, h3⟩ := kLoop_ok hu rem (k.succ + 1)
          (by rw [show 2 * (k.succ + 1) - 1 = 2 * k + 1 + 1 + 1 by omega]; exact hI'') h
        exact ⟨n, by omega, by omega, h3⟩
    · obtain ⟨B, B', A, A', -, -, -, -, -, h4, -⟩ := hI
      exact ⟨2 * n1 - 1, le_rfl, by omega, by rw [← Except.ok.inj h, h4]⟩

theorem kStep_some {u γ : ℝ} {st : ℝ × ℝ × ℝ} (hu : u ≤ 0) (hγ : 0 < γ) (hd : 0 < st.1) :
    ∃ st', kStep u γ st = .ok st' ∧ 0 < st'.1 := by
  have h : 0 < 1 - γ * u * st.1 := by
    have := mul_nonpos_of_nonpos_of_nonneg (mul_nonpos_of_nonneg_of_nonpos hγ.le hu) hd.le
    linarith
  unfold kStep
  rw [pdiv_eq h.ne', ok_bind]
  exact ⟨_, rfl, by simp only []; positivity⟩

theorem kLoop_some {u : ℝ} (hu : u ≤ 0) : ∀ (rem : ℕ) (st : ℝ × ℝ × ℝ) (n1 : ℕ), 0 < st.1 →
    ∃ σ, kLoop u rem st n1 = .ok σ
  | 0, st, n1, _ => ⟨_, rfl⟩
  | rem + 1, st, n1, hd => by
    rw [kLoop]
    split
    · split
      · obtain ⟨st', h1, h2⟩ := kStep_some hu (show (0 : ℝ) < 4 / 27 by norm_num) hd
        rw [h1, ok_bind]
        exact kLoop_some hu rem _ _ h2
      · rename_i hn
        obtain ⟨k, rfl⟩ := Nat.exists_eq_succ_of_ne_zero hn
        obtain ⟨st', h1, h2⟩ := kStep_some hu (gamma1_pos k) hd
        obtain ⟨st'', h3, h4⟩ := kStep_some hu (gamma2_pos k.succ) h2
        rw [h1, ok_bind, h3, ok_bind]
        exact kLoop_some hu rem _ _ h4
    · exact ⟨_, rfl⟩

theorem KAt_some {u : ℝ} (hu : u ≤ 0) (levels : ℕ) : ∃ K, KAt u levels = .ok K := by
  obtain ⟨σ, h⟩ := kLoop_some hu (levels + 1) (1, 1, 1) 0 one_pos
  unfold KAt
  rw [h, ok_bind]
  exact ⟨_, rfl⟩

theorem KAt_ok {u K : ℝ} {levels : ℕ} (hu : u ≤ 1) (h : KAt u levels = .ok K) :
    ∃ n, n ≤ 2 * levels + 1 ∧ K = (contFrac (fun j => coefK j * u) 0 n / 3) ^ 2 := by
  unfold KAt at h
  simp only [bind_ok] at h
  obtain ⟨σ, hσ, h⟩ := h
  obtain ⟨n, -, h2, rfl⟩ := kLoop_ok hu _ 0 (Inv.init _) hσ
  exact ⟨n, by omega, (Except.ok.inj h).symm⟩

theorem KAt_bounds {u K : ℝ} {levels : ℕ} (hu : u ≤ 1) (h : KAt u levels = .ok K) : 0 < K ∧ K ≤ 1 / 4 := by
  obtain ⟨n, -, rfl⟩ := KAt_ok hu h
  obtain ⟨h1, h2⟩ := front_bounds hu n
  refine ⟨by positivity, ?_⟩
  nlinarith

/-- The value of `xi` in the code, whatever the number of levels. -/
theorem xiLoop_eq (eta : ℝ) (levels : ℕ) : xiLoop eta levels 0 1 1 1 = .ok 1 := by
  cases levels with
  | zero => rfl
  | succ n =>
    rw [xiLoop, if_pos (by norm_num)]
    simp only []
    rw [pdiv_eq (by norm_num), ok_bind, pdiv_eq (by norm_num), ok_bind]
    cases n with
    | zero => rw [xiLoop]; norm_num
    | succ n => rw [xiLoop, if_neg (by norm_num)]; norm_num

end Battin
end Lamberthub
