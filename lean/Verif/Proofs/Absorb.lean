import Verif.Model.RoundedLoops
import Verif.Props.Binary64

/-! # Summation until a term is absorbed -/

set_option autoImplicit false

namespace Lamberthub
open Spec

/-- Rounding keeps what is representable, and a representable number absorbs what is much smaller. -/
structure Spec.Absorbs (F : Arith) (u : ℝ) : Prop where
  idem : ∀ x, F.rnd (F.rnd x) = F.rnd x
  absorb : ∀ a d, F.rnd a = a → |d| ≤ u / 4 * |a| → F.rnd (a + d) = a

namespace Rounded

theorem log2_eq {x : ℝ} {e : ℤ} (h1 : (2 : ℝ) ^ e ≤ |x|) (h2 : |x| < (2 : ℝ) ^ (e + 1)) : Int.log 2 |x| = e := by
  have hx : 0 < |x| := lt_of_lt_of_le (by positivity) h1
  apply le_antisymm
  · have := (Int.lt_zpow_iff_log_lt (b := 2) one_lt_two hx (x := e + 1)).1 (by exact_mod_cast h2)
    linarith
  · exact (Int.zpow_le_iff_le_log (b := 2) one_lt_two hx).1 (by exact_mod_cast h1)

theorem rnd64_eq_abs {x : ℝ} {m e : ℤ} (h1 : (2 : ℝ) ^ (e + 52) ≤ |x|) (h2 : |x| < (2 : ℝ) ^ (e + 53))
    (h3 : |x - m * 2 ^ e| < 2 ^ e / 2) : rnd64 x = m * 2 ^ e := by
  have hl : Int.log 2 |x| = e + 52 := log2_eq h1 (by rw [show e + 52 + 1 = e + 53 by ring]; exact h2)
  have hu : ulp x = 2 ^ e := by rw [ulp, hl]; congr 1; ring
  have hp : (0 : ℝ) < 2 ^ e := by positivity
  have hn : nearest (x / 2 ^ e) = m := by
    apply nearest_eq
    rw [show x / 2 ^ e - m = (x - m * 2 ^ e) / 2 ^ e by field_simp, abs_div, abs_of_pos hp, div_lt_iff₀ hp]
    linarith
  rw [rnd64, hu, hn]

theorem rnd64_zero : rnd64 0 = 0 := by
  have := rnd64_int (n := 0) (by norm_num)
  simpa using this

/-- The binade of a number. -/
theorem binade {x : ℝ} (hx : x ≠ 0) : ∃ e : ℤ, ulp x = 2 ^ e ∧ (2 : ℝ) ^ (e + 52) ≤ |x| ∧ |x| < (2 : ℝ) ^ (e + 53) := by
  refine ⟨Int.log 2 |x| - 52, rfl, ?_, ?_⟩
  · rw [sub_add_cancel]
    exact_mod_cast Int.zpow_log_le_self (b := 2) one_lt_two (abs_pos.2 hx)
  · rw [show Int.log 2 |x| - 52 + 53 = Int.log 2 |x| + 1 by ring]
    exact_mod_cast Int.lt_zpow_succ_log_self (b := 2) one_lt_two |x|

theorem pow_split (e : ℤ) (k : ℤ) : (2 : ℝ) ^ (e + k) = 2 ^ e * 2 ^ k := zpow_add₀ two_ne_zero e k

theorem rnd64_scale (x : ℝ) (k : ℤ) : rnd64 (x * 2 ^ k) = rnd64 x * 2 ^ k := by
  rcases eq_or_ne x 0 with rfl | hx
  · simp [rnd64_zero]
  obtain ⟨e, h1, h2, h3⟩ := binade hx
  have hk : (0 : ℝ) < 2 ^ k := by positivity
  have hu : ulp (x * 2 ^ k) = 2 ^ e * 2 ^ k := by
    rw [ulp, log2_eq (e := e + k + 52), ← pow_split]
    · congr 1; ring
    · rw [abs_mul, abs_of_pos hk, show e + k + 52 = (e + 52) + k by ring, pow_split (e + 52) k]
      exact mul_le_mul_of_nonneg_right h2 hk.le
    · rw [abs_mul, abs_of_pos hk, show e + k + 52 + 1 = (e + 53) + k by ring, pow_split (e + 53) k]
      exact mul_lt_mul_of_pos_right h3 hk
  rw [rnd64, rnd64, hu, h1, mul_div_mul_right _ _ hk.ne', mul_assoc]

theorem rnd64_grid {m : ℤ} (hm : |m| ≤ 2 ^ 53) (e : ℤ) : rnd64 (m * 2 ^ e) = m * 2 ^ e := by
  rw [rnd64_scale]
  congr 1
  rcases hm.lt_or_eq with h | h
  · exact rnd64_int h
  · rcases abs_eq (by norm_num : (0 : ℤ) ≤ 2 ^ 53) |>.1 h with rfl | rfl
    · have := rnd64_scale ((1 : ℤ) : ℝ) 53
      rw [rnd64_int (by norm_num)] at this
      norm_num at this ⊢
      exact this
    · have := rnd64_scale ((-1 : ℤ) : ℝ) 53
      rw [rnd64_int (by norm_num)] at this
      norm_num at this ⊢
      exact this

theorem rnd64_idem (x : ℝ) : rnd64 (rnd64 x) = rnd64 x := by
  rcases eq_or_ne x 0 with rfl | hx
  · rw [rnd64_zero, rnd64_zero]
  obtain ⟨e, h1, h2, h3⟩ := binade hx
  have hp : (0 : ℝ) < 2 ^ e := by positivity
  rw [show rnd64 x = nearest (x / 2 ^ e) * 2 ^ e by rw [rnd64, h1]]
  refine rnd64_grid ?_ e
  have h4 := nearest_err (x / 2 ^ e)
  have h5 : |x / 2 ^ e| < 2 ^ 53 := by
    rw [abs_div, abs_of_pos hp, div_lt_iff₀ hp]
    calc |x| < 2 ^ (e + 53) := h3
      _ = 2 ^ 53 * 2 ^ e := by rw [pow_split]; norm_num; ring
  have h6 : |((nearest (x / 2 ^ e) : ℤ) : ℝ)| < 2 ^ 53 + 1 := by
    have := abs_add_le ((nearest (x / 2 ^ e) : ℝ) - x / 2 ^ e) (x / 2 ^ e)
    rw [sub_add_cancel] at this
    linarith
  have h7 : |nearest (x / 2 ^ e)| < 2 ^ 53 + 1 := by exact_mod_cast h6
  omega

theorem binary64_absorbs : Absorbs binary64 (2⁻¹ ^ 53) where
  idem := rnd64_idem
  absorb a d ha hd := by
    change rnd64 a = a at ha
    change rnd64 (a + d) = a
    rcases eq_or_ne a 0 with rfl | h0
    · rw [abs_zero, mul_zero, abs_nonpos_iff] at hd
      rw [hd, add_zero, rnd64_zero]
    obtain ⟨e, h1, h2, h3⟩ := binade h0
    have hp : (0 : ℝ) < 2 ^ e := by positivity
    obtain ⟨n, hn⟩ : ∃ n : ℤ, a = n * 2 ^ e := ⟨nearest (a / 2 ^ e), by rw [← h1]; exact ha.symm⟩
    rw [pow_split] at h2 h3
    norm_num at h2 h3 hd
    have hd' : |d| < 2 ^ e / 4 := by linarith
    have g1 : |a + d| ≤ |a| + |d| := abs_add_le _ _
    have g2 : |a| ≤ |a + d| + |d| := by
      have := abs_sub (a + d) d
      rwa [add_sub_cancel_right] at this
    by_cases hB : |a + d| < 2 ^ e * 2 ^ 52
    · have e1 : (2 : ℝ) ^ (e - 1) = 2 ^ e / 2 := by rw [zpow_sub_one₀ two_ne_zero]; ring
      rw [rnd64_eq_abs (m := 2 * n) (e := e - 1), e1, hn]
      · push_cast; ring
      · rw [pow_split, e1]; norm_num at hB ⊢; linarith
      · rw [pow_split, e1]; norm_num at hB ⊢; linarith
      · rw [e1]; push_cast
        rw [show a + d - 2 * n * (2 ^ e / 2) = d + (a - n * 2 ^ e) by ring, hn, sub_self, add_zero]
        linarith
    by_cases hC : |a + d| < 2 ^ e * 2 ^ 53
    · rw [rnd64_eq_abs (m := n) (e := e), hn]
      · rw [pow_split]; norm_num at hB ⊢; linarith
      · rw [pow_split]; norm_num at hC ⊢; linarith
      · rw [show a + d - n * 2 ^ e = d + (a - n * 2 ^ e) by ring, hn, sub_self, add_zero]
        linarith
    · exfalso
      have ha' : |a| = |(n : ℝ)| * 2 ^ e := by rw [hn, abs_mul, abs_of_pos hp]
      have h5 : |(n : ℝ)| < 2 ^ 53 := by
        have : |(n : ℝ)| * 2 ^ e < 2 ^ 53 * 2 ^ e := by rw [← ha']; norm_num; linarith
        exact lt_of_mul_lt_mul_right this hp.le
      have h6 : |n| < 2 ^ 53 := by exact_mod_cast h5
      have h7 : |n| ≤ 2 ^ 53 - 1 := by omega
      have h8 : |(n : ℝ)| ≤ 2 ^ 53 - 1 := by exact_mod_cast h7
      have h9 := mul_le_mul_of_nonneg_right h8 hp.le
      rw [← ha'] at h9
      norm_num at hC h9
      linarith

/-- The sums as computed. -/
noncomputable def acc (F : Arith) (d : ℕ → ℝ) (r0 : ℝ) : ℕ → ℝ
  | 0 => r0
  | n + 1 => F.rnd (acc F d r0 n + d (n + 1))

/-- The sums of the same terms without rounding. -/
noncomputable def psum (d : ℕ → ℝ) (r0 : ℝ) : ℕ → ℝ
  | 0 => r0
  | n + 1 => psum d r0 n + d (n + 1)

theorem acc_fixed {F : Arith} {u : ℝ} (ha : Absorbs F u) {d : ℕ → ℝ} {r0 : ℝ} (h0 : F.rnd r0 = r0) (n : ℕ) :
    F.rnd (acc F d r0 n) = acc F d r0 n := by
  cases n with
  | zero => exact h0
  | succ n => exact ha.idem _

theorem acc_error {F : Arith} {u : ℝ} (h : StandardModel F u) {d : ℕ → ℝ} {r0 B : ℝ} {N : ℕ}
    (hB : ∀ n ≤ N, |psum d r0 n| ≤ B) (hN : 200 * (N * u) ≤ 1) :
    ∀ n ≤ N, |acc F d r0 n - psum d r0 n| ≤ 101 / 100 * (n * u) * B := by
  have hu := h.nonneg
  intro n
  induction n with
  | zero => intro _; simp [acc, psum]
  | succ n ih =>
    intro hn
    have i1 := ih (by omega)
    have i2 := hB (n + 1) hn
    have hnN : (n : ℝ) * u ≤ N * u := mul_le_mul_of_nonneg_right (by exact_mod_cast (by omega : n ≤ N)) hu
    have hB0 : 0 ≤ B := (abs_nonneg _).trans i2
    have e1 : |acc F d r0 n + d (n + 1) - psum d r0 (n + 1)| ≤ 101 / 100 * (n * u) * B := by
      rw [show acc F d r0 n + d (n + 1) - psum d r0 (n + 1) = acc F d r0 n - psum d r0 n by rw [psum]; ring]
      exact i1
    have e2 := rnd_err h e1 i2
    rw [acc]
    push_cast
    have e3 : 0 ≤ u * B := mul_nonneg hu hB0
    have e4 : 101 / 100 * (n * u) * B ≤ B / 100 := by nlinarith
    have e5 := mul_le_mul_of_nonneg_left e4 hu
    linarith

/-- The summation stops, after at most as many passes as make the terms negligible; what is left out is of the order
of the unit roundoff, and so is the error of every pass. -/
theorem acc_stop {F : Arith} {u : ℝ} (h : StandardModel F u) (ha : Absorbs F u) {d : ℕ → ℝ} {r0 B L : ℝ} {N : ℕ}
    (h0 : F.rnd r0 = r0) (hB : ∀ n ≤ N, |psum d r0 n| ≤ B) (hL : ∀ n ≤ N, L ≤ |psum d r0 n|) (hN : 200 * (N * u) ≤ 1)
    (hBL : 3 * (N * u) * B ≤ L) (hd : |d (N + 1)| ≤ u / 8 * L) :
    ∃ k ≤ N, F.rnd (acc F d r0 k + d (k + 1)) = acc F d r0 k ∧
      (∀ i < k, F.rnd (acc F d r0 i + d (i + 1)) ≠ acc F d r0 i) ∧
      |acc F d r0 k - psum d r0 k| ≤ 101 / 100 * (k * u) * B ∧ |d (k + 1)| ≤ 103 / 100 * u * B := by
  classical
  have hu := h.nonneg
  have herr := acc_error h hB hN
  have hB0 : 0 ≤ B := (abs_nonneg _).trans (hB N le_rfl)
  have hNu : 0 ≤ N * u := mul_nonneg (Nat.cast_nonneg N) hu
  have hstopN : F.rnd (acc F d r0 N + d (N + 1)) = acc F d r0 N := by
    refine ha.absorb _ _ (acc_fixed ha h0 N) ?_
    have e1 := herr N le_rfl
    have e2 := hL N le_rfl
    have e3 : |psum d r0 N| ≤ |acc F d r0 N| + |acc F d r0 N - psum d r0 N| := by
      have := abs_sub (acc F d r0 N) (acc F d r0 N - psum d r0 N)
      rwa [sub_sub_cancel] at this
    have e4 : L / 2 ≤ |acc F d r0 N| := by
      have : 0 ≤ N * u * B := mul_nonneg hNu hB0
      nlinarith
    have := mul_le_mul_of_nonneg_left e4 (by positivity : 0 ≤ u / 4)
    linarith
  have hex : ∃ k, F.rnd (acc F d r0 k + d (k + 1)) = acc F d r0 k := ⟨N, hstopN⟩
  have hk := Nat.find_spec hex
  have hkN : Nat.find hex ≤ N := Nat.find_min' hex hstopN
  refine ⟨Nat.find hex, hkN, hk, fun i hi => Nat.find_min hex hi, herr _ hkN, ?_⟩
  generalize Nat.find hex = k at *
  have e1 := h.rnd (acc F d r0 k + d (k + 1))
  rw [hk, show acc F d r0 k - (acc F d r0 k + d (k + 1)) = -d (k + 1) by ring, abs_neg] at e1
  have e2 := herr k hkN
  have e3 := hB k hkN
  have e4 : |acc F d r0 k| ≤ |acc F d r0 k - psum d r0 k| + |psum d r0 k| := by
    have := abs_add_le (acc F d r0 k - psum d r0 k) (psum d r0 k)
    rwa [sub_add_cancel] at this
  have e5 := abs_add_le (acc F d r0 k) (d (k + 1))
  have hkN' : (k : ℝ) * u ≤ N * u := mul_le_mul_of_nonneg_right (by exact_mod_cast hkN) hu
  have e6 : 101 / 100 * (k * u) * B ≤ B / 100 := by nlinarith
  rcases Nat.eq_zero_or_pos N with rfl | hNp
  · obtain rfl : k = 0 := by omega
    rcases le_or_gt u (1 / 200) with hu2 | hu2
    · have e7 : u * |d (0 + 1)| ≤ 1 / 200 * |d (0 + 1)| := mul_le_mul_of_nonneg_right hu2 (abs_nonneg _)
      have e8 : |acc F d r0 0 + d (0 + 1)| ≤ 101 / 100 * B + |d (0 + 1)| := by linarith
      have e9 := mul_le_mul_of_nonneg_left e8 hu
      nlinarith
    · have hL0 := (hL 0 le_rfl).trans (hB 0 le_rfl)
      have : u / 8 * L ≤ u / 8 * B := mul_le_mul_of_nonneg_left hL0 (by positivity)
      have hb : 0 ≤ u * B := mul_nonneg hu hB0
      linarith
  · have hu2 : u ≤ 1 / 200 := by
      have : (1 : ℝ) ≤ N := by exact_mod_cast hNp
      nlinarith
    have e7 : u * |d (k + 1)| ≤ 1 / 200 * |d (k + 1)| := mul_le_mul_of_nonneg_right hu2 (abs_nonneg _)
    have e8 : |acc F d r0 k + d (k + 1)| ≤ 101 / 100 * B + |d (k + 1)| := by linarith
    have e9 := mul_le_mul_of_nonneg_left e8 hu
    nlinarith

/-- A loop whose states are known. -/
theorem whileLoop_states {σ : Type} {cond : σ → Prop} {body : σ → Py σ} (s : ℕ → σ) (k : ℕ)
    (hb : ∀ i < k, cond (s i) ∧ body (s i) = .ok (s (i + 1))) (hk : ¬ cond (s k)) :
    whileLoop cond body (s 0) = .ok (s k) := by
  induction k generalizing s with
  | zero => exact whileLoop_false hk
  | succ k ih =>
    obtain ⟨c, b⟩ := hb 0 (by omega)
    rw [whileLoop_true c b]
    exact ih (fun i => s (i + 1)) (fun i hi => hb (i + 1) (by omega)) hk

end Rounded
end Lamberthub
