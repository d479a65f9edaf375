import Verif.Model.RoundedSeries
import Verif.Props.RoundedLoops
import Verif.Proofs.GoodingLemmas

/-!
# C84: the series of `tlamb` in rounded arithmetic
-/

set_option autoImplicit false

namespace Lamberthub
open Spec

namespace Rounded

theorem Fac.mono {u a : ℝ} {k l : ℕ} (hu0 : 0 ≤ u) (hu : u < 1) (hkl : k ≤ l) (h : Fac u k a) : Fac u l a := by
  have p : 0 < 1 - u := sub_pos.2 hu
  have hp := pow_le_pow_of_le_one p.le (by linarith) hkl
  have pk : 0 < (1 - u) ^ k := by positivity
  exact ⟨hp.trans h.1, (mul_le_mul_of_nonneg_left hp (pk.le.trans h.1)).trans h.2⟩

theorem Fac.pos {u a : ℝ} {k : ℕ} (hu : u < 1) (h : Fac u k a) : 0 < a := by
  have p : 0 < 1 - u := sub_pos.2 hu
  have pk : 0 < (1 - u) ^ k := by positivity
  exact pk.trans_le h.1

theorem fac_one {u : ℝ} (hu0 : 0 ≤ u) (hu : u < 1) (k : ℕ) : Fac u k 1 := by
  have : (1 - u) ^ k ≤ 1 := pow_le_one₀ (by linarith) (by linarith)
  exact ⟨this, by rwa [one_mul]⟩

theorem fac_add {u a y z : ℝ} {k : ℕ} (hu0 : 0 ≤ u) (hu : u < 1) (h : Fac u k a) (hy : 0 ≤ y) (hz : 0 ≤ z)
    (hyz : 0 < y + z) : ∃ b, Fac u k b ∧ y * a + z = (y + z) * b := by
  have hp1 : (1 - u) ^ k ≤ 1 := pow_le_one₀ (by linarith) (by linarith)
  refine ⟨(y * a + z) / (y + z), ⟨?_, ?_⟩, by field_simp⟩
  · rw [le_div_iff₀ hyz]
    have := mul_le_mul_of_nonneg_left h.1 hy
    have := mul_le_mul_of_nonneg_left hp1 hz
    linarith
  · rw [div_mul_eq_mul_div, div_le_one hyz]
    have := mul_le_mul_of_nonneg_left h.2 hy
    have := mul_le_mul_of_nonneg_left hp1 hz
    linarith

theorem fac_sub {u a y z : ℝ} {k : ℕ} (hu0 : 0 ≤ u) (hu : u < 1) (hk : 2 / 3 ≤ (1 - u) ^ k) (h : Fac u k a) (hz : 0 < z)
    (hyz : 2 * z ≤ y) : ∃ b, Fac u (3 * k) b ∧ y * a - z = (y - z) * b := by
  have hp1 : (1 - u) ^ k ≤ 1 := pow_le_one₀ (by linarith) (by linarith)
  have hd : 0 < y - z := by linarith
  have h1 := h.1
  have h2 := h.2
  have e3k : (1 - u) ^ (3 * k) = ((1 - u) ^ k) ^ 3 := by rw [mul_comm, pow_mul]
  simp only [Fac]
  rw [e3k]
  clear h e3k
  generalize (1 - u) ^ k = g at *
  have hy : 0 < y := by linarith
  refine ⟨(y * a - z) / (y - z), ⟨?_, ?_⟩, by field_simp⟩
  · rw [le_div_iff₀ hd]
    have e1 := mul_le_mul_of_nonneg_left h1 hy.le
    have e2 : 0 ≤ (1 - g) * g * (1 + g) * (y - 2 * z) :=
      mul_nonneg (mul_nonneg (mul_nonneg (by linarith) (by linarith)) (by linarith)) (by linarith)
    have e3 : 0 ≤ (1 - g) * (g ^ 2 + g - 1) * z := by
      refine mul_nonneg (mul_nonneg (by linarith) (by nlinarith)) hz.le
    nlinarith
  · rw [div_mul_eq_mul_div, div_le_one hd]
    have e1 := mul_le_mul_of_nonneg_left h2 (by positivity : 0 ≤ y * g ^ 2)
    have e2 : 0 ≤ (1 - g) * (1 + g) * (y - 2 * z) := mul_nonneg (mul_nonneg (by linarith) (by linarith)) (by linarith)
    have e3 : 0 ≤ (1 - g) * (1 + g - g ^ 2) * z := by
      refine mul_nonneg (mul_nonneg (by linarith) (by nlinarith)) hz.le
    nlinarith

/-- Summation until a term is absorbed, after a given number of passes. -/
theorem acc_stop_from {F : Arith} {u : ℝ} (h : StandardModel F u) (ha : Absorbs F u) (hu : u ≤ 1 / 200) {d : ℕ → ℝ}
    {r0 B L : ℝ} {N : ℕ} (k0 : ℕ) (hk0 : k0 ≤ N)
    (h0 : F.rnd r0 = r0) (hB : ∀ n ≤ N, |psum d r0 n| ≤ B) (hL : ∀ n ≤ N, L ≤ |psum d r0 n|) (hN : 200 * (N * u) ≤ 1)
    (hBL : 3 * (N * u) * B ≤ L) (hd : |d (N + 1)| ≤ u / 8 * L) :
    ∃ k ≤ N, k0 ≤ k ∧ F.rnd (acc F d r0 k + d (k + 1)) = acc F d r0 k ∧
      (∀ i < k, k0 ≤ i → F.rnd (acc F d r0 i + d (i + 1)) ≠ acc F d r0 i) ∧
      |acc F d r0 k - psum d r0 k| ≤ 101 / 100 * (k * u) * B ∧ |d (k + 1)| ≤ 103 / 100 * u * B := by
  classical
  have hu0 := h.nonneg
  have herr := acc_error h hB hN
  have hB0 : 0 ≤ B := (abs_nonneg _).trans (hB N le_rfl)
  have hNu : 0 ≤ N * u := mul_nonneg (Nat.cast_nonneg N) hu0
  have hstopN : F.rnd (acc F d r0 N + d (N + 1)) = acc F d r0 N := by
    refine ha.absorb _ _ (acc_fixed ha h0 N) ?_
    have e1 := herr N le_rfl
    have e2 := hL N le_rfl
    have e3 : |psum d r0 N| ≤ |acc F d r0 N| + |acc F d r0 N - psum d r0 N| := by
      have := abs_sub (acc F d r0 N) (acc F d r0 N - psum d r0 N)
      rwa [sub_sub_cancel] at this
    have e4 : L / 2 ≤ |acc F d r0 N| := by
      have : 0 ≤ N * u * B := mul_nonneg hNu hB0
      nlinarith
    have := mul_le_mul_of_nonneg_left e4 (by positivity : 0 ≤ u / 4)
    linarith
  have hex : ∃ k, k0 ≤ k ∧ F.rnd (acc F d r0 k + d (k + 1)) = acc F d r0 k := ⟨N, hk0, hstopN⟩
  have hk := Nat.find_spec hex
  have hkN : Nat.find hex ≤ N := Nat.find_min' hex ⟨hk0, hstopN⟩
  refine ⟨Nat.find hex, hkN, hk.1, hk.2, fun i hi hi0 hn => Nat.find_min hex hi ⟨hi0, hn⟩, herr _ hkN, ?_⟩
  generalize Nat.find hex = k at *
  have e1 := h.rnd (acc F d r0 k + d (k + 1))
  rw [hk.2, show acc F d r0 k - (acc F d r0 k + d (k + 1)) = -d (k + 1) by ring, abs_neg] at e1
  have e2 := herr k hkN
  have e3 := hB k hkN
  have e4 : |acc F d r0 k| ≤ |acc F d r0 k - psum d r0 k| + |psum d r0 k| := by
    have := abs_add_le (acc F d r0 k - psum d r0 k) (psum d r0 k)
    rwa [sub_add_cancel] at this
  have e5 := abs_add_le (acc F d r0 k) (d (k + 1))
  have hkN' : (k : ℝ) * u ≤ N * u := mul_le_mul_of_nonneg_right (by exact_mod_cast hkN) hu0
  have e6 : 101 / 100 * (k * u) * B ≤ B / 100 := by nlinarith
  have e7 : u * |d (k + 1)| ≤ 1 / 200 * |d (k + 1)| := mul_le_mul_of_nonneg_right hu (abs_nonneg _)
  have e8 : |acc F d r0 k + d (k + 1)| ≤ 101 / 100 * B + |d (k + 1)| := by linarith
  have e9 := mul_le_mul_of_nonneg_left e8 hu0
  nlinarith

/-! ## The sequences of the loop as computed -/

section Series
variable {F : Arith} {u q qsq v w0 y : ℝ}

/-- `u0i`. -/
noncomputable def serU (F : Arith) (v : ℝ) : ℕ → ℝ
  | 0 => 1
  | n + 1 => F.rnd (serU F v n * v)

/-- `term`. -/
noncomputable def serT (F : Arith) : ℕ → ℝ
  | 0 => 4
  | n + 1 => F.rnd (F.rnd (serT F n * F.rnd (F.rnd ((n + 1 : ℕ) : ℝ) - 1 / 2)) / F.rnd ((n + 1 : ℕ) : ℝ))

/-- `tq`. -/
noncomputable def serQ (F : Arith) (q0 qsq : ℝ) : ℕ → ℝ
  | 0 => q0
  | n + 1 => F.rnd (serQ F q0 qsq n * qsq)

/-- `tqsum`. -/
noncomputable def serS (F : Arith) (q0 qsq s0 : ℝ) : ℕ → ℝ
  | 0 => s0
  | n + 1 => F.rnd (serS F q0 qsq s0 n + serQ F q0 qsq (n + 1))

/-- `ttmold`. -/
noncomputable def serM (F : Arith) : ℕ → ℝ
  | 0 => F.rnd (4 / 3)
  | n + 1 => F.rnd (serT F (n + 1) / F.rnd (F.rnd (2 * F.rnd ((n + 1 : ℕ) : ℝ)) + 3))

/-- What is added to `t`. -/
noncomputable def serD (F : Arith) (q0 qsq s0 v : ℝ) : ℕ → ℝ
  | 0 => 0
  | n + 1 => -F.rnd (serU F v (n + 1) * F.rnd (F.rnd (F.rnd (F.rnd (F.rnd (3 / 2 * F.rnd ((n + 1 : ℕ) : ℝ)) + 1 / 4) *
      F.rnd (serM F (n + 1) * serS F q0 qsq s0 (n + 1))) / F.rnd (F.rnd (((n + 1 : ℕ) : ℝ) * ((n + 1 : ℕ) : ℝ)) - 1 / 4)) -
      F.rnd (serM F n * serQ F q0 qsq (n + 1))))

theorem serU_fac (h : StandardModel F u) (hu : u < 1) (hv : ∃ a, Fac u 3 a ∧ v = y * a) (n : ℕ) :
    ∃ a, Fac u (4 * n) a ∧ serU F v n = y ^ n * a := by
  induction n with
  | zero => exact ⟨1, by simp [Fac], by simp [serU]⟩
  | succ n ih =>
    obtain ⟨a, ha, e⟩ := ih
    obtain ⟨b, hb, e'⟩ := hv
    obtain ⟨c, hc, e''⟩ := rnd_fac h hu (serU F v n * v)
    have hf := (ha.mul hu hb).mul hu hc
    refine ⟨_, by convert hf using 1; omega, ?_⟩
    rw [serU, e'', e, e']
    ring

theorem serQ_fac {q0 : ℝ} (h : StandardModel F u) (hu : u < 1) (h0 : ∃ a, Fac u 11 a ∧ q0 = q * (1 - q ^ 2) * a)
    (hq : ∃ a, Fac u 1 a ∧ qsq = q ^ 2 * a) (n : ℕ) :
    ∃ a, Fac u (11 + 2 * n) a ∧ serQ F q0 qsq n = q * (1 - q ^ 2) * (q ^ 2) ^ n * a := by
  induction n with
  | zero => obtain ⟨a, ha, e⟩ := h0; exact ⟨a, ha, by rw [serQ, e]; ring⟩
  | succ n ih =>
    obtain ⟨a, ha, e⟩ := ih
    obtain ⟨b, hb, e'⟩ := hq
    obtain ⟨c, hc, e''⟩ := rnd_fac h hu (serQ F q0 qsq n * qsq)
    have hf := (ha.mul hu hb).mul hu hc
    refine ⟨_, by convert hf using 1; omega, ?_⟩
    rw [serQ, e'', e, e']
    ring

theorem pow1_ge (hu0 : 0 ≤ u) (hu : u ≤ 1 / 100000) : 2 / 3 ≤ (1 - u) ^ 1 := by rw [pow_one]; linarith

/-- A positive integer minus one half. -/
theorem int_half (h : StandardModel F u) (hu : u ≤ 1 / 100000) (n : ℕ) :
    ∃ a, Fac u 4 a ∧ F.rnd (F.rnd ((n + 1 : ℕ) : ℝ) - 1 / 2) = (((n + 1 : ℕ) : ℝ) - 1 / 2) * a := by
  have hu1 : u < 1 := by linarith
  obtain ⟨a, ha, e⟩ := rnd_fac h hu1 ((n + 1 : ℕ) : ℝ)
  have hn : (1 : ℝ) ≤ ((n + 1 : ℕ) : ℝ) := by push_cast; linarith [(Nat.cast_nonneg n : (0 : ℝ) ≤ n)]
  obtain ⟨b, hb, e1⟩ := fac_sub h.nonneg hu1 (pow1_ge h.nonneg hu) ha (by norm_num : (0 : ℝ) < 1 / 2)
    (by linarith : 2 * (1 / 2) ≤ ((n + 1 : ℕ) : ℝ))
  obtain ⟨c, hc, e2⟩ := rnd_fac h hu1 (F.rnd ((n + 1 : ℕ) : ℝ) - 1 / 2)
  exact ⟨_, hb.mul hu1 hc, by rw [e2, e, e1]; ring⟩

/-- The square of a positive integer minus a quarter. -/
theorem int_sq (h : StandardModel F u) (hu : u ≤ 1 / 100000) (n : ℕ) :
    ∃ a, Fac u 4 a ∧ F.rnd (F.rnd (((n + 1 : ℕ) : ℝ) * ((n + 1 : ℕ) : ℝ)) - 1 / 4) =
      (((n + 1 : ℕ) : ℝ) * ((n + 1 : ℕ) : ℝ) - 1 / 4) * a := by
  have hu1 : u < 1 := by linarith
  obtain ⟨a, ha, e⟩ := rnd_fac h hu1 (((n + 1 : ℕ) : ℝ) * ((n + 1 : ℕ) : ℝ))
  have hn : (1 : ℝ) ≤ ((n + 1 : ℕ) : ℝ) := by push_cast; linarith [(Nat.cast_nonneg n : (0 : ℝ) ≤ n)]
  obtain ⟨b, hb, e1⟩ := fac_sub h.nonneg hu1 (pow1_ge h.nonneg hu) ha (by norm_num : (0 : ℝ) < 1 / 4)
    (by nlinarith : 2 * (1 / 4) ≤ ((n + 1 : ℕ) : ℝ) * ((n + 1 : ℕ) : ℝ))
  obtain ⟨c, hc, e2⟩ := rnd_fac h hu1 (F.rnd (((n + 1 : ℕ) : ℝ) * ((n + 1 : ℕ) : ℝ)) - 1 / 4)
  exact ⟨_, hb.mul hu1 hc, by rw [e2, e, e1]; ring⟩

/-- A multiple of a positive integer plus a positive number. -/
theorem int_lin (h : StandardModel F u) (hu : u ≤ 1 / 100000) {b c : ℝ} (hb : 0 < b) (hc : 0 ≤ c) (n : ℕ) :
    ∃ a, Fac u 3 a ∧ F.rnd (F.rnd (b * F.rnd ((n + 1 : ℕ) : ℝ)) + c) = (b * ((n + 1 : ℕ) : ℝ) + c) * a := by
  have hu1 : u < 1 := by linarith
  have hn : (0 : ℝ) < ((n + 1 : ℕ) : ℝ) := by positivity
  obtain ⟨a1, h1, e1⟩ := rnd_fac h hu1 ((n + 1 : ℕ) : ℝ)
  obtain ⟨a2, h2, e2⟩ := rnd_fac h hu1 (b * F.rnd ((n + 1 : ℕ) : ℝ))
  obtain ⟨a3, h3, e3⟩ := fac_add h.nonneg hu1 (h1.mul hu1 h2) (by positivity : 0 ≤ b * ((n + 1 : ℕ) : ℝ)) hc (by positivity)
  obtain ⟨a4, h4, e4⟩ := rnd_fac h hu1 (F.rnd (b * F.rnd ((n + 1 : ℕ) : ℝ)) + c)
  refine ⟨_, h3.mul hu1 h4, ?_⟩
  rw [e4, e2, e1, show b * (((n + 1 : ℕ) : ℝ) * a1) * a2 + c = b * ((n + 1 : ℕ) : ℝ) * (a1 * a2) + c by ring, e3]
  ring

theorem serT_fac (h : StandardModel F u) (hu : u ≤ 1 / 100000) (n : ℕ) :
    ∃ a, Fac u (7 * n) a ∧ serT F n = 4 * binC n * a := by
  have hu1 : u < 1 := by linarith
  induction n with
  | zero => exact ⟨1, by simp [Fac], by simp [serT, binC]⟩
  | succ n ih =>
    obtain ⟨a, ha, e⟩ := ih
    obtain ⟨a1, h1, e1⟩ := int_half h hu n
    obtain ⟨a2, h2, e2⟩ := rnd_fac h hu1 ((n + 1 : ℕ) : ℝ)
    obtain ⟨a3, h3, e3⟩ := rnd_fac h hu1 (serT F n * F.rnd (F.rnd ((n + 1 : ℕ) : ℝ) - 1 / 2))
    obtain ⟨a4, h4, e4⟩ := rnd_fac h hu1
      (F.rnd (serT F n * F.rnd (F.rnd ((n + 1 : ℕ) : ℝ) - 1 / 2)) / F.rnd ((n + 1 : ℕ) : ℝ))
    have hf := (((ha.mul hu1 h1).mul hu1 h3).mul hu1 (h2.inv hu1)).mul hu1 h4
    refine ⟨_, by convert hf using 1; omega, ?_⟩
    have hn : (0 : ℝ) < ((n + 1 : ℕ) : ℝ) := by positivity
    have h20 := h2.pos hu1
    rw [serT, e4, e3, e1, e2, e, binC]
    push_cast at hn ⊢
    field_simp
    ring

theorem serM_fac (h : StandardModel F u) (hu : u ≤ 1 / 100000) (n : ℕ) :
    ∃ a, Fac u (7 * n + 4) a ∧ serM F n = sigC n * a := by
  have hu1 : u < 1 := by linarith
  cases n with
  | zero =>
    obtain ⟨a, ha, e⟩ := rnd_fac h hu1 (4 / 3)
    exact ⟨a, ha.mono h.nonneg hu1 (by norm_num), by rw [serM, e]; simp [sigC, binC]⟩
  | succ n =>
    obtain ⟨a, ha, e⟩ := serT_fac h hu (n + 1)
    obtain ⟨a1, h1, e1⟩ := int_lin h hu (by norm_num : (0 : ℝ) < 2) (by norm_num : (0 : ℝ) ≤ 3) n
    obtain ⟨a2, h2, e2⟩ := rnd_fac h hu1 (serT F (n + 1) / F.rnd (F.rnd (2 * F.rnd ((n + 1 : ℕ) : ℝ)) + 3))
    have hf := (ha.mul hu1 (h1.inv hu1)).mul hu1 h2
    refine ⟨_, by convert hf using 1, ?_⟩
    have h10 := h1.pos hu1
    have hn : (0 : ℝ) < 2 * ((n + 1 : ℕ) : ℝ) + 3 := by positivity
    rw [serM, e2, e1, e, sigC]
    field_simp

/-! ## The sums of `tq` -/

/-- What the sums of `tq` are measured with. -/
noncomputable def serW (q : ℝ) : ℕ → ℝ
  | 0 => 1 - q ^ 3
  | n + 1 => serW q n + |q * (1 - q ^ 2) * (q ^ 2) ^ (n + 1)|

theorem one_sub_cube (hq : q ^ 2 < 1) : 0 < 1 - q ^ 3 := by
  have hl := abs_lt.1 ((sq_lt_one_iff_abs_lt_one _).1 hq)
  have e : 1 - q ^ 3 = (1 - q) * (1 + q + q ^ 2) := by ring
  rw [e]
  exact mul_pos (by linarith) (by nlinarith)

theorem tq_le (hq : q ^ 2 < 1) (n : ℕ) : |q * (1 - q ^ 2) * (q ^ 2) ^ (n + 1)| ≤ 2 / 3 * (1 - q ^ 3) := by
  have hl := (sq_lt_one_iff_abs_lt_one _).1 hq
  have h0 := abs_nonneg q
  have e1 : |q * (1 - q ^ 2) * (q ^ 2) ^ (n + 1)| = |q| ^ 3 * (1 - |q| ^ 2) * (|q| ^ 2) ^ n := by
    rw [abs_mul, abs_mul, abs_of_pos (by linarith : 0 < 1 - q ^ 2), abs_of_nonneg (by positivity : 0 ≤ (q ^ 2) ^ (n + 1)),
      sq_abs, pow_succ (q ^ 2), ← sq_abs q]
    ring
  have e2 : q ^ 3 ≤ |q| ^ 3 := by rw [← abs_pow]; exact le_abs_self _
  rw [e1]
  generalize |q| = a at *
  have e3 : (a ^ 2) ^ n ≤ 1 := pow_le_one₀ (by positivity) (by nlinarith)
  have e4 : 0 ≤ a ^ 3 * (1 - a ^ 2) := mul_nonneg (by positivity) (by nlinarith)
  have e5 := mul_le_mul_of_nonneg_left e3 e4
  have e6 : 0 ≤ (1 - a) * (2 / 3 * (1 + a + a ^ 2) - a ^ 3 * (1 + a)) := by
    refine mul_nonneg (by linarith) ?_
    have f1 : a ^ 2 ≤ 1 := by nlinarith
    have f2 : a ^ 3 ≤ a := by nlinarith
    have f3 : a ^ 4 ≤ a ^ 2 := by nlinarith
    nlinarith
  nlinarith

theorem serW_le (hq : q ^ 2 < 1) (n : ℕ) : serW q n ≤ (2 * n + 3) / 3 * (1 - q ^ 3) := by
  induction n with
  | zero => simp [serW]
  | succ n ih =>
    have := tq_le hq n
    rw [serW]
    push_cast
    linarith

theorem serW_ge (hq : q ^ 2 < 1) (n : ℕ) : |1 - q ^ (2 * n + 3)| ≤ serW q n := by
  induction n with
  | zero => simp only [serW]; norm_num; rw [abs_of_pos (one_sub_cube hq)]
  | succ n ih =>
    have e : 1 - q ^ (2 * (n + 1) + 3) = (1 - q ^ (2 * n + 3)) + q * (1 - q ^ 2) * (q ^ 2) ^ (n + 1) := by
      rw [← pow_mul]; ring
    rw [e, serW]
    exact (abs_add_le _ _).trans (by linarith)

theorem serS_err {q0 s0 : ℝ} (h : StandardModel F u) (hu : u ≤ 1 / 100000) (hq : q ^ 2 < 1)
    (h0 : ∃ a, Fac u 11 a ∧ q0 = q * (1 - q ^ 2) * a) (hs0 : ∃ a, Fac u 14 a ∧ s0 = (1 - q ^ 3) * a)
    (hqs : ∃ a, Fac u 1 a ∧ qsq = q ^ 2 * a) (n : ℕ) (hn : 1000 * (n * u) ≤ 3) :
    |serS F q0 qsq s0 n - (1 - q ^ (2 * n + 3))| ≤ 10 / 9 * (15 + 3 * n) * u * serW q n := by
  have hu0 := h.nonneg
  have hu1 : u < 1 := by linarith
  induction n with
  | zero =>
    obtain ⟨a, ha, e⟩ := hs0
    have e1 := ha.err hu0 (by norm_num; linarith)
    have hD := one_sub_cube hq
    rw [serS, e, serW]
    norm_num at e1 ⊢
    rw [show (1 - q ^ 3) * a - (1 - q ^ 3) = (a - 1) * (1 - q ^ 3) by ring, abs_mul, abs_of_pos hD]
    refine mul_le_mul_of_nonneg_right (e1.trans ?_) hD.le
    linarith
  | succ n ih =>
    push_cast at hn ⊢
    have hnu : 0 ≤ (n : ℝ) * u := mul_nonneg (Nat.cast_nonneg n) hu0
    have i1 := ih (by linarith)
    obtain ⟨a, ha, e⟩ := serQ_fac h hu1 h0 hqs (n + 1)
    have e1 := ha.err hu0 (by push_cast; linarith)
    push_cast at e1
    have hW := serW_ge hq (n + 1)
    have hW0 : 0 ≤ serW q n := (abs_nonneg _).trans (serW_ge hq n)
    have hWs : serW q (n + 1) = serW q n + |q * (1 - q ^ 2) * (q ^ 2) ^ (n + 1)| := rfl
    generalize hτ : q * (1 - q ^ 2) * (q ^ 2) ^ (n + 1) = τ at *
    have e2 : 1 - q ^ (2 * (n + 1) + 3) = (1 - q ^ (2 * n + 3)) + τ := by
      rw [← hτ, ← pow_mul]; ring
    have hτ0 := abs_nonneg τ
    have e3 : |τ * a - τ| ≤ 10 / 9 * (15 + 3 * n) * u * |τ| := by
      rw [show τ * a - τ = (a - 1) * τ by ring, abs_mul]
      refine mul_le_mul_of_nonneg_right (e1.trans ?_) hτ0
      nlinarith
    have e4 : |serS F q0 qsq s0 n + serQ F q0 qsq (n + 1) - (1 - q ^ (2 * (n + 1) + 3))| ≤
        10 / 9 * (15 + 3 * n) * u * serW q (n + 1) := by
      rw [e, e2, show serS F q0 qsq s0 n + τ * a - (1 - q ^ (2 * n + 3) + τ) =
        (serS F q0 qsq s0 n - (1 - q ^ (2 * n + 3))) + (τ * a - τ) by ring, hWs, mul_add]
      exact (abs_add_le _ _).trans (add_le_add i1 e3)
    have e5 := rnd_err h e4 hW
    rw [serS]
    have hW1 : 0 ≤ serW q (n + 1) := by rw [hWs]; linarith
    generalize serW q (n + 1) = W at *
    have e6 : 10 / 9 * (15 + 3 * n) * u * W ≤ 1 * W := mul_le_mul_of_nonneg_right (by linarith) hW1
    have e7 := mul_le_mul_of_nonneg_left e6 hu0
    have e8 : 0 ≤ u * W := mul_nonneg hu0 hW1
    linarith

/-! ## The terms -/

/-- The terms of the series. -/
noncomputable def serE (q y : ℝ) : ℕ → ℝ
  | 0 => 0
  | n + 1 => (Gooding.serC q (n + 1) - Gooding.serC q n) * y ^ (n + 1)

theorem sigC_rec (k : ℕ) : (3 / 2 * ((k + 1 : ℕ) : ℝ) + 1 / 4) * sigC (k + 1) /
    (((k + 1 : ℕ) : ℝ) * ((k + 1 : ℕ) : ℝ) - 1 / 4) = sigC k - sigC (k + 1) := by
  have h1 : (((k + 1 : ℕ) : ℝ) * ((k + 1 : ℕ) : ℝ) - 1 / 4) = (k + 1 / 2) * (k + 3 / 2) := by
    push_cast; ring
  rw [h1, div_eq_iff (by positivity), sigC, sigC, binC]
  push_cast
  field_simp
  ring

theorem sigC_le (n : ℕ) : sigC n * (2 * n + 3) ≤ 4 := by
  rw [sigC, div_mul_cancel₀ _ (by positivity)]
  linarith [binC_le n]

theorem sigC_le' (n : ℕ) : sigC n ≤ 4 / 3 := by
  have h1 := sigC_le n
  have h2 := mul_nonneg (sigC_pos n).le (Nat.cast_nonneg n : (0 : ℝ) ≤ n)
  linarith

theorem sigC_anti (n : ℕ) : 0 ≤ sigC n - sigC (n + 1) := by
  rw [← sigC_rec]
  have h1 := sigC_pos (n + 1)
  have h2 : (1 : ℝ) ≤ ((n + 1 : ℕ) : ℝ) := by push_cast; linarith [(Nat.cast_nonneg n : (0 : ℝ) ≤ n)]
  exact div_nonneg (by positivity) (by nlinarith)

theorem pow_odd_lt (hq : q ^ 2 < 1) (n : ℕ) : q ^ (2 * n + 3) < 1 := by
  have hl := (sq_lt_one_iff_abs_lt_one _).1 hq
  refine (le_abs_self _).trans_lt ?_
  rw [abs_pow]
  exact pow_lt_one₀ (abs_nonneg q) hl (by omega)

theorem serC_nonneg (hq : q ^ 2 < 1) (n : ℕ) : 0 ≤ Gooding.serC q n :=
  mul_nonneg (sigC_pos n).le (by linarith [pow_odd_lt hq n])

theorem serC_le (hq : q ^ 2 < 1) (n : ℕ) : Gooding.serC q n ≤ 4 / 3 * (1 - q ^ 3) := by
  have h1 := serW_le hq n
  have h2 := (le_abs_self _).trans (serW_ge hq n)
  have h3 := mul_le_mul_of_nonneg_left (h2.trans h1) (sigC_pos n).le
  have h4 := mul_le_mul_of_nonneg_right (sigC_le n) (one_sub_cube hq).le
  rw [Gooding.serC]
  linarith

theorem pow_slope {q : ℝ} (h0 : 0 ≤ q) (h1 : q ≤ 1) (m : ℕ) : m * q ^ m * (1 - q) ≤ 1 - q ^ m := by
  induction m with
  | zero => simp
  | succ m ih =>
    have e := mul_le_mul_of_nonneg_left ih h0
    have hp : q ^ (m + 1) ≤ 1 := pow_le_one₀ h0 h1
    have e2 := mul_nonneg (sub_nonneg.2 h1) (sub_nonneg.2 hp)
    push_cast
    rw [pow_succ] at *
    nlinarith

/-- The coefficients go down, and by a definite amount. -/
theorem serC_anti (hq : q ^ 2 < 1) (n : ℕ) :
    Gooding.serC q n ≤ 2 * (n + 1) * (Gooding.serC q n - Gooding.serC q (n + 1)) := by
  have hl := abs_lt.1 ((sq_lt_one_iff_abs_lt_one _).1 hq)
  have hn : (0 : ℝ) ≤ n := Nat.cast_nonneg n
  have e1 : (2 * n + 3) * (1 - q ^ (2 * (n + 1) + 3)) ≤ (2 * n + 5) * (1 - q ^ (2 * n + 3)) := by
    have e : q ^ (2 * (n + 1) + 3) = q ^ (2 * n + 3) * q ^ 2 := by ring
    rw [e]
    rcases le_or_gt q 0 with h0 | h0
    · have hp : q ^ (2 * n + 3) ≤ 0 := by
        rw [show 2 * n + 3 = 2 * (n + 1) + 1 by ring, pow_succ, pow_mul]
        exact mul_nonpos_of_nonneg_of_nonpos (by positivity) h0
      have := mul_nonneg (neg_nonneg.2 hp) (sub_nonneg.2 hq.le)
      nlinarith [mul_nonneg hn this]
    · have hs := pow_slope h0.le hl.2.le (2 * n + 3)
      push_cast at hs
      have hp : 0 < q ^ (2 * n + 3) := by positivity
      generalize q ^ (2 * n + 3) = P at *
      have h2 : 0 ≤ (2 * (n : ℝ) + 3) * P * (1 - q) * (1 - q) :=
        mul_nonneg (mul_nonneg (by positivity) (by linarith)) (by linarith)
      nlinarith
  have e2 : 2 * (n + 1) * (2 * n + 5) * sigC (n + 1) = (2 * n + 1) * (2 * n + 3) * sigC n := by
    rw [sigC, sigC, binC]
    push_cast
    field_simp
    ring
  have e3 := mul_le_mul_of_nonneg_left e1 (mul_nonneg (by positivity : 0 ≤ 2 * (n : ℝ) + 1) (sigC_pos n).le)
  have e4 : 2 * (n + 1) * Gooding.serC q (n + 1) * (2 * n + 5) ≤ (2 * n + 1) * Gooding.serC q n * (2 * n + 5) := by
    rw [Gooding.serC, Gooding.serC]
    calc 2 * ((n : ℝ) + 1) * (sigC (n + 1) * (1 - q ^ (2 * (n + 1) + 3))) * (2 * n + 5)
        = 2 * (n + 1) * (2 * n + 5) * sigC (n + 1) * (1 - q ^ (2 * (n + 1) + 3)) := by ring
      _ = (2 * n + 1) * sigC n * ((2 * n + 3) * (1 - q ^ (2 * (n + 1) + 3))) := by rw [e2]; ring
      _ ≤ (2 * n + 1) * sigC n * ((2 * n + 5) * (1 - q ^ (2 * n + 3))) := e3
      _ = _ := by ring
  have e5 := le_of_mul_le_mul_right e4 (by positivity : 0 < 2 * (n : ℝ) + 5)
  linarith

theorem serE_le (hq : q ^ 2 < 1) (n : ℕ) : |serE q y (n + 1)| ≤ Gooding.serC q n * |y| ^ (n + 1) := by
  have h1 := serC_nonneg hq n
  have h2 := serC_nonneg hq (n + 1)
  have h3 := serC_anti hq n
  have h4 : 0 ≤ Gooding.serC q n - Gooding.serC q (n + 1) := by
    by_contra hc
    have := mul_pos (by positivity : 0 < 2 * ((n : ℝ) + 1)) (neg_pos.2 (not_le.1 hc))
    linarith
  rw [serE, abs_mul, abs_pow]
  refine mul_le_mul_of_nonneg_right ?_ (by positivity)
  rw [abs_le]
  constructor <;> linarith

theorem serE_ge (hq : q ^ 2 < 1) (n : ℕ) : Gooding.serC q n * |y| ^ (n + 1) ≤ 2 * (n + 1) * |serE q y (n + 1)| := by
  have h3 := serC_anti hq n
  rw [serE, abs_mul, abs_pow, ← mul_assoc]
  refine mul_le_mul_of_nonneg_right (h3.trans ?_) (by positivity)
  refine mul_le_mul_of_nonneg_left ?_ (by positivity)
  rw [abs_sub_comm]
  exact le_abs_self _

/-- What rounding does to a product of three numbers, one of them already wrong. -/
theorem prod_err {al f s S W a b : ℝ} (hal : 0 ≤ al) (hf : |f - 1| ≤ a) (ha : a ≤ 1 / 9) (hs : |s - S| ≤ b * W)
    (hS : |S| ≤ W) (hb : 0 ≤ b) : |al * f * s - al * S| ≤ al * W * (10 / 9 * b + a) := by
  have hW : 0 ≤ W := (abs_nonneg _).trans hS
  have hf' : |f| ≤ 10 / 9 := by
    have := abs_add_le (f - 1) 1
    rw [sub_add_cancel, abs_one] at this
    linarith
  rw [show al * f * s - al * S = al * (f * (s - S) + (f - 1) * S) by ring, abs_mul, abs_of_nonneg hal, mul_assoc al]
  refine mul_le_mul_of_nonneg_left ?_ hal
  refine (abs_add_le _ _).trans ?_
  rw [abs_mul, abs_mul]
  have h1 := mul_le_mul hf' hs (abs_nonneg _) (by norm_num)
  have h2 := mul_le_mul hf hS (abs_nonneg _) ((abs_nonneg _).trans hf)
  linarith

/-- The two parts of a term. -/
theorem serD_parts {q0 s0 : ℝ} (h : StandardModel F u) (hu : u ≤ 1 / 100000)
    (h0 : ∃ a, Fac u 11 a ∧ q0 = q * (1 - q ^ 2) * a) (hqs : ∃ a, Fac u 1 a ∧ qsq = q ^ 2 * a)
    (hv : ∃ a, Fac u 3 a ∧ v = y * a) (n : ℕ) :
    ∃ f g k, Fac u (7 * (n + 1) + 14) f ∧ Fac u (9 * (n + 1) + 9) g ∧ Fac u (4 * (n + 1) + 1) k ∧
      serD F q0 qsq s0 v (n + 1) = -(y ^ (n + 1) * k *
        F.rnd ((sigC n - sigC (n + 1)) * f * serS F q0 qsq s0 (n + 1) - sigC n * (q * (1 - q ^ 2) * (q ^ 2) ^ (n + 1)) * g)) := by
  have hu1 : u < 1 := by linarith
  obtain ⟨aU, hU, eU⟩ := serU_fac h hu1 hv (n + 1)
  obtain ⟨aM, hM, eM⟩ := serM_fac h hu (n + 1)
  obtain ⟨aN, hN, eN⟩ := serM_fac h hu n
  obtain ⟨aQ, hQ, eQ⟩ := serQ_fac h hu1 h0 hqs (n + 1)
  obtain ⟨c1, hc1, e1⟩ := int_lin h hu (by norm_num : (0 : ℝ) < 3 / 2) (by norm_num : (0 : ℝ) ≤ 1 / 4) n
  obtain ⟨c2, hc2, e2⟩ := int_sq h hu n
  have hrec := sigC_rec n
  have hp : 0 < ((n + 1 : ℕ) : ℝ) * ((n + 1 : ℕ) : ℝ) - 1 / 4 := by
    have : (1 : ℝ) ≤ ((n + 1 : ℕ) : ℝ) := by push_cast; linarith [(Nat.cast_nonneg n : (0 : ℝ) ≤ n)]
    nlinarith
  rw [serD, e1, e2, eM, eN, eQ]
  obtain ⟨S, hS⟩ : ∃ S, S = serS F q0 qsq s0 (n + 1) := ⟨_, rfl⟩
  rw [← hS]
  obtain ⟨r1, hr1, f1⟩ := rnd_fac h hu1 (sigC (n + 1) * aM * S)
  rw [f1]
  obtain ⟨r2, hr2, f2⟩ := rnd_fac h hu1 ((3 / 2 * ((n + 1 : ℕ) : ℝ) + 1 / 4) * c1 * (sigC (n + 1) * aM * S * r1))
  rw [f2]
  obtain ⟨r3, hr3, f3⟩ := rnd_fac h hu1 ((3 / 2 * ((n + 1 : ℕ) : ℝ) + 1 / 4) * c1 * (sigC (n + 1) * aM * S * r1) * r2 /
    ((((n + 1 : ℕ) : ℝ) * ((n + 1 : ℕ) : ℝ) - 1 / 4) * c2))
  rw [f3]
  obtain ⟨r4, hr4, f4⟩ := rnd_fac h hu1 (sigC n * aN * (q * (1 - q ^ 2) * (q ^ 2) ^ (n + 1) * aQ))
  rw [f4]
  have hc20 := hc2.pos hu1
  refine ⟨c1 * aM * r1 * r2 * c2⁻¹ * r3, aN * aQ * r4, ?_⟩
  have hA : (3 / 2 * ((n + 1 : ℕ) : ℝ) + 1 / 4) * c1 * (sigC (n + 1) * aM * S * r1) * r2 /
    ((((n + 1 : ℕ) : ℝ) * ((n + 1 : ℕ) : ℝ) - 1 / 4) * c2) * r3 =
      (sigC n - sigC (n + 1)) * (c1 * aM * r1 * r2 * c2⁻¹ * r3) * S := by
    rw [← hrec]
    field_simp
  rw [hA, show sigC n * aN * (q * (1 - q ^ 2) * (q ^ 2) ^ (n + 1) * aQ) * r4 =
    sigC n * (q * (1 - q ^ 2) * (q ^ 2) ^ (n + 1)) * (aN * aQ * r4) by ring, eU]
  generalize hV : F.rnd ((sigC n - sigC (n + 1)) * (c1 * aM * r1 * r2 * c2⁻¹ * r3) * S -
    sigC n * (q * (1 - q ^ 2) * (q ^ 2) ^ (n + 1)) * (aN * aQ * r4)) = V
  obtain ⟨r5, hr5, f5⟩ := rnd_fac h hu1 (y ^ (n + 1) * aU * V)
  refine ⟨aU * r5, ?_, ?_, ?_, ?_⟩
  · have := ((((hc1.mul hu1 hM).mul hu1 hr1).mul hu1 hr2).mul hu1 (hc2.inv hu1)).mul hu1 hr3
    convert this using 1
    omega
  · have := (hN.mul hu1 hQ).mul hu1 hr4
    convert this using 1
    omega
  · exact hU.mul hu1 hr5
  · rw [f5]; ring

theorem serD_err {q0 s0 : ℝ} (h : StandardModel F u) (hu : u ≤ 1 / 100000) (hq : q ^ 2 < 1)
    (h0 : ∃ a, Fac u 11 a ∧ q0 = q * (1 - q ^ 2) * a) (hs0 : ∃ a, Fac u 14 a ∧ s0 = (1 - q ^ 3) * a)
    (hqs : ∃ a, Fac u 1 a ∧ qsq = q ^ 2 * a) (hv : ∃ a, Fac u 3 a ∧ v = y * a) (n : ℕ) (hn : 1000 * (n * u) ≤ 2) :
    |serD F q0 qsq s0 v (n + 1) - serE q y (n + 1)| ≤ |y| ^ (n + 1) * ((1 - q ^ 3) * u * (45 * (n + 1) + 100)) := by
  have hu0 := h.nonneg
  have hn0 : (0 : ℝ) ≤ n := Nat.cast_nonneg n
  have hnu : 0 ≤ (n : ℝ) * u := mul_nonneg hn0 hu0
  obtain ⟨f, g, k, hf, hg, hk, e⟩ := serD_parts (s0 := s0) h hu h0 hqs hv n
  have ef := hf.err hu0 (by push_cast; linarith)
  have eg := hg.err hu0 (by push_cast; linarith)
  have ek := hk.err hu0 (by push_cast; linarith)
  push_cast at ef eg ek
  have hSe := serS_err h hu hq h0 hs0 hqs (n + 1) (by push_cast; linarith)
  have hSW := serW_ge hq (n + 1)
  have hWD := serW_le hq (n + 1)
  push_cast at hSe hWD
  have hτ := tq_le hq n
  have hD := one_sub_cube hq
  have hal := sigC_anti n
  have hsl := sigC_le n
  have hsl' := sigC_le' n
  have hsp := sigC_pos n
  have hsp1 := sigC_pos (n + 1)
  have hc1 := serC_nonneg hq n
  have hc2 := serC_nonneg hq (n + 1)
  have hc3 := serC_le hq n
  have hc4 := serC_le hq (n + 1)
  have hdiff : (sigC n - sigC (n + 1)) * (1 - q ^ (2 * (n + 1) + 3)) - sigC n * (q * (1 - q ^ 2) * (q ^ 2) ^ (n + 1)) =
      Gooding.serC q n - Gooding.serC q (n + 1) := by
    have e2 : 1 - q ^ (2 * (n + 1) + 3) = (1 - q ^ (2 * n + 3)) + q * (1 - q ^ 2) * (q ^ 2) ^ (n + 1) := by
      rw [← pow_mul]; ring
    rw [Gooding.serC, Gooding.serC, e2]
    ring
  have hE : serE q y (n + 1) = -(y ^ (n + 1) * (Gooding.serC q n - Gooding.serC q (n + 1))) := by rw [serE]; ring
  rw [e, hE]
  generalize serS F q0 qsq s0 (n + 1) = s at *
  generalize 1 - q ^ (2 * (n + 1) + 3) = S at *
  generalize serW q (n + 1) = W at *
  generalize q * (1 - q ^ 2) * (q ^ 2) ^ (n + 1) = τ at *
  generalize 1 - q ^ 3 = D at *
  generalize hal' : sigC n - sigC (n + 1) = al at *
  have hle : al ≤ sigC n := by linarith
  generalize sigC n = σ at *
  have hX : 0 ≤ D * u := mul_nonneg hD.le hu0
  have hnX : 0 ≤ (n : ℝ) * (D * u) := mul_nonneg hn0 hX
  -- the first part
  have hW0 : 0 ≤ W := (abs_nonneg _).trans hSW
  have hA := prod_err hal ef (by linarith) hSe hSW (by positivity)
  have haW : al * W ≤ 20 / 9 * D := by
    have e1 : al * W ≤ σ * ((2 * (n + 1) + 3) / 3 * D) := mul_le_mul hle hWD hW0 hsp.le
    have e2 : σ * (2 * n + 5) ≤ 20 / 3 := by linarith
    have e3 := mul_le_mul_of_nonneg_right e2 hD.le
    linarith
  have hA2 : |al * f * s - al * S| ≤ (50 + 26 * (n + 1) + 26) * (D * u) := by
    refine hA.trans ?_
    have := mul_le_mul_of_nonneg_right haW
      (by positivity : 0 ≤ 10 / 9 * (10 / 9 * (15 + 3 * ((n : ℝ) + 1)) * u) + 10 / 9 * ((7 * (n + 1) + 14) * u))
    linarith
  -- the second part
  have hB2 : |σ * τ * g - σ * τ| ≤ 9 * (n + 2) * (D * u) := by
    rw [show σ * τ * g - σ * τ = (g - 1) * (σ * τ) by ring, abs_mul, abs_mul σ, abs_of_pos hsp]
    have e1 : σ * |τ| ≤ 4 / 3 * (2 / 3 * D) := mul_le_mul hsl' hτ (abs_nonneg _) (by norm_num)
    have e2 := mul_le_mul eg e1 (by positivity) (by positivity)
    refine e2.trans ?_
    linarith
  have hP : |al * f * s - σ * τ * g - (Gooding.serC q n - Gooding.serC q (n + 1))| ≤ (85 + 35 * (n + 1)) * (D * u) := by
    rw [← hdiff, show al * f * s - σ * τ * g - (al * S - σ * τ) = (al * f * s - al * S) - (σ * τ * g - σ * τ) by ring]
    refine (abs_sub _ _).trans ?_
    linarith
  have hC : |Gooding.serC q n - Gooding.serC q (n + 1)| ≤ 4 / 3 * D := by
    rw [abs_le]; constructor <;> linarith
  have hV := rnd_err h hP hC
  generalize F.rnd (al * f * s - σ * τ * g) = V at *
  generalize Gooding.serC q n - Gooding.serC q (n + 1) = C at *
  have hV2 : |V - C| ≤ (87 + 35 * (n + 1)) * (D * u) := by
    refine hV.trans ?_
    have e1 : (85 + 35 * ((n : ℝ) + 1)) * u ≤ 1 / 5 := by linarith
    have e2 := mul_le_mul_of_nonneg_left e1 hX
    linarith
  have hk' : |k| ≤ 10 / 9 := by
    have := abs_add_le (k - 1) 1
    rw [sub_add_cancel, abs_one] at this
    linarith
  rw [show -(y ^ (n + 1) * k * V) - -(y ^ (n + 1) * C) = -(y ^ (n + 1) * (k * (V - C) + (k - 1) * C)) by ring, abs_neg, abs_mul,
    abs_pow]
  refine mul_le_mul_of_nonneg_left ?_ (by positivity)
  refine (abs_add_le _ _).trans ?_
  rw [abs_mul, abs_mul]
  have e1 := mul_le_mul hk' hV2 (abs_nonneg _) (by norm_num)
  have e2 := mul_le_mul ek hC (abs_nonneg _) (by positivity)
  linarith

/-- The partial sums are those of the series. -/
theorem psum_serE (q y : ℝ) (n : ℕ) : psum (serE q y) (Gooding.serC q 0) n =
    ∑ j ∈ Finset.range (n + 1), Gooding.serC q j * y ^ j - y * ∑ j ∈ Finset.range n, Gooding.serC q j * y ^ j := by
  induction n with
  | zero => simp [psum]
  | succ n ih =>
    rw [psum, ih, Finset.sum_range_succ (n := n + 1), Finset.sum_range_succ (n := n), serE]
    ring

theorem psum_lim (hq : q ^ 2 < 1) (hy : |y| < 1) :
    Filter.Tendsto (psum (serE q y) (Gooding.serC q 0)) Filter.atTop (nhds ((1 - y) * Gooding.serK q y)) := by
  have h1 := Gooding.lim_ps (Gooding.serC_bdd hq) hy
  have h2 := (h1.comp (Filter.tendsto_add_atTop_nat 1)).sub (h1.const_mul y)
  have e : (1 - y) * Gooding.serK q y = ps (Gooding.serC q) y - y * ps (Gooding.serC q) y := by unfold Gooding.serK; ring
  rw [e]
  exact h2.congr fun k => (psum_serE q y k).symm

theorem psum_near (hq : q ^ 2 < 1) (hy : |y| ≤ 41 / 100) (n : ℕ) :
    |psum (serE q y) (Gooding.serC q 0) n - Gooding.serC q 0| ≤ 4 / 3 * (1 - q ^ 3) * (41 / 59) * (1 - (41 / 100) ^ n) := by
  have hD := one_sub_cube hq
  induction n with
  | zero => simp [psum]
  | succ n ih =>
    have e1 := serE_le (y := y) hq n
    have e2 := mul_le_mul (serC_le hq n) (pow_le_pow_left₀ (abs_nonneg y) hy (n + 1)) (by positivity) (by positivity)
    rw [psum, show psum (serE q y) (Gooding.serC q 0) n + serE q y (n + 1) - Gooding.serC q 0 =
      (psum (serE q y) (Gooding.serC q 0) n - Gooding.serC q 0) + serE q y (n + 1) by ring]
    refine (abs_add_le _ _).trans ?_
    rw [pow_succ (41 / 100 : ℝ)] at e2 ⊢
    linarith

/-- What is left out is small if the first term left out is. -/
theorem psum_tail (hq : q ^ 2 < 1) (hy : |y| ≤ 41 / 100) (k m : ℕ) :
    |psum (serE q y) (Gooding.serC q 0) (k + m) - psum (serE q y) (Gooding.serC q 0) k| ≤
      Gooding.serC q k * |y| ^ (k + 1) * (100 / 59) * (1 - (41 / 100) ^ m) ∧
    Gooding.serC q (k + m) * |y| ^ (k + m + 1) ≤ Gooding.serC q k * |y| ^ (k + 1) * (41 / 100) ^ m := by
  induction m with
  | zero => simp
  | succ m ih =>
    obtain ⟨i1, i2⟩ := ih
    have e1 := serE_le (y := y) hq (k + m)
    constructor
    · rw [← add_assoc, psum, show psum (serE q y) (Gooding.serC q 0) (k + m) + serE q y (k + m + 1) -
        psum (serE q y) (Gooding.serC q 0) k = (psum (serE q y) (Gooding.serC q 0) (k + m) -
        psum (serE q y) (Gooding.serC q 0) k) + serE q y (k + m + 1) by ring]
      refine (abs_add_le _ _).trans ?_
      rw [pow_succ (41 / 100 : ℝ)]
      linarith
    · have h3 := serC_anti hq (k + m)
      have h4 : Gooding.serC q (k + m + 1) ≤ Gooding.serC q (k + m) := by
        by_contra hc
        have := mul_pos (by positivity : 0 < 2 * (((k + m : ℕ) : ℝ) + 1)) (sub_pos.2 (not_le.1 hc))
        have := serC_nonneg hq (k + m)
        linarith
      have h5 := serC_nonneg hq (k + m)
      rw [← add_assoc, pow_succ |y|, pow_succ (41 / 100 : ℝ), ← mul_assoc, ← mul_assoc]
      have h6 : Gooding.serC q (k + m + 1) * |y| ^ (k + m + 1) ≤ Gooding.serC q k * |y| ^ (k + 1) * (41 / 100) ^ m :=
        (mul_le_mul_of_nonneg_right h4 (by positivity)).trans i2
      exact mul_le_mul h6 hy (abs_nonneg y) (h6.trans' (mul_nonneg (serC_nonneg hq _) (by positivity)))

theorem lin_pow (j : ℕ) : ((j : ℝ) + 1) * (45 * (j + 1) + 100) * (41 / 100) ^ (j + 1) ≤ 65 := by
  rcases Nat.eq_zero_or_pos j with rfl | hj
  · norm_num
  · induction j, hj using Nat.le_induction with
    | base => norm_num
    | succ j hj ih =>
      have h1 : (1 : ℝ) ≤ j := by exact_mod_cast hj
      refine le_trans ?_ ih
      rw [pow_succ _ (j + 1), ← mul_assoc, mul_right_comm]
      refine mul_le_mul_of_nonneg_right ?_ (by positivity)
      push_cast
      nlinarith

/-- The loop stops and what it returns is near the sum of the series. -/
theorem ser_core {q0 s0 t0 Λ : ℝ} (h : StandardModel F u) (ha : Absorbs F u) (hu : u ≤ 1 / 100000) (hq : q ^ 2 < 1)
    (h0 : ∃ a, Fac u 11 a ∧ q0 = q * (1 - q ^ 2) * a) (hs0 : ∃ a, Fac u 14 a ∧ s0 = (1 - q ^ 3) * a)
    (hqs : ∃ a, Fac u 1 a ∧ qsq = q ^ 2 * a) (hv : ∃ a, Fac u 3 a ∧ v = y * a) (hy : |y| ≤ 41 / 100)
    (ht0 : ∃ a, Fac u 16 a ∧ t0 = 4 / 3 * (1 - q ^ 3) * a) (ht0r : F.rnd t0 = t0) {N : ℕ} (hN : 1000 * (N * u) ≤ 1)
    (hNu : 30 * (41 / 100) ^ (N + 1) ≤ u) (k0 : ℕ) (hk0 : k0 ≤ N)
    (hlim : Filter.Tendsto (psum (serE q y) (Gooding.serC q 0)) Filter.atTop (nhds Λ)) :
    ∃ k ≤ N, k0 ≤ k ∧ F.rnd (acc F (serD F q0 qsq s0 v) t0 k + serD F q0 qsq s0 v (k + 1)) = acc F (serD F q0 qsq s0 v) t0 k ∧
      (∀ i < k, k0 ≤ i → F.rnd (acc F (serD F q0 qsq s0 v) t0 i + serD F q0 qsq s0 v (i + 1)) ≠ acc F (serD F q0 qsq s0 v) t0 i) ∧
      |acc F (serD F q0 qsq s0 v) t0 k - Λ| ≤ (11 * N + 390) * u * (1 - q ^ 3) ∧ 2 / 5 * (1 - q ^ 3) ≤ Λ := by
  have hu0 := h.nonneg
  have hD := one_sub_cube hq
  have hNu0 : 0 ≤ N * u := mul_nonneg (Nat.cast_nonneg N) hu0
  have hc0 : Gooding.serC q 0 = 4 / 3 * (1 - q ^ 3) := by simp [Gooding.serC, sigC, binC]
  have hDE : ∀ n ≤ N, |serD F q0 qsq s0 v (n + 1) - serE q y (n + 1)| ≤
      (41 / 100) ^ (n + 1) * ((1 - q ^ 3) * u * (45 * (n + 1) + 100)) := by
    intro n hn
    have hn' : (n : ℝ) * u ≤ N * u := mul_le_mul_of_nonneg_right (by exact_mod_cast hn) hu0
    refine (serD_err h hu hq h0 hs0 hqs hv n (by linarith)).trans ?_
    exact mul_le_mul_of_nonneg_right (pow_le_pow_left₀ (abs_nonneg y) hy (n + 1)) (by positivity)
  have hEl : ∀ n, |serE q y (n + 1)| ≤ 4 / 3 * (1 - q ^ 3) * (41 / 100) ^ (n + 1) := fun n =>
    (serE_le hq n).trans (mul_le_mul (serC_le hq n) (pow_le_pow_left₀ (abs_nonneg y) hy (n + 1)) (by positivity) (by positivity))
  have hEg : ∀ n : ℕ, Gooding.serC q n * |y| ^ (n + 1) ≤ 2 * (n + 1) * |serE q y (n + 1)| := fun n => serE_ge hq n
  have hnear := psum_near hq hy
  have htail := fun k m => (psum_tail hq hy k m).1
  rw [hc0] at hlim
  simp only [hc0] at hnear htail
  clear hs0 h0 hqs hv
  generalize serD F q0 qsq s0 v = d at *
  generalize serE q y = E at *
  have ht0e : |t0 - 4 / 3 * (1 - q ^ 3)| ≤ 24 * u * (1 - q ^ 3) := by
    obtain ⟨a, hf, e⟩ := ht0
    have := hf.err hu0 (by norm_num; linarith)
    norm_num at this
    rw [e, show 4 / 3 * (1 - q ^ 3) * a - 4 / 3 * (1 - q ^ 3) = (a - 1) * (4 / 3 * (1 - q ^ 3)) by ring, abs_mul,
      abs_of_pos (by positivity : 0 < 4 / 3 * (1 - q ^ 3))]
    have e1 := mul_le_mul_of_nonneg_right this (by positivity : 0 ≤ 4 / 3 * (1 - q ^ 3))
    have e2 : 0 ≤ u * (1 - q ^ 3) := by positivity
    linarith
  obtain ⟨c, hc⟩ : ∃ c, c = Gooding.serC q := ⟨_, rfl⟩
  rw [← hc] at hEg htail
  clear hc hc0 ht0
  generalize 1 - q ^ 3 = D at *
  have hX : 0 ≤ D * u := by positivity
  have hps : ∀ n ≤ N + 1, |psum d t0 n - psum E (4 / 3 * D) n| ≤ 24 * u * D + D * u * (124 - (41 / 100) ^ n * (32 * n + 124)) := by
    intro n
    induction n with
    | zero => intro _; simpa [psum] using ht0e
    | succ n ih =>
      intro hn
      have i1 := ih (by omega)
      have i2 := hDE n (by omega)
      rw [psum, psum, show psum d t0 n + d (n + 1) - (psum E (4 / 3 * D) n + E (n + 1)) =
        (psum d t0 n - psum E (4 / 3 * D) n) + (d (n + 1) - E (n + 1)) by ring]
      refine (abs_add_le _ _).trans ?_
      have hP : (0 : ℝ) < (41 / 100) ^ n := by positivity
      rw [pow_succ] at *
      generalize ((41 / 100) ^ n : ℝ) = P at *
      push_cast
      have e1 : 0 ≤ P * (D * u) := by positivity
      have e2 : 0 ≤ (n : ℝ) * (P * (D * u)) := mul_nonneg (Nat.cast_nonneg n) e1
      linarith
  have hps' : ∀ n ≤ N + 1, |psum d t0 n - psum E (4 / 3 * D) n| ≤ 148 * (D * u) := by
    intro n hn
    have : 0 ≤ (41 / 100 : ℝ) ^ n * (32 * n + 124) := by positivity
    have e := mul_nonneg hX this
    linarith [hps n hn]
  have hnear' : ∀ n, |psum E (4 / 3 * D) n - 4 / 3 * D| ≤ 4 / 3 * D * (41 / 59) := by
    intro n
    refine (hnear n).trans ?_
    have : 0 ≤ (41 / 100 : ℝ) ^ n := by positivity
    have := mul_nonneg hD.le this
    linarith
  have hu' : D * u ≤ D * (1 / 100000) := mul_le_mul_of_nonneg_left hu hD.le
  have hboth : ∀ n ≤ N, |psum d t0 n - 4 / 3 * D| ≤ 94 / 100 * D := by
    intro n hn
    rw [show psum d t0 n - 4 / 3 * D = (psum d t0 n - psum E (4 / 3 * D) n) + (psum E (4 / 3 * D) n - 4 / 3 * D) by ring]
    refine (abs_add_le _ _).trans ?_
    linarith [hps' n (by omega), hnear' n]
  have hdN : |d (N + 1)| ≤ u / 8 * (39 / 100 * D) := by
    have e1 := hDE N le_rfl
    have e2 := hEl N
    have e3 := abs_add_le (d (N + 1) - E (N + 1)) (E (N + 1))
    rw [sub_add_cancel] at e3
    have e4 : (45 * ((N : ℝ) + 1) + 100) * u ≤ 6 / 100 := by linarith
    have e5 := mul_le_mul_of_nonneg_left e4 (by positivity : 0 ≤ (41 / 100) ^ (N + 1) * D)
    have e6 := mul_le_mul_of_nonneg_right hNu hD.le
    linarith
  obtain ⟨k, hk, hkk, hstop, hgo, herr, hdk⟩ := acc_stop_from h ha (by linarith) (d := d) (r0 := t0) (B := 228 / 100 * D)
    (L := 39 / 100 * D) (N := N) k0 hk0 ht0r
    (fun n hn => by
      have := abs_le.1 (hboth n hn)
      rw [abs_le]; constructor <;> linarith)
    (fun n hn => by
      have := abs_le.1 (hboth n hn)
      refine le_trans ?_ (le_abs_self _)
      linarith) (by linarith)
    (by
      have := mul_le_mul_of_nonneg_right hN hD.le
      linarith) hdN
  refine ⟨k, hk, hkk, hstop, hgo, ?_, ?_⟩
  · have hkN : (k : ℝ) * u ≤ N * u := mul_le_mul_of_nonneg_right (by exact_mod_cast hk) hu0
    have hkN' := mul_le_mul_of_nonneg_right hkN hD.le
    have hEk : |E (k + 1)| ≤ 235 / 100 * (D * u) + (41 / 100) ^ (k + 1) * (D * u * (45 * (k + 1) + 100)) := by
      have e1 := hDE k hk
      have e3 := abs_sub (d (k + 1)) (d (k + 1) - E (k + 1))
      rw [sub_sub_cancel] at e3
      linarith
    have hT : |Λ - psum E (4 / 3 * D) k| ≤ (8 * N + 230) * (D * u) := by
      have hl2 : Filter.Tendsto (fun m => |psum E (4 / 3 * D) (k + m) - psum E (4 / 3 * D) k|) Filter.atTop
          (nhds |Λ - psum E (4 / 3 * D) k|) := by
        have := hlim.comp (Filter.tendsto_add_atTop_nat k)
        refine ((this.sub_const _).abs).congr fun m => ?_
        simp only [Function.comp]
        rw [add_comm]
      refine le_of_tendsto' hl2 fun m => (htail k m).trans ?_
      have e1 := hEg k
      have hc0 : 0 ≤ 2 * ((k : ℝ) + 1) * |E (k + 1)| := by positivity
      have e2 : c k * |y| ^ (k + 1) * (100 / 59) * (1 - (41 / 100) ^ m) ≤ 2 * (k + 1) * |E (k + 1)| * (100 / 59) := by
        have p1 : (41 / 100 : ℝ) ^ m ≤ 1 := pow_le_one₀ (by norm_num) (by norm_num)
        have p2 : 0 ≤ (41 / 100 : ℝ) ^ m := by positivity
        have f1 := mul_le_mul_of_nonneg_right e1 (by linarith : 0 ≤ 1 - (41 / 100 : ℝ) ^ m)
        have f2 := mul_nonneg hc0 p2
        linarith
      refine e2.trans ?_
      have e3 := mul_le_mul_of_nonneg_left hEk (by positivity : 0 ≤ 2 * ((k : ℝ) + 1))
      have e4 := mul_le_mul_of_nonneg_right (lin_pow k) hX
      linarith
    rw [show acc F d t0 k - Λ = (acc F d t0 k - psum d t0 k) + (psum d t0 k - psum E (4 / 3 * D) k) -
      (Λ - psum E (4 / 3 * D) k) by ring]
    refine (abs_sub _ _).trans ?_
    have e1 := abs_add_le (acc F d t0 k - psum d t0 k) (psum d t0 k - psum E (4 / 3 * D) k)
    have e2 := hps' k (by omega)
    have e3 : 0 ≤ N * u * D := by positivity
    linarith
  · refine ge_of_tendsto' hlim fun n => ?_
    have := (abs_le.1 (hnear' n)).1
    linarith

/-- `tqsum` before the loop. -/
theorem serSum_fac {w : ℝ} (h : StandardModel F u) (hu : u ≤ 1 / 100000) (hq : q ^ 2 < 1)
    (hw : ∃ a, Fac u 10 a ∧ w = (1 - q ^ 2) * a) (hqs : ∃ a, Fac u 1 a ∧ qsq = q ^ 2 * a) :
    ∃ s0, serSum F q w qsq = .ok s0 ∧ ∃ a, Fac u 14 a ∧ s0 = (1 - q ^ 3) * a := by
  have hu0 := h.nonneg
  have hu1 : u < 1 := by linarith
  have hl := abs_lt.1 ((sq_lt_one_iff_abs_lt_one _).1 hq)
  have hD := one_sub_cube hq
  obtain ⟨aw, hw, ew⟩ := hw
  obtain ⟨aq, hqs, eq⟩ := hqs
  rw [serSum]
  split_ifs with hc
  · refine ⟨_, rfl, ?_⟩
    obtain ⟨a1, h1, e1⟩ := rnd_fac h hu1 (q * qsq)
    obtain ⟨a2, h2, e2⟩ := rnd_fac h hu1 (1 - F.rnd (q * qsq))
    have hf := hqs.mul hu1 h1
    have e3 : 1 - F.rnd (q * qsq) = 1 - q ^ 3 * (aq * a1) := by rw [e1, eq]; ring
    have key : ∃ b, Fac u (1 + 1) b ∧ 1 - q ^ 3 * (aq * a1) = (1 - q ^ 3) * b := by
      rcases le_or_gt q 0 with h0 | h0
      · have hp : 0 ≤ -q ^ 3 := by
          rw [show -q ^ 3 = -q * q ^ 2 by ring]
          exact mul_nonneg (by linarith) (sq_nonneg q)
        obtain ⟨b, hb, e⟩ := fac_add hu0 hu1 hf hp zero_le_one (by linarith)
        exact ⟨b, hb, by linear_combination e⟩
      · have hp : q ^ 3 ≤ 1 / 8 := by
          have := pow_le_pow_left₀ h0.le hc.le 3
          norm_num at this ⊢
          exact this
        have hp0 : 0 < q ^ 3 := by positivity
        have g1 : 2 / 3 ≤ (1 - u) ^ (1 + 1) := by nlinarith
        have g2 : (1 - u) ^ (1 + 1) ≤ 1 := pow_le_one₀ (by linarith) (by linarith)
        obtain ⟨f1, f2⟩ := hf
        simp only [Fac]
        generalize (1 - u) ^ (1 + 1) = g at *
        generalize aq * a1 = c at *
        generalize q ^ 3 = y at *
        refine ⟨(1 - y * c) / (1 - y), ⟨?_, ?_⟩, by field_simp⟩
        · rw [le_div_iff₀ hD]
          have k1 := mul_le_mul_of_nonneg_left f2 hp0.le
          have k2 : 0 ≤ (1 - g) * (g - y * (1 + g)) := mul_nonneg (by linarith) (by nlinarith)
          by_contra hcon
          have k3 := mul_pos (by linarith : 0 < g) (sub_pos.2 (not_le.1 hcon))
          nlinarith
        · rw [div_mul_eq_mul_div, div_le_one hD]
          have k1 := mul_le_mul_of_nonneg_left f1 (by positivity : 0 ≤ y * g)
          have k2 : 0 ≤ (1 - g) * (1 - y * (1 + g)) := mul_nonneg (by linarith) (by nlinarith)
          nlinarith
    obtain ⟨b, hb, eb⟩ := key
    refine ⟨_, (hb.mul hu1 h2).mono hu0 hu1 (by norm_num), ?_⟩
    rw [e2, e3, eb]
    ring
  · have hq0 : 0 < 1 + q := by linarith
    rw [div, pdiv_eq (rnd_ne (h := h) hu1 hq0.ne'), ok_bind, ok_bind]
    refine ⟨_, rfl, ?_⟩
    obtain ⟨a1, h1, e1⟩ := rnd_fac h hu1 (1 + q)
    obtain ⟨a2, h2, e2⟩ := rnd_fac h hu1 (1 / F.rnd (1 + q))
    obtain ⟨a3, h3, e3⟩ := rnd_fac h hu1 (F.rnd (1 / F.rnd (1 + q)) + q)
    obtain ⟨a4, h4, e4⟩ := rnd_fac h hu1 (F.rnd (F.rnd (1 / F.rnd (1 + q)) + q) * w)
    have p1 := h1.pos hu1
    have hqq : 0 ≤ q := by linarith
    have e5 : F.rnd (1 / F.rnd (1 + q)) = 1 / (1 + q) * (a1⁻¹ * a2) := by rw [e2, e1]; field_simp
    obtain ⟨b, hb, e⟩ := fac_add hu0 hu1 ((h1.inv hu1).mul hu1 h2) (by positivity : 0 ≤ 1 / (1 + q)) hqq (by positivity)
    refine ⟨_, ((hb.mul hu1 h3).mul hu1 hw).mul hu1 h4, ?_⟩
    rw [e4, e3, e5, e, ew]
    field_simp
    ring

theorem fac_of_rel {a : ℝ} (hu0 : 0 ≤ u) (hu : u ≤ 1 / 100000) (ha : |a - 1| ≤ 9 * u) : Fac u 10 a := by
  obtain ⟨h1, h2⟩ := abs_le.1 ha
  have hp : (1 - u) ^ 10 ≤ 1 - 10 * u + 45 * u ^ 2 := by
    have e5 : (1 - u) ^ 5 ≤ 1 - 5 * u + 10 * u ^ 2 := by nlinarith [pow_nonneg hu0 3, pow_nonneg hu0 4, pow_nonneg hu0 5]
    have e0 : 0 ≤ (1 - u) ^ 5 := pow_nonneg (by linarith) 5
    have := mul_le_mul e5 e5 e0 (e0.trans e5)
    rw [← pow_add] at this
    refine this.trans ?_
    nlinarith [pow_nonneg hu0 3, pow_nonneg hu0 4]
  have hu2 : u ^ 2 ≤ u / 100000 := by nlinarith
  have e0 : 0 ≤ (1 - u) ^ 10 := pow_nonneg (by linarith) 10
  constructor
  · linarith
  · have : a * (1 - u) ^ 10 ≤ (1 + 9 * u) * (1 - 10 * u + 45 * u ^ 2) :=
      mul_le_mul (by linarith) hp e0 (by linarith)
    nlinarith [pow_nonneg hu0 3]

theorem serPass_eq {q0 s0 t0 : ℝ} (h : StandardModel F u) (hu : u ≤ 1 / 100000) (told : ℝ) (n : ℕ) :
    serPass F qsq v ⟨n, serU F v n, serT F n, serQ F q0 qsq n, serS F q0 qsq s0 n, serM F n, told,
      acc F (serD F q0 qsq s0 v) t0 n⟩ =
    .ok ⟨n + 1, serU F v (n + 1), serT F (n + 1), serQ F q0 qsq (n + 1), serS F q0 qsq s0 (n + 1), serM F (n + 1),
      acc F (serD F q0 qsq s0 v) t0 n, acc F (serD F q0 qsq s0 v) t0 (n + 1)⟩ := by
  have hu1 : u < 1 := by linarith
  have hn : ((n + 1 : ℕ) : ℝ) ≠ 0 := by positivity
  have g1 : F.rnd ((n + 1 : ℕ) : ℝ) ≠ 0 := rnd_ne (h := h) hu1 hn
  have g2 : F.rnd (F.rnd (2 * F.rnd ((n + 1 : ℕ) : ℝ)) + 3) ≠ 0 := by
    obtain ⟨a, ha, e⟩ := int_lin h hu (by norm_num : (0 : ℝ) < 2) (by norm_num : (0 : ℝ) ≤ 3) n
    have := ha.pos hu1
    rw [e]
    positivity
  have g3 : F.rnd (F.rnd (((n + 1 : ℕ) : ℝ) * ((n + 1 : ℕ) : ℝ)) - 1 / 4) ≠ 0 := by
    obtain ⟨a, ha, e⟩ := int_sq h hu n
    have := ha.pos hu1
    have h1 : (1 : ℝ) ≤ ((n + 1 : ℕ) : ℝ) := by push_cast; linarith [(Nat.cast_nonneg n : (0 : ℝ) ≤ n)]
    rw [e]
    exact mul_ne_zero (by nlinarith) this.ne'
  simp only [serPass, div]
  rw [pdiv_eq g1]
  simp only [ok_bind]
  rw [pdiv_eq g2]
  simp only [ok_bind]
  rw [pdiv_eq g3]
  simp only [ok_bind]
  simp only [acc, serD, ← sub_eq_add_neg]
  rfl

/-- **C84.**  The series of `tlamb` near `x = 1`: in rounded arithmetic the loop stops, whatever number of derivatives is asked
for, and it returns the time of flight of the problem, up to some units of roundoff, relatively. -/
theorem seriesTime_rounded {w x : ℝ} (h : StandardModel F u) (ha : Absorbs F u) (hu : u ≤ 1 / 100000) {N : ℕ}
    (hN : 1000 * (N * u) ≤ 1) (hNu : 30 * (41 / 100) ^ (N + 1) ≤ u) (hq : q ^ 2 < 1)
    (hw : |w - (1 - q ^ 2)| ≤ 9 * u * (1 - q ^ 2)) (hx : 0 ≤ x)
    (hsw : |F.rnd (F.rnd (1 - x) * F.rnd (1 + x))| ≤ F.rnd (2 / 5)) (n : ℤ) (hn : n ≤ N + 1) :
    ∃ r, seriesTime F q w x n = .ok r ∧
      |r - 2 * lancT q x (Real.sqrt (1 - q ^ 2 * (1 - x ^ 2))) 0| ≤
        (28 * N + 980) * u * (2 * lancT q x (Real.sqrt (1 - q ^ 2 * (1 - x ^ 2))) 0) := by
  have hu0 := h.nonneg
  have hu1 : u < 1 := by linarith
  have hq1 : 0 < 1 - q ^ 2 := by linarith
  obtain ⟨aw, hfw, ew⟩ : ∃ a, Fac u 10 a ∧ w = (1 - q ^ 2) * a := by
    refine ⟨w / (1 - q ^ 2), fac_of_rel hu0 hu ?_, by field_simp⟩
    rw [show w / (1 - q ^ 2) - 1 = (w - (1 - q ^ 2)) / (1 - q ^ 2) by field_simp, abs_div, abs_of_pos hq1, div_le_iff₀ hq1]
    exact hw
  obtain ⟨qsq, hqsq⟩ : ∃ p, p = F.rnd (q * q) := ⟨_, rfl⟩
  have hqs : ∃ a, Fac u 1 a ∧ qsq = q ^ 2 * a := by
    obtain ⟨a, hf, e⟩ := rnd_fac h hu1 (q * q)
    exact ⟨a, hf, by rw [hqsq, e]; ring⟩
  obtain ⟨q0, hq0⟩ : ∃ p, p = F.rnd (q * w) := ⟨_, rfl⟩
  have h0 : ∃ a, Fac u 11 a ∧ q0 = q * (1 - q ^ 2) * a := by
    obtain ⟨a, hf, e⟩ := rnd_fac h hu1 (q * w)
    exact ⟨_, hfw.mul hu1 hf, by rw [hq0, e, ew]; ring⟩
  obtain ⟨s0, hs0e, hs0⟩ := serSum_fac h hu hq ⟨aw, hfw, ew⟩ hqs
  obtain ⟨t0, ht0e⟩ : ∃ p, p = F.rnd (F.rnd (4 / 3) * s0) := ⟨_, rfl⟩
  have ht0 : ∃ a, Fac u 16 a ∧ t0 = 4 / 3 * (1 - q ^ 3) * a := by
    obtain ⟨a, hf, e⟩ := hs0
    obtain ⟨b, hb, e1⟩ := rnd_fac h hu1 (4 / 3)
    obtain ⟨c, hc, e2⟩ := rnd_fac h hu1 (F.rnd (4 / 3) * s0)
    exact ⟨_, (hf.mul hu1 hb).mul hu1 hc, by rw [ht0e, e2, e1, e]; ring⟩
  obtain ⟨v, hve⟩ : ∃ p, p = F.rnd (F.rnd (1 - x) * F.rnd (1 + x)) := ⟨_, rfl⟩
  have hv : ∃ a, Fac u 3 a ∧ v = (1 - x ^ 2) * a := by
    obtain ⟨a, hf, e1⟩ := rnd_fac h hu1 (1 - x)
    obtain ⟨b, hb, e2⟩ := rnd_fac h hu1 (1 + x)
    obtain ⟨c, hc, e3⟩ := rnd_fac h hu1 (F.rnd (1 - x) * F.rnd (1 + x))
    exact ⟨_, (hf.mul hu1 hb).mul hu1 hc, by rw [hve, e3, e1, e2]; ring⟩
  have hy : |1 - x ^ 2| ≤ 41 / 100 := by
    obtain ⟨a, hf, e⟩ := hv
    have e1 := hf.err hu0 (by norm_num; linarith)
    norm_num at e1
    have e2 := (abs_le.1 e1).1
    have e3 := (abs_le.1 (h.rnd (2 / 5))).2
    rw [abs_of_pos (by norm_num : (0 : ℝ) < 2 / 5)] at e3
    rw [← hve, e, abs_mul, abs_of_pos (hf.pos hu1)] at hsw
    have e4 := abs_nonneg (1 - x ^ 2)
    nlinarith
  have hy1 : |1 - x ^ 2| < 1 := by linarith
  have hx0 : 0 < x := by
    have := (abs_le.1 hy).2
    rcases hx.eq_or_lt with h | h
    · rw [← h] at this; norm_num at this
    · exact h
  have hz : 0 < 1 - q ^ 2 * (1 - x ^ 2) := by
    have := (abs_le.1 hy).2
    nlinarith [sq_nonneg q]
  have hL : Lanc q x (Real.sqrt (1 - q ^ 2 * (1 - x ^ 2))) := ⟨hq, Real.sq_sqrt hz.le, Real.sqrt_pos.2 hz⟩
  have hlim := psum_lim hq hy1
  rw [Gooding.serK_eq hL hx0 hy1, sub_sub_cancel] at hlim
  generalize 2 * lancT q x (Real.sqrt (1 - q ^ 2 * (1 - x ^ 2))) 0 = T at *
  obtain ⟨k, hk, hkk, hstop, hgo, herr, hTD⟩ := ser_core h ha hu hq h0 hs0 hqs hv hy ht0 (by rw [ht0e]; exact ha.idem _) hN hNu
    (n - 1).toNat (by omega) hlim
  have hxs : F.rnd (x * x) ≠ 0 := rnd_ne (h := h) hu1 (by positivity)
  refine ⟨F.rnd (acc F (serD F q0 qsq s0 v) t0 (k + 1) / F.rnd (x * x)), ?_, ?_⟩
  · simp only [seriesTime]
    rw [← hqsq, ← hve, ← hq0, hs0e, ok_bind]
    simp only [div]
    rw [pdiv_eq (by norm_num : (3 : ℝ) ≠ 0), ok_bind, ok_bind, ← ht0e]
    have e0 := serPass_eq (qsq := qsq) (v := v) (q0 := q0) (s0 := s0) (t0 := t0) h hu t0 0
    rw [show serU F v 0 = 1 from rfl, show serT F 0 = 4 from rfl, show serQ F q0 qsq 0 = q0 from rfl,
      show serS F q0 qsq s0 0 = s0 from rfl, show serM F 0 = F.rnd (4 / 3) from rfl] at e0
    rw [show acc F (serD F q0 qsq s0 v) t0 0 = t0 from rfl] at e0
    rw [e0, ok_bind]
    have := whileLoop_states (cond := fun s : SerState => s.i < n ∨ s.t ≠ s.told) (body := fun s => serPass F qsq v s)
      (fun i => (⟨i + 1, serU F v (i + 1), serT F (i + 1), serQ F q0 qsq (i + 1), serS F q0 qsq s0 (i + 1), serM F (i + 1),
        acc F (serD F q0 qsq s0 v) t0 i, acc F (serD F q0 qsq s0 v) t0 (i + 1)⟩ : SerState)) k
      (fun i hi => ⟨by
        rcases lt_or_ge i (n - 1).toNat with hc | hc
        · left; simp only []; push_cast; omega
        · right; exact fun hn => hgo i hi hc hn, serPass_eq h hu _ (i + 1)⟩)
      (fun hn => by
        rcases hn with hn | hn
        · simp only [] at hn; push_cast at hn; omega
        · exact hn hstop)
    rw [show acc F (serD F q0 qsq s0 v) t0 0 = t0 from rfl] at this
    rw [this, ok_bind, pdiv_eq hxs, ok_bind]
  · have hacc : acc F (serD F q0 qsq s0 v) t0 (k + 1) = acc F (serD F q0 qsq s0 v) t0 k := hstop
    rw [hacc]
    obtain ⟨A, hA⟩ : ∃ A, A = acc F (serD F q0 qsq s0 v) t0 k := ⟨_, rfl⟩
    rw [← hA] at herr ⊢
    have hD := one_sub_cube hq
    obtain ⟨a, hfa, e1⟩ := rnd_fac h hu1 (x * x)
    obtain ⟨b, hfb, e2⟩ := rnd_fac h hu1 (A / F.rnd (x * x))
    have hx2 : 0 < x ^ 2 := by positivity
    have pa := hfa.pos hu1
    have hf := ((hfa.inv hu1).mul hu1 hfb).err hu0 (by norm_num; linarith)
    norm_num at hf
    have hT0 : 0 < T := by
      by_contra hc
      have := mul_nonneg hx2.le (neg_nonneg.2 (not_lt.1 hc))
      linarith
    have hNu0 : 0 ≤ N * u := mul_nonneg (Nat.cast_nonneg N) hu0
    have e3 : |A / x ^ 2 - T| ≤ (11 * N + 390) * u * (5 / 2) * T := by
      rw [show A / x ^ 2 - T = (A - x ^ 2 * T) / x ^ 2 by field_simp, abs_div, abs_of_pos hx2, div_le_iff₀ hx2]
      refine herr.trans ?_
      have := mul_le_mul_of_nonneg_left (by linarith : 1 - q ^ 3 ≤ 5 / 2 * (x ^ 2 * T)) (by positivity : 0 ≤ (11 * (N : ℝ) + 390) * u)
      linarith
    have e4 : F.rnd (A / F.rnd (x * x)) = A / x ^ 2 * (a⁻¹ * b) := by rw [e2, e1]; field_simp
    rw [e4]
    generalize A / x ^ 2 = A' at *
    rw [show A' * (a⁻¹ * b) - T = (A' - T) + (a⁻¹ * b - 1) * A' by ring]
    refine (abs_add_le _ _).trans ?_
    rw [abs_mul]
    have e5 : |A'| ≤ 11 / 10 * T := by
      have := abs_add_le (A' - T) T
      rw [sub_add_cancel, abs_of_pos hT0] at this
      have e6 : (11 * (N : ℝ) + 390) * u * (5 / 2) ≤ 1 / 10 := by linarith
      have e7 := mul_le_mul_of_nonneg_right e6 hT0.le
      linarith
    have e6 := mul_le_mul hf e5 (abs_nonneg _) (by positivity)
    have e7 : 0 ≤ N * u * T := by positivity
    have e8 : 0 ≤ u * T := by positivity
    linarith

end Series

/-- In binary64 the relative error is below `3·10⁻¹³`. -/
theorem seriesTime_binary64 {q w x : ℝ} (hq : q ^ 2 < 1) (hw : |w - (1 - q ^ 2)| ≤ 9 * 2⁻¹ ^ 53 * (1 - q ^ 2)) (hx : 0 ≤ x)
    (hsw : |rnd64 (rnd64 (1 - x) * rnd64 (1 + x))| ≤ rnd64 (2 / 5)) (n : ℤ) (hn : n ≤ 3) :
    ∃ r, seriesTime binary64 q w x n = .ok r ∧
      |r - 2 * lancT q x (Real.sqrt (1 - q ^ 2 * (1 - x ^ 2))) 0| ≤
        3e-13 * (2 * lancT q x (Real.sqrt (1 - q ^ 2 * (1 - x ^ 2))) 0) := by
  obtain ⟨r, h1, h2⟩ := seriesTime_rounded binary64_standard binary64_absorbs (by norm_num) (N := 45) (by norm_num)
    (by norm_num) hq hw hx hsw n (by push_cast; omega)
  refine ⟨r, h1, h2.trans ?_⟩
  have hT : 0 ≤ 2 * lancT q x (Real.sqrt (1 - q ^ 2 * (1 - x ^ 2))) 0 := by
    have := (abs_nonneg _).trans h2
    by_contra hc
    norm_num at this hc
    linarith
  exact mul_le_mul_of_nonneg_right (by norm_num) hT

/-- A problem on which the loop has many passes: `x = 7/8`, `q = 1/2`. -/
example : ((1 / 2 : ℝ)) ^ 2 < 1 ∧ |(3 / 4 : ℝ) - (1 - (1 / 2) ^ 2)| ≤ 9 * 2⁻¹ ^ 53 * (1 - (1 / 2) ^ 2) ∧ (0 : ℝ) ≤ 7 / 8 ∧
    |rnd64 (rnd64 (1 - 7 / 8) * rnd64 (1 + 7 / 8))| ≤ rnd64 (2 / 5) := by
  have e1 : rnd64 (1 - 7 / 8) = 1 / 8 := by
    have := rnd64_grid (m := 1) (by norm_num) (-3)
    norm_num at this ⊢
    exact this
  have e2 : rnd64 (1 + 7 / 8) = 15 / 8 := by
    have := rnd64_grid (m := 15) (by norm_num) (-3)
    norm_num at this ⊢
    exact this
  have e3 : rnd64 (1 / 8 * (15 / 8)) = 15 / 64 := by
    have := rnd64_grid (m := 15) (by norm_num) (-6)
    norm_num at this ⊢
    exact this
  refine ⟨by norm_num, by norm_num, by norm_num, ?_⟩
  rw [e1, e2, e3]
  have := (abs_le.1 (binary64_standard.rnd (2 / 5))).1
  change -(2⁻¹ ^ 53 * |(2 / 5 : ℝ)|) ≤ rnd64 (2 / 5) - 2 / 5 at this
  rw [abs_of_pos (by norm_num : (0 : ℝ) < 2 / 5)] at this
  rw [abs_of_pos (by norm_num)]
  norm_num at this ⊢
  linarith

end Rounded
end Lamberthub
