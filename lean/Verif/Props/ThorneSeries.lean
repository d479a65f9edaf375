import Verif.Model.ThorneSeries
import Verif.Proofs.PyLemmas
import Mathlib.RingTheory.PowerSeries.Order
import Mathlib.RingTheory.PowerSeries.Basic

/-! # C39: Thorne's series reversion -/

set_option autoImplicit false

namespace Lamberthub
namespace Thorne

open PowerSeries

/-- The recurrences the first `n` rows of the matrix satisfy. -/
structure QGood (A : ℕ → ℝ) (Q : ℕ → ℕ → ℝ) (n : ℕ) : Prop where
  first : 0 < n → Q 0 0 = 1 / A 0
  col : ∀ r, 0 < r → r < n → Q r 0 = ∑ k ∈ Finset.Ico 1 (r + 1), (-1) / A 0 * Q r k * A k
  prod : ∀ r c, r < n → 0 < c → c ≤ r →
    Q r c = ∑ k ∈ Finset.Ico 1 (r + 1), Q (r - k) (c - 1) * Q (k - 1) 0
  upper : ∀ r c, r < n → r < c → Q r c = 0
  rest : ∀ r c, n ≤ r → Q r c = 0

/-- One row. -/
theorem qRow_spec {A : ℕ → ℝ} (hA : A 0 ≠ 0) {n : ℕ} {Q0 : ℕ → ℕ → ℝ} (h0 : QGood A Q0 n) :
    ∀ (j : ℕ) (Q : ℕ → ℕ → ℝ), j ≤ n + 1 →
      (∀ r c, r ≠ n → Q r c = Q0 r c) →
      (∀ c, j ≤ c → 0 < c → c ≤ n →
        Q n c = ∑ k ∈ Finset.Ico 1 (n + 1), Q (n - k) (c - 1) * Q (k - 1) 0) →
      (∀ c, n < c → Q n c = 0) →
      (j = 0 → (n = 0 → Q 0 0 = 1 / A 0) ∧
        (0 < n → Q n 0 = ∑ k ∈ Finset.Ico 1 (n + 1), (-1) / A 0 * Q n k * A k)) →
      ∃ Q', qRow A (n + 1) j Q = .ok Q' ∧ QGood A Q' (n + 1) := by
  intro j
  induction j with
  | zero =>
    intro Q _ hoth hprod hup hz
    refine ⟨Q, rfl, ?_⟩
    obtain ⟨hz0, hz1⟩ := hz rfl
    constructor
    · intro _
      rcases Nat.eq_zero_or_pos n with h | h
      · exact hz0 h
      · rw [hoth 0 0 (by omega)]; exact h0.first h
    · intro r hr0 hr
      rcases Nat.lt_succ_iff_lt_or_eq.1 hr with h | h
      · rw [hoth r 0 (by omega), h0.col r hr0 h]
        exact Finset.sum_congr rfl fun k _ => by rw [hoth r k (by omega)]
      · subst h; exact hz1 hr0
    · intro r c hr hc hcr
      rcases Nat.lt_succ_iff_lt_or_eq.1 hr with h | h
      · rw [hoth r c (by omega), h0.prod r c h hc hcr]
        refine Finset.sum_congr rfl fun k hk => ?_
        have := Finset.mem_Ico.1 hk
        rw [hoth (r - k) _ (by omega), hoth (k - 1) _ (by omega)]
      · subst h; exact hprod c (by omega) hc hcr
    · intro r c hr hrc
      rcases Nat.lt_succ_iff_lt_or_eq.1 hr with h | h
      · rw [hoth r c (by omega)]; exact h0.upper r c h hrc
      · subst h; exact hup c hrc
    · intro r c hr
      rw [hoth r c (by omega)]; exact h0.rest r c (by omega)
  | succ j ih =>
    intro Q hj hoth hprod hup _
    obtain ⟨v, hv, hvp, hv0, hv1⟩ : ∃ v, qEntry A Q (n + 1) (j + 1) = .ok v ∧
        (0 < j → v = ∑ k ∈ Finset.Ico 1 (n + 1), Q (n - k) (j - 1) * Q (k - 1) 0) ∧
        (j = 0 → n = 0 → v = 1 / A 0) ∧
        (j = 0 → 0 < n → v = ∑ k ∈ Finset.Ico 1 (n + 1), (-1) / A 0 * Q n k * A k) := by
      unfold qEntry
      rcases Nat.eq_zero_or_pos j with h | h
      · subst h
        rcases Nat.eq_zero_or_pos n with hn | hn
        · subst hn
          rw [if_pos ⟨rfl, rfl⟩, pdiv_eq hA]
          exact ⟨_, rfl, by omega, fun _ _ => rfl, by omega⟩
        · rw [if_neg (by omega), if_pos (by omega), pdiv_eq hA, ok_bind]
          exact ⟨_, rfl, by omega, by omega, fun _ _ => rfl⟩
      · rw [if_neg (by omega), if_neg (by omega)]
        refine ⟨_, rfl, fun _ => ?_, by omega, by omega⟩
        refine Finset.sum_congr rfl fun k hk => ?_
        rw [show n + 1 - k - 1 = n - k by omega, show j + 1 - 1 - 1 = j - 1 by omega]
    rw [qRow, hv, ok_bind, Nat.add_sub_cancel]
    have hsame : ∀ r c, ¬ (r = n ∧ c = j) → setEntry Q n j v r c = Q r c := by
      intro r c h; unfold setEntry; rw [if_neg h]
    have hset : setEntry Q n j v n j = v := by unfold setEntry; rw [if_pos ⟨rfl, rfl⟩]
    have hsum : ∀ c, ∑ k ∈ Finset.Ico 1 (n + 1),
        setEntry Q n j v (n - k) (c - 1) * setEntry Q n j v (k - 1) 0 =
        ∑ k ∈ Finset.Ico 1 (n + 1), Q (n - k) (c - 1) * Q (k - 1) 0 := by
      intro c
      refine Finset.sum_congr rfl fun k hk => ?_
      have := Finset.mem_Ico.1 hk
      rw [hsame _ _ (by omega), hsame _ _ (by omega)]
    apply ih _ (by omega)
    · intro r c hr; rw [hsame r c (by omega)]; exact hoth r c hr
    · intro c hjc hc hcn
      rw [hsum]
      by_cases h : c = j
      · subst h; rw [hset]; exact hvp hc
      · rw [hsame n c (by omega)]; exact hprod c (by omega) hc hcn
    · intro c hc; rw [hsame n c (by omega)]; exact hup c hc
    · intro hj0
      subst hj0
      refine ⟨fun hn => ?_, fun hn => ?_⟩
      · subst hn; rw [hset]; exact hv0 rfl rfl
      · rw [hset]
        refine (hv1 rfl hn).trans (Finset.sum_congr rfl fun k hk => ?_)
        have := Finset.mem_Ico.1 hk
        rw [hsame n k (by omega)]

theorem getQMatrix_good {A : ℕ → ℝ} (hA : A 0 ≠ 0) (n : ℕ) :
    ∃ Q, getQMatrix A n = .ok Q ∧ QGood A Q n := by
  induction n with
  | zero => exact ⟨_, rfl, by omega, by omega, by omega, by omega, fun _ _ _ => rfl⟩
  | succ n ih =>
    obtain ⟨Q, hQ, hg⟩ := ih
    obtain ⟨Q', h1, h2⟩ := qRow_spec hA hg (n + 1) Q le_rfl (fun _ _ _ => rfl) (by omega)
      (fun c _ => hg.rest n c le_rfl) (by omega)
    exact ⟨Q', by rw [getQMatrix, hQ, ok_bind, h1], h2⟩

/-- Product recurrence for all columns. -/
theorem QGood.prod' {A : ℕ → ℝ} {Q : ℕ → ℕ → ℝ} {n : ℕ} (h : QGood A Q n) {r c : ℕ} (hr : r < n) (hc : 0 < c) :
    Q r c = ∑ k ∈ Finset.Ico 1 (r + 1), Q (r - k) (c - 1) * Q (k - 1) 0 := by
  rcases Nat.lt_or_ge r c with h1 | h1
  · rw [h.upper r c hr h1, Finset.sum_eq_zero]
    intro k hk
    have := Finset.mem_Ico.1 hk
    rw [h.upper (r - k) (c - 1) (by omega) (by omega), zero_mul]
  · exact h.prod r c hr hc h1

/-- The entries of the matrix are the coefficients of the powers of the series of its first
column, as long as the series agrees with that column. -/
theorem coeff_pow_eq {A : ℕ → ℝ} {Q : ℕ → ℕ → ℝ} {n : ℕ} (h : QGood A Q n) {p : PowerSeries ℝ}
    (hp0 : coeff 0 p = 0) {m : ℕ} (hm : m ≤ n) (hp : ∀ r, r < m → coeff (r + 1) p = Q r 0) :
    ∀ c r, r < m ∨ (r = m ∧ 0 < c) → r < n → coeff (r + 1) (p ^ (c + 1)) = Q r c := by
  intro c
  induction c with
  | zero =>
    intro r hr _
    rw [zero_add, pow_one]
    exact hp r (by omega)
  | succ c ih =>
    intro r hr hrn
    rw [pow_succ, coeff_mul, Finset.Nat.sum_antidiagonal_eq_sum_range_succ_mk,
      h.prod' hrn (Nat.succ_pos c), Nat.succ_sub_one]
    simp only []
    have hc0 : coeff 0 (p ^ (c + 1)) = 0 := by
      rw [coeff_zero_eq_constantCoeff_apply] at hp0 ⊢
      rw [map_pow, hp0, zero_pow (Nat.succ_ne_zero c)]
    rw [Finset.sum_range_succ, Nat.sub_self, hp0, mul_zero, add_zero, Finset.sum_range_succ', hc0, zero_mul, add_zero,
      Finset.sum_Ico_eq_sum_range, Nat.add_sub_cancel, ← Finset.sum_range_reflect]
    refine Finset.sum_congr rfl fun k hk => ?_
    have hk' := Finset.mem_range.1 hk
    rw [show r - 1 - k + 1 = r - (1 + k) + 1 by omega, ih (r - (1 + k)) (by omega) (by omega),
      show r + 1 - (r - (1 + k) + 1) = k + 1 by omega, hp k (by omega), show 1 + k - 1 = k by omega]

/-- The series `A₁ x + A₂ x² + ... + A_N x^N` composed with `p`. -/
noncomputable def compose (A : ℕ → ℝ) (N : ℕ) (p : PowerSeries ℝ) : PowerSeries ℝ :=
  ∑ k ∈ Finset.range N, C (A k) * p ^ (k + 1)

theorem coeff_compose (A : ℕ → ℝ) (N : ℕ) (p : PowerSeries ℝ) (i : ℕ) :
    coeff i (compose A N p) = ∑ k ∈ Finset.range N, A k * coeff i (p ^ (k + 1)) := by
  unfold compose
  rw [map_sum]
  exact Finset.sum_congr rfl fun k _ => coeff_C_mul _ _ _

/-- Coefficient of the composition of the matrix's own series. -/
theorem sum_row {A : ℕ → ℝ} (hA : A 0 ≠ 0) {Q : ℕ → ℕ → ℝ} {n : ℕ} (h : QGood A Q n) {r : ℕ} (hr : r < n) :
    ∑ k ∈ Finset.range n, A k * Q r k = if r = 0 then 1 else 0 := by
  have h1 : ∑ k ∈ Finset.range n, A k * Q r k = ∑ k ∈ Finset.range (r + 1), A k * Q r k := by
    refine (Finset.sum_subset (fun k hk => ?_) fun k _ hk => ?_).symm
    · have := Finset.mem_range.1 hk; exact Finset.mem_range.2 (by omega)
    · rw [Finset.mem_range] at hk; rw [h.upper r k hr (by omega), mul_zero]
  rw [h1]
  split
  · rename_i h0; subst h0
    rw [zero_add, Finset.sum_range_one, h.first (by omega)]; field_simp
  · rename_i h0
    rw [Finset.range_eq_Ico, Finset.sum_eq_sum_Ico_succ_bot (by omega), h.col r (by omega) hr, Finset.mul_sum,
      zero_add, ← Finset.sum_add_distrib]
    refine Finset.sum_eq_zero fun k _ => ?_
    field_simp
    ring

/-- **C39.** For every order `maxiter` and every list of coefficients with `A₁ ≠ 0`,
`get_Q_matrix` returns, and the first column of the matrix it returns consists of the
coefficients of the compositional inverse of `A₁ x + A₂ x² + ...`: a formal power series `p`
without constant term satisfies `A(p(y)) = y` up to the order `maxiter` if and only if its
coefficients up to that order are those of the first column.  The other columns are the
coefficients of the powers of that series. -/
theorem getQMatrix_reversion {A : ℕ → ℝ} (hA : A 0 ≠ 0) (maxiter : ℕ) :
    ∃ Q, getQMatrix A maxiter = .ok Q ∧
      (∀ p : PowerSeries ℝ, coeff 0 p = 0 →
        ((∀ i, 1 ≤ i → i ≤ maxiter → coeff i (compose A maxiter p) = coeff i (X : PowerSeries ℝ)) ↔
          ∀ i, 1 ≤ i → i ≤ maxiter → coeff i p = Q (i - 1) 0)) ∧
      (∀ p : PowerSeries ℝ, coeff 0 p = 0 → (∀ i, 1 ≤ i → i ≤ maxiter → coeff i p = Q (i - 1) 0) →
        ∀ i j, 1 ≤ i → i ≤ maxiter → 1 ≤ j → coeff i (p ^ j) = Q (i - 1) (j - 1)) := by
  obtain ⟨Q, hQ, hg⟩ := getQMatrix_good hA maxiter
  have hX : ∀ r, coeff (r + 1) (X : PowerSeries ℝ) = if r = 0 then 1 else 0 := by
    intro r; rw [coeff_X]; congr 1; simp
  refine ⟨Q, hQ, fun p hp0 => ⟨fun hc => ?_, fun hc => ?_⟩, fun p hp0 hp i j hi hin hj => ?_⟩
  · -- uniqueness
    have key : ∀ m, m ≤ maxiter → ∀ r, r < m → coeff (r + 1) p = Q r 0 := by
      intro m
      induction m with
      | zero => intro _ r hr; omega
      | succ m ih =>
        intro hm r hr
        have ihm := ih (by omega)
        rcases Nat.lt_succ_iff_lt_or_eq.1 hr with h | h
        · exact ihm r h
        · subst h
          have h1 := hc (r + 1) (by omega) (by omega)
          rw [coeff_compose, hX, ← sum_row hA hg (by omega : r < maxiter)] at h1
          have h2 := coeff_pow_eq hg hp0 (by omega : r ≤ maxiter) ihm
          obtain ⟨N, rfl⟩ : ∃ N, maxiter = N + 1 := ⟨maxiter - 1, by omega⟩
          rw [Finset.sum_range_succ', Finset.sum_range_succ'] at h1
          rw [Finset.sum_congr rfl (fun k _ => by rw [h2 (k + 1) r (.inr ⟨rfl, by omega⟩) (by omega)]),
            zero_add, pow_one] at h1
          exact mul_left_cancel₀ hA (add_left_cancel h1)
    intro i hi hin
    have := key maxiter le_rfl (i - 1) (by omega)
    rwa [Nat.sub_add_cancel hi] at this
  · intro i hi hin
    obtain ⟨r, rfl⟩ : ∃ r, i = r + 1 := ⟨i - 1, by omega⟩
    rw [coeff_compose, hX, ← sum_row hA hg (by omega : r < maxiter)]
    refine Finset.sum_congr rfl fun k _ => ?_
    rw [coeff_pow_eq hg hp0 le_rfl (fun r hr => by simpa using hc (r + 1) (by omega) (by omega)) k r
      (.inl (by omega)) (by omega)]
  · obtain ⟨r, rfl⟩ : ∃ r, i = r + 1 := ⟨i - 1, by omega⟩
    obtain ⟨c, rfl⟩ : ∃ c, j = c + 1 := ⟨j - 1, by omega⟩
    exact coeff_pow_eq hg hp0 le_rfl (fun r hr => by simpa using hp (r + 1) (by omega) (by omega)) c r
      (.inl (by omega)) (by omega)

/-- **C39, inverted series.** The coefficients returned by `get_B_array` are those of
`y / p(y)`, where `p` is the compositional inverse of the series with coefficients `A`:
`B(y) p(y) = y` up to the order `maxiter`, with `B(y) = B₁ + B₂ y + ...`. -/
theorem getBArray_inversion {A : ℕ → ℝ} (hA : A 0 ≠ 0) {maxiter : ℕ} (hN : 1 ≤ maxiter)
    {Q : ℕ → ℕ → ℝ} (hQ : getQMatrix A maxiter = .ok Q) :
    ∃ B, getBArray A Q maxiter = .ok B ∧ B 0 ≠ 0 ∧
      ∀ p : PowerSeries ℝ, coeff 0 p = 0 →
        (∀ i, 1 ≤ i → i ≤ maxiter → coeff i (compose A maxiter p) = coeff i (X : PowerSeries ℝ)) →
        ∀ i, i ≤ maxiter → coeff i (PowerSeries.mk B * p) = coeff i (X : PowerSeries ℝ) := by
  obtain ⟨Q', hQ', hiff, hpow⟩ := getQMatrix_reversion hA maxiter
  rw [hQ] at hQ'
  obtain rfl := Except.ok.inj hQ'
  obtain ⟨Q', hQ', hg⟩ := getQMatrix_good hA maxiter
  rw [hQ] at hQ'
  obtain rfl := Except.ok.inj hQ'
  refine ⟨_, by rw [getBArray, if_neg (by omega)], by simpa using hA, ?_⟩
  intro p hp0 hc
  have hcol := (hiff p hp0).1 hc
  have hpw := hpow p hp0 hcol
  -- `B` is the truncation of `Σ A m p^m`
  have hB : ∀ b, b < maxiter → (if b = 0 then A 0
      else if b < maxiter then ∑ m ∈ Finset.Ico 1 (b + 1), Q (b + 1 - 1 - 1) (m - 1) * A m else 0) =
      coeff b (∑ m ∈ Finset.range maxiter, C (A m) * p ^ m) := by
    intro b hb
    rw [map_sum, Finset.sum_congr rfl (fun m _ => coeff_C_mul _ _ _)]
    split
    · rename_i h; subst h
      obtain ⟨N, rfl⟩ : ∃ N, maxiter = N + 1 := ⟨maxiter - 1, by omega⟩
      rw [Finset.sum_range_succ', Finset.sum_eq_zero, zero_add, pow_zero]
      · simp
      · intro m _
        rw [coeff_zero_eq_constantCoeff_apply] at hp0 ⊢
        rw [map_pow, hp0, zero_pow (Nat.succ_ne_zero m), mul_zero]
    · rename_i h
      have h1 : ∑ m ∈ Finset.range maxiter, A m * coeff b (p ^ m) =
          ∑ m ∈ Finset.Ico 1 (b + 1), A m * coeff b (p ^ m) := by
        refine (Finset.sum_subset (fun k hk => ?_) fun k hk hk' => ?_).symm
        · have := Finset.mem_Ico.1 hk; exact Finset.mem_range.2 (by omega)
        · rw [Finset.mem_Ico] at hk'
          rcases Nat.eq_zero_or_pos k with h0 | h0
          · subst h0; rw [pow_zero, coeff_one, if_neg h, mul_zero]
          · have := Finset.mem_range.1 hk
            rw [hpw b k (by omega) hb.le h0, hg.upper (b - 1) (k - 1) (by omega) (by omega), mul_zero]
      rw [h1]
      refine Finset.sum_congr rfl fun m hm => ?_
      have := Finset.mem_Ico.1 hm
      rw [hpw b m (by omega) hb.le (by omega), mul_comm]
      rfl
  intro i hi
  have hprod : (∑ m ∈ Finset.range maxiter, C (A m) * p ^ m) * p = compose A maxiter p := by
    unfold compose
    rw [Finset.sum_mul]
    exact Finset.sum_congr rfl fun m _ => by rw [pow_succ, mul_assoc]
  have e : coeff i (PowerSeries.mk (fun b => if b = 0 then A 0
      else if b < maxiter then ∑ m ∈ Finset.Ico 1 (b + 1), Q (b + 1 - 1 - 1) (m - 1) * A m else 0) * p) =
      coeff i (compose A maxiter p) := by
    rw [← hprod, coeff_mul, coeff_mul]
    refine Finset.sum_congr rfl fun x hx => ?_
    have hx' := Finset.mem_antidiagonal.1 hx
    rcases Nat.eq_zero_or_pos x.2 with h | h
    · rw [h, hp0, mul_zero, mul_zero]
    · rw [coeff_mk, hB x.1 (by omega)]
  rw [e]
  rcases Nat.eq_zero_or_pos i with h | h
  · subst h
    rw [coeff_compose, Finset.sum_eq_zero, coeff_X, if_neg (by norm_num)]
    intro m _
    rw [coeff_zero_eq_constantCoeff_apply] at hp0 ⊢
    rw [map_pow, hp0, zero_pow (Nat.succ_ne_zero m), mul_zero]
  · exact hc i h hi

/-- Non-vacuity: there is a series that satisfies the hypotheses, for every order. -/
example (A : ℕ → ℝ) (hA : A 0 ≠ 0) (N : ℕ) : ∃ p : PowerSeries ℝ, coeff 0 p = 0 ∧
    ∀ i, 1 ≤ i → i ≤ N → coeff i (compose A N p) = coeff i (X : PowerSeries ℝ) := by
  obtain ⟨Q, -, h, -⟩ := getQMatrix_reversion hA N
  refine ⟨PowerSeries.mk fun i => if i = 0 then 0 else Q (i - 1) 0, by simp, ?_⟩
  apply (h _ (by simp)).2
  intro i hi _
  rw [coeff_mk, if_neg (by omega)]

/-- For `A(x) = x - x²` (`A₁ = 1`, `A₂ = -1`) the second coefficient of the inverse is `1`
(`p(y) = y + y² + 2 y³ + ...`, the Catalan numbers). -/
example : ∃ Q, getQMatrix (fun k => if k = 0 then 1 else if k = 1 then -1 else 0) 2 = .ok Q ∧ Q 1 0 = 1 := by
  obtain ⟨Q, hQ, hg⟩ := getQMatrix_good (A := fun k => if k = 0 then 1 else if k = 1 then -1 else 0) (by simp) 2
  refine ⟨Q, hQ, ?_⟩
  rw [hg.col 1 (by omega) (by omega)]
  have h1 := hg.prod 1 1 (by omega) (by omega) le_rfl
  have h0 := hg.first (by omega)
  simp at h1 h0 ⊢
  rw [h1, h0]; norm_num

end Thorne
end Lamberthub
