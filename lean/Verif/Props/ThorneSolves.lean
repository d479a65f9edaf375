import Verif.Props.Thorne
import Verif.Props.Unique
import Verif.Props.Budget

/-!
# C66: which problems `thorne2004` can solve

`thorne2004` looks for the semi-major axis between fixed ends: from `s/2 (1 + 2^-52)` upwards for ellipses, up to
`-2^-52 s` for hyperbolas.  The problems it can solve are exactly those whose transfer has an energy between the
energies of these two ends (besides those so close to the parabola that the shortcut is taken).
-/

set_option autoImplicit false

namespace Lamberthub
open Spec LC

/-- The root finder succeeds, given enough iterations, on every continuous function whose values at the ends do not
have the same sign (documentation of `scipy.optimize.brentq`: `xtol` must be positive and `rtol` at least four times
the machine epsilon). -/
def BrentComplete (b : Brent) : Prop :=
  ∀ {f : ℝ → Py ℝ} {g : ℝ → ℝ} {lo hi xtol rtol : ℝ}, lo ≤ hi → ContinuousOn g (Set.Icc lo hi) →
    (∀ t ∈ Set.Icc lo hi, f t = .ok (g t)) → g lo * g hi ≤ 0 → 0 < xtol → 1 / 2 ^ 50 ≤ rtol →
    ∃ N0, ∀ N ≥ N0, ∃ x n, b f lo hi xtol rtol N = .ok (x, n)

/-- The ideal root finder is complete. -/
theorem exactBrent_complete : BrentComplete exactBrent := by
  intro f g lo hi xtol rtol hlh hg hf hs hx hr
  refine ⟨1, fun N hN => ?_⟩
  have h1 := hf lo ⟨le_rfl, hlh⟩
  have h2 := hf hi ⟨hlh, le_rfl⟩
  have hz : ∃ x ∈ Set.Icc lo hi, g x = 0 := by
    have hp : IsPreconnected (Set.Icc lo hi) := isPreconnected_Icc
    rcases mul_nonpos_iff.1 hs with ⟨ha, hb⟩ | ⟨ha, hb⟩
    · exact hp.intermediate_value ⟨hlh, le_rfl⟩ ⟨le_rfl, hlh⟩ hg ⟨hb, ha⟩
    · exact hp.intermediate_value ⟨le_rfl, hlh⟩ ⟨hlh, le_rfl⟩ hg ⟨ha, hb⟩
  obtain ⟨z, hz, hz0⟩ := hz
  have hex : (∃ x ∈ Set.Icc lo hi, f x = .ok 0) ∧ 1 ≤ N ∧ 0 ≤ xtol ∧ 0 ≤ rtol :=
    ⟨⟨z, hz, by rw [hf z hz, hz0]⟩, hN, hx.le, le_trans (by norm_num) hr⟩
  refine ⟨Classical.choose hex.1, 1, ?_⟩
  unfold exactBrent
  rw [if_neg, dif_pos hex]
  rintro ⟨flo, fhi, e1, e2, h3⟩
  rw [h1] at e1
  rw [h2] at e2
  rw [← Except.ok.inj e1, ← Except.ok.inj e2] at h3
  exact absurd hs (not_le.2 h3)

namespace Spec

/-- The energy per unit mass of the state `(r, v)`. -/
noncomputable def energyOf (mu : ℝ) (r v : V3) : ℝ := len v ^ 2 / 2 - mu / len r

/-- The semi-perimeter of the triangle of the two positions and the centre. -/
noncomputable def semiPerimeter (r1 r2 : V3) : ℝ := (len r1 + len r2 + len (r2 - r1)) / 2

end Spec

namespace Thorne

/-- The doubling loop ends as soon as one of the doubled bounds fails the test. -/
theorem expandBound_exists {test : ℝ → Py Bool} {c : ℝ → Bool} :
    ∀ (k : ℕ) {b0 : ℝ}, (∀ j : ℕ, test (b0 * 2 ^ j) = .ok (c (b0 * 2 ^ j))) → c (b0 * 2 ^ k) = false →
    ∃ j : ℕ, expandBound test b0 = .ok (b0 * 2 ^ j) ∧ c (b0 * 2 ^ j) = false := by
  intro k
  induction k with
  | zero =>
    intro b0 ht hk
    have h0 := ht 0
    rw [pow_zero, mul_one] at h0 hk
    refine ⟨0, ?_, by rw [pow_zero, mul_one]; exact hk⟩
    unfold expandBound
    rw [h0, ok_bind, hk, whileLoop_false (by simp), ok_bind, pow_zero, mul_one]
  | succ k ih =>
    intro b0 ht hk
    have h0 := ht 0
    rw [pow_zero, mul_one] at h0
    have e : ∀ j : ℕ, b0 * 2 * 2 ^ j = b0 * 2 ^ (j + 1) := fun j => by rw [pow_succ]; ring
    by_cases hc : c b0 = true
    · obtain ⟨j, hj, hf⟩ := ih (b0 := b0 * 2) (fun j => by rw [e]; exact ht (j + 1)) (by rw [e]; exact hk)
      rw [e] at hj hf
      refine ⟨j + 1, ?_, hf⟩
      have h1 := ht 1
      rw [pow_one] at h1
      unfold expandBound at hj ⊢
      rw [h1, ok_bind] at hj
      rw [h0, ok_bind, whileLoop_true (s' := (b0 * 2, c (b0 * 2))) (by simpa using hc) (by simp only [h1, ok_bind])]
      exact hj
    · refine ⟨0, ?_, by rw [pow_zero, mul_one]; simpa using hc⟩
      unfold expandBound
      rw [h0, ok_bind, whileLoop_false (by simpa using hc), ok_bind, pow_zero, mul_one]

variable {mu s c ll mp : ℝ}

/-- The time of the transfer of Lancaster variable `x`. -/
noncomputable def timeOf (mu s ll x : ℝ) : ℝ := Real.sqrt (s ^ 3 / (2 * mu)) * lancT ll x (lancY ll x) 0

theorem timeOf_anti (hmu : 0 < mu) (hs : 0 < s) (hl : ll ^ 2 < 1) (hl0 : ll ≠ 0) :
    StrictAntiOn (timeOf mu s ll) (Set.Ioi (-1)) := fun x hx x' hx' h => by
  have hK : 0 < Real.sqrt (s ^ 3 / (2 * mu)) := by positivity
  exact mul_lt_mul_of_pos_left (lancT_strictAnti hl hl0 hx hx' h) hK

theorem timeOf_surj (hmu : 0 < mu) (hs : 0 < s) (hl : ll ^ 2 < 1) (hl0 : ll ≠ 0) {tof : ℝ} (ht : 0 < tof) :
    ∃ x, -1 < x ∧ timeOf mu s ll x = tof := by
  obtain ⟨V, hV⟩ := Path.exists hmu (mul_ne_zero (by positivity) hl0 : Real.sqrt 2 * s * ll ≠ 0) (lanc_geo hl hs) ht
  obtain ⟨x, hx, -, hT⟩ := hV.lanc hmu hs hl hl0
  exact ⟨x, hx, hT.symm⟩

/-- `get_minimum_energy_tof` is the time of the ellipse of least energy. -/
theorem getMinimumEnergyTof_eq (hmu : 0 < mu) (hs : 0 < s) (hl : ll ^ 2 < 1) (hc : c = s * (1 - ll ^ 2))
    (hmp : mp = if 0 < ll then -1 else 1) : getMinimumEnergyTof mu s c mp = .ok (timeOf mu s ll 0) := by
  have hk : (s - c) / s = ll ^ 2 := by rw [hc]; field_simp; ring
  have h1 : |ll| ≤ 1 := ((sq_lt_one_iff_abs_lt_one _).1 hl).le
  have h2 := abs_nonneg ll
  unfold getMinimumEnergyTof
  rw [pdiv_eq hs.ne', ok_bind, hk, psqrt_eq (by positivity), ok_bind, Real.sqrt_sq_eq_abs,
    pasin_eq (by linarith) h1, ok_bind, pdiv_eq hmu.ne', ok_bind, psqrt_eq (by positivity), ok_bind]
  congr 1
  have e1 : Real.sqrt ((s / 2) ^ 3 / mu) = Real.sqrt (s ^ 3 / (2 * mu)) / 2 := by
    rw [show (s / 2) ^ 3 / mu = s ^ 3 / (2 * mu) * (1 / 2) ^ 2 by field_simp,
      Real.sqrt_mul (by positivity), Real.sqrt_sq (by norm_num)]
    ring
  have e2 : Real.sin (2 * Real.arcsin |ll|) = 2 * |ll| * Real.sqrt (1 - ll ^ 2) := by
    rw [Real.sin_two_mul, Real.sin_arcsin (by linarith) h1, Real.cos_arcsin, sq_abs]
  have e3 : mp * Real.arcsin |ll| = -Real.arcsin ll ∧ mp * |ll| = -ll := by
    rw [hmp]
    split
    · rename_i h; rw [abs_of_pos h]; constructor <;> ring
    · rename_i h; rw [abs_of_nonpos (not_lt.1 h), Real.arcsin_neg]; constructor <;> ring
  have e4 : timeOf mu s ll 0 = Real.sqrt (s ^ 3 / (2 * mu)) *
      (Real.pi / 2 - Real.arcsin ll + ll * Real.sqrt (1 - ll ^ 2)) := by
    unfold timeOf lancT lancY
    rw [if_pos zero_lt_one]
    simp [Real.arccos]
  rw [e1, e2, e4]
  linear_combination (Real.sqrt (s ^ 3 / (2 * mu))) * e3.1 -
    (Real.sqrt (s ^ 3 / (2 * mu)) * Real.sqrt (1 - ll ^ 2)) * e3.2

theorem lagF_timeOf (hmu : 0 < mu) (hs : 0 < s) (hl : ll ^ 2 < 1) (hc : c = s * (1 - ll ^ 2))
    (hmp : mp = if 0 < ll then -1 else 1) {br : Branch} {a : ℝ} (ha : a ∈ Dom s br) :
    lagF mu s c mp br a = timeOf mu s ll (xOf s a br) :=
  lagF_eq hmu hs hl hc hmp ha (lanc_lancY hl _)

theorem solveBranch_solves {b : Brent} (hb : BrentSpec b) (hbc : BrentComplete b) (hmu : 0 < mu) (hs : 0 < s)
    (hc0 : 0 ≤ c) (hcs : c ≤ s) {br : Branch} {tof lo hi atol rtol : ℝ} (hlh : lo ≤ hi)
    (hsub : Set.Icc lo hi ⊆ Dom s br) (hsg : (lagF mu s c mp br lo - tof) * (lagF mu s c mp br hi - tof) ≤ 0)
    (ha : 0 < atol) (hr : 1 / 2 ^ 50 ≤ rtol) :
    ∃ N0, ∀ N ≥ N0, ∃ a n, solveBranch b mu s c tof mp br lo hi N atol rtol = .ok (a, br, n) ∧ a ∈ Dom s br := by
  obtain ⟨N0, h⟩ := hbc (f := fun a => do
      let v ← lagrangeTof mu s c a mp br
      .ok (v - tof)) (g := fun t => lagF mu s c mp br t - tof) hlh
    (((lagF_continuousOn hs br).mono hsub).sub continuousOn_const)
    (fun t ht => by rw [lagrangeTof_eq hmu hs hc0 hcs (hsub ht), ok_bind]) hsg ha hr
  refine ⟨N0, fun N hN => ?_⟩
  obtain ⟨a, n, hx⟩ := h N hN
  refine ⟨a, n, ?_, hsub (hb.mem hlh hx).1⟩
  unfold solveBranch
  rw [hx, ok_bind]

theorem solveBranch_refuses {b : Brent} (hb : BrentSpec b) (hmu : 0 < mu) (hs : 0 < s)
    (hc0 : 0 ≤ c) (hcs : c ≤ s) {br : Branch} {tof lo hi atol rtol : ℝ} (hlo : lo ∈ Dom s br) (hhi : hi ∈ Dom s br)
    (hsg : 0 < (lagF mu s c mp br lo - tof) * (lagF mu s c mp br hi - tof)) (N : ℕ) :
    ∃ msg, solveBranch b mu s c tof mp br lo hi N atol rtol = .error (.valueError msg) := by
  obtain ⟨msg, h⟩ := hb.refuses (xtol := atol) (rtol := rtol) (maxiter := N) (f := fun a => do
      let v ← lagrangeTof mu s c a mp br
      .ok (v - tof)) (lo := lo) (hi := hi) (by rw [lagrangeTof_eq hmu hs hc0 hcs hlo, ok_bind])
    (by rw [lagrangeTof_eq hmu hs hc0 hcs hhi, ok_bind]) hsg
  refine ⟨msg, ?_⟩
  unfold solveBranch
  rw [h]
  rfl

/-- Bounds for the Lancaster variable of an axis of the hyperbolic branch. -/
theorem xOf_H_le (hs : 0 < s) {a x : ℝ} (ha : a < 0) (hx : 0 ≤ x) : xOf s a .H ≤ x ↔ s ≤ (x ^ 2 - 1) * (-2 * a) := by
  have h : (xOf s a .H) ^ 2 = 1 - s / (2 * a) := xOf_sq hs (show a ∈ Dom s .H from ha)
  have h0 : 0 ≤ xOf s a .H := Real.sqrt_nonneg _
  rw [← pow_le_pow_iff_left₀ h0 hx two_ne_zero, h]
  have e : s / (2 * a) = -(s / (-2 * a)) := by rw [neg_mul, div_neg, neg_neg]
  rw [e, ← div_le_iff₀ (by linarith)]
  constructor <;> intro <;> linarith

theorem le_xOf_H (hs : 0 < s) {a x : ℝ} (ha : a < 0) (hx : 0 ≤ x) : x ≤ xOf s a .H ↔ (x ^ 2 - 1) * (-2 * a) ≤ s := by
  have h : (xOf s a .H) ^ 2 = 1 - s / (2 * a) := xOf_sq hs (show a ∈ Dom s .H from ha)
  have h0 : 0 ≤ xOf s a .H := Real.sqrt_nonneg _
  rw [← pow_le_pow_iff_left₀ hx h0 two_ne_zero, h]
  have e : s / (2 * a) = -(s / (-2 * a)) := by rw [neg_mul, div_neg, neg_neg]
  rw [e, ← le_div_iff₀ (by linarith)]
  constructor <;> intro <;> linarith

theorem xOf_A_le (hs : 0 < s) {a x : ℝ} (ha : s / 2 < a) (hx : 0 ≤ x) : xOf s a .A ≤ x ↔ (1 - x ^ 2) * (2 * a) ≤ s := by
  have h : (xOf s a .A) ^ 2 = 1 - s / (2 * a) := xOf_sq hs (show a ∈ Dom s .A from ha)
  have h0 : 0 ≤ xOf s a .A := Real.sqrt_nonneg _
  rw [← pow_le_pow_iff_left₀ h0 hx two_ne_zero, h, ← le_div_iff₀ (by linarith)]
  constructor <;> intro <;> linarith

theorem le_xOf_A (hs : 0 < s) {a x : ℝ} (ha : s / 2 < a) (hx : 0 ≤ x) : x ≤ xOf s a .A ↔ s ≤ (1 - x ^ 2) * (2 * a) := by
  have h : (xOf s a .A) ^ 2 = 1 - s / (2 * a) := xOf_sq hs (show a ∈ Dom s .A from ha)
  have h0 : 0 ≤ xOf s a .A := Real.sqrt_nonneg _
  rw [← pow_le_pow_iff_left₀ hx h0 two_ne_zero, h, ← div_le_iff₀ (by linarith)]
  constructor <;> intro <;> linarith

theorem xOf_B (a : ℝ) : xOf s a .B = -xOf s a .A := rfl

theorem chord_le (hs : 0 < s) (hc : c = s * (1 - ll ^ 2)) : c ≤ s := by rw [hc]; nlinarith [sq_nonneg ll]

theorem chord_nonneg (hs : 0 < s) (hl : ll ^ 2 < 1) (hc : c = s * (1 - ll ^ 2)) : 0 ≤ c := by
  rw [hc]
  exact mul_nonneg hs.le (by linarith)

theorem exists_pow {d : ℝ} (hd : 0 < d) : ∃ k : ℕ, 1 ≤ d * 2 ^ k := by
  obtain ⟨k, hk⟩ := pow_unbounded_of_one_lt (1 / d) (by norm_num : (1 : ℝ) < 2)
  rw [div_lt_iff₀ hd] at hk
  exact ⟨k, by linarith⟩

/-- The expansion of the bound on the three branches. -/
theorem expand_H (hmu : 0 < mu) (hs : 0 < s) (hl : ll ^ 2 < 1) (hl0 : ll ≠ 0) (hc : c = s * (1 - ll ^ 2))
    (hmp : mp = if 0 < ll then -1 else 1) {x tof : ℝ} (hx : 1 < x) (hT : timeOf mu s ll x = tof) :
    ∃ lo, expandLowerHyperbolicBound mu s c tof mp (-s / 2) = .ok lo ∧ lo ≤ -s / 2 ∧ tof ≤ lagF mu s c mp .H lo := by
  have hd : ∀ j : ℕ, -s / 2 * 2 ^ j < 0 := fun j => by
    have : (0 : ℝ) < 2 ^ j := by positivity
    nlinarith
  obtain ⟨k, hk⟩ := exists_pow (by nlinarith : 0 < x ^ 2 - 1)
  obtain ⟨j, hj, hf⟩ := expandBound_exists (test := fun b => do
      let v ← lagrangeTof mu s c b mp .H
      .ok (decide (v < tof))) (c := fun b => decide (lagF mu s c mp .H b < tof)) k (b0 := -s / 2)
    (fun j => by rw [lagrangeTof_eq hmu hs (chord_nonneg hs hl hc) (chord_le hs hc) (hd j : _ ∈ Dom s .H), ok_bind]) (by
      simp only [decide_eq_false_iff_not, not_lt]
      rw [lagF_timeOf hmu hs hl hc hmp (hd k : _ ∈ Dom s .H), ← hT]
      refine (timeOf_anti hmu hs hl hl0).antitoneOn (xOf_gt s _ .H hs (.inr (hd k))) (by
        simp only [Set.mem_Ioi]; linarith) ((xOf_H_le hs (hd k) (by linarith)).2 ?_)
      have : (x ^ 2 - 1) * (-2 * (-s / 2 * 2 ^ k)) = s * ((x ^ 2 - 1) * 2 ^ k) := by ring
      rw [this]
      nlinarith)
  refine ⟨_, hj, ?_, by simpa using hf⟩
  have : (1 : ℝ) ≤ 2 ^ j := one_le_pow₀ (by norm_num)
  nlinarith

theorem expand_A (hmu : 0 < mu) (hs : 0 < s) (hl : ll ^ 2 < 1) (hl0 : ll ≠ 0) (hc : c = s * (1 - ll ^ 2))
    (hmp : mp = if 0 < ll then -1 else 1) {x tof : ℝ} (hx0 : 0 < x) (hx : x < 1) (hT : timeOf mu s ll x = tof) :
    ∃ hi, expandUpperEllipticBound mu s c tof mp .A s = .ok hi ∧ s ≤ hi ∧ lagF mu s c mp .A hi ≤ tof := by
  have h1 : ∀ j : ℕ, s ≤ s * 2 ^ j := fun j => by
    have : (1 : ℝ) ≤ 2 ^ j := one_le_pow₀ (by norm_num)
    nlinarith
  have hd : ∀ j : ℕ, s / 2 < s * 2 ^ j := fun j => by linarith [h1 j]
  obtain ⟨k, hk⟩ := exists_pow (by nlinarith : 0 < 1 - x ^ 2)
  obtain ⟨j, hj, hf⟩ := expandBound_exists (test := fun b => do
      let v ← lagrangeTof mu s c b mp .A
      .ok (decide (v > tof))) (c := fun b => decide (lagF mu s c mp .A b > tof)) k (b0 := s)
    (fun j => by rw [lagrangeTof_eq hmu hs (chord_nonneg hs hl hc) (chord_le hs hc) (hd j : _ ∈ Dom s .A), ok_bind]) (by
      simp only [decide_eq_false_iff_not, not_lt, gt_iff_lt]
      rw [lagF_timeOf hmu hs hl hc hmp (hd k : _ ∈ Dom s .A), ← hT]
      refine (timeOf_anti hmu hs hl hl0).antitoneOn (by simp only [Set.mem_Ioi]; linarith)
        (xOf_gt s _ .A hs (.inr (hd k))) ((le_xOf_A hs (hd k) hx0.le).2 ?_)
      have : (1 - x ^ 2) * (2 * (s * 2 ^ k)) = 2 * s * ((1 - x ^ 2) * 2 ^ k) := by ring
      rw [this]
      nlinarith)
  exact ⟨_, hj, h1 j, by simpa using hf⟩

theorem expand_B (hmu : 0 < mu) (hs : 0 < s) (hl : ll ^ 2 < 1) (hl0 : ll ≠ 0) (hc : c = s * (1 - ll ^ 2))
    (hmp : mp = if 0 < ll then -1 else 1) {x tof : ℝ} (hx0 : x ≤ 0) (hx : -1 < x) (hT : timeOf mu s ll x = tof) :
    ∃ hi, expandUpperEllipticBound mu s c tof mp .B s = .ok hi ∧ s ≤ hi ∧ tof ≤ lagF mu s c mp .B hi := by
  have h1 : ∀ j : ℕ, s ≤ s * 2 ^ j := fun j => by
    have : (1 : ℝ) ≤ 2 ^ j := one_le_pow₀ (by norm_num)
    nlinarith
  have hd : ∀ j : ℕ, s / 2 < s * 2 ^ j := fun j => by linarith [h1 j]
  obtain ⟨k, hk⟩ := exists_pow (by nlinarith : 0 < 1 - x ^ 2)
  obtain ⟨j, hj, hf⟩ := expandBound_exists (test := fun b => do
      let v ← lagrangeTof mu s c b mp .B
      .ok (decide (v < tof))) (c := fun b => decide (lagF mu s c mp .B b < tof)) k (b0 := s)
    (fun j => by rw [lagrangeTof_eq hmu hs (chord_nonneg hs hl hc) (chord_le hs hc) (hd j : _ ∈ Dom s .B), ok_bind]) (by
      simp only [decide_eq_false_iff_not, not_lt]
      rw [lagF_timeOf hmu hs hl hc hmp (hd k : _ ∈ Dom s .B), ← hT]
      refine (timeOf_anti hmu hs hl hl0).antitoneOn (xOf_gt s _ .B hs (.inr (hd k)))
        (by simp only [Set.mem_Ioi]; linarith) ?_
      rw [xOf_B, neg_le]
      refine (le_xOf_A hs (hd k) (by linarith)).2 ?_
      have : (1 - (-x) ^ 2) * (2 * (s * 2 ^ k)) = 2 * s * ((1 - x ^ 2) * 2 ^ k) := by ring
      rw [this]
      nlinarith)
  exact ⟨_, hj, h1 j, by simpa using hf⟩

theorem end_E (hs : 0 < s) : s / 2 < s / 2 * (1 + eps) ∧ s / 2 * (1 + eps) ≤ s := by
  have := eps_pos
  have h2 : eps ≤ 1 := by unfold eps; norm_num
  constructor <;> nlinarith

theorem end_H (hs : 0 < s) : -eps * s < 0 ∧ -s / 2 ≤ -eps * s := by
  have := eps_pos
  have h2 : eps ≤ 1 / 2 := by unfold eps; norm_num
  constructor <;> nlinarith

/-- `get_semimajor_axis` finds the axis when the transfer lies between the two ends. -/
theorem axis_solves {b : Brent} (hb : BrentSpec b) (hbc : BrentComplete b) (hmu : 0 < mu) (hs : 0 < s)
    (hl : ll ^ 2 < 1) (hl0 : ll ≠ 0) (hc : c = s * (1 - ll ^ 2)) (hmp : mp = if 0 < ll then -1 else 1)
    {x tof atol rtol : ℝ} (hx : -1 < x) (hT : timeOf mu s ll x = tof) (ha : 0 < atol) (hr : 1 / 2 ^ 50 ≤ rtol)
    (hE : (1 - x ^ 2) * (1 + eps) ≤ 1) (hH : (x ^ 2 - 1) * (2 * eps) ≤ 1) :
    ∃ N0, ∀ N ≥ N0, ∃ a br n,
      getSemimajorAxis b mu s c tof (timeOf mu s ll 1) (timeOf mu s ll 0) mp N atol rtol = .ok (a, br, n) ∧
      (br = .P ∧ n = 1 ∨ a ∈ Dom s br) := by
  have hm := timeOf_anti hmu hs hl hl0
  have hc0 := chord_nonneg hs hl hc
  have hcs := chord_le hs hc
  have hx' : x ∈ Set.Ioi (-1 : ℝ) := hx
  have h1' : (1 : ℝ) ∈ Set.Ioi (-1 : ℝ) := by norm_num
  have h0' : (0 : ℝ) ∈ Set.Ioi (-1 : ℝ) := by norm_num
  unfold getSemimajorAxis
  by_cases hcl : |tof - timeOf mu s ll 1| ≤ atol + rtol * |timeOf mu s ll 1|
  · exact ⟨0, fun N _ => ⟨0, .P, 1, by rw [if_pos hcl], .inl ⟨rfl, rfl⟩⟩⟩
  simp only [if_neg hcl]
  have hx1 : x ≠ 1 := by
    rintro rfl
    apply hcl
    rw [hT, sub_self, abs_zero]
    have : 0 ≤ rtol := le_trans (by norm_num) hr
    positivity
  rcases lt_or_gt_of_ne hx1 with hlt | hgt
  · have e1 : ¬ tof < timeOf mu s ll 1 := not_lt.2 (by rw [← hT]; exact (hm hx' h1' hlt).le)
    simp only [if_neg e1]
    have hsub : ∀ {hi : ℝ}, Set.Icc (s / 2 * (1 + eps)) hi ⊆ Set.Ioi (s / 2) :=
      fun {hi} t ht => lt_of_lt_of_le (end_E hs).1 ht.1
    by_cases hx0 : 0 < x
    · have e2 : tof < timeOf mu s ll 0 := by rw [← hT]; exact hm h0' hx' hx0
      simp only [if_pos e2]
      obtain ⟨hi, hhi, hsi, hF⟩ := expand_A hmu hs hl hl0 hc hmp hx0 hlt hT
      rw [hhi]
      simp only [ok_bind]
      obtain ⟨N0, h⟩ := solveBranch_solves (br := .A) (tof := tof) (mp := mp) hb hbc hmu hs hc0 hcs
        ((end_E hs).2.trans hsi) hsub (by
          refine mul_nonpos_of_nonneg_of_nonpos (sub_nonneg.2 ?_) (by linarith)
          rw [lagF_timeOf hmu hs hl hc hmp ((end_E hs).1 : _ ∈ Dom s .A), ← hT]
          refine hm.antitoneOn (xOf_gt s _ .A hs (.inr (end_E hs).1)) hx' ((xOf_A_le hs (end_E hs).1 hx0.le).2 ?_)
          have : (1 - x ^ 2) * (2 * (s / 2 * (1 + eps))) = s * ((1 - x ^ 2) * (1 + eps)) := by ring
          rw [this]
          nlinarith) ha hr
      exact ⟨N0, fun N hN => by
        obtain ⟨a, n, e, hd⟩ := h N hN
        exact ⟨a, .A, n, e, .inr hd⟩⟩
    · have hx0 := not_lt.1 hx0
      have e2 : ¬ tof < timeOf mu s ll 0 := not_lt.2 (by rw [← hT]; exact hm.antitoneOn hx' h0' hx0)
      simp only [if_neg e2]
      obtain ⟨hi, hhi, hsi, hF⟩ := expand_B hmu hs hl hl0 hc hmp hx0 hx hT
      rw [hhi]
      simp only [ok_bind]
      obtain ⟨N0, h⟩ := solveBranch_solves (br := .B) (tof := tof) (mp := mp) hb hbc hmu hs hc0 hcs
        ((end_E hs).2.trans hsi) hsub (by
          refine mul_nonpos_of_nonpos_of_nonneg (sub_nonpos.2 ?_) (by linarith)
          rw [lagF_timeOf hmu hs hl hc hmp ((end_E hs).1 : _ ∈ Dom s .B), ← hT]
          refine hm.antitoneOn hx' (xOf_gt s _ .B hs (.inr (end_E hs).1)) ?_
          rw [xOf_B, le_neg]
          refine (xOf_A_le hs (end_E hs).1 (by linarith)).2 ?_
          have : (1 - (-x) ^ 2) * (2 * (s / 2 * (1 + eps))) = s * ((1 - x ^ 2) * (1 + eps)) := by ring
          rw [this]
          nlinarith) ha hr
      exact ⟨N0, fun N hN => by
        obtain ⟨a, n, e, hd⟩ := h N hN
        exact ⟨a, .B, n, e, .inr hd⟩⟩
  · have e1 : tof < timeOf mu s ll 1 := by rw [← hT]; exact hm h1' hx' hgt
    simp only [if_pos e1]
    obtain ⟨lo, hlo, hsl, hF⟩ := expand_H hmu hs hl hl0 hc hmp hgt hT
    rw [hlo]
    simp only [ok_bind]
    obtain ⟨N0, h⟩ := solveBranch_solves (br := .H) (tof := tof) (mp := mp) hb hbc hmu hs hc0 hcs
      (hsl.trans (end_H hs).2) (fun t ht => lt_of_le_of_lt ht.2 (end_H hs).1) (by
        refine mul_nonpos_of_nonneg_of_nonpos (by linarith) (sub_nonpos.2 ?_)
        rw [lagF_timeOf hmu hs hl hc hmp ((end_H hs).1 : _ ∈ Dom s .H), ← hT]
        refine hm.antitoneOn hx' (xOf_gt s _ .H hs (.inr (end_H hs).1))
          ((le_xOf_H hs (end_H hs).1 (by linarith)).2 ?_)
        have : (x ^ 2 - 1) * (-2 * (-eps * s)) = s * ((x ^ 2 - 1) * (2 * eps)) := by ring
        rw [this]
        nlinarith) ha hr
    exact ⟨N0, fun N hN => by
      obtain ⟨a, n, e, hd⟩ := h N hN
      exact ⟨a, .H, n, e, .inr hd⟩⟩

/-- `get_semimajor_axis` refuses the transfers beyond the two ends, unless the time is that of the parabola up to the
tolerance. -/
theorem axis_refuses {b : Brent} (hb : BrentSpec b) (hmu : 0 < mu) (hs : 0 < s)
    (hl : ll ^ 2 < 1) (hl0 : ll ≠ 0) (hc : c = s * (1 - ll ^ 2)) (hmp : mp = if 0 < ll then -1 else 1)
    {x tof atol rtol : ℝ} (hx : -1 < x) (hT : timeOf mu s ll x = tof)
    (hcl : ¬ |tof - timeOf mu s ll 1| ≤ atol + rtol * |timeOf mu s ll 1|)
    (hE : 1 < (1 - x ^ 2) * (1 + eps) ∨ 1 < (x ^ 2 - 1) * (2 * eps)) (N : ℕ) :
    ∃ msg, getSemimajorAxis b mu s c tof (timeOf mu s ll 1) (timeOf mu s ll 0) mp N atol rtol =
      .error (.valueError msg) := by
  have hm := timeOf_anti hmu hs hl hl0
  have hc0 := chord_nonneg hs hl hc
  have hcs := chord_le hs hc
  have hx' : x ∈ Set.Ioi (-1 : ℝ) := hx
  have h1' : (1 : ℝ) ∈ Set.Ioi (-1 : ℝ) := by norm_num
  have h0' : (0 : ℝ) ∈ Set.Ioi (-1 : ℝ) := by norm_num
  have heps := eps_pos
  unfold getSemimajorAxis
  simp only [if_neg hcl]
  rcases hE with hE | hE
  · have hlt : x < 1 := by
      by_contra h
      have : (1 - x ^ 2) * (1 + eps) ≤ 0 := mul_nonpos_of_nonpos_of_nonneg (by nlinarith) (by linarith)
      linarith
    have e1 : ¬ tof < timeOf mu s ll 1 := not_lt.2 (by rw [← hT]; exact (hm hx' h1' hlt).le)
    simp only [if_neg e1]
    have key : ¬ (1 - x ^ 2) * (2 * (s / 2 * (1 + eps))) ≤ s := by
      rw [show (1 - x ^ 2) * (2 * (s / 2 * (1 + eps))) = s * ((1 - x ^ 2) * (1 + eps)) by ring]
      nlinarith
    by_cases hx0 : 0 < x
    · have e2 : tof < timeOf mu s ll 0 := by rw [← hT]; exact hm h0' hx' hx0
      simp only [if_pos e2]
      obtain ⟨hi, hhi, hsi, hF⟩ := expand_A hmu hs hl hl0 hc hmp hx0 hlt hT
      rw [hhi]
      simp only [ok_bind]
      have hhd : hi ∈ Dom s .A := (by linarith : s / 2 < hi)
      have k1 : lagF mu s c mp .A (s / 2 * (1 + eps)) < tof := by
        rw [lagF_timeOf hmu hs hl hc hmp ((end_E hs).1 : _ ∈ Dom s .A), ← hT]
        exact hm hx' (xOf_gt s _ .A hs (.inr (end_E hs).1)) (not_le.1 (mt (xOf_A_le hs (end_E hs).1 hx0.le).1 key))
      have k2 : lagF mu s c mp .A hi ≤ lagF mu s c mp .A (s / 2 * (1 + eps)) := by
        rw [lagF_timeOf hmu hs hl hc hmp hhd, lagF_timeOf hmu hs hl hc hmp ((end_E hs).1 : s / 2 * (1 + eps) ∈ Dom s .A)]
        refine hm.antitoneOn (xOf_gt s _ .A hs (.inr (end_E hs).1)) (xOf_gt s _ .A hs (.inr hhd)) ?_
        have h0 := (end_E hs).2
        have h1 := (end_E hs).1
        refine Real.sqrt_le_sqrt (sub_le_sub_left (div_le_div_of_nonneg_left hs.le (by linarith) (by linarith)) 1)
      exact solveBranch_refuses hb hmu hs hc0 hcs (end_E hs).1 hhd (mul_pos_of_neg_of_neg (by linarith) (by linarith)) N
    · have hx0 := not_lt.1 hx0
      have e2 : ¬ tof < timeOf mu s ll 0 := not_lt.2 (by rw [← hT]; exact hm.antitoneOn hx' h0' hx0)
      simp only [if_neg e2]
      obtain ⟨hi, hhi, hsi, hF⟩ := expand_B hmu hs hl hl0 hc hmp hx0 hx hT
      rw [hhi]
      simp only [ok_bind]
      have hhd : hi ∈ Dom s .B := (by linarith : s / 2 < hi)
      have k1 : tof < lagF mu s c mp .B (s / 2 * (1 + eps)) := by
        rw [lagF_timeOf hmu hs hl hc hmp ((end_E hs).1 : _ ∈ Dom s .B), ← hT]
        refine hm (xOf_gt s _ .B hs (.inr (end_E hs).1)) hx' ?_
        rw [xOf_B, neg_lt]
        refine not_le.1 (mt (xOf_A_le hs (end_E hs).1 (by linarith)).1 ?_)
        rw [neg_sq]
        exact key
      have k2 : lagF mu s c mp .B (s / 2 * (1 + eps)) ≤ lagF mu s c mp .B hi := by
        rw [lagF_timeOf hmu hs hl hc hmp hhd, lagF_timeOf hmu hs hl hc hmp ((end_E hs).1 : s / 2 * (1 + eps) ∈ Dom s .B)]
        refine hm.antitoneOn (xOf_gt s _ .B hs (.inr hhd)) (xOf_gt s _ .B hs (.inr (end_E hs).1)) ?_
        have h0 := (end_E hs).2
        have h1 := (end_E hs).1
        exact neg_le_neg
          (Real.sqrt_le_sqrt (sub_le_sub_left (div_le_div_of_nonneg_left hs.le (by linarith) (by linarith)) 1))
      exact solveBranch_refuses hb hmu hs hc0 hcs (end_E hs).1 hhd (mul_pos (by linarith) (by linarith)) N
  · have hsq : 1 < x ^ 2 := by
      by_contra h
      have : (x ^ 2 - 1) * (2 * eps) ≤ 0 := mul_nonpos_of_nonpos_of_nonneg (by linarith) (by linarith)
      linarith
    have hgt : 1 < x := by nlinarith
    have e1 : tof < timeOf mu s ll 1 := by rw [← hT]; exact hm h1' hx' hgt
    simp only [if_pos e1]
    obtain ⟨lo, hlo, hsl, hF⟩ := expand_H hmu hs hl hl0 hc hmp hgt hT
    rw [hlo]
    simp only [ok_bind]
    have hld : lo ∈ Dom s .H := (by linarith : lo < 0)
    have k1 : tof < lagF mu s c mp .H (-eps * s) := by
      rw [lagF_timeOf hmu hs hl hc hmp ((end_H hs).1 : _ ∈ Dom s .H), ← hT]
      refine hm (xOf_gt s _ .H hs (.inr (end_H hs).1)) hx' (not_le.1 (mt (le_xOf_H hs (end_H hs).1 (by linarith)).1 ?_))
      rw [show (x ^ 2 - 1) * (-2 * (-eps * s)) = s * ((x ^ 2 - 1) * (2 * eps)) by ring]
      nlinarith
    have k2 : lagF mu s c mp .H (-eps * s) < lagF mu s c mp .H lo ∨ lo = -eps * s := by
      rcases (hsl.trans (end_H hs).2).lt_or_eq with h | h
      · left
        rw [lagF_timeOf hmu hs hl hc hmp hld, lagF_timeOf hmu hs hl hc hmp ((end_H hs).1 : -eps * s ∈ Dom s .H)]
        refine hm (xOf_gt s _ .H hs (.inr hld)) (xOf_gt s _ .H hs (.inr (end_H hs).1)) ?_
        have h0 := (end_H hs).1
        have h1 : lo < 0 := hld
        refine Real.sqrt_lt_sqrt (by
          have : s / (2 * lo) ≤ 0 := div_nonpos_of_nonneg_of_nonpos hs.le (by linarith)
          linarith) (sub_lt_sub_left ?_ 1)
        have := div_lt_div_of_pos_left hs (by linarith : 0 < -(2 * (-eps * s))) (by linarith : _ < -(2 * lo))
        rw [div_neg, div_neg] at this
        linarith
      · exact .inr h
    have k3 : tof < lagF mu s c mp .H lo := by
      rcases k2 with h | h
      · exact k1.trans h
      · rw [h]; exact k1
    exact solveBranch_refuses hb hmu hs hc0 hcs hld (end_H hs).1 (mul_pos (by linarith) (by linarith)) N

end Thorne

namespace Spec

/-- The time is that of the parabolic transfer of the requested sense, up to the tolerance. -/
def NearParabola (mu : ℝ) (r1 r2 : V3) (pro : Bool) (tof atol rtol : ℝ) : Prop :=
  ∃ T w1 w2, LambertArc mu r1 r2 w1 w2 T 0 ∧ Sense pro r1 w1 ∧ energyOf mu r1 w1 = 0 ∧ |tof - T| ≤ atol + rtol * |T|

/-- The energies between those of the two ends of the search: `-μ / (s (1 + 2^-52))` and `2^51 μ / s`. -/
def EnergyInRange (mu : ℝ) (r1 r2 v : V3) : Prop :=
  -mu / (semiPerimeter r1 r2 * (1 + 1 / 2 ^ 52)) ≤ energyOf mu r1 v ∧ energyOf mu r1 v ≤ 2 ^ 51 * mu / semiPerimeter r1 r2

end Spec

open Thorne

theorem semiPerimeter_eq (r1 r2 : V3) :
    semiPerimeter r1 r2 = (V3.norm r1 + V3.norm r2 + V3.norm (r2 - r1)) / 2 := by
  simp only [semiPerimeter, len_eq_norm]

namespace Thorne

/-- Everything `thorne2004` computes before the search. -/
structure Problem (mu : ℝ) (r1 r2 : V3) (pro : Bool) (ll : ℝ) : Prop where
  geo : Geo r1 r2 (Real.sqrt 2 * ((V3.norm r1 + V3.norm r2 + V3.norm (r2 - r1)) / 2) * ll)
  semi : Semi (V3.norm r1) (V3.norm r2) (V3.norm (r2 - r1)) ((V3.norm r1 + V3.norm r2 + V3.norm (r2 - r1)) / 2) ll
  ne : ll ≠ 0
  sense : ∀ {x y : ℝ}, Lanc ll x y → Sense pro r1
    (fgV1 mu r1 r2 (Real.sqrt 2 * ((V3.norm r1 + V3.norm r2 + V3.norm (r2 - r1)) / 2) * ll)
      (((V3.norm r1 + V3.norm r2 + V3.norm (r2 - r1)) / 2) * (y - ll * x) ^ 2))
  returns : ∀ {brentq : Brent} {tof atol rtol : ℝ} {N : ℕ} {a : ℝ} {br : Branch} {n : ℕ} {full : Bool} (low : Bool)
      {clock : ℝ}, 0 < tof → getSemimajorAxis brentq mu ((V3.norm r1 + V3.norm r2 + V3.norm (r2 - r1)) / 2)
        (V3.norm (r2 - r1)) tof (timeOf mu ((V3.norm r1 + V3.norm r2 + V3.norm (r2 - r1)) / 2) ll 1)
        (timeOf mu ((V3.norm r1 + V3.norm r2 + V3.norm (r2 - r1)) / 2) ll 0) (if 0 < ll then -1 else 1) N atol rtol =
        .ok (a, br, n) → br = .P ∨ a ∈ Dom ((V3.norm r1 + V3.norm r2 + V3.norm (r2 - r1)) / 2) br →
      full = false ∨ 1 ≤ n →
      ∃ out, thorne2004 brentq mu r1 r2 tof 0 pro low N atol rtol full clock = .ok out
  raises : ∀ {brentq : Brent} {tof atol rtol : ℝ} {N : ℕ} {e : PyErr} {full : Bool} (low : Bool) {clock : ℝ}, 0 < tof →
      getSemimajorAxis brentq mu ((V3.norm r1 + V3.norm r2 + V3.norm (r2 - r1)) / 2)
        (V3.norm (r2 - r1)) tof (timeOf mu ((V3.norm r1 + V3.norm r2 + V3.norm (r2 - r1)) / 2) ll 1)
        (timeOf mu ((V3.norm r1 + V3.norm r2 + V3.norm (r2 - r1)) / 2) ll 0) (if 0 < ll then -1 else 1) N atol rtol =
        .error e → thorne2004 brentq mu r1 r2 tof 0 pro low N atol rtol full clock = .error e

theorem problem {mu : ℝ} (hmu : 0 < mu) {r1 r2 : V3} (hnp : NotPolar r1 r2) (pro : Bool) :
    ∃ ll, Problem mu r1 r2 pro ll := by
  have hna : NotAligned r1 r2 := fun h => hnp h.2.2
  obtain ⟨ll, hG, hS, hll, hsg, hlam, hrc⟩ := Thorne.geo hna pro
  have hθ := transferAngle_eq hna pro
  have hmp := mp_eq (angle_of_eq hna hθ) hsg (.inl hnp)
  have hs := hS.spos
  have htP := getParabolicTof_eq hmu hs hll hS.chord hmp (by
    have := lanc_lancY hS.lam_lt 1
    exact this)
  have htM := getMinimumEnergyTof_eq hmu hs hS.lam_lt hS.chord hmp
  refine ⟨ll, hG, hS, hll, fun hL => Thorne.sense hmu hG hs hL hsg hnp, ?_, ?_⟩
  · intro brentq tof atol rtol N a br n full low clock ht h hd hn
    rw [← hmp] at h
    obtain ⟨tpi, htpi⟩ : ∃ tpi, timePerIter full clock n = .ok tpi := by
      unfold timePerIter
      split
      · rename_i hf
        have : 1 ≤ n := hn.resolve_left (by rw [hf]; simp)
        rw [pdiv_eq (by positivity)]
        exact ⟨_, rfl⟩
      · exact ⟨_, rfl⟩
    have hL := lancy_of (x := xOf ((V3.norm r1 + V3.norm r2 + V3.norm (r2 - r1)) / 2) a br) hS.lam_lt
    have hy0 : 0 ≤ 1 - ll ^ 2 * (1 - xOf ((V3.norm r1 + V3.norm r2 + V3.norm (r2 - r1)) / 2) a br ^ 2) := by
      nlinarith [sq_nonneg ll, sq_nonneg (ll * xOf ((V3.norm r1 + V3.norm r2 + V3.norm (r2 - r1)) / 2) a br), hS.lam_lt]
    exact ⟨_, thorne_fwd (low := low) hmu hna ht hθ htP htM h (getX_eq hs hd)
      (by rw [getYFromX, hlam, ok_bind, psqrt_eq hy0]) (hrc hmu hL) htpi⟩
  · intro brentq tof atol rtol N e full low clock ht h
    rw [← hmp] at h
    have h1 : r1 ≠ 0 := by rintro rfl; exact (norm_pos_of_notAligned_left hna).ne' (by simp [V3.norm, V3.dot])
    have h2 : r1 ≠ r2 := by rintro rfl; exact hna ⟨by ring, by ring, by ring⟩
    unfold thorne2004
    rw [raiseIf_neg _ (by norm_num), ok_bind, assertParameters_eq hmu h1 h2 ht le_rfl, ok_bind, hθ, ok_bind]
    simp only []
    rw [htP, ok_bind, htM, ok_bind]
    have h' := h
    unfold timeOf at h'
    unfold timeOf
    rw [h']
    rfl

/-- The transfer of a given time, in terms of the variable of the search. -/
theorem Problem.transfer {mu : ℝ} (hmu : 0 < mu) {r1 r2 : V3} (hnp : NotPolar r1 r2) {pro : Bool} {ll : ℝ}
    (hp : Problem mu r1 r2 pro ll) {T : ℝ} {w1 w2 : V3} (h : LambertArc mu r1 r2 w1 w2 T 0) (hs : Sense pro r1 w1)
    (hT : 0 < T) :
    ∃ x, -1 < x ∧ timeOf mu ((V3.norm r1 + V3.norm r2 + V3.norm (r2 - r1)) / 2) ll x = T ∧
      energyOf mu r1 w1 = -mu * (1 - x ^ 2) / semiPerimeter r1 r2 := by
  have hna : NotAligned r1 r2 := fun h => hnp h.2.2
  have hs0 := hp.semi.spos
  obtain ⟨x, hx, hxT⟩ := timeOf_surj hmu hs0 hp.semi.lam_lt hp.ne hT
  refine ⟨x, hx, hxT, ?_⟩
  have hL := lanc_lancY hp.semi.lam_lt x
  have ha := Thorne.arc hmu hp.geo hp.semi hL hx
  rw [show Real.sqrt (_ / (2 * mu)) * lancT ll x (lancY ll x) 0 = T from hxT] at ha
  obtain ⟨e, -⟩ := zero_rev_unique_sense hmu hna h ha hs (hp.sense hL)
  rw [e, energyOf, hL.energy hmu hs0 hp.geo hp.semi.sum, semiPerimeter_eq]

/-- The range of energies in terms of the variable of the search. -/
theorem inRange_iff {mu : ℝ} (hmu : 0 < mu) {r1 r2 v : V3} {x : ℝ} (hs : 0 < semiPerimeter r1 r2)
    (he : energyOf mu r1 v = -mu * (1 - x ^ 2) / semiPerimeter r1 r2) :
    EnergyInRange mu r1 r2 v ↔ (1 - x ^ 2) * (1 + eps) ≤ 1 ∧ (x ^ 2 - 1) * (2 * eps) ≤ 1 := by
  unfold EnergyInRange
  rw [he]
  have heps : eps = 1 / 2 ^ 52 := rfl
  generalize semiPerimeter r1 r2 = s at *
  have h1 : -mu / (s * (1 + 1 / 2 ^ 52)) ≤ -mu * (1 - x ^ 2) / s ↔ (1 - x ^ 2) * (1 + eps) ≤ 1 := by
    rw [div_le_div_iff₀ (by positivity) hs, heps,
      show -mu * (1 - x ^ 2) * (s * (1 + 1 / 2 ^ 52)) = -mu * s * ((1 - x ^ 2) * (1 + 1 / 2 ^ 52)) by ring]
    have : 0 < mu * s := by positivity
    constructor
    · intro h
      by_contra h'
      nlinarith
    · intro h
      nlinarith
  have h2 : -mu * (1 - x ^ 2) / s ≤ 2 ^ 51 * mu / s ↔ (x ^ 2 - 1) * (2 * eps) ≤ 1 := by
    rw [div_le_div_iff_of_pos_right hs, heps]
    constructor
    · intro h
      by_contra h'
      push Not at h'
      have : 1 * mu < (x ^ 2 - 1) * (2 * (1 / 2 ^ 52)) * mu := mul_lt_mul_of_pos_right h' hmu
      norm_num at this h
      linarith
    · intro h
      have : (x ^ 2 - 1) * (2 * (1 / 2 ^ 52)) * mu ≤ 1 * mu := mul_le_mul_of_nonneg_right h hmu.le
      norm_num at this ⊢
      linarith
  rw [h1, h2]

/-- The parabola in terms of the variable of the search. -/
theorem Problem.nearParabola {mu : ℝ} (hmu : 0 < mu) {r1 r2 : V3} (hnp : NotPolar r1 r2) {pro : Bool} {ll : ℝ}
    (hp : Problem mu r1 r2 pro ll) {tof atol rtol : ℝ} : NearParabola mu r1 r2 pro tof atol rtol ↔
      |tof - timeOf mu ((V3.norm r1 + V3.norm r2 + V3.norm (r2 - r1)) / 2) ll 1| ≤
        atol + rtol * |timeOf mu ((V3.norm r1 + V3.norm r2 + V3.norm (r2 - r1)) / 2) ll 1| := by
  have hs0 := hp.semi.spos
  constructor
  · rintro ⟨T, w1, w2, h, hs, he, hT⟩
    obtain ⟨x, hx, hxT, hxe⟩ := hp.transfer hmu hnp h hs h.1
    rw [he, semiPerimeter_eq, eq_comm, div_eq_zero_iff, or_iff_left hs0.ne', mul_eq_zero,
      or_iff_right (neg_ne_zero.2 hmu.ne')] at hxe
    have : x = 1 := by nlinarith
    rw [this] at hxT
    rw [hxT]
    exact hT
  · intro h
    have hL := lanc_lancY hp.semi.lam_lt 1
    refine ⟨_, _, _, Thorne.arc hmu hp.geo hp.semi hL (by norm_num), hp.sense hL, ?_, h⟩
    rw [energyOf, hL.energy hmu hs0 hp.geo hp.semi.sum]
    simp

end Thorne

/-- **C66.** The problems that `thorne2004` solves: if the energy of the transfer of the requested time and sense lies
between `-μ / (s (1 + 2^-52))` and `2^51 μ / s`, or the time is that of the parabola up to the tolerance, then
`thorne2004` returns for every large enough `maxiter`. -/
theorem thorne_solves {b : Brent} (hb : BrentSpec b) (hbc : BrentComplete b) {mu : ℝ} (hmu : 0 < mu) {r1 r2 : V3}
    (hnp : NotPolar r1 r2) {pro : Bool} {tof : ℝ} {w1 w2 : V3} (h : LambertArc mu r1 r2 w1 w2 tof 0)
    (hs : Sense pro r1 w1) {atol rtol : ℝ} (ha : 0 < atol) (hr : 1 / 2 ^ 50 ≤ rtol) {full : Bool}
    (hf : full = false ∨ BrentCounts b) (hE : EnergyInRange mu r1 r2 w1 ∨ NearParabola mu r1 r2 pro tof atol rtol)
    (low : Bool) (clock : ℝ) :
    ∃ N0 : ℕ, ∀ N ≥ N0, ∃ out, thorne2004 b mu r1 r2 tof 0 pro low N atol rtol full clock = .ok out := by
  obtain ⟨ll, hp⟩ := problem hmu hnp pro
  have hs0 := hp.semi.spos
  obtain ⟨x, hx, hxT, hxe⟩ := hp.transfer hmu hnp h hs h.1
  rw [hp.nearParabola hmu hnp, inRange_iff hmu (by rw [semiPerimeter_eq]; exact hs0) hxe] at hE
  have main : ∃ N0 : ℕ, ∀ N ≥ N0, ∃ a br n, getSemimajorAxis b mu ((V3.norm r1 + V3.norm r2 + V3.norm (r2 - r1)) / 2)
      (V3.norm (r2 - r1)) tof (timeOf mu ((V3.norm r1 + V3.norm r2 + V3.norm (r2 - r1)) / 2) ll 1)
      (timeOf mu ((V3.norm r1 + V3.norm r2 + V3.norm (r2 - r1)) / 2) ll 0) (if 0 < ll then -1 else 1) N atol rtol =
        .ok (a, br, n) ∧
      (br = .P ∧ n = 1 ∨ a ∈ Dom ((V3.norm r1 + V3.norm r2 + V3.norm (r2 - r1)) / 2) br) := by
    rcases hE with ⟨h1, h2⟩ | hcl
    · exact axis_solves hb hbc hmu hs0 hp.semi.lam_lt hp.ne hp.semi.chord rfl hx hxT ha hr h1 h2
    · refine ⟨0, fun N _ => ⟨0, .P, 1, ?_, .inl ⟨rfl, rfl⟩⟩⟩
      unfold getSemimajorAxis
      rw [if_pos hcl]
  obtain ⟨N0, hN⟩ := main
  refine ⟨N0, fun N hN' => ?_⟩
  obtain ⟨a, br, n, e, hd⟩ := hN N hN'
  refine hp.returns low h.1 e (hd.imp (fun h => h.1) id) (hf.imp id fun hc => ?_)
  exact (getSemimajorAxis_count hb hc hmu hs0 hp.semi.cpos.le (chord_le hs0 hp.semi.chord) e).1

/-- **C66.** All other problems are refused with `ValueError`, whatever `maxiter` is. -/
theorem thorne_refuses {b : Brent} (hb : BrentSpec b) {mu : ℝ} (hmu : 0 < mu) {r1 r2 : V3} (hnp : NotPolar r1 r2)
    {pro : Bool} {tof : ℝ} {w1 w2 : V3} (h : LambertArc mu r1 r2 w1 w2 tof 0) (hs : Sense pro r1 w1) {atol rtol : ℝ}
    (hE : ¬ EnergyInRange mu r1 r2 w1) (hP : ¬ NearParabola mu r1 r2 pro tof atol rtol) (full low : Bool) (clock : ℝ)
    (N : ℕ) : ∃ msg, thorne2004 b mu r1 r2 tof 0 pro low N atol rtol full clock = .error (.valueError msg) := by
  obtain ⟨ll, hp⟩ := problem hmu hnp pro
  have hs0 := hp.semi.spos
  obtain ⟨x, hx, hxT, hxe⟩ := hp.transfer hmu hnp h hs h.1
  rw [inRange_iff hmu (by rw [semiPerimeter_eq]; exact hs0) hxe, not_and_or, not_le, not_le] at hE
  rw [hp.nearParabola hmu hnp] at hP
  obtain ⟨msg, e⟩ := axis_refuses hb hmu hs0 hp.semi.lam_lt hp.ne hp.semi.chord rfl hx hxT hP hE N
  exact ⟨msg, hp.raises low h.1 e⟩

/-- **C66.** The two together, as an equivalence. -/
theorem thorne_solves_iff {b : Brent} (hb : BrentSpec b) (hbc : BrentComplete b) {mu : ℝ} (hmu : 0 < mu) {r1 r2 : V3}
    (hnp : NotPolar r1 r2) {pro : Bool} {tof : ℝ} {w1 w2 : V3} (h : LambertArc mu r1 r2 w1 w2 tof 0)
    (hs : Sense pro r1 w1) {atol rtol : ℝ} (ha : 0 < atol) (hr : 1 / 2 ^ 50 ≤ rtol) {full : Bool}
    (hf : full = false ∨ BrentCounts b) (low : Bool) (clock : ℝ) :
    (∃ N out, thorne2004 b mu r1 r2 tof 0 pro low N atol rtol full clock = .ok out) ↔
      EnergyInRange mu r1 r2 w1 ∨ NearParabola mu r1 r2 pro tof atol rtol := by
  constructor
  · rintro ⟨N, out, ho⟩
    by_contra hc
    rw [not_or] at hc
    obtain ⟨msg, e⟩ := thorne_refuses hb hmu hnp h hs hc.1 hc.2 full low clock N
    rw [ho] at e
    cases e
  · intro hE
    obtain ⟨N0, hN⟩ := thorne_solves hb hbc hmu hnp h hs ha hr hf hE low clock
    exact ⟨N0, hN N0 le_rfl⟩

/-- **C66, finding**: for all positions and both senses there is an interval of flight times, around that of the
ellipse of least energy, in which every problem has a solution and `thorne2004` refuses it with `ValueError` for all
small tolerances. -/
theorem thorne_minimum_energy_refused {b : Brent} (hb : BrentSpec b) {mu : ℝ} (hmu : 0 < mu) {r1 r2 : V3}
    (hnp : NotPolar r1 r2) (pro : Bool) :
    ∃ t1 t2 δ, 0 < t1 ∧ t1 < t2 ∧ 0 < δ ∧ ∀ tof ∈ Set.Ioo t1 t2,
      (∃! v : V3 × V3, LambertArc mu r1 r2 v.1 v.2 tof 0 ∧ Sense pro r1 v.1) ∧
      ∀ atol rtol, atol ≤ δ → rtol ≤ δ → ∀ (full low : Bool) (clock : ℝ) (N : ℕ),
        ∃ msg, thorne2004 b mu r1 r2 tof 0 pro low N atol rtol full clock = .error (.valueError msg) := by
  obtain ⟨ll, hp⟩ := problem hmu hnp pro
  have hs0 := hp.semi.spos
  have hm := timeOf_anti hmu hs0 hp.semi.lam_lt hp.ne
  have heps := eps_pos
  have he1 : eps < 1 := by unfold eps; norm_num
  have m1 : eps ∈ Set.Ioi (-1 : ℝ) := by simp only [Set.mem_Ioi]; linarith
  have m2 : -eps ∈ Set.Ioi (-1 : ℝ) := by simp only [Set.mem_Ioi]; linarith
  have m3 : (1 : ℝ) ∈ Set.Ioi (-1 : ℝ) := by norm_num
  have k1 := hm m1 m3 he1
  have k2 := hm m2 m1 (by linarith)
  have hpos : 0 < timeOf mu ((V3.norm r1 + V3.norm r2 + V3.norm (r2 - r1)) / 2) ll 1 :=
    (Thorne.arc hmu hp.geo hp.semi (lanc_lancY hp.semi.lam_lt 1) (by norm_num)).1
  obtain ⟨δ, hδ⟩ : ∃ δ, δ = (timeOf mu ((V3.norm r1 + V3.norm r2 + V3.norm (r2 - r1)) / 2) ll eps -
      timeOf mu ((V3.norm r1 + V3.norm r2 + V3.norm (r2 - r1)) / 2) ll 1) /
        (1 + timeOf mu ((V3.norm r1 + V3.norm r2 + V3.norm (r2 - r1)) / 2) ll 1) := ⟨_, rfl⟩
  refine ⟨_, _, δ, hpos.trans k1, k2, by rw [hδ]; exact div_pos (by linarith) (by linarith), fun tof ht => ?_⟩
  have htof : 0 < tof := (hpos.trans k1).trans ht.1
  have hex := zero_rev_exists_unique hmu htof hnp pro
  refine ⟨hex, fun atol rtol hat hrt full low clock N => ?_⟩
  obtain ⟨⟨w1, w2⟩, ⟨h, hs⟩, -⟩ := hex
  obtain ⟨x, hx, hxT, hxen⟩ := hp.transfer hmu hnp h hs h.1
  refine thorne_refuses hb hmu hnp h hs ?_ ?_ full low clock N
  · rw [inRange_iff hmu (by rw [semiPerimeter_eq]; exact hs0) hxen, not_and_or, not_le, not_le]
    left
    have hx1 : x < eps := (hm.lt_iff_gt (a := eps) (b := x) m1 hx).1 (by rw [hxT]; exact ht.1)
    have hx2 : -eps < x := (hm.lt_iff_gt (a := x) (b := -eps) hx m2).1 (by rw [hxT]; exact ht.2)
    have hx3 : x ^ 2 < eps ^ 2 := sq_lt_sq' hx2 hx1
    have he2 : 0 < eps * (1 - eps - eps ^ 2) := mul_pos heps (by unfold eps; norm_num)
    have : (1 - eps ^ 2) * (1 + eps) < (1 - x ^ 2) * (1 + eps) :=
      mul_lt_mul_of_pos_right (by linarith) (by linarith)
    linarith [show (1 - eps ^ 2) * (1 + eps) = 1 + eps * (1 - eps - eps ^ 2) by ring]
  · rw [hp.nearParabola hmu hnp, not_le, abs_of_pos hpos]
    have h1 := ht.1
    have h2 : δ * (1 + timeOf mu ((V3.norm r1 + V3.norm r2 + V3.norm (r2 - r1)) / 2) ll 1) =
        timeOf mu ((V3.norm r1 + V3.norm r2 + V3.norm (r2 - r1)) / 2) ll eps -
          timeOf mu ((V3.norm r1 + V3.norm r2 + V3.norm (r2 - r1)) / 2) ll 1 := by
      rw [hδ]
      field_simp
    rw [abs_of_pos (by linarith)]
    nlinarith

/-- **C66, finding**: for all positions, both senses and all small tolerances, every sufficiently fast problem is
refused with `ValueError`, although it has a solution. -/
theorem thorne_fast_refused {b : Brent} (hb : BrentSpec b) {mu : ℝ} (hmu : 0 < mu) {r1 r2 : V3}
    (hnp : NotPolar r1 r2) (pro : Bool) :
    ∃ t δ, 0 < t ∧ 0 < δ ∧ ∀ tof, 0 < tof → tof < t →
      (∃! v : V3 × V3, LambertArc mu r1 r2 v.1 v.2 tof 0 ∧ Sense pro r1 v.1) ∧
      ∀ atol rtol, atol ≤ δ → rtol ≤ δ → ∀ (full low : Bool) (clock : ℝ) (N : ℕ),
        ∃ msg, thorne2004 b mu r1 r2 tof 0 pro low N atol rtol full clock = .error (.valueError msg) := by
  obtain ⟨ll, hp⟩ := problem hmu hnp pro
  have hs0 := hp.semi.spos
  have hm := timeOf_anti hmu hs0 hp.semi.lam_lt hp.ne
  have heps := eps_pos
  obtain ⟨X, hX⟩ : ∃ X, X = 1 + 1 / eps := ⟨_, rfl⟩
  have hX1 : 1 < X := by rw [hX]; have : 0 < 1 / eps := by positivity
                         linarith
  have m1 : X ∈ Set.Ioi (-1 : ℝ) := by simp only [Set.mem_Ioi]; linarith
  have m3 : (1 : ℝ) ∈ Set.Ioi (-1 : ℝ) := by norm_num
  have k1 := hm m3 m1 hX1
  have hposX : 0 < timeOf mu ((V3.norm r1 + V3.norm r2 + V3.norm (r2 - r1)) / 2) ll X :=
    (Thorne.arc hmu hp.geo hp.semi (lanc_lancY hp.semi.lam_lt X) m1).1
  have hpos := hposX.trans k1
  obtain ⟨δ, hδ⟩ : ∃ δ, δ = (timeOf mu ((V3.norm r1 + V3.norm r2 + V3.norm (r2 - r1)) / 2) ll 1 -
      timeOf mu ((V3.norm r1 + V3.norm r2 + V3.norm (r2 - r1)) / 2) ll X) /
        (1 + timeOf mu ((V3.norm r1 + V3.norm r2 + V3.norm (r2 - r1)) / 2) ll 1) := ⟨_, rfl⟩
  refine ⟨_, δ, hposX, by rw [hδ]; exact div_pos (by linarith) (by linarith), fun tof htof ht => ?_⟩
  have hex := zero_rev_exists_unique hmu htof hnp pro
  refine ⟨hex, fun atol rtol hat hrt full low clock N => ?_⟩
  obtain ⟨⟨w1, w2⟩, ⟨h, hs⟩, -⟩ := hex
  obtain ⟨x, hx, hxT, hxen⟩ := hp.transfer hmu hnp h hs h.1
  refine thorne_refuses hb hmu hnp h hs ?_ ?_ full low clock N
  · rw [inRange_iff hmu (by rw [semiPerimeter_eq]; exact hs0) hxen, not_and_or, not_le, not_le]
    right
    have hx1 : X < x := (hm.lt_iff_gt (a := x) (b := X) hx m1).1 (by rw [hxT]; exact ht)
    have hXe : X * eps = eps + 1 := by rw [hX]; field_simp
    have h1 : eps + 1 < x * eps := by rw [← hXe]; exact mul_lt_mul_of_pos_right hx1 heps
    nlinarith
  · rw [hp.nearParabola hmu hnp, not_le, abs_of_pos hpos]
    have h2 : δ * (1 + timeOf mu ((V3.norm r1 + V3.norm r2 + V3.norm (r2 - r1)) / 2) ll 1) =
        timeOf mu ((V3.norm r1 + V3.norm r2 + V3.norm (r2 - r1)) / 2) ll 1 -
          timeOf mu ((V3.norm r1 + V3.norm r2 + V3.norm (r2 - r1)) / 2) ll X := by
      rw [hδ]
      field_simp
    rw [abs_sub_comm, abs_of_pos (by linarith)]
    nlinarith

/-- The theorems at a quarter turn of the unit circle: some problems are solved, and some that have a solution are
refused. -/
example : (∃ tof, 0 < tof ∧ ∃ N0 : ℕ, ∀ N ≥ N0, ∃ out,
      thorne2004 exactBrent 1 ⟨1, 0, 0⟩ ⟨0, 1, 0⟩ tof 0 true true N 1e-5 1e-7 true 1 = .ok out) ∧
    (∃ tof w1 w2 msg, LambertArc 1 ⟨1, 0, 0⟩ ⟨0, 1, 0⟩ w1 w2 tof 0 ∧
      thorne2004 exactBrent 1 ⟨1, 0, 0⟩ ⟨0, 1, 0⟩ tof 0 true true 35 0 0 true 1 = .error (.valueError msg)) := by
  have hnp : NotPolar ⟨1, 0, 0⟩ ⟨0, 1, 0⟩ := by simp [NotPolar]
  constructor
  · obtain ⟨ll, hp⟩ := problem one_pos hnp true
    have hL := lanc_lancY hp.semi.lam_lt (1 / 2)
    have h := Thorne.arc one_pos hp.geo hp.semi hL (by norm_num)
    refine ⟨_, h.1, thorne_solves exactBrent_spec exactBrent_complete one_pos hnp h (hp.sense hL) (by norm_num)
      (by norm_num) (.inr exactBrent_counts) (.inl ((inRange_iff (x := 1 / 2) one_pos ?_ ?_).2 ?_)) _ _⟩
    · rw [semiPerimeter_eq]; exact hp.semi.spos
    · rw [energyOf, hL.energy one_pos hp.semi.spos hp.geo hp.semi.sum, semiPerimeter_eq]
    · unfold eps
      norm_num
  · obtain ⟨t1, t2, δ, h0, h1, hδ, h⟩ := thorne_minimum_energy_refused exactBrent_spec one_pos hnp true
    obtain ⟨⟨w, hw, -⟩, h⟩ := h ((t1 + t2) / 2) ⟨by linarith, by linarith⟩
    obtain ⟨msg, h⟩ := h 0 0 hδ.le hδ.le true true 1 35
    exact ⟨_, w.1, w.2, msg, hw.1, h⟩

end Lamberthub
