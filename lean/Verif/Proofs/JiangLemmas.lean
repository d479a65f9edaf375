import Verif.Model.Jiang
import Verif.Proofs.ThorneGeo
import Verif.Proofs.DelatorreLemmas
import Verif.Proofs.PForm

/-! Time equations, semi-latus rectum and reconstruction of `jiang2016`. -/

set_option autoImplicit false

namespace Lamberthub
open Spec LC

namespace Jiang

/-- The branch of the time equation. -/
def br (long : Bool) : Thorne.Branch := if long = true then .B else .A

variable {mu s c ll a θ : ℝ}

theorem betaSign_cases (θ : ℝ) : betaSign θ = 1 ∨ betaSign θ = -1 := by
  unfold betaSign; split <;> simp

theorem sin_betaSign (θ t : ℝ) : Real.sin (t * betaSign θ) = betaSign θ * Real.sin t := by
  rcases betaSign_cases θ with h | h <;> rw [h] <;> simp

theorem sinh_betaSign (θ t : ℝ) : Real.sinh (t * betaSign θ) = betaSign θ * Real.sinh t := by
  rcases betaSign_cases θ with h | h <;> rw [h] <;> simp

theorem ell_dom (hs : 0 < s) (hc0 : 0 ≤ c) (hc : c ≤ s) (ha : s / 2 ≤ a) :
    2 * a ≠ 0 ∧ 0 ≤ s / (2 * a) ∧ 0 ≤ (s - c) / (2 * a) ∧ Real.sqrt (s / (2 * a)) ≤ 1 ∧
      Real.sqrt ((s - c) / (2 * a)) ≤ 1 := by
  have h0 : 0 < a := by linarith
  have h1 : 0 ≤ s - c := by linarith
  refine ⟨by positivity, by positivity, by positivity, ?_, ?_⟩ <;>
  · rw [Real.sqrt_le_left zero_le_one, one_pow, div_le_one (by positivity)]; linarith

theorem ellipticAlphaBeta_eq (hs : 0 < s) (hc0 : 0 ≤ c) (hc : c ≤ s) (ha : s / 2 ≤ a) (long : Bool) :
    ellipticAlphaBeta a s c θ long =
      .ok (if long = true then 2 * Real.pi - 2 * Real.arcsin (Real.sqrt (s / (2 * a)))
        else 2 * Real.arcsin (Real.sqrt (s / (2 * a))),
        2 * Real.arcsin (Real.sqrt ((s - c) / (2 * a))) * betaSign θ) := by
  obtain ⟨h1, h2, h3, h4, h5⟩ := ell_dom hs hc0 hc ha
  have p1 := Real.sqrt_nonneg (s / (2 * a))
  have p2 := Real.sqrt_nonneg ((s - c) / (2 * a))
  unfold ellipticAlphaBeta
  rw [pdiv_eq h1, ok_bind, psqrt_eq h2, ok_bind, pasin_eq (by linarith) h4, ok_bind]
  simp only []
  rw [pdiv_eq h1, ok_bind, psqrt_eq h3, ok_bind, pasin_eq (by linarith) h5, ok_bind]

theorem tofElliptic_eq (hmu : 0 < mu) (hs : 0 < s) (hc0 : 0 ≤ c) (hc : c ≤ s) (ha : s / 2 ≤ a)
    (long : Bool) :
    tofElliptic mu a s c θ long = .ok (Thorne.lagF mu s c (-betaSign θ) (br long) a) := by
  have h0 : 0 < a := by linarith
  unfold tofElliptic
  rw [ellipticAlphaBeta_eq hs hc0 hc ha, ok_bind]
  simp only []
  rw [pdiv_eq hmu.ne', ok_bind, psqrt_eq (by positivity), ok_bind, sin_betaSign]
  congr 1
  cases long with
  | false =>
    simp only [br, Bool.false_eq_true, if_false, Thorne.lagF]
    ring
  | true =>
    simp only [br, if_true, Thorne.lagF]
    rw [Real.sin_two_pi_sub]
    ring

theorem hyperbolicAlphaBeta_eq (hs : 0 < s) (hc : c ≤ s) (ha : a < 0) :
    hyperbolicAlphaBeta a s c θ =
      .ok (2 * Real.arsinh (Real.sqrt (-s / (2 * a))),
        2 * Real.arsinh (Real.sqrt ((c - s) / (2 * a))) * betaSign θ) := by
  have h1 : -2 * a ≠ 0 := by nlinarith
  have e1 : s / (-2 * a) = -s / (2 * a) := by field_simp
  have e2 : (s - c) / (-2 * a) = (c - s) / (2 * a) := by field_simp; ring
  have h2 : 0 ≤ s / (-2 * a) := div_nonneg hs.le (by linarith)
  have h3 : 0 ≤ (s - c) / (-2 * a) := div_nonneg (by linarith) (by linarith)
  unfold hyperbolicAlphaBeta
  rw [pdiv_eq h1, ok_bind, psqrt_eq h2, ok_bind, pdiv_eq h1, ok_bind, psqrt_eq h3, ok_bind, e1, e2]

theorem tofHyperbolic_eq (hmu : 0 < mu) (hs : 0 < s) (hc : c ≤ s) (ha : a < 0) :
    tofHyperbolic mu a s c θ = .ok (Thorne.lagF mu s c (-betaSign θ) .H a) := by
  have h4 : 0 ≤ (-a) ^ 3 / mu := by have : 0 < -a := by linarith
                                    positivity
  unfold tofHyperbolic
  rw [hyperbolicAlphaBeta_eq hs hc ha, ok_bind]
  simp only []
  rw [pdiv_eq hmu.ne', ok_bind, psqrt_eq h4, ok_bind, sinh_betaSign]
  congr 1
  simp only [Thorne.lagF]
  ring

/-- `x` of the branch. -/
theorem betaSign_ll (hθ : θ ≤ Real.pi ↔ 0 < ll) : betaSign θ = if 0 < ll then 1 else -1 := by
  unfold betaSign; simp only [hθ]

theorem betaSign_abs (hb : betaSign θ = if 0 < ll then 1 else -1) : betaSign θ * |ll| = ll := by
  rw [hb]
  split
  · rename_i h; rw [abs_of_pos h]; ring
  · rename_i h; rw [abs_of_nonpos (not_lt.1 h)]; ring

/-- Half-angle sines of the elliptic case. -/
theorem ell_half (hs : 0 < s) (hl : ll ^ 2 < 1) (hc : c = s * (1 - ll ^ 2)) (ha : s / 2 ≤ a)
    (hb : betaSign θ = if 0 < ll then 1 else -1) (long : Bool) {y : ℝ}
    (hL : Lanc ll (Thorne.xOf s a (br long)) y) :
    4 * a * Real.sin (((if long = true then 2 * Real.pi - 2 * Real.arcsin (Real.sqrt (s / (2 * a)))
        else 2 * Real.arcsin (Real.sqrt (s / (2 * a)))) +
        2 * Real.arcsin (Real.sqrt ((s - c) / (2 * a))) * betaSign θ) / 2) ^ 2 =
      2 * s * (y + ll * Thorne.xOf s a (br long)) ^ 2 := by
  have h0 : 0 < a := by linarith
  obtain ⟨w, hw, hw2⟩ : ∃ w, 0 < w ∧ w ^ 2 = s / (2 * a) :=
    ⟨Real.sqrt (s / (2 * a)), by positivity, Real.sq_sqrt (by positivity)⟩
  have e1 : Real.sqrt (s / (2 * a)) = w := by rw [← hw2, Real.sqrt_sq hw.le]
  have e2 : Real.sqrt ((s - c) / (2 * a)) = |ll| * w := by
    rw [show (s - c) / (2 * a) = (|ll| * w) ^ 2 by rw [mul_pow, sq_abs, hw2, hc]; ring,
      Real.sqrt_sq (by positivity)]
  have hw1 : w ≤ 1 := by
    have : s / (2 * a) ≤ 1 := by rw [div_le_one (by positivity)]; linarith
    nlinarith
  have hl1 : |ll| < 1 := (sq_lt_one_iff_abs_lt_one _).1 hl
  have hlw : |ll| * w ≤ 1 := by nlinarith [abs_nonneg ll]
  have hlw0 : 0 ≤ |ll| * w := by positivity
  have hx2 : (Thorne.xOf s a (br long)) ^ 2 = 1 - w ^ 2 := by
    cases long
    · simp only [br, Bool.false_eq_true, if_false, Thorne.xOf]
      rw [← hw2, Real.sq_sqrt (by nlinarith)]
    · simp only [br, if_true, Thorne.xOf]
      rw [neg_sq, ← hw2, Real.sq_sqrt (by nlinarith)]
  have hcb : Real.cos (Real.arcsin (|ll| * w)) = y := by
    rw [Real.cos_arcsin, ← Real.sqrt_sq hL.y_pos.le, hL.y_sq, hx2, mul_pow, sq_abs]
    congr 1; ring
  have hca : Real.cos (Real.arcsin w) = Real.sqrt (1 - w ^ 2) := Real.cos_arcsin w
  have hsb : Real.sin (Real.arcsin (|ll| * w) * betaSign θ) = ll * w := by
    rw [sin_betaSign, Real.sin_arcsin (by linarith) hlw, ← mul_assoc, betaSign_abs hb]
  have hcb' : Real.cos (Real.arcsin (|ll| * w) * betaSign θ) = y := by
    rcases betaSign_cases θ with h | h <;> rw [h]
    · rw [mul_one, hcb]
    · rw [mul_neg_one, Real.cos_neg, hcb]
  have hsa : Real.sin (Real.arcsin w) = w := Real.sin_arcsin (by linarith) hw1
  rw [e1, e2]
  have hfin : ∀ X, Real.sin (((if long = true then 2 * Real.pi - 2 * Real.arcsin w
        else 2 * Real.arcsin w) + 2 * Real.arcsin (|ll| * w) * betaSign θ) / 2) = w * (y + ll * X) →
      4 * a * Real.sin (((if long = true then 2 * Real.pi - 2 * Real.arcsin w
        else 2 * Real.arcsin w) + 2 * Real.arcsin (|ll| * w) * betaSign θ) / 2) ^ 2 =
        2 * s * (y + ll * X) ^ 2 := by
    intro X h
    rw [h, mul_pow, hw2]; field_simp; ring
  apply hfin
  cases long with
  | false =>
    simp only [br, Bool.false_eq_true, if_false, Thorne.xOf]
    rw [show (2 * Real.arcsin w + 2 * Real.arcsin (|ll| * w) * betaSign θ) / 2 =
      Real.arcsin w + Real.arcsin (|ll| * w) * betaSign θ by ring, Real.sin_add, hsb, hcb', hsa, hca, ← hw2]
    ring
  | true =>
    simp only [br, if_true, Thorne.xOf]
    rw [show (2 * Real.pi - 2 * Real.arcsin w + 2 * Real.arcsin (|ll| * w) * betaSign θ) / 2 =
      (Real.pi - Real.arcsin w) + Real.arcsin (|ll| * w) * betaSign θ by ring, Real.sin_add, hsb, hcb',
      Real.sin_pi_sub, Real.cos_pi_sub, hsa, hca, ← hw2]
    ring

/-- Half-angle sines of the hyperbolic case. -/
theorem hyp_half (hs : 0 < s) (hc : c = s * (1 - ll ^ 2)) (ha : a < 0)
    (hb : betaSign θ = if 0 < ll then 1 else -1) {y : ℝ} (hL : Lanc ll (Thorne.xOf s a .H) y) :
    -4 * a * Real.sinh ((2 * Real.arsinh (Real.sqrt (-s / (2 * a))) +
        2 * Real.arsinh (Real.sqrt ((c - s) / (2 * a))) * betaSign θ) / 2) ^ 2 =
      2 * s * (y + ll * Thorne.xOf s a .H) ^ 2 := by
  have h2 : 0 < -s / (2 * a) := div_pos_of_neg_of_neg (by linarith) (by linarith)
  obtain ⟨w, hw, hw2⟩ : ∃ w, 0 < w ∧ w ^ 2 = -s / (2 * a) :=
    ⟨Real.sqrt (-s / (2 * a)), by positivity, Real.sq_sqrt h2.le⟩
  have e1 : Real.sqrt (-s / (2 * a)) = w := by rw [← hw2, Real.sqrt_sq hw.le]
  have e2 : Real.sqrt ((c - s) / (2 * a)) = |ll| * w := by
    rw [show (c - s) / (2 * a) = (|ll| * w) ^ 2 by rw [mul_pow, sq_abs, hw2, hc]; ring,
      Real.sqrt_sq (by positivity)]
  have hx : Thorne.xOf s a .H = Real.sqrt (1 + w ^ 2) := by
    simp only [Thorne.xOf]; rw [hw2]; congr 1; ring
  have hx2 : Thorne.xOf s a .H ^ 2 = 1 + w ^ 2 := by rw [hx, Real.sq_sqrt (by positivity)]
  have hcb : Real.cosh (Real.arsinh (|ll| * w)) = y := by
    rw [Real.cosh_arsinh, ← Real.sqrt_sq hL.y_pos.le, hL.y_sq, hx2, mul_pow, sq_abs]
    congr 1; ring
  have hsb : Real.sinh (Real.arsinh (|ll| * w) * betaSign θ) = ll * w := by
    rw [sinh_betaSign, Real.sinh_arsinh, ← mul_assoc, betaSign_abs hb]
  have hcb' : Real.cosh (Real.arsinh (|ll| * w) * betaSign θ) = y := by
    rcases betaSign_cases θ with h | h <;> rw [h]
    · rw [mul_one, hcb]
    · rw [mul_neg_one, Real.cosh_neg, hcb]
  rw [e1, e2, show (2 * Real.arsinh w + 2 * Real.arsinh (|ll| * w) * betaSign θ) / 2 =
    Real.arsinh w + Real.arsinh (|ll| * w) * betaSign θ by ring, Real.sinh_add, hsb, hcb',
    Real.sinh_arsinh, Real.cosh_arsinh, ← hx,
    show w * y + Thorne.xOf s a .H * (ll * w) = w * (y + ll * Thorne.xOf s a .H) by ring, mul_pow, hw2]
  have := ha.ne
  field_simp
  ring

/-- The semi-latus rectum of the transfer of parameter `V`. -/
theorem p_common {R1 R2 x y K : ℝ} (hS : Semi R1 R2 c s ll) (hcos : c ^ 2 = R1 ^ 2 + R2 ^ 2 - 2 * K)
    (hL : Lanc ll x y) :
    2 * s * (s - R1) * (s - R2) * (y + ll * x) ^ 2 / c ^ 2 = (R1 * R2 - K) / (s * (y - ll * x) ^ 2) := by
  have hs := hS.spos
  have hc := hS.cpos
  have h1 := hL.eta_pos
  have e1 : 2 * (s - R1) * (s - R2) = R1 * R2 - K := by
    rw [hS.hs]; linear_combination (1 / 2) * hcos
  have e2 : c = s * ((y - ll * x) * (y + ll * x)) := by rw [hL.prod, hS.chord]
  have h2 := hL.add_pos
  rw [← e1, e2]
  field_simp

end Jiang
end Lamberthub
