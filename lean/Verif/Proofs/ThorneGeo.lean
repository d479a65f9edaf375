import Verif.Proofs.ThorneLemmas
import Verif.Props.Izzo
import Verif.Props.Angles

/-! Geometry and reconstruction of `thorne2004`. -/

set_option autoImplicit false

namespace Lamberthub
open Spec LC

/-- The semi-major axis of the orbit through `r` with velocity `v`, defined by the energy. -/
def Spec.HasSemiMajor (μ : ℝ) (r v : V3) (a : ℝ) : Prop :=
  a ≠ 0 ∧ len v ^ 2 / 2 - μ / len r = -μ / (2 * a)

/-- Energy of the orbit of parameter `V`. -/
theorem fgV1_energy {μ A V : ℝ} (hμ : 0 < μ) (hV : 0 < V) {r1 r2 : V3} (hG : Geo r1 r2 A) :
    V3.dot (fgV1 μ r1 r2 A V) (fgV1 μ r1 r2 A V) / 2 - μ / V3.norm r1 =
      μ * ((V3.norm r1 + V3.norm r2 - V) ^ 2 - 2 * A ^ 2) / (2 * A ^ 2 * V) := by
  have hR1 := hG.R1
  have hA := hG.hA
  have h1 := norm_mul_self r1
  have h2 := norm_mul_self r2
  have hd : V3.dot r1 r2 = A ^ 2 - V3.norm r1 * V3.norm r2 := by rw [hG.hA2]; ring
  have hg2 : (A * Real.sqrt (V / μ)) ^ 2 = A ^ 2 * V / μ := by
    rw [mul_pow, Real.sq_sqrt (by positivity)]; ring
  have e : V3.dot (fgV1 μ r1 r2 A V) (fgV1 μ r1 r2 A V) =
      ((A * Real.sqrt (V / μ)) ^ 2)⁻¹ * (V3.dot r2 r2 - 2 * (1 - V / V3.norm r1) * V3.dot r1 r2 +
        (1 - V / V3.norm r1) ^ 2 * V3.dot r1 r1) := by
    unfold fgV1
    generalize A * Real.sqrt (V / μ) = g
    generalize 1 - V / V3.norm r1 = f
    simp only [V3.dot, V3.smul_x, V3.smul_y, V3.smul_z, V3.sub_x, V3.sub_y, V3.sub_z]
    rw [← inv_pow]
    ring
  rw [e, hg2, ← h1, ← h2, hd]
  field_simp
  ring

theorem Lanc.energy {lam x y : ℝ} (h : Lanc lam x y) {μ s : ℝ} (hμ : 0 < μ) (hs : 0 < s) {r1 r2 : V3}
    (hG : Geo r1 r2 (Real.sqrt 2 * s * lam)) (hsum : V3.norm r1 + V3.norm r2 = s * (1 + lam ^ 2)) :
    len (fgV1 μ r1 r2 (Real.sqrt 2 * s * lam) (s * (y - lam * x) ^ 2)) ^ 2 / 2 - μ / len r1 =
      -μ * (1 - x ^ 2) / s := by
  have hη := h.eta_pos
  have hr2 : Real.sqrt 2 ^ 2 = 2 := Real.sq_sqrt (by norm_num)
  have hlam : lam ≠ 0 := by
    rintro rfl
    exact hG.hA (by ring)
  rw [len_eq_norm, len_eq_norm, sq (V3.norm _), norm_mul_self, fgV1_energy hμ (by positivity) hG, hsum, mul_pow,
    mul_pow, hr2]
  have h1 := h.eta_sq
  have h2 := h.sin_sq
  have e : s * (1 + lam ^ 2) - s * (y - lam * x) ^ 2 = 2 * s * lam * (x * y + lam * (1 - x ^ 2)) := by
    rw [h1]; ring
  rw [e, div_eq_div_iff (by positivity) hs.ne']
  linear_combination (-4 * μ * s ^ 3 * lam ^ 2) * h2

theorem Izzo.reconstruct_fwd {x y R1 R2 ll gamma rho sigma : ℝ} (h1 : R1 ≠ 0) (h2 : R2 ≠ 0) :
    Izzo.reconstruct x y R1 R2 ll gamma rho sigma =
      .ok (gamma * ((ll * y - x) - rho * (ll * y + x)) / R1,
        -gamma * ((ll * y - x) + rho * (ll * y + x)) / R2,
        gamma * sigma * (y + ll * x) / R1, gamma * sigma * (y + ll * x) / R2) := by
  unfold Izzo.reconstruct
  rw [pdiv_eq h1, ok_bind, pdiv_eq h2, ok_bind, pdiv_eq h1, ok_bind, pdiv_eq h2, ok_bind]

namespace Thorne

theorem geometry_sign {r1 r2 : V3} {pro : Bool} {s ll : ℝ} {it1 it2 : V3}
    (h : Izzo.geometry r1 r2 pro = .ok (s, ll, it1, it2)) (hll : ll ≠ 0) :
    (0 < ll ↔ if pro = true then 0 ≤ crossZ r1 r2 else crossZ r1 r2 < 0) := by
  unfold Izzo.geometry at h
  simp only [bind_ok, vdiv_ok, pdiv_ok, psqrt_ok] at h
  obtain ⟨_, ⟨h1, rfl⟩, _, ⟨h2, rfl⟩, ih, ⟨h3, rfl⟩, _, ⟨h4, rfl⟩, l0, ⟨h5, hl0⟩, h⟩ := h
  have hR1 : 0 < V3.norm r1 := (norm_nonneg _).lt_of_ne' h1
  have hR2 : 0 < V3.norm r2 := (norm_nonneg _).lt_of_ne' h2
  have hna : NotAligned r1 r2 := by
    by_contra hna
    apply h3
    rw [cross_smul_smul, norm_smul, cross_eq_zero_iff.2 hna]
    simp [V3.norm, V3.dot]
  rw [unit_normal hR1 hR2] at h
  have hW := cross_norm_pos hna
  have hz : ((V3.norm (V3.cross r1 r2))⁻¹ • V3.cross r1 r2).z < 0 ↔ crossZ r1 r2 < 0 := by
    have hinv : 0 < (V3.norm (V3.cross r1 r2))⁻¹ := inv_pos.2 hW
    change (V3.norm (V3.cross r1 r2))⁻¹ * crossZ r1 r2 < 0 ↔ _
    constructor
    · intro h
      by_contra h'
      push Not at h'
      have := mul_nonneg hinv.le h'
      linarith
    · intro h; exact mul_neg_of_pos_of_neg hinv h
  simp only [hz, Except.ok.injEq, Prod.mk.injEq] at h
  obtain ⟨-, hl, -, -⟩ := h
  have hp : 0 ≤ l0 := by rw [hl0]; positivity
  have hp' : l0 ≠ 0 := by
    rintro rfl
    apply hll
    rw [← hl]
    simp
  have hpos : 0 < l0 := lt_of_le_of_ne hp hp'.symm
  rw [← hl]
  by_cases hc : crossZ r1 r2 < 0 <;> cases pro <;>
    simp only [hc, if_true, if_false, Bool.true_eq_false, Bool.false_eq_true] <;>
    constructor <;> intro h <;> first | linarith | trivial

/-- Everything that is needed about the geometry. -/
theorem geo {r1 r2 : V3} (hna : NotAligned r1 r2) (pro : Bool) :
    ∃ ll, Geo r1 r2 (Real.sqrt 2 * ((V3.norm r1 + V3.norm r2 + V3.norm (r2 - r1)) / 2) * ll) ∧
      Semi (V3.norm r1) (V3.norm r2) (V3.norm (r2 - r1))
        ((V3.norm r1 + V3.norm r2 + V3.norm (r2 - r1)) / 2) ll ∧ ll ≠ 0 ∧
      (0 < ll ↔ if pro = true then 0 ≤ crossZ r1 r2 else crossZ r1 r2 < 0) ∧
      getLambda r1 r2 ((V3.norm r1 + V3.norm r2 + V3.norm (r2 - r1)) / 2) (V3.norm (r2 - r1)) pro =
        .ok ll ∧
      ∀ {μ x y : ℝ}, 0 < μ → Lanc ll x y →
        reconstruct x y μ r1 r2 ((V3.norm r1 + V3.norm r2 + V3.norm (r2 - r1)) / 2)
          (V3.norm (r2 - r1)) pro =
        .ok (fgV1 μ r1 r2 (Real.sqrt 2 * ((V3.norm r1 + V3.norm r2 + V3.norm (r2 - r1)) / 2) * ll)
            (((V3.norm r1 + V3.norm r2 + V3.norm (r2 - r1)) / 2) * (y - ll * x) ^ 2),
          fgV2 μ r1 r2 (Real.sqrt 2 * ((V3.norm r1 + V3.norm r2 + V3.norm (r2 - r1)) / 2) * ll)
            (((V3.norm r1 + V3.norm r2 + V3.norm (r2 - r1)) / 2) * (y - ll * x) ^ 2)) := by
  obtain ⟨s, ll, it1, it2, hg⟩ := Izzo.geometry_eq hna pro
  obtain ⟨ε, hε, hG, hS, hεl, hi1, hi2, -⟩ := Izzo.geometry_ok hg
  have hll : ll ≠ 0 := by rintro rfl; simp at hεl
  have hsg := geometry_sign hg hll
  obtain ⟨hs, hsp, hcp, -, hch, hl1⟩ := id hS
  have hgu := hg
  unfold Izzo.geometry at hgu
  simp only [bind_ok, vdiv_ok, pdiv_ok, psqrt_ok, Except.ok.injEq, Prod.mk.injEq] at hgu
  obtain ⟨_, ⟨h1, rfl⟩, _, ⟨h2, rfl⟩, ih, ⟨h3, hih⟩, _, ⟨h4, rfl⟩, l0, ⟨h5, hl0⟩, hs', hl, ht1, ht2⟩ := hgu
  have hcs : V3.norm (r2 - r1) / s = 1 - ll ^ 2 := by rw [hch]; field_simp
  have hmin : min 1 (V3.norm (r2 - r1) / s) = V3.norm (r2 - r1) / s := by
    rw [hcs]; exact min_eq_right (by nlinarith [sq_nonneg ll])
  rw [hs'] at h4 h5 hl0
  rw [hmin] at h5 hl0
  refine ⟨ll, ?_⟩
  rw [← hs]
  refine ⟨hG, hS, hll, hsg, ?_, ?_⟩
  · unfold getLambda
    rw [vdiv_eq h1, ok_bind, vdiv_eq h2, ok_bind]
    simp only []
    rw [vdiv_eq h3, ok_bind, ← hih, pdiv_eq h4, ok_bind, psqrt_eq h5, ok_bind, ← hl0]
    simp only [hl]
  · intro μ x y hμ hL
    have hrho : 0 ≤ 1 - ((V3.norm r1 - V3.norm r2) / V3.norm (r2 - r1)) ^ 2 := by
      rw [div_pow, sub_nonneg, div_le_one (by positivity), sub_norm_sq]
      linarith [(abs_lt.1 (abs_dot_lt hna)).2]
    unfold reconstruct
    simp only []
    rw [vdiv_eq h1, ok_bind, vdiv_eq h2, ok_bind]
    rw [vdiv_eq h3, ok_bind, ← hih, pdiv_eq h4, ok_bind, psqrt_eq h5, ok_bind, ← hl0]
    simp only [hl, ht1, ht2]
    rw [psqrt_eq (by positivity), ok_bind, pdiv_eq hcp.ne', ok_bind, psqrt_eq hrho, ok_bind, pdiv_eq h1, ok_bind,
      pdiv_eq h2, ok_bind, pdiv_eq h1, ok_bind, pdiv_eq h2, ok_bind]
    obtain ⟨hv1, hv2⟩ := Izzo.reconstruct_ok hμ hε hG hS hεl hL rfl rfl hrho rfl (Izzo.reconstruct_fwd h1 h2)
    rw [hi1, hi2, hv1, hv2]

theorem getLambda_notAligned {r1 r2 : V3} {s c ll : ℝ} {pro : Bool} (h : getLambda r1 r2 s c pro = .ok ll) :
    NotAligned r1 r2 := by
  unfold getLambda at h
  simp only [bind_ok, vdiv_ok] at h
  obtain ⟨_, ⟨h1, rfl⟩, _, ⟨h2, rfl⟩, ih, ⟨h3, rfl⟩, -⟩ := h
  by_contra hna
  apply h3
  rw [cross_smul_smul, norm_smul, cross_eq_zero_iff.2 hna]
  simp [V3.norm, V3.dot]

/-- The motion of Lancaster parameter `x`. -/
theorem arc {μ s lam x y : ℝ} {r1 r2 : V3} (hμ : 0 < μ) (hG : Geo r1 r2 (Real.sqrt 2 * s * lam))
    (hS : Semi (V3.norm r1) (V3.norm r2) (V3.norm (r2 - r1)) s lam) (hL : Lanc lam x y) (hx : -1 < x) :
    LambertArc μ r1 r2 (fgV1 μ r1 r2 (Real.sqrt 2 * s * lam) (s * (y - lam * x) ^ 2))
      (fgV2 μ r1 r2 (Real.sqrt 2 * s * lam) (s * (y - lam * x) ^ 2))
      (Real.sqrt (s ^ 3 / (2 * μ)) * lancT lam x y 0) 0 := by
  have hs := hS.spos
  obtain ⟨T, hp, hT⟩ := hL.path hμ hs (M := 0) hx (.inl rfl)
  rw [← hS.sum] at hp
  have e : Real.sqrt (s ^ 3 / (2 * μ)) * lancT lam x y 0 = T := by
    rw [← hT, ← mul_assoc, ← Real.sqrt_mul (by positivity),
      show s ^ 3 / (2 * μ) * (2 * μ / s ^ 3) = 1 by field_simp, Real.sqrt_one, one_mul]
  rw [e]
  exact hp.arc hμ hG

theorem sense {μ s lam x y : ℝ} {r1 r2 : V3} {pro : Bool} (hμ : 0 < μ)
    (hG : Geo r1 r2 (Real.sqrt 2 * s * lam)) (hs : 0 < s) (hL : Lanc lam x y)
    (hsg : 0 < lam ↔ if pro = true then 0 ≤ crossZ r1 r2 else crossZ r1 r2 < 0)
    (hnp : NotPolar r1 r2) :
    Sense pro r1 (fgV1 μ r1 r2 (Real.sqrt 2 * s * lam) (s * (y - lam * x) ^ 2)) := by
  have hη := hL.eta_pos
  refine sense_of_sign hμ (by positivity) hG.hA hnp ?_
  have hr2p : 0 < Real.sqrt 2 * s := by positivity
  rw [mul_pos_iff_of_pos_left hr2p, hsg]
  have hnp' : crossZ r1 r2 ≠ 0 := hnp
  unfold ShortWay
  cases pro with
  | false => simp
  | true =>
    simp only [if_true]
    exact ⟨fun h => lt_of_le_of_ne h hnp'.symm, fun h => h.le⟩

theorem xOf_gt (s a : ℝ) (br : Branch) (hs : 0 < s) (ha : br = .P ∨ a ∈ Dom s br) : -1 < xOf s a br := by
  cases br with
  | P => simp [xOf]
  | H => have := Real.sqrt_nonneg (1 - s / (2 * a)); simp only [xOf]; linarith
  | A => have := Real.sqrt_nonneg (1 - s / (2 * a)); simp only [xOf]; linarith
  | B =>
    simp only [xOf, neg_lt_neg_iff]
    have h : s / 2 < a := by rcases ha with h | h; cases h; exact h
    rw [Real.sqrt_lt' one_pos]
    have h0 : 0 < a := by linarith
    have : 0 < s / (2 * a) := by positivity
    linarith

theorem xOf_sq {s a : ℝ} {br : Branch} (hs : 0 < s) (ha : a ∈ Dom s br) :
    (xOf s a br) ^ 2 = 1 - s / (2 * a) := by
  have key : s / 2 < a → 0 ≤ 1 - s / (2 * a) := by
    intro h
    have h0 : 0 < a := by linarith
    rw [sub_nonneg, div_le_one (by positivity)]; linarith
  cases br with
  | P => exact absurd ha (Set.notMem_empty _)
  | H =>
    have h : a < 0 := ha
    have h2 : s / (2 * a) < 0 := div_neg_of_pos_of_neg hs (by linarith)
    simp only [xOf]; rw [Real.sq_sqrt (by linarith)]
  | A => simp only [xOf]; rw [Real.sq_sqrt (key ha)]
  | B => simp only [xOf]; rw [neg_sq, Real.sq_sqrt (key ha)]

theorem getX_eq {s a : ℝ} {br : Branch} (hs : 0 < s) (ha : br = .P ∨ a ∈ Dom s br) :
    getX a s br = .ok (xOf s a br) := by
  have key : a ∈ Dom s br → 0 ≤ 1 - s / (2 * a) := fun h => by rw [← xOf_sq hs h]; positivity
  have hne : a ∈ Dom s br → 2 * a ≠ 0 := fun h => mul_ne_zero two_ne_zero (dom_ne hs h)
  cases br with
  | P => simp only [getX, xOf]; norm_num
  | H =>
    have h := ha.resolve_left (by rintro ⟨⟩)
    simp only [getX, xOf]; rw [pdiv_eq (hne h), ok_bind, psqrt_eq (key h)]
  | A =>
    have h := ha.resolve_left (by rintro ⟨⟩)
    simp only [getX, xOf]; rw [pdiv_eq (hne h), ok_bind, psqrt_eq (key h)]
  | B =>
    have h := ha.resolve_left (by rintro ⟨⟩)
    simp only [getX, xOf]; rw [pdiv_eq (hne h), ok_bind, psqrt_eq (key h), ok_bind]

/-- Outcome of the doubling loop. -/
theorem expandBound_ok {test : ℝ → Py Bool} {b0 b : ℝ} (h : expandBound test b0 = .ok b) :
    ∃ k : ℕ, b = b0 * 2 ^ k ∧ test b = .ok false := by
  unfold expandBound at h
  simp only [bind_ok] at h
  obtain ⟨c0, hc0, ⟨b', c'⟩, hl, hb⟩ := h
  obtain rfl := Except.ok.inj hb
  have := whileLoop_inv (fun s : ℝ × Bool => (∃ k : ℕ, s.1 = b0 * 2 ^ k) ∧ test s.1 = .ok s.2) hl
    ⟨⟨0, by simp⟩, hc0⟩ (by
      rintro ⟨x, d⟩ ⟨x', d'⟩ ⟨⟨k, hk⟩, -⟩ - h
      simp only [bind_ok, Except.ok.injEq, Prod.mk.injEq] at h
      obtain ⟨d'', h1, rfl, rfl⟩ := h
      exact ⟨⟨k + 1, by simp only at hk ⊢; rw [hk, pow_succ]; ring⟩, h1⟩)
  obtain ⟨⟨⟨k, hk⟩, ht⟩, hn⟩ := this
  refine ⟨k, hk, ?_⟩
  simp only [Bool.not_eq_true] at hn ht ⊢
  rw [ht, hn]

end Thorne
end Lamberthub
