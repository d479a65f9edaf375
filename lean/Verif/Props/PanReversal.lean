import Verif.Props.PanWrong
import Verif.Props.PanOrbit
import Verif.Props.ReversalMore
import Verif.Props.Brackets
import Verif.Props.Angles
import Verif.Proofs.ArrivalUnique
import Verif.Proofs.KeplerUnique

/-! # C59: `pan2016` does not reverse its transfers -/

set_option autoImplicit false

namespace Lamberthub
open Spec LC Pan

/-- Without revolutions, the departure and arrival velocities determine the elapsed time. -/
theorem LambertArc.time_unique {μ : ℝ} {r1 r2 v1 v2 : V3} {T T' : ℝ} (h : LambertArc μ r1 r2 v1 v2 T 0)
    (h' : LambertArc μ r1 r2 v1 v2 T' 0) : T = T' := by
  have key : ∀ {T T' : ℝ}, LambertArc μ r1 r2 v1 v2 T 0 → LambertArc μ r1 r2 v1 v2 T' 0 → ¬ T < T' := by
    intro T T' h h' hlt
    obtain ⟨hT, p, v, hk, hp0, hv0, hpT, hvT, hc⟩ := h
    obtain ⟨hT', p', v', hk', hp0', hv0', hpT', hvT', hc'⟩ := h'
    obtain ⟨rfl, rfl⟩ := hk.unique hk' (t₀ := 0) (by rw [hp0, hp0']) (by rw [hv0, hv0'])
    have he : {t : ℝ | 0 < t ∧ t < T' ∧ SameDirection r1 (p t)} = ∅ := Set.encard_eq_zero.1 (by exact_mod_cast hc')
    have hsh : KeplerMotion μ (fun t => p (t + (T' - T))) (fun t => v (t + (T' - T))) := by
      refine ⟨fun t => hk.no_collision _, fun t => ?_, fun t => ?_⟩
      · obtain ⟨a, b, c⟩ := hk.velocity (t + (T' - T))
        exact ⟨a.comp_add_const t (T' - T), b.comp_add_const t (T' - T), c.comp_add_const t (T' - T)⟩
      · obtain ⟨a, b, c⟩ := hk.newton (t + (T' - T))
        exact ⟨a.comp_add_const t (T' - T), b.comp_add_const t (T' - T), c.comp_add_const t (T' - T)⟩
    obtain ⟨hq, -⟩ := hk.unique hsh (t₀ := T) (by
        show p T = p (T + (T' - T))
        rw [show T + (T' - T) = T' by ring, hpT, hpT']) (by
        show v T = v (T + (T' - T))
        rw [show T + (T' - T) = T' by ring, hvT, hvT'])
    have h0 := congrFun hq 0
    simp only [zero_add] at h0
    have hmem : (T' - T) ∈ {t : ℝ | 0 < t ∧ t < T' ∧ SameDirection r1 (p t)} :=
      ⟨by linarith, by linarith, 1, one_pos, by rw [← h0, hp0]; ext <;> simp⟩
    rw [he] at hmem
    exact hmem
  exact le_antisymm (not_lt.1 (key h' h)) (not_lt.1 (key h h'))

namespace Pan

theorem fixEcc_cos (e w : ℝ) : (fixEcc e w).1 * Real.cos (fixEcc e w).2 = e * Real.cos w := by
  unfold fixEcc
  split
  · simp only [Real.cos_add_pi]; ring
  · rfl

theorem fixEcc_fst (e w : ℝ) : (fixEcc e w).1 = |e| := by
  unfold fixEcc
  split
  · rename_i h; exact (abs_of_neg h).symm
  · rename_i h; exact (abs_of_nonneg (not_lt.1 h)).symm

/-- The elements between positions at distances `2R` and `R`, a three-quarter turn apart. -/
theorem elements_back {r1 r2 : V3} {θ ω : ℝ} {g : Geometry} {el : Elements} (hP : Plane r1 r2 θ g)
    (hR : 0 < V3.norm r2) (h2 : V3.norm r1 = 2 * V3.norm r2) (hc : Real.cos θ = 0) (hs : Real.sin θ = -1)
    (h : elementsAtOmega g ω = .ok el) :
    2 * Real.cos ω + Real.sin ω ≠ 0 ∧ el.ecc = |1 / (2 * Real.cos ω + Real.sin ω)| ∧
      el.ecc * Real.cos el.omega = -(Real.cos ω / (2 * Real.cos ω + Real.sin ω)) ∧
      el.a * ((2 * Real.cos ω + Real.sin ω) ^ 2 - 1) =
        2 * V3.norm r2 * (2 * Real.cos ω + Real.sin ω) * (Real.cos ω + Real.sin ω) := by
  unfold elementsAtOmega at h
  simp only [bind_ok, raiseIf_ok, pdiv_ok] at h
  obtain ⟨_, -, ecc0, ⟨hc0, rfl⟩, _, -, a, ⟨hd0, rfl⟩, h⟩ := h
  rw [hP.n1, hP.n2, hP.xc, hP.yc, hP.x1, hP.x2, hP.y1, hP.y2, h2, hc, hs] at *
  obtain rfl := (Except.ok.inj h).symm
  simp only [fixEcc_cos]
  simp only [fixEcc_fst]
  clear h
  generalize V3.norm r2 = R at *
  generalize Real.cos ω = c at *
  generalize Real.sin ω = s at *
  have hC : (R * 0 - 2 * R) * c + R * -1 * s = -(R * (2 * c + s)) := by ring
  rw [hC] at hc0 hd0 ⊢
  have hd : 2 * c + s ≠ 0 := by rintro h0; apply hc0; rw [h0]; ring
  have he : (2 * R - R) / -(R * (2 * c + s)) = -(1 / (2 * c + s)) := by
    rw [div_neg, show 2 * R - R = R * 1 by ring, mul_div_mul_left _ _ hR.ne']
  refine ⟨hd, ?_, ?_, ?_⟩
  · rw [he, abs_neg]
  · rw [he]; ring
  · have hD : (2 * R - R) ^ 2 - (-(R * (2 * c + s))) ^ 2 = -(R ^ 2 * ((2 * c + s) ^ 2 - 1)) := by ring
    rw [hD] at hd0 ⊢
    have hne : (2 * c + s) ^ 2 - 1 ≠ 0 := by rintro h0; apply hd0; rw [h0]; ring
    generalize (2 * c + s) ^ 2 - 1 = D at *
    field_simp
    ring

/-- Bounds for the two pairs of samples next to the apse line of the returned orbit. -/
theorem axis_back {R φ a : ℝ} (hR : 0 < R) (h0 : 0.0086 ≤ φ) (h1 : φ ≤ 0.018)
    (h : a * ((2 * Real.sin φ + Real.cos φ) ^ 2 - 1) =
      2 * R * (2 * Real.sin φ + Real.cos φ) * (Real.sin φ + Real.cos φ)) :
    1 < 2 * Real.sin φ + Real.cos φ ∧ 0 < a ∧ a ≤ 64 * R := by
  have hp : 0 < φ := by linarith
  have s0 : φ - φ ^ 3 / 4 < Real.sin φ := by
    have := Real.sin_gt_sub_cube hp
    have := pow_pos hp 3
    linarith
  have s1 := Real.sin_lt hp
  have c0 : 1 - φ ^ 2 / 2 ≤ Real.cos φ := Real.one_sub_sq_div_two_le_cos
  have c1 := Real.cos_le_one φ
  have t := Real.sin_sq_add_cos_sq φ
  have h3 : φ ^ 3 ≤ φ * 0.0004 := by nlinarith [mul_pos hp hp]
  have h2 : φ ^ 2 ≤ φ * 0.018 := by nlinarith
  have hs : 0.0085 ≤ Real.sin φ := by linarith
  have hc : 0.999 ≤ Real.cos φ := by linarith
  generalize Real.sin φ = s at *
  generalize Real.cos φ = c at *
  clear s0 c0 h2 h3
  have e : (2 * s + c) ^ 2 - 1 = s * (4 * c + 3 * s) := by linear_combination t
  have hs' : 0 < s := by linarith
  have hc' : 0 < c := by linarith
  have hd : 0 < s * (4 * c + 3 * s) := by positivity
  rw [e] at h
  refine ⟨by nlinarith, ?_, ?_⟩
  · have : 0 < a * (s * (4 * c + 3 * s)) := by rw [h]; positivity
    exact pos_of_mul_pos_left this hd.le
  · refine le_of_mul_le_mul_right ?_ hd
    rw [h]
    have : 2 * (2 * s + c) * (s + c) ≤ 64 * (s * (4 * c + 3 * s)) := by nlinarith
    nlinarith

/-- The time at those samples. -/
theorem time_back {mu : ℝ} (hmu : 0 < mu) {r1 r2 : V3} {θ ω φ σ T : ℝ} {g : Geometry} (hP : Plane r1 r2 θ g)
    (hR : 0 < V3.norm r2) (h2 : V3.norm r1 = 2 * V3.norm r2) (hc : Real.cos θ = 0) (hs : Real.sin θ = -1)
    (hσ : σ = 1 ∨ σ = -1) (hw1 : Real.cos ω = σ * Real.sin φ) (hw2 : Real.sin ω = σ * Real.cos φ)
    (h0 : 0.0086 ≤ φ) (h1 : φ ≤ 0.018) (h : tofAtOmega mu g ω = .ok T) :
    T ≤ 3300 * Real.sqrt (V3.norm r2 ^ 3 / mu) := by
  unfold tofAtOmega at h
  simp only [bind_ok] at h
  obtain ⟨el, hel, h⟩ := h
  obtain ⟨hd, hecc, -, ha⟩ := elements_back hP hR h2 hc hs hel
  rw [hw1, hw2] at ha hecc
  have hσ2 : σ ^ 2 = 1 := by rcases hσ with rfl | rfl <;> norm_num
  have ha' : el.a * ((2 * Real.sin φ + Real.cos φ) ^ 2 - 1) =
      2 * V3.norm r2 * (2 * Real.sin φ + Real.cos φ) * (Real.sin φ + Real.cos φ) := by
    linear_combination ha + (2 * V3.norm r2 * (2 * Real.sin φ + Real.cos φ) * (Real.sin φ + Real.cos φ) -
      el.a * (2 * Real.sin φ + Real.cos φ) ^ 2) * hσ2
  obtain ⟨b1, b2, b3⟩ := axis_back hR h0 h1 ha'
  have he1 : el.ecc < 1 := by
    rw [hecc, show 2 * (σ * Real.sin φ) + σ * Real.cos φ = σ * (2 * Real.sin φ + Real.cos φ) by ring, abs_div, abs_mul,
      abs_one, show |σ| = 1 by rcases hσ with rfl | rfl <;> norm_num, one_mul, abs_of_pos (by linarith),
      div_lt_one (by linarith)]
    exact b1
  unfold tofFromElements at h
  rw [if_pos he1] at h
  simp only [ellipticTof, bind_ok, pdiv_ok, psqrt_ok] at h
  obtain ⟨_, -, E1, -, E2, -, q, ⟨-, rfl⟩, s, ⟨-, rfl⟩, h⟩ := h
  obtain rfl := (Except.ok.inj h).symm
  obtain ⟨d0, d1⟩ := pmod_range (a := E2 - el.ecc * Real.sin E2 - (E1 - el.ecc * Real.sin E1)) Real.two_pi_pos
  generalize pmod _ (2 * Real.pi) = D at *
  have hq : el.a ^ 3 / mu ≤ (512 : ℝ) ^ 2 * (V3.norm r2 ^ 3 / mu) := by
    rw [← mul_div_assoc]
    refine div_le_div_of_nonneg_right ?_ hmu.le
    calc el.a ^ 3 ≤ (64 * V3.norm r2) ^ 3 := pow_le_pow_left₀ b2.le b3 3
      _ = _ := by ring
  have h4 := Real.sqrt_le_sqrt hq
  rw [Real.sqrt_mul (by positivity), Real.sqrt_sq (by norm_num)] at h4
  have hpi := Real.pi_lt_d2
  calc Real.sqrt (el.a ^ 3 / mu) * D ≤ 512 * Real.sqrt (V3.norm r2 ^ 3 / mu) * 6.3 :=
        mul_le_mul h4 (by linarith) d0 (by positivity)
    _ ≤ _ := by nlinarith [Real.sqrt_nonneg (V3.norm r2 ^ 3 / mu)]

/-- A bracket comes from a sample. -/
theorem bracket_from {brentq : Brent} (hb : BrentSpec brentq) {mu tof atol rtol ω : ℝ} {g : Geometry} {maxiter n : ℕ}
    (h : findArgumentOfPeriapsis brentq mu g tof maxiter atol rtol = .ok (ω, n)) :
    ∃ i < 720, (safeResidual mu g tof (sample i) = some 0 ∧ sample i - eps ≤ ω ∧ ω ≤ sample i + eps) ∨
      ∃ l r, safeResidual mu g tof (sample i) = some l ∧ safeResidual mu g tof (sample (i + 1)) = some r ∧
        l * r < 0 ∧ sample i ≤ ω ∧ ω ≤ sample (i + 1) := by
  unfold findArgumentOfPeriapsis at h
  split at h
  · cases h
  · rename_i b l hl
    have hmem : b ∈ getOmegaBrackets mu g tof := by rw [hl]; exact List.mem_cons_self
    have hle := bracket_le hmem
    simp only [bezierRoot, bind_ok] at h
    obtain ⟨flo, -, fhi, -, h⟩ := h
    have hin := bezierLoop_mem hb maxiter 1 hle h
    unfold getOmegaBrackets at hmem
    obtain ⟨i, hi, hbr⟩ := List.mem_filterMap.1 hmem
    refine ⟨i, List.mem_range.1 hi, ?_⟩
    unfold bracketAt at hbr
    split at hbr
    · rename_i l r h1 h2
      split at hbr
      · rename_i h0
        obtain rfl := Option.some.inj hbr
        exact .inl ⟨by rw [h1, h0], hin.1, hin.2⟩
      · split at hbr
        · rename_i h0 h3
          obtain rfl := Option.some.inj hbr
          exact .inr ⟨l, r, h1, h2, h3, hin.1, hin.2⟩
        · cases hbr
    · cases hbr

/-- The samples are the multiples of their distance. -/
theorem sample_grid : ∃ h, 0.0087 ≤ h ∧ h ≤ 0.00875 ∧ Real.pi = 360 * h + eps ∧
    ∀ i : ℕ, sample i = ((i : ℤ) - 360 : ℤ) * h := by
  have h1 := Real.pi_gt_d4
  have h2 := Real.pi_lt_d4
  have h3 : eps ≤ 1e-7 := by unfold eps; norm_num
  have h4 : 0 < eps := by unfold eps; positivity
  refine ⟨(Real.pi - eps) / 360, ?_, ?_, by ring, fun i => ?_⟩
  · rw [le_div_iff₀ (by norm_num)]; linarith
  · rw [div_le_iff₀ (by norm_num)]; linarith
  · unfold sample; push_cast; ring

theorem no_bracket {h κ ω : ℝ} {m : ℤ} {i : ℕ} (hω : ω = m * h - κ) (k0 : 0 < κ) (k1 : κ + eps < h)
    (hs : ∀ i : ℕ, sample i = ((i : ℤ) - 360 : ℤ) * h) :
    (sample i - eps ≤ ω → ω ≤ sample i + eps → (i : ℤ) = m + 360) ∧
      (sample i ≤ ω → ω ≤ sample (i + 1) → (i : ℤ) = m + 359) := by
  have h4 : 0 < eps := by unfold eps; positivity
  have hh : 0 < h := by linarith
  rw [hs i, hs (i + 1), hω]
  push_cast
  constructor
  · intro a b
    have u1 : (((i : ℤ) - 360 - m : ℤ) : ℝ) < 1 := by
      refine lt_of_mul_lt_mul_right (a := h) ?_ hh.le
      push_cast
      linarith
    have u2 : (-1 : ℝ) < (((i : ℤ) - 360 - m : ℤ) : ℝ) := by
      refine lt_of_mul_lt_mul_right (a := h) ?_ hh.le
      push_cast
      linarith
    have u1' : (i : ℤ) - 360 - m < 1 := by exact_mod_cast u1
    have u2' : -1 < (i : ℤ) - 360 - m := by exact_mod_cast u2
    omega
  · intro a b
    have u1 : (((i : ℤ) - 360 - m : ℤ) : ℝ) < 0 := by
      refine lt_of_mul_lt_mul_right (a := h) ?_ hh.le
      push_cast
      linarith
    have u2 : (-2 : ℝ) < (((i : ℤ) - 360 - m : ℤ) : ℝ) := by
      refine lt_of_mul_lt_mul_right (a := h) ?_ hh.le
      push_cast
      linarith
    have u1' : (i : ℤ) - 360 - m < 0 := by exact_mod_cast u1
    have u2' : -2 < (i : ℤ) - 360 - m := by exact_mod_cast u2
    omega

/-- At those samples the residual, when there is one, is negative. -/
theorem residual_back {mu : ℝ} (hmu : 0 < mu) {r1 r2 : V3} {θ ω φ σ tof v : ℝ} {g : Geometry} (hP : Plane r1 r2 θ g)
    (hR : 0 < V3.norm r2) (h2 : V3.norm r1 = 2 * V3.norm r2) (hc : Real.cos θ = 0) (hs : Real.sin θ = -1)
    (hσ : σ = 1 ∨ σ = -1) (hw : ω = σ * (Real.pi / 2) - φ) (h0 : 0.0086 ≤ φ) (h1 : φ ≤ 0.018)
    (ht : 6600 * Real.sqrt (V3.norm r2 ^ 3 / mu) ≤ tof) (h : safeResidual mu g tof ω = some v) : v < 0 := by
  have hK : 0 < Real.sqrt (V3.norm r2 ^ 3 / mu) := Real.sqrt_pos.2 (by positivity)
  unfold safeResidual at h
  split at h
  · rename_i v' hv
    obtain rfl := Option.some.inj h
    simp only [residual, bind_ok] at hv
    obtain ⟨T, hT, hv⟩ := hv
    obtain rfl := (Except.ok.inj hv).symm
    have := time_back hmu hP hR h2 hc hs (σ := σ) (φ := φ) hσ (by
        rcases hσ with rfl | rfl
        · rw [hw, one_mul, one_mul, Real.cos_pi_div_two_sub]
        · rw [hw, show -1 * (Real.pi / 2) - φ = -(φ + Real.pi / 2) by ring, Real.cos_neg, Real.cos_add_pi_div_two]; ring) (by
        rcases hσ with rfl | rfl
        · rw [hw, one_mul, one_mul, Real.sin_pi_div_two_sub]
        · rw [hw, show -1 * (Real.pi / 2) - φ = -(φ + Real.pi / 2) by ring, Real.sin_neg, Real.sin_add_pi_div_two]; ring)
      h0 h1 hT
    linarith
  · cases h

/-- The search of the reversed problem does not return the apse line of the first one. -/
theorem search_misses {brentq : Brent} (hb : BrentSpec brentq) {mu : ℝ} (hmu : 0 < mu) {r1 r2 : V3}
    {θ ω ε tof atol rtol : ℝ} {g : Geometry} {N n : ℕ} (hP : Plane r1 r2 θ g)
    (hR : 0 < V3.norm r2) (h2 : V3.norm r1 = 2 * V3.norm r2) (hc : Real.cos θ = 0) (hs : Real.sin θ = -1)
    (ht : 6600 * Real.sqrt (V3.norm r2 ^ 3 / mu) ≤ tof) (hε0 : 0 ≤ sample 1 + Real.pi - ε)
    (hε1 : sample 1 + Real.pi - ε ≤ eps / 4)
    (h : findArgumentOfPeriapsis brentq mu g tof N atol rtol = .ok (ω, n)) : Real.cos (ω + ε) ≠ 0 := by
  intro h0
  obtain ⟨st, g1, g2, gpi, gs⟩ := sample_grid
  have e0 : 0 < eps := by unfold eps; positivity
  have e1 : eps ≤ 1e-7 := by unfold eps; norm_num
  have hs1 := gs 1
  push_cast at hs1
  rw [hs1] at hε0 hε1
  have hneg : ∀ (m : ℤ) (σ : ℝ), (m = -181 ∧ σ = -1 ∨ m = 179 ∧ σ = 1) → ∀ (i : ℕ) (v : ℝ),
      ((i : ℤ) = m + 360 ∨ (i : ℤ) = m + 359) → safeResidual mu g tof (sample i) = some v → v < 0 := by
    intro m σ hm i v hi hv
    have hσ : σ = 1 ∨ σ = -1 := by rcases hm with ⟨-, h⟩ | ⟨-, h⟩ <;> simp [h]
    refine residual_back hmu hP hR h2 hc hs hσ (φ := σ * (Real.pi / 2) - sample i) (by ring) ?_ ?_ ht hv
    all_goals
      rw [gs i, gpi]
      rcases hm with ⟨rfl, rfl⟩ | ⟨rfl, rfl⟩ <;> rcases hi with hi | hi <;> rw [hi] <;> push_cast <;> linarith
  have hfin : ∀ (m : ℤ) (σ κ : ℝ), (m = -181 ∧ σ = -1 ∨ m = 179 ∧ σ = 1) → ω = m * st - κ → 0 < κ → κ + eps < st →
      False := by
    intro m σ κ hm hω k0 k1
    obtain ⟨i, -, ⟨a1, a2, a3⟩ | ⟨l, r, a1, a2, a3, a4, a5⟩⟩ := bracket_from hb h
    · exact lt_irrefl _ (hneg m σ hm i 0 (.inl ((no_bracket hω k0 k1 gs).1 a2 a3)) a1)
    · have hi := (no_bracket hω k0 k1 gs).2 a4 a5
      have b1 := hneg m σ hm i l (.inr hi) a1
      have b2 := hneg m σ hm (i + 1) r (.inl (by push_cast; omega)) a2
      nlinarith
  have hrange : -Real.pi ≤ ω ∧ ω ≤ Real.pi := by
    obtain ⟨i, hi, ⟨-, a2, a3⟩ | ⟨l, r, -, -, -, a4, a5⟩⟩ := bracket_from hb h
    · have hi' : (i : ℝ) ≤ 719 := by exact_mod_cast (by omega : i ≤ 719)
      have hi0 : (0 : ℝ) ≤ i := i.cast_nonneg
      rw [gs i] at a2 a3
      push_cast at a2 a3
      constructor <;> nlinarith
    · have hi' : (i : ℝ) ≤ 719 := by exact_mod_cast (by omega : i ≤ 719)
      have hi0 : (0 : ℝ) ≤ i := i.cast_nonneg
      rw [gs i] at a4
      rw [gs (i + 1)] at a5
      push_cast at a4 a5
      constructor <;> nlinarith
  obtain ⟨k, hk⟩ := Real.cos_eq_zero_iff.1 h0
  have hpi := Real.pi_gt_three
  have k1 : (k : ℝ) < 1 := by
    by_contra hcon
    push Not at hcon
    nlinarith [hrange.2]
  have k2 : (-2 : ℝ) < k := by
    by_contra hcon
    push Not at hcon
    nlinarith [hrange.1]
  have k1' : k < 1 := by exact_mod_cast k1
  have k2' : -2 < k := by exact_mod_cast k2
  obtain rfl | rfl : k = -1 ∨ k = 0 := by omega
  · refine hfin (-181) (-1) (-181 * st - ω) (.inl ⟨rfl, rfl⟩) (by push_cast; ring) ?_ ?_
    all_goals push_cast at hk; linarith
  · refine hfin 179 1 (179 * st - ω) (.inr ⟨rfl, rfl⟩) (by push_cast; ring) ?_ ?_
    all_goals push_cast at hk; linarith

/-- Equal angular momenta force the same apse line. -/
theorem same_apse {mu R ε ω L p : ℝ} (hmu : 0 < mu) (hR : 0 < R) (hd : 2 * Real.cos ω + Real.sin ω ≠ 0)
    (h1 : L * (Real.cos ε + 2 * Real.sin ε) = mu * (2 * R * (Real.cos ε + Real.sin ε)))
    (h2 : 2 * R * (1 + -(Real.cos ω / (2 * Real.cos ω + Real.sin ω))) = p) (h3 : L = mu * p) :
    Real.cos (ω + ε) = 0 := by
  have h4 : p * (2 * Real.cos ω + Real.sin ω) = 2 * R * (Real.cos ω + Real.sin ω) := by
    rw [← h2]; field_simp; ring
  rw [h3] at h1
  have h5 : p * (Real.cos ε + 2 * Real.sin ε) = 2 * R * (Real.cos ε + Real.sin ε) :=
    mul_left_cancel₀ hmu.ne' (by linarith)
  have h6 : 2 * R * Real.cos (ω + ε) = 0 := by
    rw [Real.cos_add]
    linear_combination (Real.cos ε + 2 * Real.sin ε) * h4 - (2 * Real.cos ω + Real.sin ω) * h5
  exact (mul_eq_zero.1 h6).resolve_left (by positivity)

end Pan

/-- **C59 for `pan2016`: the property does not hold**, with any `brentq` that respects its bracket
and evaluates the point it returns.  For positions at distances `R` and `2R` at a right angle,
the long way round, the transfer returned for a time of flight between `6600` and `1e5` times
`√(R³/mu)` is not the reverse of the one returned (if any) for the reversed problem with the
same arguments, the default ones included. -/
theorem pan_not_reversible {b : Brent} (hb : BrentSpec b) (he : BrentEvaluates b) {mu : ℝ} (hmu : 0 < mu) {r1 r2 : V3}
    (hR : 1 ≤ len r1) (h2 : len r2 = 2 * len r1) (hdot : Spec.inner r1 r2 = 0) {pro : Bool}
    (hsw : ¬ ShortWay pro r1 r2) {tof : ℝ} (ht1 : 6600 * Real.sqrt (len r1 ^ 3 / mu) ≤ tof)
    (ht2 : tof ≤ 1e5 * Real.sqrt (len r1 ^ 3 / mu)) {atol rtol : ℝ} (ha1 : 1e-5 ≤ atol) (ha2 : atol ≤ 1 / 2)
    (hr : 0 ≤ rtol) (hr' : rtol ≤ 1 / 2) {N : ℕ} (hN : 1 ≤ N) (low full : Bool) (clock : ℝ) :
    ∃ out, pan2016 b mu r1 r2 tof 0 pro low N atol rtol full clock = .ok out ∧
      ∀ out', pan2016 b mu r2 r1 tof 0 (!pro) low N atol rtol full clock = .ok out' → out'.v1 ≠ -out.v2 := by
  have hK : 0 < Real.sqrt (len r1 ^ 3 / mu) := Real.sqrt_pos.2 (by positivity)
  obtain ⟨out, T, ε, hout, harc, -, hT, -, hε0, hε1, hL⟩ := Pan.wrong_orbit b hmu hR h2 hdot hsw ht1
    (ht2.trans (by linarith)) ha1 ha2 hr hN low full clock
  refine ⟨out, hout, fun out' h' hv => ?_⟩
  have hε1' : sample 1 + Real.pi - ε ≤ eps / 4 := by
    have : (sample 1 + Real.pi - ε) * (4.7e11 * Real.sqrt (len r1 ^ 3 / mu)) ≤
        eps / 4 * (4.7e11 * Real.sqrt (len r1 ^ 3 / mu)) := by
      unfold eps
      refine hε1.trans ?_
      norm_num at ht2 ⊢
      linarith
    exact le_of_mul_le_mul_right this (by positivity)
  have htof : 0 < tof := by linarith
  have hna : NotAligned r1 r2 := by
    rintro ⟨a1, a2, a3⟩
    rw [len_eq_norm] at hR h2
    rw [len_eq_norm] at h2
    have n1 : 0 < V3.dot r1 r1 := Real.sqrt_pos.1 (show 0 < V3.norm r1 by linarith)
    have n2 : 0 < V3.dot r2 r2 := Real.sqrt_pos.1 (show 0 < V3.norm r2 by linarith)
    have : V3.dot r1 r1 * V3.dot r2 r2 = Spec.inner r1 r2 ^ 2 + (r1.y * r2.z - r1.z * r2.y) ^ 2 +
        (r1.z * r2.x - r1.x * r2.z) ^ 2 + (r1.x * r2.y - r1.y * r2.x) ^ 2 := by simp only [V3.dot, Spec.inner]; ring
    rw [a1, a2, a3, hdot] at this
    nlinarith [mul_pos n1 n2]
  have hna' : NotAligned r2 r1 := NotAligned.symm hna
  obtain ⟨hrev, -⟩ := arc_reversal hmu hna harc
  have hval : vallado2013 mu r2 r1 tof 0 (!pro) low N atol rtol full clock = .ok out' → False := by
    intro h
    obtain ⟨⟨T', hT', hclose⟩, -⟩ := vallado_kepler_transfer h hna'
    rw [hv] at hT'
    rw [LambertArc.arrival_unique hmu.ne' hna' hT' hrev] at hT'
    obtain rfl := LambertArc.time_unique hT' hrev
    have h1 := (abs_lt.1 hclose).1
    nlinarith
  obtain ⟨g, θ, hA, hP, hrun⟩ := Pan.entry hmu hna' (!pro)
  have hL' : Spec.inner (outer r2 out'.v1) (outer r2 out'.v1) = Spec.inner (outer r1 out.v1) (outer r1 out.v1) := by
    obtain ⟨-, pos, vel, hk, p0, q0, pT, qT, -⟩ := harc
    have a1 := angMom_const hk T 0
    rw [p0, q0, pT, qT] at a1
    rw [hv, ← a1]
    simp only [outer, Spec.inner, V3.neg_x, V3.neg_y, V3.neg_z]
    ring
  rw [hrun tof htof] at h'
  rw [len_eq_norm] at hR h2 ht1 hL
  rw [len_eq_norm] at h2
  have hR1 : 0 < V3.norm r1 := by linarith
  have hR2 : 0 < V3.norm r2 := by linarith
  have hne : V3.norm r2 ≠ V3.norm r1 := by rw [h2]; linarith
  have hc : Real.cos θ = 0 := by
    have := hA.cos_eq
    have hd : V3.dot r2 r1 = 0 := by rw [V3.dot_swap]; exact hdot
    rw [hd] at this
    simpa [hR1.ne', hR2.ne'] using this
  have hs : Real.sin θ = -1 := by
    have hsw' : ¬ ShortWay (!pro) r2 r1 := by
      have hz : crossZ r2 r1 = -crossZ r1 r2 := by unfold crossZ; ring
      unfold ShortWay at hsw ⊢
      rw [hz]
      cases pro <;> simpa using hsw
    have hlt : Real.pi < θ := lt_of_le_of_ne (not_lt.1 fun h => hsw' (hA.short.1 h)) hA.ne_pi.symm
    have hneg : Real.sin θ < 0 := by
      have := Real.sin_pos_of_pos_of_lt_pi (x := θ - Real.pi) (by linarith) (by linarith [hA.lt])
      rw [Real.sin_sub_pi] at this
      linarith
    have := Real.sin_sq_add_cos_sq θ
    rw [hc] at this
    nlinarith
  split at h'
  · exact hval h'
  split at h'
  · rename_i ω n hfind
    obtain ⟨-, Tω, hTω⟩ := find_ok hb he hfind
    simp only [finish, bind_ok] at h'
    obtain ⟨tpi, -, el, hel, ⟨v1, v2⟩, hrec, h'⟩ := h'
    obtain rfl := (Except.ok.inj h').symm
    simp only [mkOutput_v1] at hL'
    obtain ⟨he0, hen, hf1, hf2, e1, e2⟩ := elements_ok hP hR2 hR1 hne hel
    rw [tofAtOmega, hel, ok_bind] at hTω
    obtain ⟨hp, -⟩ := tofFromElements_ok hmu hR2 hR1 he0 hen (twoPoints hA hR2 hR1 he0 hf1 hf2 e1 e2) hTω
    have hh := reconstruct_angMom hmu hA hna' hP hf1 e1 hp hrec
    obtain ⟨hd, -, hec, -⟩ := elements_back hP hR1 h2 hc hs hel
    rw [hec, h2] at e1
    exact search_misses hb hmu hP hR1 h2 hc hs ht1 hε0 hε1' hfind
      (same_apse hmu hR1 hd hL e1 (hL'.symm.trans hh))
  · exact hval h'
  · cases h'

/-- The hypotheses are satisfiable: from `(1, 0, 0)` to `(0, -2, 0)`, prograde, in `10000`
units of time, with the default number of iterations and tolerances. -/
example : ∃ out, pan2016 exactBrent 1 ⟨1, 0, 0⟩ ⟨0, -2, 0⟩ 10000 0 true true 35 1e-5 1e-7 false 0 = .ok out ∧
    ∀ out', pan2016 exactBrent 1 ⟨0, -2, 0⟩ ⟨1, 0, 0⟩ 10000 0 false true 35 1e-5 1e-7 false 0 = .ok out' →
      out'.v1 ≠ -out.v2 := by
  have n1 : len ⟨1, 0, 0⟩ = 1 := by rw [len_eq_norm]; norm_num [V3.norm, V3.dot]
  have n2 : len ⟨0, -2, 0⟩ = 2 := by
    rw [len_eq_norm]
    norm_num [V3.norm, V3.dot]
    rw [show (4 : ℝ) = 2 ^ 2 by norm_num, Real.sqrt_sq (by norm_num)]
  exact pan_not_reversible exactBrent_spec exactBrent_evaluates (mu := 1) one_pos (r1 := ⟨1, 0, 0⟩) (r2 := ⟨0, -2, 0⟩)
    (by rw [n1]) (by rw [n1, n2]; norm_num) (by norm_num [Spec.inner]) (pro := true)
    (by simp [ShortWay, crossZ]) (tof := 10000) (by rw [n1]; norm_num) (by rw [n1]; norm_num) (atol := 1e-5)
    (rtol := 1e-7) le_rfl (by norm_num) (by norm_num) (by norm_num) (N := 35) (by norm_num) true false 0

end Lamberthub
