import Verif.Proofs.Core

/-!
# The bridge theorem in vector form

`arc_ell`, `arc_par`, `arc_hyp`: velocities built from Lagrange coefficients are
solutions of Lambert's problem, for every value of the path parameter.
-/

set_option autoImplicit false

namespace Lamberthub.LC
open Lamberthub Spec

/-- Geometry of a non-degenerate transfer: `A = ±√(|r1||r2| + r1·r2)`. -/
structure Geo (r1 r2 : V3) (A : ℝ) : Prop where
  hA : A ≠ 0
  hA2 : A ^ 2 = V3.norm r1 * V3.norm r2 + V3.dot r1 r2
  hna : NotAligned r1 r2

theorem norm_sq (r : V3) : V3.norm r ^ 2 = r.x ^ 2 + r.y ^ 2 + r.z ^ 2 := by
  unfold V3.norm V3.dot
  rw [Real.sq_sqrt (by nlinarith [sq_nonneg r.x, sq_nonneg r.y, sq_nonneg r.z])]; ring

theorem norm_nonneg (r : V3) : 0 ≤ V3.norm r := Real.sqrt_nonneg _

theorem norm_pos_of_notAligned_left {r1 r2 : V3} (h : NotAligned r1 r2) : 0 < V3.norm r1 := by
  rcases (norm_nonneg r1).lt_or_eq with h1 | h1
  · exact h1
  · exfalso
    have h2 := norm_sq r1
    rw [← h1] at h2
    have hx : r1.x = 0 := by nlinarith [sq_nonneg r1.x, sq_nonneg r1.y, sq_nonneg r1.z]
    have hy : r1.y = 0 := by nlinarith [sq_nonneg r1.x, sq_nonneg r1.y, sq_nonneg r1.z]
    have hz : r1.z = 0 := by nlinarith [sq_nonneg r1.x, sq_nonneg r1.y, sq_nonneg r1.z]
    exact h (by simp [hx, hy, hz])

theorem norm_pos_of_notAligned_right {r1 r2 : V3} (h : NotAligned r1 r2) : 0 < V3.norm r2 := by
  rcases (norm_nonneg r2).lt_or_eq with h1 | h1
  · exact h1
  · exfalso
    have h2 := norm_sq r2
    rw [← h1] at h2
    have hx : r2.x = 0 := by nlinarith [sq_nonneg r2.x, sq_nonneg r2.y, sq_nonneg r2.z]
    have hy : r2.y = 0 := by nlinarith [sq_nonneg r2.x, sq_nonneg r2.y, sq_nonneg r2.z]
    have hz : r2.z = 0 := by nlinarith [sq_nonneg r2.x, sq_nonneg r2.y, sq_nonneg r2.z]
    exact h (by simp [hx, hy, hz])

/-- strict Cauchy-Schwarz -/
theorem dot_sq_lt {r1 r2 : V3} (h : NotAligned r1 r2) :
    V3.dot r1 r2 ^ 2 < (V3.norm r1 * V3.norm r2) ^ 2 := by
  have h1 := norm_sq r1
  have h2 := norm_sq r2
  have : 0 < (r1.y * r2.z - r1.z * r2.y) ^ 2 + (r1.z * r2.x - r1.x * r2.z) ^ 2 +
      (r1.x * r2.y - r1.y * r2.x) ^ 2 := by
    by_contra hc
    push Not at hc
    apply h
    refine ⟨?_, ?_, ?_⟩ <;>
      nlinarith [sq_nonneg (r1.y * r2.z - r1.z * r2.y), sq_nonneg (r1.z * r2.x - r1.x * r2.z),
        sq_nonneg (r1.x * r2.y - r1.y * r2.x)]
  unfold V3.dot
  rw [mul_pow, h1, h2]
  nlinarith

theorem Geo.R1 {r1 r2 : V3} {A : ℝ} (h : Geo r1 r2 A) : 0 < V3.norm r1 :=
  norm_pos_of_notAligned_left h.hna
theorem Geo.R2 {r1 r2 : V3} {A : ℝ} (h : Geo r1 r2 A) : 0 < V3.norm r2 :=
  norm_pos_of_notAligned_right h.hna

theorem Geo.A2_lt {r1 r2 : V3} {A : ℝ} (h : Geo r1 r2 A) :
    A ^ 2 < 2 * (V3.norm r1 * V3.norm r2) := by
  have h1 := dot_sq_lt h.hna
  have h2 : 0 < V3.norm r1 * V3.norm r2 := mul_pos h.R1 h.R2
  have h3 := abs_lt_of_sq_lt_sq h1 h2.le
  rw [h.hA2]; linarith [(abs_lt.1 h3).2]

/-- The general vector form of the bridge. -/
theorem arc_of_trip {μ κ : ℝ} {C S D : ℝ → ℝ} (hμ : 0 < μ) (hT : Trip κ C S D) {r1 r2 : V3}
    {A : ℝ} (hG : Geo r1 r2 A) {σ sf V : ℝ} (hσ : σ ^ 2 = 1) (hsf : 0 < sf) (hV0 : 0 < V)
    (hS : σ * S sf = Real.sqrt 2 * Real.sqrt (V / μ))
    (hV : V = V3.norm r1 + V3.norm r2 - σ * (Real.sqrt 2 * A) * C sf)
    {M : ℕ} (hM : {s : ℝ | 0 < s ∧ s < sf ∧ S s = 0}.encard = M) :
    LambertArc μ r1 r2
      ((A * Real.sqrt (V / μ))⁻¹ • (r2 - (1 - V / V3.norm r1) • r1))
      ((A * Real.sqrt (V / μ))⁻¹ • ((1 - V / V3.norm r2) • r2 - r1))
      (μ * D sf / 2 + A * Real.sqrt (V / μ)) M := by
  set R1 := V3.norm r1 with hR1
  set R2 := V3.norm r2 with hR2
  have hR1p : 0 < R1 := hG.R1
  have hR2p : 0 < R2 := hG.R2
  have hA := hG.hA
  have hA2 := hG.hA2
  rw [← hR1, ← hR2] at hA2
  have hlt := hG.A2_lt
  rw [← hR1, ← hR2] at hlt
  have h2 : Real.sqrt 2 ^ 2 = 2 := Real.sq_sqrt (by norm_num)
  have h2p : 0 < Real.sqrt 2 := by positivity
  set a0 := Real.sqrt R1 with ha0
  have ha0p : 0 < a0 := Real.sqrt_pos.2 hR1p
  have ha0sq : a0 ^ 2 = R1 := Real.sq_sqrt hR1p.le
  obtain ⟨a2, ha2⟩ : ∃ a2, a2 = A / (Real.sqrt 2 * a0) := ⟨_, rfl⟩
  have haA : Real.sqrt 2 * a0 * a2 = A := by rw [ha2]; field_simp
  have ha2ne : a2 ≠ 0 := by rw [ha2]; positivity
  have ha2sq : 2 * R1 * a2 ^ 2 = A ^ 2 := by
    rw [← haA, ← ha0sq]; linear_combination (-(a0 ^ 2 * a2 ^ 2)) * h2
  have hb : 0 < R2 - a2 ^ 2 := by
    have : 2 * R1 * a2 ^ 2 < 2 * R1 * R2 := by rw [ha2sq]; linarith
    have := lt_of_mul_lt_mul_left this (by positivity)
    linarith
  obtain ⟨b2, hb2⟩ : ∃ b2, b2 = Real.sqrt (R2 - a2 ^ 2) := ⟨_, rfl⟩
  have hb2p : 0 < b2 := by rw [hb2]; exact Real.sqrt_pos.2 hb
  have hb2sq : b2 ^ 2 = R2 - a2 ^ 2 := by rw [hb2]; exact Real.sq_sqrt hb.le
  have hdot : V3.dot r1 r2 = R1 * (a2 ^ 2 - b2 ^ 2) := by
    linear_combination -hA2 - ha2sq + R1 * hb2sq
  obtain ⟨g0, hg0⟩ : ∃ g0, g0 = Real.sqrt (V / μ) := ⟨_, rfl⟩
  have hg0p : 0 < g0 := by rw [hg0]; positivity
  have hg0sq : μ * g0 ^ 2 = V := by
    rw [hg0, Real.sq_sqrt (by positivity)]; field_simp
  rw [← hg0] at hS ⊢
  -- the frame
  set e1 : V3 := R1⁻¹ • r1 with he1
  set e2 : V3 := (2 * a2 * b2)⁻¹ • (r2 - (a2 ^ 2 - b2 ^ 2) • e1) with he2
  have hn1 := norm_sq r1
  have hn2 := norm_sq r2
  rw [← hR1] at hn1
  rw [← hR2] at hn2
  have hd := hdot
  unfold V3.dot at hd
  have hab : a2 * b2 ≠ 0 := by positivity
  have hf : Frame e1 e2 := by
    refine ⟨?_, ?_, ?_⟩
    · simp only [he1, V3.smul_x, V3.smul_y, V3.smul_z]
      field_simp
      linarith
    · simp only [he2, he1, V3.smul_x, V3.smul_y, V3.smul_z, V3.sub_x, V3.sub_y, V3.sub_z]
      field_simp
      have hR2' : R2 = a2 ^ 2 + b2 ^ 2 := by linarith
      rw [hR2'] at hn2
      linear_combination (-(a2 ^ 2 - b2 ^ 2) ^ 2) * hn1 - R1 ^ 2 * hn2 -
        2 * R1 * (a2 ^ 2 - b2 ^ 2) * hd
    · simp only [he2, he1, V3.smul_x, V3.smul_y, V3.smul_z, V3.sub_x, V3.sub_y, V3.sub_z]
      field_simp
      linear_combination R1 * hd + (a2 ^ 2 - b2 ^ 2) * hn1
  have hr1 : a0 ^ 2 • e1 = r1 := by
    rw [ha0sq, he1]; ext <;> simp <;> field_simp
  have hr2 : (a2 ^ 2 - b2 ^ 2) • e1 + (2 * a2 * b2) • e2 = r2 := by
    rw [he2]; ext <;> simp <;> field_simp <;> ring
  have hB : Bvp μ κ C S D a0 a2 b2 σ sf := by
    refine ⟨hT, ha0p, ha2ne, hb2p, hσ, hsf, by rw [hS]; positivity, ?_⟩
    have h3 : (σ * S sf) ^ 2 = 2 * g0 ^ 2 := by rw [hS]; linear_combination g0 ^ 2 * h2
    have h4 : σ * (Real.sqrt 2 * A) * C sf = 2 * σ * a0 * a2 * C sf := by
      rw [← haA]; linear_combination (σ * a0 * a2 * C sf) * h2
    rw [h4] at hV
    linear_combination μ * h3 + 2 * hg0sq + 2 * hV - 2 * ha0sq - 2 * hb2sq - μ * S sf ^ 2 * hσ
  have hV' : V = a0 ^ 2 + a2 ^ 2 + b2 ^ 2 - 2 * σ * a0 * a2 * C sf := by
    have h4 : σ * (Real.sqrt 2 * A) * C sf = 2 * σ * a0 * a2 * C sf := by
      rw [← haA]; linear_combination (σ * a0 * a2 * C sf) * h2
    rw [h4] at hV
    linear_combination hV - ha0sq - hb2sq
  have harc := hB.arc hf hM hV'
  have hden : a0 * a2 * (σ * S sf) = A * g0 := by
    rw [hS, ← haA]; ring
  have hgne : A * g0 ≠ 0 := by positivity
  rw [hr1, hr2, hden] at harc
  have hRR : a2 ^ 2 + b2 ^ 2 = R2 := by linarith
  convert harc using 1
  · rw [← hr1, ← hr2]
    ext <;> simp <;> field_simp <;> rw [← ha0sq] <;> ring
  · rw [hRR]
    rw [← hr1, ← hr2]
    ext <;> simp <;> field_simp <;> ring
  · have : 2 * a0 * a2 * (σ * S sf) = 2 * (A * g0) := by rw [← hden]; ring
    rw [this]; ring

/-- Lagrange's time equation, elliptic branch (`φ` is half the swept eccentric anomaly). -/
noncomputable def Tell (μ A V φ : ℝ) : ℝ :=
  Real.sqrt (V / μ) *
    (V * (2 * φ - Real.sin (2 * φ)) / (2 * Real.sqrt 2 * |Real.sin φ| ^ 3) + A)

/-- Parabolic branch. -/
noncomputable def Tpar (μ A V : ℝ) : ℝ := Real.sqrt (V / μ) * (Real.sqrt 2 * V / 3 + A)

/-- Hyperbolic branch. -/
noncomputable def Thyp (μ A V φ : ℝ) : ℝ :=
  Real.sqrt (V / μ) *
    (V * (Real.sinh (2 * φ) - 2 * φ) / (2 * Real.sqrt 2 * Real.sinh φ ^ 3) + A)

/-- Velocities from Lagrange coefficients. -/
noncomputable def fgV1 (μ : ℝ) (r1 r2 : V3) (A V : ℝ) : V3 :=
  (A * Real.sqrt (V / μ))⁻¹ • (r2 - (1 - V / V3.norm r1) • r1)
noncomputable def fgV2 (μ : ℝ) (r1 r2 : V3) (A V : ℝ) : V3 :=
  (A * Real.sqrt (V / μ))⁻¹ • ((1 - V / V3.norm r2) • r2 - r1)

theorem sin_zero_count {w sf : ℝ} (hw : 0 < w) {M : ℕ} (h1 : M * Real.pi < w * sf)
    (h2 : w * sf < (M + 1) * Real.pi) :
    {s : ℝ | 0 < s ∧ s < sf ∧ Real.sin (w * s) / w = 0}.encard = M := by
  have hpi := Real.pi_pos
  have hset : {s : ℝ | 0 < s ∧ s < sf ∧ Real.sin (w * s) / w = 0} =
      ((Finset.range M).image fun k : ℕ => ((k : ℝ) + 1) * Real.pi / w : Finset ℝ) := by
    ext s
    simp only [Set.mem_ofPred_eq, Finset.coe_image, Finset.coe_range, Set.mem_image, Set.mem_Iio]
    constructor
    · rintro ⟨hs0, hs1, hs2⟩
      have hs : Real.sin (w * s) = 0 := by
        rcases div_eq_zero_iff.1 hs2 with h | h
        · exact h
        · exact absurd h hw.ne'
      obtain ⟨n, hn⟩ := Real.sin_eq_zero_iff.1 hs
      have hn0 : 0 < (n : ℝ) * Real.pi := by rw [hn]; positivity
      have hn1 : 0 < n := by
        have : 0 < (n : ℝ) := pos_of_mul_pos_left hn0 hpi.le
        exact_mod_cast this
      have hn2 : (n : ℝ) * Real.pi < (M + 1) * Real.pi := by
        rw [hn]; exact lt_trans (mul_lt_mul_of_pos_left hs1 hw) h2
      have hn3 : n < M + 1 := by
        have := lt_of_mul_lt_mul_right hn2 hpi.le
        exact_mod_cast this
      refine ⟨(n - 1).toNat, by omega, ?_⟩
      have : (((n - 1).toNat : ℕ) : ℝ) = (n : ℝ) - 1 := by
        have : (((n - 1).toNat : ℕ) : ℤ) = n - 1 := Int.toNat_of_nonneg (by omega)
        exact_mod_cast this
      rw [this]
      field_simp
      linarith
    · rintro ⟨k, hk, rfl⟩
      refine ⟨by positivity, ?_, ?_⟩
      · rw [div_lt_iff₀ hw]
        have : ((k : ℝ) + 1) ≤ M := by exact_mod_cast hk
        have := mul_le_mul_of_nonneg_right this hpi.le
        linarith
      · have : w * (((k : ℝ) + 1) * Real.pi / w) = ((k + 1 : ℕ) : ℝ) * Real.pi := by
          push_cast; field_simp
        rw [this, Real.sin_nat_mul_pi, zero_div]
  rw [hset, Set.encard_coe_eq_coe_finsetCard, Finset.card_image_of_injective]
  · simp
  · intro a b hab
    have := hw.ne'
    have h3 := hpi.ne'
    have : (a : ℝ) = b := by
      field_simp at hab
      linarith
    exact_mod_cast this

/-- Elliptic transfers with `M` revolutions. -/
theorem arc_ell {μ : ℝ} (hμ : 0 < μ) {r1 r2 : V3} {A : ℝ} (hG : Geo r1 r2 A) {φ V : ℝ} {M : ℕ}
    (h1 : M * Real.pi < φ) (h2 : φ < (M + 1) * Real.pi) (hV0 : 0 < V)
    (hV : V = V3.norm r1 + V3.norm r2 - (-1) ^ M * (Real.sqrt 2 * A) * Real.cos φ) :
    LambertArc μ r1 r2 (fgV1 μ r1 r2 A V) (fgV2 μ r1 r2 A V) (Tell μ A V φ) M := by
  have hpi := Real.pi_pos
  have hσ : ((-1 : ℝ) ^ M) ^ 2 = 1 := by rw [← pow_mul, mul_comm, pow_mul]; simp
  have hsin : 0 < (-1) ^ M * Real.sin φ := by
    have : Real.sin φ = (-1) ^ M * Real.sin (φ - M * Real.pi) := by
      rw [Real.sin_sub_nat_mul_pi, ← mul_assoc, ← pow_add, ← two_mul, pow_mul]; simp
    rw [this, ← mul_assoc, ← sq, hσ, one_mul]
    apply Real.sin_pos_of_pos_of_lt_pi <;> linarith
  have habs : |Real.sin φ| = (-1) ^ M * Real.sin φ := by
    have h3 : |(-1 : ℝ) ^ M * Real.sin φ| = |Real.sin φ| := by
      rw [abs_mul, abs_pow, abs_neg, abs_one, one_pow, one_mul]
    rw [← h3, abs_of_pos hsin]
  have hsp : 0 < |Real.sin φ| := by rw [habs]; exact hsin
  obtain ⟨g0, hg0⟩ : ∃ g0, g0 = Real.sqrt (V / μ) := ⟨_, rfl⟩
  have hg0p : 0 < g0 := by rw [hg0]; positivity
  have hg0sq : μ * g0 ^ 2 = V := by
    rw [hg0, Real.sq_sqrt (by positivity)]; field_simp
  have hr2 : Real.sqrt 2 ^ 2 = 2 := Real.sq_sqrt (by norm_num)
  have hr2p : 0 < Real.sqrt 2 := by positivity
  obtain ⟨w, hw⟩ : ∃ w, w = |Real.sin φ| / (Real.sqrt 2 * g0) := ⟨_, rfl⟩
  have hwp : 0 < w := by rw [hw]; positivity
  have hφ : 0 < φ := lt_of_le_of_lt (by positivity) h1
  have hws : w * (φ / w) = φ := by field_simp
  have h := arc_of_trip hμ (trip_neg hwp) hG (σ := (-1) ^ M) (sf := φ / w) hσ (by positivity) hV0
    (by rw [hws, ← hg0, ← mul_div_assoc, ← habs, hw]; field_simp)
    (by rw [hws, hV])
    (sin_zero_count hwp (by rw [hws]; exact h1) (by rw [hws]; exact h2))
  unfold fgV1 fgV2
  convert h using 1
  simp only [hws]
  unfold Tell
  rw [← hg0, Real.sin_two_mul]
  have hs3 : Real.sqrt 2 ^ 3 = 2 * Real.sqrt 2 := by rw [pow_succ, hr2]
  have hsne := hsp.ne'
  rw [hw, ← hg0sq]
  field_simp
  have hr4 : Real.sqrt 2 ^ 4 = 4 := by
    rw [show (4 : ℕ) = 2 * 2 from rfl, pow_mul, hr2]; norm_num
  ring_nf
  rw [hr4]

/-- Parabolic transfers. -/
theorem arc_par {μ : ℝ} (hμ : 0 < μ) {r1 r2 : V3} {A : ℝ} (hG : Geo r1 r2 A) {V : ℝ}
    (hV0 : 0 < V) (hV : V = V3.norm r1 + V3.norm r2 - Real.sqrt 2 * A) :
    LambertArc μ r1 r2 (fgV1 μ r1 r2 A V) (fgV2 μ r1 r2 A V) (Tpar μ A V) 0 := by
  obtain ⟨g0, hg0⟩ : ∃ g0, g0 = Real.sqrt (V / μ) := ⟨_, rfl⟩
  have hg0p : 0 < g0 := by rw [hg0]; positivity
  have hg0sq : μ * g0 ^ 2 = V := by
    rw [hg0, Real.sq_sqrt (by positivity)]; field_simp
  have hr2 : Real.sqrt 2 ^ 2 = 2 := Real.sq_sqrt (by norm_num)
  have h := arc_of_trip hμ trip_zero hG (σ := 1) (sf := Real.sqrt 2 * g0) (by norm_num)
    (by positivity) hV0 (by rw [← hg0, one_mul]) (by rw [hV]; ring) (M := 0) (by
      rw [Nat.cast_zero, Set.encard_eq_zero, Set.eq_empty_iff_forall_notMem]
      rintro s ⟨h1, _, h3⟩
      exact absurd h3 h1.ne')
  unfold fgV1 fgV2
  convert h using 1
  unfold Tpar
  rw [← hg0, ← hg0sq]
  linear_combination (-(μ * g0 ^ 3 * Real.sqrt 2 / 6)) * hr2

/-- Hyperbolic transfers. -/
theorem arc_hyp {μ : ℝ} (hμ : 0 < μ) {r1 r2 : V3} {A : ℝ} (hG : Geo r1 r2 A) {φ V : ℝ}
    (hφ : 0 < φ) (hV0 : 0 < V)
    (hV : V = V3.norm r1 + V3.norm r2 - Real.sqrt 2 * A * Real.cosh φ) :
    LambertArc μ r1 r2 (fgV1 μ r1 r2 A V) (fgV2 μ r1 r2 A V) (Thyp μ A V φ) 0 := by
  have hsp : 0 < Real.sinh φ := Real.sinh_pos_iff.2 hφ
  obtain ⟨g0, hg0⟩ : ∃ g0, g0 = Real.sqrt (V / μ) := ⟨_, rfl⟩
  have hg0p : 0 < g0 := by rw [hg0]; positivity
  have hg0sq : μ * g0 ^ 2 = V := by
    rw [hg0, Real.sq_sqrt (by positivity)]; field_simp
  have hr2 : Real.sqrt 2 ^ 2 = 2 := Real.sq_sqrt (by norm_num)
  have hr2p : 0 < Real.sqrt 2 := by positivity
  obtain ⟨w, hw⟩ : ∃ w, w = Real.sinh φ / (Real.sqrt 2 * g0) := ⟨_, rfl⟩
  have hwp : 0 < w := by rw [hw]; positivity
  have hws : w * (φ / w) = φ := by field_simp
  have h := arc_of_trip hμ (trip_pos hwp) hG (σ := 1) (sf := φ / w) (by norm_num)
    (by positivity) hV0 (by rw [hws, ← hg0, hw]; field_simp)
    (by rw [hws, hV]; ring) (M := 0) (by
      rw [Nat.cast_zero, Set.encard_eq_zero, Set.eq_empty_iff_forall_notMem]
      rintro s ⟨h1, _, h3⟩
      rcases div_eq_zero_iff.1 h3 with h4 | h4
      · have : 0 < Real.sinh (w * s) := Real.sinh_pos_iff.2 (by positivity)
        exact this.ne' h4
      · exact hwp.ne' h4)
  unfold fgV1 fgV2
  convert h using 1
  simp only [hws]
  unfold Thyp
  rw [← hg0, Real.sinh_two_mul]
  have hsne := hsp.ne'
  rw [hw, ← hg0sq]
  field_simp
  have hr4 : Real.sqrt 2 ^ 4 = 4 := by
    rw [show (4 : ℕ) = 2 * 2 from rfl, pow_mul, hr2]; norm_num
  ring_nf
  rw [hr4]

/-- The angular momentum of the Lagrange velocities is `(r1 × r2)/g`. -/
theorem fgV1_angMomZ (μ : ℝ) (r1 r2 : V3) (A V : ℝ) :
    angMomZ r1 (fgV1 μ r1 r2 A V) =
      (A * Real.sqrt (V / μ))⁻¹ * (r1.x * r2.y - r1.y * r2.x) := by
  unfold angMomZ fgV1; simp; ring

end Lamberthub.LC
