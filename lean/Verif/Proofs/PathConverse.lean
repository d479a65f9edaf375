import Verif.Proofs.Path
import Verif.Proofs.Conserved
import Verif.Proofs.KeplerUnique

/-!
# Every transfer is one of the three families

The converse of `Path.arc`: a Kepler arc between two positions that are not aligned with the
centre has Lagrange velocities, for some path parameter, and its duration is the one of
Lagrange's equation.
-/

set_option autoImplicit false

namespace Lamberthub.LC
open Lamberthub Spec

/-- The regularised orbit with given initial conditions. -/
theorem Trip.reg {μ κ a0 a1 b1 : ℝ} {C S D : ℝ → ℝ} (hT : Trip κ C S D) (ha0 : a0 ≠ 0) (hb1 : b1 ≠ 0)
    (e1 : 2 * (a1 ^ 2 + b1 ^ 2) - 2 * κ * a0 ^ 2 = μ) :
    Reg μ κ (a0 * b1) (fun s => a0 * C s + a1 * S s) (fun s => b1 * S s)
      (fun s => a0 * (κ * S s) + a1 * C s) (fun s => b1 * C s)
      (fun s => a0 ^ 2 * (s + κ * D s) + a0 * a1 * S s ^ 2 + (a1 ^ 2 + b1 ^ 2) * D s) := by
  refine ⟨?_, ?_, ?_, ?_, ?_, ?_, mul_ne_zero ha0 hb1, ?_, ?_⟩
  · intro s; exact ((hT.dC s).const_mul a0).add ((hT.dS s).const_mul a1)
  · intro s; exact (hT.dS s).const_mul b1
  · intro s
    refine ((((hT.dS s).const_mul κ).const_mul a0).add ((hT.dC s).const_mul a1)).congr_deriv ?_
    ring
  · intro s
    refine ((hT.dC s).const_mul b1).congr_deriv ?_
    ring
  · intro s
    have hp := hT.pyth s
    linear_combination (2 * a1 ^ 2 + 2 * b1 ^ 2 - 2 * κ * a0 ^ 2) * hp + e1
  · intro s
    have hp := hT.pyth s
    linear_combination a0 * b1 * hp
  · intro s
    have hp := hT.pyth s
    have := (((hasDerivAt_id s).add ((hT.dD s).const_mul κ)).const_mul (a0 ^ 2)).add
      ((((hT.dS s).pow 2).const_mul (a0 * a1)))
    have := this.add ((hT.dD s).const_mul (a1 ^ 2 + b1 ^ 2))
    refine this.congr_deriv ?_
    push_cast
    linear_combination (- a0 ^ 2) * hp
  · simp [hT.S0, hT.D0]

/-- A motion between positions that are not aligned has an angular momentum. -/
theorem angMom_ne {μ : ℝ} {pos vel : ℝ → V3} (hμ : μ ≠ 0) (hk : KeplerMotion μ pos vel) {t s : ℝ}
    (hna : NotAligned (pos t) (pos s)) : outer (pos t) (vel t) ≠ 0 := by
  intro h0
  apply hna
  have a1 := angMom_const hk s t
  have e1 := eccVec_const hμ hk s t
  have hR2 := (len_pos (hk.no_collision s)).ne'
  have hR1 := (len_pos (hk.no_collision t)).ne'
  unfold eccVec at e1
  rw [a1, h0] at e1
  have x := congrArg V3.x e1
  have y := congrArg V3.y e1
  have z := congrArg V3.z e1
  simp only [outer, V3.sub_x, V3.sub_y, V3.sub_z, V3.smul_x, V3.smul_y, V3.smul_z, V3.zero_x, V3.zero_y, V3.zero_z,
    mul_zero, sub_zero, zero_sub, neg_inj] at x y z
  have x' : (pos s).x = len (pos s) / len (pos t) * (pos t).x := by field_simp at x ⊢; linarith
  have y' : (pos s).y = len (pos s) / len (pos t) * (pos t).y := by field_simp at y ⊢; linarith
  have z' : (pos s).z = len (pos s) / len (pos t) * (pos t).z := by field_simp at z ⊢; linarith
  rw [x', y', z']
  refine ⟨?_, ?_, ?_⟩ <;> ring

/-- A vector with a component orthogonal to `r` defines a frame. -/
theorem exists_frame {r v : V3} (h : outer r v ≠ 0) :
    ∃ (e1 e2 : V3) (α β : ℝ), Frame e1 e2 ∧ 0 < β ∧ r = V3.norm r • e1 ∧ v = α • e1 + β • e2 := by
  have hsum : 0 < (outer r v).x ^ 2 + (outer r v).y ^ 2 + (outer r v).z ^ 2 := by
    by_contra hn
    apply h
    ext <;> simp only [V3.zero_x, V3.zero_y, V3.zero_z] <;>
      nlinarith [sq_nonneg (outer r v).x, sq_nonneg (outer r v).y, sq_nonneg (outer r v).z]
  have hR : 0 < V3.norm r := by
    rcases (norm_nonneg r).lt_or_eq with h1 | h1
    · exact h1
    · exfalso
      have h2 := norm_sq r
      rw [← h1] at h2
      have hx : r.x = 0 := by nlinarith [sq_nonneg r.x, sq_nonneg r.y, sq_nonneg r.z]
      have hy : r.y = 0 := by nlinarith [sq_nonneg r.x, sq_nonneg r.y, sq_nonneg r.z]
      have hz : r.z = 0 := by nlinarith [sq_nonneg r.x, sq_nonneg r.y, sq_nonneg r.z]
      simp [outer, hx, hy, hz] at hsum
  set R := V3.norm r with hRd
  have hn := norm_sq r
  rw [← hRd] at hn
  obtain ⟨d, hd⟩ : ∃ d, d = r.x * v.x + r.y * v.y + r.z * v.z := ⟨_, rfl⟩
  obtain ⟨H, hH⟩ : ∃ H, H = Real.sqrt ((outer r v).x ^ 2 + (outer r v).y ^ 2 + (outer r v).z ^ 2) := ⟨_, rfl⟩
  have hH0 : 0 < H := by rw [hH]; exact Real.sqrt_pos.2 hsum
  have hH2 : H ^ 2 = R ^ 2 * (v.x ^ 2 + v.y ^ 2 + v.z ^ 2) - d ^ 2 := by
    rw [hH, Real.sq_sqrt hsum.le, hn, hd]; unfold outer; ring
  refine ⟨R⁻¹ • r, (R / H) • (v - (d / R ^ 2) • r), d / R, H / R, ⟨?_, ?_, ?_⟩, by positivity, ?_, ?_⟩
  · simp only [V3.smul_x, V3.smul_y, V3.smul_z]
    field_simp
    linarith
  · simp only [V3.smul_x, V3.smul_y, V3.smul_z, V3.sub_x, V3.sub_y, V3.sub_z]
    field_simp
    rw [hH2, hd]
    rw [hd] at hH2
    linear_combination (-(r.x * v.x + r.y * v.y + r.z * v.z) ^ 2) * hn
  · simp only [V3.smul_x, V3.smul_y, V3.smul_z, V3.sub_x, V3.sub_y, V3.sub_z]
    field_simp
    rw [hd]
    linear_combination (r.x * v.x + r.y * v.y + r.z * v.z) * hn
  · ext <;> simp <;> field_simp
  · ext <;> simp <;> field_simp <;> ring

/-- The planar form of the converse. -/
theorem trip_converse {μ κ : ℝ} {C S D : ℝ → ℝ} (hμ : 0 < μ) (hT : Trip κ C S D) {r1 r2 v1 v2 e1 e2 : V3} {T : ℝ} {M : ℕ}
    (hna : NotAligned r1 r2) (h : LambertArc μ r1 r2 v1 v2 T M) {α β : ℝ} (hf : Frame e1 e2) (hβ : 0 < β)
    (hr : r1 = V3.norm r1 • e1) (hv : v1 = α • e1 + β • e2)
    (hκ : (α ^ 2 + β ^ 2) / 2 - μ / V3.norm r1 = 2 * κ) :
    ∃ (A V σ sf : ℝ), Geo r1 r2 A ∧ 0 < V ∧ σ ^ 2 = 1 ∧ 0 < sf ∧ 0 < σ * S sf ∧
      σ * S sf = Real.sqrt 2 * Real.sqrt (V / μ) ∧
      V = V3.norm r1 + V3.norm r2 - σ * (Real.sqrt 2 * A) * C sf ∧
      v1 = fgV1 μ r1 r2 A V ∧ T = μ * D sf / 2 + A * Real.sqrt (V / μ) := by
  obtain ⟨hT0, pos, vel, hk, hp0, hv0, hpT, hvT, -⟩ := h
  set R1 := V3.norm r1 with hR1
  have hR1p : 0 < R1 := norm_pos_of_notAligned_left hna
  set a0 := Real.sqrt R1 with ha0
  have ha0p : 0 < a0 := Real.sqrt_pos.2 hR1p
  have ha0sq : a0 ^ 2 = R1 := Real.sq_sqrt hR1p.le
  obtain ⟨a1, ha1⟩ : ∃ a1, a1 = α * a0 / 2 := ⟨_, rfl⟩
  obtain ⟨b1, hb1⟩ : ∃ b1, b1 = β * a0 / 2 := ⟨_, rfl⟩
  have hb1p : 0 < b1 := by rw [hb1]; positivity
  have hen : 2 * (a1 ^ 2 + b1 ^ 2) - 2 * κ * a0 ^ 2 = μ := by
    have : (α ^ 2 + β ^ 2) / 2 * R1 - μ = 2 * κ * R1 := by
      rw [← hκ]; field_simp
    rw [ha1, hb1]
    linear_combination this + (α ^ 2 / 2 + β ^ 2 / 2 - 2 * κ) * ha0sq
  have hR := hT.reg ha0p.ne' hb1p.ne' hen
  obtain ⟨τ, hτ1, hτ2, hτ3⟩ := hR.inverse
  set p : ℝ → ℝ := fun s => a0 * C s + a1 * S s with hp
  set q : ℝ → ℝ := fun s => b1 * S s with hq
  set pd : ℝ → ℝ := fun s => a0 * (κ * S s) + a1 * C s with hpd
  set qd : ℝ → ℝ := fun s => b1 * C s with hqd
  set tm : ℝ → ℝ := fun s => a0 ^ 2 * (s + κ * D s) + a0 * a1 * S s ^ 2 + (a1 ^ 2 + b1 ^ 2) * D s
    with htm
  have hτ0 : τ 0 = 0 := by have := hτ2 0; simpa [hT.S0, hT.D0] using this
  have q0 : p 0 = a0 := by simp [hp, hT.C0, hT.S0]
  have q1 : q 0 = 0 := by simp [hq, hT.S0]
  have q2 : pd 0 = a1 := by simp [hpd, hT.C0, hT.S0]
  have q3 : qd 0 = b1 := by simp [hqd, hT.C0]
  obtain ⟨hpos, -⟩ := hk.unique (hR.keplerMotion hf hτ3) (t₀ := 0)
    (by
      rw [hp0, hr]
      simp only [hτ0, X, Y, q0, q1, ← ha0sq]
      ext <;> simp)
    (by
      rw [hv0, hv]
      simp only [hτ0, VX, VY, q0, q1, q2, q3]
      refine comb_congr ?_ ?_
      · rw [ha1]; field_simp; ring
      · rw [hb1]; field_simp; ring)
  obtain ⟨sf, hsf⟩ : ∃ sf, sf = τ T := ⟨_, rfl⟩
  have htsf : tm sf = T := by rw [hsf]; exact hτ1 T
  have hsf0 : 0 < sf := by
    rw [← hR.strictMono.lt_iff_lt, htsf, hR.ht0]; exact hT0
  have hr2 : r2 = X p q sf • e1 + Y p q sf • e2 := by
    rw [← hpT, hpos, hsf]
  have hpq : p sf * q sf ≠ 0 := by
    intro h0
    apply hna
    have hY : Y p q sf = 0 := by unfold Y; linear_combination 2 * h0
    rw [hY] at hr2
    rw [hr, hr2]
    refine ⟨?_, ?_, ?_⟩ <;> simp <;> ring
  have hS : S sf ≠ 0 := by
    intro h0; apply hpq; simp [hq, h0]
  obtain ⟨σ, hσ, hσS⟩ : ∃ σ : ℝ, σ ^ 2 = 1 ∧ 0 < σ * S sf := by
    rcases lt_or_gt_of_ne hS with h0 | h0
    · exact ⟨-1, by norm_num, by linarith⟩
    · exact ⟨1, by norm_num, by linarith⟩
  have hσ0 : σ ≠ 0 := by rintro rfl; norm_num at hσ
  obtain ⟨a2, ha2⟩ : ∃ a2, a2 = σ * p sf := ⟨_, rfl⟩
  obtain ⟨b2, hb2⟩ : ∃ b2, b2 = σ * q sf := ⟨_, rfl⟩
  have hpsf : p sf = σ * a2 := by rw [ha2]; linear_combination (-p sf) * hσ
  have hqsf : q sf = σ * b2 := by rw [hb2]; linear_combination (-q sf) * hσ
  have hb2p : 0 < b2 := by
    rw [hb2]; simp only [hq]
    have := mul_pos hb1p hσS
    linarith
  have ha2n : a2 ≠ 0 := by
    rw [ha2]; exact mul_ne_zero hσ0 (left_ne_zero_of_mul hpq)
  have hx : a1 * S sf = σ * a2 - a0 * C sf := by
    rw [← hpsf]; simp only [hp]; ring
  have hy : b1 * S sf = σ * b2 := by rw [← hqsf]
  have hpf := hT.pyth sf
  have htf := hT.time sf
  have hr2' : r2 = (a2 ^ 2 - b2 ^ 2) • e1 + (2 * a2 * b2) • e2 := by
    rw [hr2]
    refine comb_congr ?_ ?_
    · unfold X; rw [hpsf, hqsf]; linear_combination (a2 ^ 2 - b2 ^ 2) * hσ
    · unfold Y; rw [hpsf, hqsf]; linear_combination (2 * a2 * b2) * hσ
  have h2 : Real.sqrt 2 ^ 2 = 2 := Real.sq_sqrt (by norm_num)
  have h2p : 0 < Real.sqrt 2 := by positivity
  have hR2 : V3.norm r2 = a2 ^ 2 + b2 ^ 2 := by
    rw [show V3.norm r2 = len r2 by unfold V3.norm V3.dot len; ring_nf, hr2', hf.len_comb, show (a2 ^ 2 - b2 ^ 2) ^ 2 + (2 * a2 * b2) ^ 2 = (a2 ^ 2 + b2 ^ 2) ^ 2 by ring,
      Real.sqrt_sq (by positivity)]
  have hdot : V3.dot r1 r2 = R1 * (a2 ^ 2 - b2 ^ 2) := by
    rw [hr, hr2']
    unfold V3.dot
    simp only [V3.add_x, V3.add_y, V3.add_z, V3.smul_x, V3.smul_y, V3.smul_z]
    linear_combination R1 * (a2 ^ 2 - b2 ^ 2) * hf.h11 + R1 * (2 * a2 * b2) * hf.h12
  obtain ⟨A, hA⟩ : ∃ A, A = Real.sqrt 2 * a0 * a2 := ⟨_, rfl⟩
  have hA0 : A ≠ 0 := by rw [hA]; positivity
  obtain ⟨V, hV⟩ : ∃ V, V = a0 ^ 2 + a2 ^ 2 + b2 ^ 2 - 2 * σ * a0 * a2 * C sf := ⟨_, rfl⟩
  have hsc : μ * S sf ^ 2 = 2 * V := by
    rw [hV, ← hen]
    have e1 : (a1 * S sf) ^ 2 = (σ * a2 - a0 * C sf) ^ 2 := by rw [hx]
    have e2 : (b1 * S sf) ^ 2 = (σ * b2) ^ 2 := by rw [hy]
    linear_combination 2 * e1 + 2 * e2 + (2 * a2 ^ 2 + 2 * b2 ^ 2) * hσ + 2 * a0 ^ 2 * hpf
  have hV0 : 0 < V := by
    have : 0 < μ * S sf ^ 2 := by positivity
    linarith
  have hg : σ * S sf = Real.sqrt 2 * Real.sqrt (V / μ) := by
    rw [← Real.sqrt_mul (by norm_num)]
    symm
    rw [Real.sqrt_eq_iff_mul_self_eq (by positivity) hσS.le]
    field_simp
    linear_combination -(S sf ^ 2 * μ * hσ + hsc)
  have hAg : A * Real.sqrt (V / μ) = a0 * a2 * (σ * S sf) := by rw [hg, hA]; ring
  refine ⟨A, V, σ, sf, ⟨hA0, ?_, hna⟩, hV0, hσ, hsf0, hσS, hg, ?_, ?_, ?_⟩
  · rw [← hR1, hR2, hdot, hA]
    linear_combination a0 ^ 2 * a2 ^ 2 * h2 + 2 * a2 ^ 2 * ha0sq
  · rw [hR2, hV, hA, ha0sq]
    linear_combination (σ * a0 * a2 * C sf) * h2
  · unfold fgV1
    rw [hAg, ← hR1]
    have hsne := hσS.ne'
    have k1 : α = (a0 * a2 * (σ * S sf))⁻¹ * (a2 ^ 2 - b2 ^ 2 - (1 - V / R1) * R1) := by
      have : (1 - V / R1) * R1 = R1 - V := by field_simp
      rw [this, hV, ← ha0sq]
      have hα : α * a0 = 2 * a1 := by rw [ha1]; ring
      field_simp
      linear_combination (a2 * σ * S sf) * hα + 2 * a2 * σ * hx + (2 * a2 ^ 2) * hσ
    have k2 : β = (a0 * a2 * (σ * S sf))⁻¹ * (2 * a2 * b2) := by
      have hβ' : β * a0 = 2 * b1 := by rw [hb1]; ring
      field_simp
      linear_combination (σ * S sf) * hβ' + 2 * σ * hy + 2 * b2 * hσ
    rw [hv, hr2']
    have hr' : (1 - V / R1) • r1 = (1 - V / R1) • (R1 • e1) := by rw [← hr]
    rw [hr']
    generalize a0 * a2 * (σ * S sf) = G at k1 k2
    rw [k1, k2]
    ext <;> simp <;> ring
  · rw [← htsf, hAg]
    simp only [htm]
    linear_combination (D sf / 2) * hen + a0 * S sf * hx + a0 ^ 2 * htf

/-- **Every transfer is one of the three families.** -/
theorem path_of_arc {μ : ℝ} (hμ : 0 < μ) {r1 r2 v1 v2 : V3} {T : ℝ} {M : ℕ} (hna : NotAligned r1 r2)
    (h : LambertArc μ r1 r2 v1 v2 T M) :
    ∃ A V, Geo r1 r2 A ∧ Path μ (V3.norm r1 + V3.norm r2) A M V T ∧ v1 = fgV1 μ r1 r2 A V ∧ v2 = fgV2 μ r1 r2 A V := by
  have h' := h
  obtain ⟨-, pos, vel, hk, hp0, hv0, hpT, hvT, -⟩ := h'
  have hne : outer r1 v1 ≠ 0 := by
    rw [← hp0, ← hv0]; exact angMom_ne hμ.ne' hk (s := T) (by rw [hp0, hpT]; exact hna)
  obtain ⟨e1, e2, α, β, hf, hβ, hr, hv⟩ := exists_frame hne
  have hpi := Real.pi_pos
  have hr2 : Real.sqrt 2 ^ 2 = 2 := Real.sq_sqrt (by norm_num)
  have hr2p : 0 < Real.sqrt 2 := by positivity
  have hr4 : Real.sqrt 2 ^ 4 = 4 := by
    rw [show (4 : ℕ) = 2 * 2 from rfl, pow_mul, hr2]; norm_num
  suffices ∃ A V M', Geo r1 r2 A ∧ Path μ (V3.norm r1 + V3.norm r2) A M' V T ∧ v1 = fgV1 μ r1 r2 A V by
    obtain ⟨A, V, M', hG, hP, hv1⟩ := this
    have ha := hP.arc hμ hG
    rw [← hv1] at ha
    obtain ⟨rfl, -, hv2⟩ := h.revolutions_unique ha
    exact ⟨A, V, hG, hP, hv1, hv2⟩
  obtain ⟨κ, hκ⟩ : ∃ κ, κ = ((α ^ 2 + β ^ 2) / 2 - μ / V3.norm r1) / 2 := ⟨_, rfl⟩
  have hκ' : (α ^ 2 + β ^ 2) / 2 - μ / V3.norm r1 = 2 * κ := by rw [hκ]; ring
  rcases lt_trichotomy κ 0 with h0 | h0 | h0
  · obtain ⟨w, hw, rfl⟩ : ∃ w : ℝ, 0 < w ∧ κ = -w ^ 2 := ⟨Real.sqrt (-κ), Real.sqrt_pos.2 (by linarith), by
      rw [Real.sq_sqrt (by linarith)]; ring⟩
    obtain ⟨A, V, σ, sf, hG, hV0, hσ, hsf, hσS, hg, hV, hv1, hTT⟩ :=
      trip_converse hμ (trip_neg hw) hna h hf hβ hr hv hκ'
    obtain ⟨φ, hφ⟩ : ∃ φ, φ = w * sf := ⟨_, rfl⟩
    rw [← hφ] at hσS hg hV hTT
    have hφ0 : 0 < φ := by rw [hφ]; positivity
    have hsin : Real.sin φ ≠ 0 := by rintro h1; rw [h1] at hσS; simp at hσS
    obtain ⟨M', hM⟩ : ∃ M' : ℕ, M' = ⌊φ / Real.pi⌋₊ := ⟨_, rfl⟩
    have m1 : M' * Real.pi ≤ φ := by
      rw [hM, ← le_div_iff₀ hpi]; exact Nat.floor_le (by positivity)
    have m2 : φ < (M' + 1) * Real.pi := by
      rw [hM, ← div_lt_iff₀ hpi]; exact Nat.lt_floor_add_one _
    have m3 : M' * Real.pi < φ := by
      rcases m1.lt_or_eq with h1 | h1
      · exact h1
      · exact absurd (by rw [← h1]; exact Real.sin_nat_mul_pi M') hsin
    have hs := neg_one_pow_sin m3 m2
    have hσM : σ = (-1) ^ M' := by
      have h1 : 0 < σ * Real.sin φ := by
        have : σ * (Real.sin φ / w) = σ * Real.sin φ / w := by ring
        rw [this] at hσS
        exact (div_pos_iff_of_pos_right hw).1 hσS
      have h2 : σ ^ 2 = ((-1) ^ M') ^ 2 := by
        rw [hσ, ← pow_mul, mul_comm, pow_mul]; norm_num
      rcases sq_eq_sq_iff_eq_or_eq_neg.1 h2 with h3 | h3
      · exact h3
      · rw [h3] at h1; linarith
    rw [hσM] at hV hg
    refine ⟨A, V, M', hG, ?_, hv1⟩
    have hP := Path.ell (μ := μ) (A := A) (φ := φ) (P := V3.norm r1 + V3.norm r2) m3 m2 hV0 hV
    convert hP using 1
    rw [hTT]
    unfold Tell
    rw [abs_sin_eq m3 m2]
    obtain ⟨g0, hg0⟩ : ∃ g0, g0 = Real.sqrt (V / μ) := ⟨_, rfl⟩
    have hg0p : 0 < g0 := by rw [hg0]; positivity
    have hg0sq : μ * g0 ^ 2 = V := by
      rw [hg0, Real.sq_sqrt (by positivity)]; field_simp
    rw [← hg0] at hg ⊢
    have hy : (-1) ^ M' * Real.sin φ = Real.sqrt 2 * g0 * w := by
      rw [← hg]; field_simp
    have hsf' : sf = φ / w := by rw [hφ]; field_simp
    rw [hy, Real.sin_two_mul, hsf', ← hg0sq]
    field_simp
    ring_nf
    rw [hr4]
  · subst h0
    obtain ⟨A, V, σ, sf, hG, hV0, hσ, hsf, hσS, hg, hV, hv1, hTT⟩ :=
      trip_converse hμ trip_zero hna h hf hβ hr hv hκ'
    have hσ1 : σ = 1 := by
      rcases sq_eq_one_iff.1 hσ with h1 | h1
      · exact h1
      · rw [h1] at hσS; linarith
    rw [hσ1] at hV hg
    refine ⟨A, V, 0, hG, ?_, hv1⟩
    have hP := Path.par (μ := μ) (A := A) (P := V3.norm r1 + V3.norm r2) hV0 (by rw [hV]; ring)
    convert hP using 1
    rw [hTT]
    unfold Tpar
    obtain ⟨g0, hg0⟩ : ∃ g0, g0 = Real.sqrt (V / μ) := ⟨_, rfl⟩
    have hg0p : 0 < g0 := by rw [hg0]; positivity
    have hg0sq : μ * g0 ^ 2 = V := by
      rw [hg0, Real.sq_sqrt (by positivity)]; field_simp
    rw [← hg0, one_mul] at hg
    rw [← hg0, hg, ← hg0sq]
    linear_combination (μ * g0 ^ 3 * Real.sqrt 2 / 6) * hr2
  · obtain ⟨w, hw, rfl⟩ : ∃ w : ℝ, 0 < w ∧ κ = w ^ 2 := ⟨Real.sqrt κ, Real.sqrt_pos.2 (by linarith), by
      rw [Real.sq_sqrt (by linarith)]⟩
    obtain ⟨A, V, σ, sf, hG, hV0, hσ, hsf, hσS, hg, hV, hv1, hTT⟩ :=
      trip_converse hμ (trip_pos hw) hna h hf hβ hr hv hκ'
    obtain ⟨φ, hφ⟩ : ∃ φ, φ = w * sf := ⟨_, rfl⟩
    rw [← hφ] at hσS hg hV hTT
    have hφ0 : 0 < φ := by rw [hφ]; positivity
    have hsin : 0 < Real.sinh φ := Real.sinh_pos_iff.2 hφ0
    have hσ1 : σ = 1 := by
      rcases sq_eq_one_iff.1 hσ with h1 | h1
      · exact h1
      · rw [h1] at hσS
        have : 0 < Real.sinh φ / w := by positivity
        linarith
    rw [hσ1, one_mul] at hV hg
    refine ⟨A, V, 0, hG, ?_, hv1⟩
    have hP := Path.hyp (μ := μ) (A := A) (P := V3.norm r1 + V3.norm r2) hφ0 hV0 hV
    convert hP using 1
    rw [hTT]
    unfold Thyp
    obtain ⟨g0, hg0⟩ : ∃ g0, g0 = Real.sqrt (V / μ) := ⟨_, rfl⟩
    have hg0p : 0 < g0 := by rw [hg0]; positivity
    have hg0sq : μ * g0 ^ 2 = V := by
      rw [hg0, Real.sq_sqrt (by positivity)]; field_simp
    rw [← hg0] at hg ⊢
    have hy : Real.sinh φ = Real.sqrt 2 * g0 * w := by
      rw [← hg]; field_simp
    have hsf' : sf = φ / w := by rw [hφ]; field_simp
    rw [hy, Real.sinh_two_mul, hsf', ← hg0sq, hy]
    field_simp
    ring_nf
    rw [hr4, show Real.sqrt 2 ^ 5 = Real.sqrt 2 ^ 4 * Real.sqrt 2 by ring, hr4]
    ring

end Lamberthub.LC
