import Verif.Spec.Radial
import Verif.Proofs.Path

/-! # Motions along a ray, by the Levi-Civita transformation -/

set_option autoImplicit false

namespace Lamberthub.LC
open Lamberthub Spec

/-- The inverse of an increasing function on an interval. -/
theorem local_inverse {tm d : ℝ → ℝ} {a b : ℝ} (ht : ∀ s, HasDerivAt tm (d s) s)
    (hd : ∀ s, a ≤ s → s ≤ b → 0 < d s) :
    ∃ σ : ℝ → ℝ, ∀ s, a < s → s < b → σ (tm s) = s ∧ HasDerivAt σ (d s)⁻¹ (tm s) := by
  have hcont : Continuous tm := continuous_iff_continuousAt.2 fun s => (ht s).continuousAt
  have hmono : StrictMonoOn tm (Set.Icc a b) := by
    apply strictMonoOn_of_hasDerivWithinAt_pos (convex_Icc a b) hcont.continuousOn (f' := d)
    · intro s _; exact (ht s).hasDerivWithinAt
    · intro s hs; rw [interior_Icc] at hs; exact hd s hs.1.le hs.2.le
  have hinj : Set.InjOn tm (Set.Ioo a b) := (hmono.mono Set.Ioo_subset_Icc_self).injOn
  have hl : ∀ s, a < s → s < b → Function.invFunOn tm (Set.Ioo a b) (tm s) = s := fun s h1 h2 =>
    hinj.leftInvOn_invFunOn ⟨h1, h2⟩
  refine ⟨Function.invFunOn tm (Set.Ioo a b), fun s h1 h2 => ⟨hl s h1 h2, ?_⟩⟩
  have key : ∀ ε > 0, a < s - ε → s + ε < b → ∀ᶠ y in nhds (tm s), ∃ s', s - ε < s' ∧ s' < s + ε ∧ tm s' = y := by
    intro ε hε e1 e2
    have i1 : tm (s - ε) < tm s := hmono ⟨e1.le, by linarith⟩ ⟨h1.le, h2.le⟩ (by linarith)
    have i2 : tm s < tm (s + ε) := hmono ⟨h1.le, h2.le⟩ ⟨by linarith, e2.le⟩ (by linarith)
    filter_upwards [Ioo_mem_nhds i1 i2] with y hy
    obtain ⟨s', hs, e⟩ := intermediate_value_Ioo (by linarith : s - ε ≤ s + ε) hcont.continuousOn hy
    exact ⟨s', hs.1, hs.2, e⟩
  obtain ⟨ε0, hε0, g1, g2⟩ : ∃ ε0 > 0, a < s - ε0 ∧ s + ε0 < b :=
    ⟨min (s - a) (b - s) / 2, by have : 0 < min (s - a) (b - s) := lt_min (by linarith) (by linarith)
                                 positivity,
      by have := min_le_left (s - a) (b - s); linarith, by have := min_le_right (s - a) (b - s); linarith⟩
  apply HasDerivAt.of_local_left_inverse (f := tm)
  · rw [Metric.continuousAt_iff']
    intro ε hε
    have hm : 0 < min ε ε0 := lt_min hε hε0
    filter_upwards [key (min ε ε0) hm (by linarith [min_le_right ε ε0]) (by linarith [min_le_right ε ε0])] with y hy
    obtain ⟨s', a1, a2, rfl⟩ := hy
    have := min_le_left ε ε0
    have := min_le_right ε ε0
    rw [hl s' (by linarith) (by linarith), hl s h1 h2, Real.dist_eq, abs_lt]
    constructor <;> linarith
  · rw [hl s h1 h2]; exact ht s
  · exact (hd s h1.le h2.le).ne'
  · filter_upwards [key ε0 hε0 g1 g2] with y hy
    obtain ⟨s', a1, a2, rfl⟩ := hy
    rw [hl s' (by linarith) (by linarith)]

/-- The ray form of `arc_of_trip`. -/
theorem radial_of_trip {μ κ : ℝ} {C S D : ℝ → ℝ} (hμ : 0 < μ) (hT : Trip κ C S D) {r1 : V3} (h1 : r1 ≠ 0)
    {k A : ℝ} (hk : 0 < k) (hA : A = Real.sqrt (2 * (V3.norm r1 * V3.norm (k • r1)))) {sf V : ℝ} (hsf : 0 < sf)
    (hV0 : 0 < V) (hSp : ∀ s, 0 < s → s ≤ sf → 0 < S s)
    (hW : ∀ s, 0 ≤ s → s ≤ sf → 0 ≤ S sf * C s - C sf * S s)
    (hS : S sf = Real.sqrt 2 * Real.sqrt (V / μ))
    (hV : V = V3.norm r1 + V3.norm (k • r1) - Real.sqrt 2 * A * C sf) :
    RadialTransfer μ r1 (k • r1) (fgV1 μ r1 (k • r1) A V) (fgV2 μ r1 (k • r1) A V)
      (μ * D sf / 2 + A * Real.sqrt (V / μ)) := by
  have hn : V3.norm (k • r1) = k * V3.norm r1 := by
    unfold V3.norm V3.dot
    simp only [V3.smul_x, V3.smul_y, V3.smul_z]
    rw [show k * r1.x * (k * r1.x) + k * r1.y * (k * r1.y) + k * r1.z * (k * r1.z) =
      k ^ 2 * (r1.x * r1.x + r1.y * r1.y + r1.z * r1.z) by ring, Real.sqrt_mul (by positivity), Real.sqrt_sq hk.le]
  have hR : 0 < V3.norm r1 := by
    rcases (norm_nonneg r1).lt_or_eq with h | h
    · exact h
    · exfalso
      apply h1
      have h2 := norm_sq r1
      rw [← h] at h2
      ext <;> simp <;> nlinarith [sq_nonneg r1.x, sq_nonneg r1.y, sq_nonneg r1.z]
  unfold fgV1 fgV2
  rw [hn] at hA hV ⊢
  generalize hRe : V3.norm r1 = R at *
  obtain ⟨a0, ha0, ha0s⟩ : ∃ a0, 0 < a0 ∧ a0 ^ 2 = R := ⟨Real.sqrt R, Real.sqrt_pos.2 hR, Real.sq_sqrt hR.le⟩
  obtain ⟨b, hb, hbs⟩ : ∃ b, 0 < b ∧ b ^ 2 = k := ⟨Real.sqrt k, Real.sqrt_pos.2 hk, Real.sq_sqrt hk.le⟩
  obtain ⟨w, hw, hws⟩ : ∃ w : ℝ, 0 < w ∧ w ^ 2 = 2 := ⟨Real.sqrt 2, by positivity, Real.sq_sqrt (by norm_num)⟩
  have hsw : Real.sqrt 2 = w := by rw [← hws]; exact Real.sqrt_sq hw.le
  have hA' : A = w * a0 ^ 2 * b := by
    rw [hA, show 2 * (R * (k * R)) = (w * a0 ^ 2 * b) ^ 2 by rw [← ha0s, ← hbs, ← hws]; ring]
    exact Real.sqrt_sq (by positivity)
  obtain ⟨g0, hg0⟩ : ∃ g0, g0 = Real.sqrt (V / μ) := ⟨_, rfl⟩
  have hg0p : 0 < g0 := by rw [hg0]; positivity
  have hg0sq : μ * g0 ^ 2 = V := by
    rw [hg0, Real.sq_sqrt (by positivity)]; field_simp
  rw [hsw] at hS hV
  rw [← hg0] at hS ⊢
  have hs : 0 < S sf := hSp sf hsf le_rfl
  obtain ⟨a1, ha1⟩ : ∃ a1, a1 * S sf = a0 * b - a0 * C sf := ⟨(a0 * b - a0 * C sf) / S sf, by field_simp⟩
  have hVe : V = a0 ^ 2 * (1 + b ^ 2 - 2 * b * C sf) := by
    rw [hV, hA', ← ha0s, ← hbs]; linear_combination -(a0 ^ 2 * b * C sf) * hws
  have hpf := hT.pyth sf
  have htf := hT.time sf
  have hSV : μ * S sf ^ 2 = 2 * V := by rw [hS, ← hg0sq]; linear_combination μ * g0 ^ 2 * hws
  have e1 : 2 * a1 ^ 2 - 2 * κ * a0 ^ 2 = μ := by
    apply mul_right_cancel₀ (pow_ne_zero 2 hs.ne')
    linear_combination 2 * (a1 * S sf + (a0 * b - a0 * C sf)) * ha1 - hSV - 2 * hVe + 2 * a0 ^ 2 * hpf
  set p : ℝ → ℝ := fun s => a0 * C s + a1 * S s with hp
  set pd : ℝ → ℝ := fun s => a0 * (κ * S s) + a1 * C s with hpd
  set tm : ℝ → ℝ := fun s => a0 ^ 2 * (s + κ * D s) + a0 * a1 * S s ^ 2 + a1 ^ 2 * D s with htm
  have dp : ∀ s, HasDerivAt p (pd s) s := fun s => ((hT.dC s).const_mul a0).add ((hT.dS s).const_mul a1)
  have dpd : ∀ s, HasDerivAt pd (κ * p s) s := fun s => by
    refine ((((hT.dS s).const_mul κ).const_mul a0).add ((hT.dC s).const_mul a1)).congr_deriv ?_
    simp only [hp]; ring
  have energy : ∀ s, 2 * pd s ^ 2 - 2 * κ * p s ^ 2 = μ := fun s => by
    have := hT.pyth s
    simp only [hp, hpd]
    linear_combination (2 * a1 ^ 2 - 2 * κ * a0 ^ 2) * this + e1
  have dt : ∀ s, HasDerivAt tm (p s ^ 2) s := fun s => by
    have hps := hT.pyth s
    refine (((((hasDerivAt_id s).add ((hT.dD s).const_mul κ)).const_mul (a0 ^ 2)).add
      ((((hT.dS s).pow 2).const_mul (a0 * a1)))).add ((hT.dD s).const_mul (a1 ^ 2))).congr_deriv ?_
    simp only [hp]
    push_cast
    linear_combination (- a0 ^ 2) * hps
  have pc : Continuous p := continuous_iff_continuousAt.2 fun s => (dp s).continuousAt
  have tc : Continuous tm := continuous_iff_continuousAt.2 fun s => (dt s).continuousAt
  have hp0 : p 0 = a0 := by simp [hp, hT.C0, hT.S0]
  have hpf0 : p sf = a0 * b := by simp only [hp]; linear_combination ha1
  have pp : ∀ s, 0 ≤ s → s ≤ sf → 0 < p s := by
    intro s s1 s2
    rcases s1.lt_or_eq with s1 | rfl
    · have i1 := hSp s s1 s2
      have i2 := hW s s1.le s2
      have e : p s * S sf = a0 * (S sf * C s - C sf * S s) + a0 * b * S s := by
        simp only [hp]; linear_combination S s * ha1
      have : 0 < p s * S sf := by rw [e]; positivity
      exact pos_of_mul_pos_left this hs.le
    · rw [hp0]; exact ha0
  -- a slightly larger interval
  obtain ⟨ε, hε, hpe⟩ : ∃ ε > 0, ∀ s, -ε ≤ s → s ≤ sf + ε → 0 < p s := by
    have n0 := pc.continuousAt.eventually (lt_mem_nhds (show 0 < p 0 by rw [hp0]; exact ha0))
    have n1 := pc.continuousAt.eventually (lt_mem_nhds (show 0 < p sf by rw [hpf0]; positivity))
    obtain ⟨ε0, q0, w0⟩ := Metric.eventually_nhds_iff.1 n0
    obtain ⟨ε1, q1, w1⟩ := Metric.eventually_nhds_iff.1 n1
    have hm : 0 < min ε0 ε1 := lt_min q0 q1
    refine ⟨min ε0 ε1 / 2, by positivity, fun s s1 s2 => ?_⟩
    have := min_le_left ε0 ε1
    have := min_le_right ε0 ε1
    by_cases c0 : s < 0
    · exact w0 (by rw [Real.dist_eq, sub_zero, abs_of_neg c0]; linarith)
    · by_cases c1 : s ≤ sf
      · exact pp s (by linarith) c1
      · exact w1 (by rw [Real.dist_eq, abs_of_pos (by linarith)]; linarith)
  obtain ⟨τ, hτ⟩ := local_inverse (a := -ε) (b := sf + ε) dt (fun s s1 s2 => pow_pos (hpe s s1 s2) 2)
  have tm0 : tm 0 = 0 := by simp [htm, hT.S0, hT.D0]
  have tmf : tm sf = μ * D sf / 2 + A * g0 := by
    simp only [htm]
    rw [hA']
    linear_combination (D sf / 2) * e1 + a0 * S sf * ha1 + a0 ^ 2 * htf + a0 ^ 2 * b * hS
  have hmono : tm 0 < tm sf := by
    have := strictMonoOn_of_hasDerivWithinAt_pos (convex_Icc 0 sf) tc.continuousOn (f' := fun s => p s ^ 2)
      (fun s _ => (dt s).hasDerivWithinAt) (fun s hs => by
        rw [interior_Icc] at hs; exact pow_pos (pp s hs.1.le hs.2.le) 2)
    exact this ⟨le_rfl, hsf.le⟩ ⟨hsf.le, le_rfl⟩ hsf
  have τ0 : τ 0 = 0 := by have := (hτ 0 (by linarith) (by linarith)).1; rwa [tm0] at this
  have τf : τ (μ * D sf / 2 + A * g0) = sf := by rw [← tmf]; exact (hτ sf (by linarith) (by linarith)).1
  set e : V3 := R⁻¹ • r1 with he
  have hel : ∀ c, 0 ≤ c → len (c • e) = c := by
    intro c hc
    have hns := norm_sq r1
    rw [hRe] at hns
    unfold len
    simp only [he, V3.smul_x, V3.smul_y, V3.smul_z]
    rw [show (c * (R⁻¹ * r1.x)) ^ 2 + (c * (R⁻¹ * r1.y)) ^ 2 + (c * (R⁻¹ * r1.z)) ^ 2 = c ^ 2 by
      rw [show (c * (R⁻¹ * r1.x)) ^ 2 + (c * (R⁻¹ * r1.y)) ^ 2 + (c * (R⁻¹ * r1.z)) ^ 2 =
        c ^ 2 * R⁻¹ ^ 2 * (r1.x ^ 2 + r1.y ^ 2 + r1.z ^ 2) by ring, ← hns]
      field_simp]
    exact Real.sqrt_sq hc
  refine ⟨by rw [← tmf, ← tm0]; exact hmono, fun t => p (τ t) ^ 2 • e, fun t => (2 * pd (τ t) / p (τ t)) • e, ?_, ?_, ?_,
    ?_, ?_⟩
  · intro t t1 t2
    rw [← tm0] at t1
    rw [← tmf] at t2
    obtain ⟨s, hs, rfl⟩ := intermediate_value_Icc hsf.le tc.continuousOn ⟨t1, t2⟩
    have hps := pp s hs.1 hs.2
    obtain ⟨i1, i2⟩ := hτ s (by linarith [hs.1]) (by linarith [hs.2])
    have hd1 : HasDerivAt (fun t => p (τ t) ^ 2) (2 * pd s / p s) (tm s) := by
      have hc := (dp (τ (tm s))).comp (tm s) i2
      refine (hc.pow 2).congr_deriv ?_
      simp only [Function.comp_apply, i1]
      push_cast
      field_simp
    have hd2 : HasDerivAt (fun t => 2 * pd (τ t) / p (τ t)) (-μ / p s ^ 4) (tm s) := by
      have hc := (dp (τ (tm s))).comp (tm s) i2
      have hc2 := (dpd (τ (tm s))).comp (tm s) i2
      have hne : (p ∘ τ) (tm s) ≠ 0 := by simp only [Function.comp_apply, i1]; exact hps.ne'
      refine ((hc2.const_mul 2).div hc hne).congr_deriv ?_
      simp only [Function.comp_apply, i1]
      rw [← energy s]
      field_simp
      ring
    refine ⟨⟨p (τ (tm s)) ^ 2 * R⁻¹, by rw [i1]; positivity, by ext <;> simp [he] <;> ring⟩, ?_, ?_⟩
    · simp only [i1]
      refine ⟨?_, ?_, ?_⟩ <;> simp only [V3.smul_x, V3.smul_y, V3.smul_z] <;> exact hd1.mul_const _
    · simp only [i1]
      rw [hel _ (by positivity)]
      refine ⟨?_, ?_, ?_⟩ <;> simp only [V3.smul_x, V3.smul_y, V3.smul_z] <;>
        refine (hd2.mul_const _).congr_deriv ?_ <;> field_simp
  · simp only [τ0, hp0, he, ha0s]
    ext <;> simp <;> field_simp
  · have hpd0 : pd 0 = a1 := by simp [hpd, hT.C0, hT.S0]
    simp only [τ0, hp0, hpd0, he]
    have : 2 * a1 / a0 * R⁻¹ = (A * g0)⁻¹ * (k - (1 - V / R)) := by
      have ha1' : a1 * (w * g0) = a0 * b - a0 * C sf := by rw [← hS]; exact ha1
      rw [hA', ← ha0s, ← hbs, hVe]
      field_simp
      linear_combination 2 * b * ha1'
    ext <;> simp only [V3.smul_x, V3.smul_y, V3.smul_z, V3.sub_x, V3.sub_y, V3.sub_z] <;> rw [← mul_assoc, this] <;> ring
  · simp only [τf, hpf0, he]
    have : (a0 * b) ^ 2 * R⁻¹ = k := by rw [← ha0s, ← hbs]; field_simp
    ext <;> simp only [V3.smul_x, V3.smul_y, V3.smul_z] <;> rw [← mul_assoc, this]
  · simp only [τf, hpf0, he]
    have hPD : S sf * pd sf = a0 * b * C sf - a0 := by
      simp only [hpd]; linear_combination (C sf) * ha1 - a0 * hpf
    rw [hS] at hPD
    have : 2 * pd sf / (a0 * b) * R⁻¹ = (A * g0)⁻¹ * ((1 - V / (k * R)) * k - 1) := by
      rw [hA', ← ha0s, ← hbs, hVe]
      field_simp
      linear_combination 2 * hPD
    ext <;> simp only [V3.smul_x, V3.smul_y, V3.smul_z, V3.sub_x, V3.sub_y, V3.sub_z] <;> rw [← mul_assoc, this] <;> ring

/-- A path with less than one revolution between positions in the same direction, taken the short way, is a motion along
the ray. -/
theorem Path.radial {μ : ℝ} (hμ : 0 < μ) {r1 : V3} (h1 : r1 ≠ 0) {k A : ℝ} (hk : 0 < k)
    (hA : A = Real.sqrt (2 * (V3.norm r1 * V3.norm (k • r1)))) {V T : ℝ}
    (h : Path μ (V3.norm r1 + V3.norm (k • r1)) A 0 V T) :
    RadialTransfer μ r1 (k • r1) (fgV1 μ r1 (k • r1) A V) (fgV2 μ r1 (k • r1) A V) T := by
  have hpi := Real.pi_pos
  have hV0 := h.V_pos
  obtain ⟨g0, hg0⟩ : ∃ g0, g0 = Real.sqrt (V / μ) := ⟨_, rfl⟩
  have hg0p : 0 < g0 := by rw [hg0]; positivity
  have hg0sq : μ * g0 ^ 2 = V := by
    rw [hg0, Real.sq_sqrt (by positivity)]; field_simp
  have hr2 : Real.sqrt 2 ^ 2 = 2 := Real.sq_sqrt (by norm_num)
  have hr2p : 0 < Real.sqrt 2 := by positivity
  have hr4 : Real.sqrt 2 ^ 4 = 4 := by
    rw [show (4 : ℕ) = 2 * 2 from rfl, pow_mul, hr2]; norm_num
  generalize hM : (0 : ℕ) = M at h
  cases h with
  | @ell _ φ _ p1 p2 _ hV =>
    subst hM
    simp only [Nat.cast_zero, zero_mul, zero_add, one_mul, pow_zero] at p1 p2 hV
    have hsp : 0 < Real.sin φ := Real.sin_pos_of_pos_of_lt_pi p1 p2
    obtain ⟨w, hw⟩ : ∃ w, w = Real.sin φ / (Real.sqrt 2 * g0) := ⟨_, rfl⟩
    have hwp : 0 < w := by rw [hw]; positivity
    have hws : w * (φ / w) = φ := by field_simp
    have hle : ∀ s, s ≤ φ / w → w * s ≤ φ := fun s hs => by
      rw [← hws]; exact mul_le_mul_of_nonneg_left hs hwp.le
    have h := radial_of_trip hμ (trip_neg hwp) h1 hk hA (sf := φ / w) (by positivity) hV0
      (fun s s1 s2 => div_pos (Real.sin_pos_of_pos_of_lt_pi (by positivity) (by linarith [hle s s2])) hwp)
      (fun s s1 s2 => by
        have := hle s s2
        have h3 : 0 ≤ Real.sin (φ - w * s) := Real.sin_nonneg_of_nonneg_of_le_pi (by linarith) (by nlinarith)
        rw [Real.sin_sub] at h3
        rw [hws]
        have : Real.sin φ / w * Real.cos (w * s) - Real.cos φ * (Real.sin (w * s) / w) =
          (Real.sin φ * Real.cos (w * s) - Real.cos φ * Real.sin (w * s)) / w := by ring
        rw [this]; positivity)
      (by rw [hws, ← hg0, hw]; field_simp) (by rw [hws, hV])
    convert h using 1
    simp only [hws]
    unfold Tell
    rw [← hg0, Real.sin_two_mul, abs_of_pos hsp]
    have hsne := hsp.ne'
    rw [hw, ← hg0sq]
    field_simp
    ring_nf
    rw [hr4]
  | par _ hV =>
    have h := radial_of_trip hμ trip_zero h1 hk hA (sf := Real.sqrt 2 * g0) (by positivity) hV0
      (fun s s1 _ => s1) (fun s s1 s2 => by simpa using s2) (by rw [← hg0]) (by rw [hV]; ring)
    convert h using 1
    unfold Tpar
    rw [← hg0, ← hg0sq]
    linear_combination (-(μ * g0 ^ 3 * Real.sqrt 2 / 6)) * hr2
  | @hyp φ _ hφ _ hV =>
    have hsp : 0 < Real.sinh φ := Real.sinh_pos_iff.2 hφ
    obtain ⟨w, hw⟩ : ∃ w, w = Real.sinh φ / (Real.sqrt 2 * g0) := ⟨_, rfl⟩
    have hwp : 0 < w := by rw [hw]; positivity
    have hws : w * (φ / w) = φ := by field_simp
    have h := radial_of_trip hμ (trip_pos hwp) h1 hk hA (sf := φ / w) (by positivity) hV0
      (fun s s1 s2 => div_pos (Real.sinh_pos_iff.2 (by positivity)) hwp)
      (fun s s1 s2 => by
        have h3 : 0 ≤ Real.sinh (φ - w * s) := by
          rw [Real.sinh_nonneg_iff, ← hws]
          exact sub_nonneg.2 (mul_le_mul_of_nonneg_left s2 hwp.le)
        rw [Real.sinh_sub] at h3
        rw [hws]
        have : Real.sinh φ / w * Real.cosh (w * s) - Real.cosh φ * (Real.sinh (w * s) / w) =
          (Real.sinh φ * Real.cosh (w * s) - Real.cosh φ * Real.sinh (w * s)) / w := by ring
        rw [this]; positivity)
      (by rw [hws, ← hg0, hw]; field_simp) (by rw [hws, hV])
    convert h using 1
    simp only [hws]
    unfold Thyp
    rw [← hg0, Real.sinh_two_mul]
    have hsne := hsp.ne'
    rw [hw, ← hg0sq]
    field_simp
    ring_nf
    rw [hr4]

end Lamberthub.LC
