import Verif.Props.ReversalAvanzini
import Verif.Props.ReversalMore
import Verif.Props.Delatorre
import Verif.Props.Gooding
import Verif.Props.Thorne
import Verif.Props.Der
import Verif.Props.Arora
import Verif.Props.Jiang
import Verif.Props.McElreath
import Verif.Props.Negrete
import Verif.Props.Pan
import Verif.Props.Battin
import Verif.Props.Avanzini
import Verif.Props.AvanziniMore
import Verif.Props.AroraMore
import Verif.Props.DelatorreMore

/-!
# The two returned velocities lie on one orbit (property C60)

Whatever the time of flight, the tolerances and the quality of the convergence, the two states
`(r1, v1)` and `(r2, v2)` have the same angular momentum, the same energy and the same
eccentricity vector.  The specification `Spec.OneOrbit` mentions no helper of the model and no
time: it is the statement that the three first integrals of the two-body problem agree.
-/

set_option autoImplicit false

namespace Lamberthub
open Spec LC

/-- The states `(r1, v1)` and `(r2, v2)` have the same first integrals: angular momentum
`r × v`, energy `v²/2 - μ/r` and eccentricity vector `(v × (r × v))/μ - r/|r|`. -/
def Spec.OneOrbit (μ : ℝ) (r1 v1 r2 v2 : V3) : Prop :=
  outer r1 v1 = outer r2 v2 ∧
  len v1 ^ 2 / 2 - μ / len r1 = len v2 ^ 2 / 2 - μ / len r2 ∧
  μ⁻¹ • outer v1 (outer r1 v1) - (len r1)⁻¹ • r1 = μ⁻¹ • outer v2 (outer r2 v2) - (len r2)⁻¹ • r2

theorem OneOrbit.symm {μ : ℝ} {r1 v1 r2 v2 : V3} (h : OneOrbit μ r1 v1 r2 v2) : OneOrbit μ r2 v2 r1 v1 :=
  ⟨h.1.symm, h.2.1.symm, h.2.2.symm⟩

theorem len_sq_dot (v : V3) : len v ^ 2 = V3.dot v v := by
  rw [len, Real.sq_sqrt (by positivity)]; unfold V3.dot; ring

theorem outer_outer (a b c : V3) : outer a (outer b c) = (V3.dot a c) • b - (V3.dot a b) • c := by
  unfold outer V3.dot; ext <;> simp <;> ring

theorem outer_fgV2 (μ : ℝ) (r1 r2 : V3) (A V : ℝ) :
    outer r2 (fgV2 μ r1 r2 A V) = (A * Real.sqrt (V / μ))⁻¹ • outer r1 r2 := by
  unfold fgV2 outer
  ext <;> simp <;> ring

/-- The eccentricity vector of the orbit of parameter `V`. -/
theorem fgV1_ecc {μ A V : ℝ} (hμ : 0 < μ) (hV : 0 < V) {r1 r2 : V3} (hG : Geo r1 r2 A) :
    μ⁻¹ • outer (fgV1 μ r1 r2 A V) (outer r1 (fgV1 μ r1 r2 A V)) - (V3.norm r1)⁻¹ • r1 =
      ((V3.norm r2 ^ 2 - V3.dot r1 r2 - V * V3.norm r2) / (A ^ 2 * V)) • r1 +
      ((V3.norm r1 ^ 2 - V3.dot r1 r2 - V * V3.norm r1) / (A ^ 2 * V)) • r2 := by
  have hR1 := hG.R1
  have hA := hG.hA
  have h1 : V3.dot r1 r1 = V3.norm r1 ^ 2 := by rw [← norm_mul_self r1, sq]
  have h2 : V3.dot r2 r2 = V3.norm r2 ^ 2 := by rw [← norm_mul_self r2, sq]
  have hd : A ^ 2 = V3.dot r1 r2 + V3.norm r1 * V3.norm r2 := by rw [hG.hA2]; ring
  have hg2 : (A * Real.sqrt (V / μ)) ^ 2 = A ^ 2 * V / μ := by
    rw [mul_pow, Real.sq_sqrt (by positivity)]; ring
  have hg0 : A * Real.sqrt (V / μ) ≠ 0 := mul_ne_zero hA (by positivity)
  have d1 : V3.dot (fgV1 μ r1 r2 A V) r1 = (A * Real.sqrt (V / μ))⁻¹ *
      (V3.dot r1 r2 - (1 - V / V3.norm r1) * V3.norm r1 ^ 2) := by
    rw [← h1]; unfold fgV1
    generalize A * Real.sqrt (V / μ) = g
    generalize 1 - V / V3.norm r1 = f
    unfold V3.dot; simp; ring
  have d2 : V3.dot (fgV1 μ r1 r2 A V) r2 = (A * Real.sqrt (V / μ))⁻¹ *
      (V3.norm r2 ^ 2 - (1 - V / V3.norm r1) * V3.dot r1 r2) := by
    rw [← h2]; unfold fgV1
    generalize A * Real.sqrt (V / μ) = g
    generalize 1 - V / V3.norm r1 = f
    unfold V3.dot; simp; ring
  rw [outer_fgV1]
  have e : outer (fgV1 μ r1 r2 A V) ((A * Real.sqrt (V / μ))⁻¹ • outer r1 r2) =
      (A * Real.sqrt (V / μ))⁻¹ • outer (fgV1 μ r1 r2 A V) (outer r1 r2) := by
    unfold outer; ext <;> simp <;> ring
  rw [e, outer_outer, d1, d2]
  have k : μ⁻¹ * ((A * Real.sqrt (V / μ))⁻¹ * (A * Real.sqrt (V / μ))⁻¹) = 1 / (A ^ 2 * V) := by
    rw [← mul_inv, ← sq, hg2]; field_simp
  have ka : ∀ t, μ⁻¹ * ((A * Real.sqrt (V / μ))⁻¹ * ((A * Real.sqrt (V / μ))⁻¹ * t)) = t / (A ^ 2 * V) := by
    intro t
    calc _ = μ⁻¹ * ((A * Real.sqrt (V / μ))⁻¹ * (A * Real.sqrt (V / μ))⁻¹) * t := by ring
      _ = _ := by rw [k]; ring
  have kb : ∀ t1 t2 x1 x2 : ℝ, μ⁻¹ * ((A * Real.sqrt (V / μ))⁻¹ * ((A * Real.sqrt (V / μ))⁻¹ * t1 * x1 -
      (A * Real.sqrt (V / μ))⁻¹ * t2 * x2)) - (V3.norm r1)⁻¹ * x1 =
      (t1 / (A ^ 2 * V) - (V3.norm r1)⁻¹) * x1 - t2 / (A ^ 2 * V) * x2 := by
    intro t1 t2 x1 x2
    rw [← ka t1, ← ka t2]; ring
  have c1 : (V3.norm r2 ^ 2 - (1 - V / V3.norm r1) * V3.dot r1 r2) / (A ^ 2 * V) - (V3.norm r1)⁻¹ =
      (V3.norm r2 ^ 2 - V3.dot r1 r2 - V * V3.norm r2) / (A ^ 2 * V) := by
    field_simp
    linear_combination (-V) * hd
  have c2 : V3.dot r1 r2 - (1 - V / V3.norm r1) * V3.norm r1 ^ 2 =
      -(V3.norm r1 ^ 2 - V3.dot r1 r2 - V * V3.norm r1) := by
    field_simp
    ring
  rw [← c1]
  ext
  · simp only [V3.sub_x, V3.add_x, V3.smul_x]; rw [kb, c2]; ring
  · simp only [V3.sub_y, V3.add_y, V3.smul_y]; rw [kb, c2]; ring
  · simp only [V3.sub_z, V3.add_z, V3.smul_z]; rw [kb, c2]; ring

/-- The two velocities of the Lagrange form lie on one orbit, for every positive parameter. -/
theorem LC.Geo.oneOrbit {μ A V : ℝ} (hμ : 0 < μ) (hV : 0 < V) {r1 r2 : V3} (hG : Geo r1 r2 A) :
    OneOrbit μ r1 (fgV1 μ r1 r2 A V) r2 (fgV2 μ r1 r2 A V) := by
  have hs := LC.Geo.symm hG
  have hn : fgV2 μ r1 r2 A V = -fgV1 μ r2 r1 A V := by rw [fgV1_swap]; ext <;> simp
  refine ⟨by rw [outer_fgV1, outer_fgV2], ?_, ?_⟩
  · have e1 := fgV1_energy hμ hV hG
    have e2 := fgV1_energy hμ hV hs
    rw [len_sq_dot, len_sq_dot, len_eq_norm, len_eq_norm, e1, hn]
    have : V3.dot (-fgV1 μ r2 r1 A V) (-fgV1 μ r2 r1 A V) = V3.dot (fgV1 μ r2 r1 A V) (fgV1 μ r2 r1 A V) := by
      unfold V3.dot; simp
    rw [this, e2, add_comm (V3.norm r1)]
  · have e1 := fgV1_ecc hμ hV hG
    have e2 := fgV1_ecc hμ hV hs
    have : ∀ v : V3, outer (-v) (outer r2 (-v)) = outer v (outer r2 v) := by
      intro v; unfold outer; ext <;> simp <;> ring
    rw [len_eq_norm, len_eq_norm, e1, hn, this, e2, V3.dot_swap r2 r1]
    ext <;> simp <;> ring

/-- Conservation along a transfer. -/
theorem arc_oneOrbit {μ : ℝ} (hμ : 0 < μ) {r1 r2 v1 v2 : V3} {T : ℝ} {M : ℕ} (hna : NotAligned r1 r2)
    (h : LambertArc μ r1 r2 v1 v2 T M) : OneOrbit μ r1 v1 r2 v2 := by
  obtain ⟨A, V, hG, hP, rfl, rfl⟩ := path_of_arc hμ hna h
  exact hG.oneOrbit hμ hP.V_pos

/-- Two states of one orbit with the same `v × (r × v)` are in the same direction. -/
theorem not_oneOrbit_of_outer {μ : ℝ} {r1 r2 v1 v2 : V3} (hna : NotAligned r1 r2)
    (hv : outer v1 (outer r1 v1) = outer v2 (outer r2 v2)) : ¬ OneOrbit μ r1 v1 r2 v2 := by
  rintro ⟨-, -, he⟩
  have hp1 : 0 < len r1 := by rw [len_eq_norm]; exact norm_pos_of_notAligned_left hna
  have hp2 : 0 < len r2 := by rw [len_eq_norm]; exact norm_pos_of_notAligned_right hna
  rw [hv] at he
  have hx := congrArg V3.x he
  have hy := congrArg V3.y he
  have hz := congrArg V3.z he
  simp only [V3.sub_x, V3.sub_y, V3.sub_z, V3.smul_x, V3.smul_y, V3.smul_z, sub_right_inj] at hx hy hz
  apply hna
  have ex : r2.x = (len r2 / len r1) * r1.x := by field_simp at hx ⊢; linarith
  have ey : r2.y = (len r2 / len r1) * r1.y := by field_simp at hy ⊢; linarith
  have ez : r2.z = (len r2 / len r1) * r1.z := by field_simp at hz ⊢; linarith
  rw [ex, ey, ez]
  exact ⟨by ring, by ring, by ring⟩

/-- The velocities of the Lagrange form belong to one motion, for every positive parameter: either the motion
goes from `r1` to `r2`, or it goes from `r2` to `r1`. -/
theorem LC.Geo.oneMotion {μ A V : ℝ} (hμ : 0 < μ) (hV : 0 < V) {r1 r2 : V3} (hG : Geo r1 r2 A) :
    (∃ T, LambertArc μ r1 r2 (fgV1 μ r1 r2 A V) (fgV2 μ r1 r2 A V) T 0) ∨
      ∃ T, LambertArc μ r2 r1 (fgV2 μ r1 r2 A V) (fgV1 μ r1 r2 A V) T 0 := by
  have hA := hG.hA
  have hr2 : Real.sqrt 2 ≠ 0 := by positivity
  obtain ⟨c, hc⟩ : ∃ c, c = (V3.norm r1 + V3.norm r2 - V) / (Real.sqrt 2 * A) := ⟨_, rfl⟩
  have hVe : V = V3.norm r1 + V3.norm r2 - Real.sqrt 2 * A * c := by rw [hc]; field_simp; ring
  rcases lt_or_ge (-1) c with h1 | h1
  · obtain ⟨T, hT⟩ := McElreath.path_of_cos_zero (μ := μ) h1 hV hVe
    exact .inl ⟨T, hT.arc hμ hG⟩
  · obtain ⟨T, hT⟩ := McElreath.path_of_cos_zero (μ := μ) (P := V3.norm r2 + V3.norm r1) (A := -A) (c := -c)
      (by linarith) hV (by rw [hVe]; ring)
    have := hT.arc hμ (McElreath.geo_swap hG)
    rw [(McElreath.fg_swap _ _ _ _ _).1, (McElreath.fg_swap _ _ _ _ _).2] at this
    exact .inr ⟨T, this⟩

theorem parallel_of_outer {r D : V3} (hr : 0 < V3.norm r) (h : outer r D = 0) : ∃ k : ℝ, D = k • r := by
  have hd : V3.dot r r ≠ 0 := by rw [← norm_mul_self]; positivity
  refine ⟨V3.dot r D / V3.dot r r, ?_⟩
  have e := outer_outer r r D
  rw [h] at e
  have e0 : outer r 0 = 0 := by unfold outer; ext <;> simp
  rw [e0] at e
  have hx := congrArg V3.x e
  have hy := congrArg V3.y e
  have hz := congrArg V3.z e
  simp only [V3.sub_x, V3.sub_y, V3.sub_z, V3.smul_x, V3.smul_y, V3.smul_z, V3.zero_x, V3.zero_y, V3.zero_z] at hx hy hz
  ext <;> simp only [V3.smul_x, V3.smul_y, V3.smul_z] <;> rw [div_mul_eq_mul_div, eq_div_iff hd] <;> linarith

/-- Two states with the same first integrals and positions that are not aligned are given by Lagrange's form. -/
theorem fg_of_oneOrbit {μ : ℝ} (hμ : 0 < μ) {r1 r2 v1 v2 : V3} (hna : NotAligned r1 r2) (h : OneOrbit μ r1 v1 r2 v2) :
    ∃ A V, Geo r1 r2 A ∧ 0 < V ∧ v1 = fgV1 μ r1 r2 A V ∧ v2 = fgV2 μ r1 r2 A V := by
  obtain ⟨hh, -, he⟩ := id h
  have hR1 := norm_pos_of_notAligned_left hna
  have hR2 := norm_pos_of_notAligned_right hna
  have hw := outer_sq_pos hna
  have hd := abs_lt.1 (abs_dot_lt hna)
  -- the angular momentum is along the normal of the plane of the two positions
  obtain ⟨H, hH⟩ : ∃ H, H = outer r1 v1 := ⟨_, rfl⟩
  have hH2 : H = outer r2 v2 := by rw [hH, hh]
  have p1 : V3.dot r1 H = 0 := by rw [hH]; unfold V3.dot outer; simp only []; ring
  have p2 : V3.dot r2 H = 0 := by rw [hH2]; unfold V3.dot outer; simp only []; ring
  obtain ⟨c, hc⟩ : ∃ c : ℝ, H = c • outer r1 r2 := by
    refine parallel_of_outer ?_ ?_
    · rw [norm_pos_iff]
      intro h0
      rw [h0] at hw
      simp [Spec.inner] at hw
    · have : outer (outer r1 r2) H = (V3.dot r1 H) • r2 - (V3.dot r2 H) • r1 := by
        unfold outer V3.dot; ext <;> simp <;> ring
      rw [this, p1, p2]
      ext <;> simp
  have hc0 : c ≠ 0 := by
    rintro rfl
    have h0 : H = 0 := by rw [hc]; ext <;> simp
    refine not_oneOrbit_of_outer hna ?_ h
    rw [← hH, ← hH2, h0]
    unfold outer; ext <;> simp
  obtain ⟨A, V, hA, hV, hg⟩ : ∃ A V, Geo r1 r2 A ∧ 0 < V ∧ (A * Real.sqrt (V / μ))⁻¹ = c := by
    have hb : 0 < V3.norm r1 * V3.norm r2 + V3.dot r1 r2 := by linarith
    have hsb := Real.sqrt_pos.2 hb
    refine ⟨(SignType.sign c : ℝ) * Real.sqrt (V3.norm r1 * V3.norm r2 + V3.dot r1 r2),
      μ * (c * Real.sqrt (V3.norm r1 * V3.norm r2 + V3.dot r1 r2))⁻¹ ^ 2, ⟨?_, ?_, hna⟩, by positivity, ?_⟩
    · refine mul_ne_zero ?_ hsb.ne'
      rcases lt_or_gt_of_ne hc0 with h | h <;> simp [h]
    · rw [mul_pow, Real.sq_sqrt hb.le]
      rcases lt_or_gt_of_ne hc0 with h | h <;> simp [h]
    · rw [mul_div_cancel_left₀ _ hμ.ne', Real.sqrt_sq_eq_abs, abs_inv, abs_mul, abs_of_pos hsb]
      generalize Real.sqrt (V3.norm r1 * V3.norm r2 + V3.dot r1 r2) = b at hsb
      rcases lt_or_gt_of_ne hc0 with h | h
      · simp only [h, sign_neg, abs_of_neg, SignType.coe_neg_one]
        field_simp
      · simp only [h, sign_pos, abs_of_pos, SignType.coe_one]
        field_simp
  refine ⟨A, V, hA, hV, ?_⟩
  obtain ⟨-, -, he'⟩ := hA.oneOrbit hμ hV
  have o1 := outer_fgV1 μ r1 r2 A V
  have o2 := outer_fgV2 μ r1 r2 A V
  rw [hg, ← hc] at o1 o2
  rw [← hH, ← hH2] at he
  rw [o1, o2] at he'
  generalize fgV1 μ r1 r2 A V = w1 at *
  generalize fgV2 μ r1 r2 A V = w2 at *
  have osub : ∀ a b d : V3, outer a (b - d) = outer a b - outer a d := by
    intro a b d; unfold outer; ext <;> simp <;> ring
  have zsub : ∀ a : V3, a - a = 0 := by intro a; ext <;> simp
  obtain ⟨k1, hk1⟩ := parallel_of_outer (r := r1) (D := v1 - w1) hR1 (by rw [osub, ← hH, o1, zsub])
  obtain ⟨k2, hk2⟩ := parallel_of_outer (r := r2) (D := v2 - w2) hR2 (by rw [osub, ← hH2, o2, zsub])
  -- the two differences have the same product with the angular momentum
  have key : outer (v1 - w1) (outer r1 r2) = outer (v2 - w2) (outer r1 r2) := by
    have sx := congrArg V3.x he
    have sy := congrArg V3.y he
    have sz := congrArg V3.z he
    have tx := congrArg V3.x he'
    have ty := congrArg V3.y he'
    have tz := congrArg V3.z he'
    rw [hc] at sx sy sz tx ty tz
    simp only [V3.sub_x, V3.sub_y, V3.sub_z, V3.smul_x, V3.smul_y, V3.smul_z, outer] at sx sy sz tx ty tz
    have hμc : μ⁻¹ * c ≠ 0 := by positivity
    ext <;> simp only [outer, V3.sub_x, V3.sub_y, V3.sub_z] <;> apply mul_left_cancel₀ hμc
    · linear_combination sx - tx
    · linear_combination sy - ty
    · linear_combination sz - tz
  rw [hk1, hk2, outer_outer, outer_outer] at key
  have dl : ∀ (k : ℝ) (a b : V3), V3.dot (k • a) b = k * V3.dot a b := by
    intro k a b; unfold V3.dot; simp; ring
  rw [dl, dl, dl, dl, V3.dot_swap r1 r2] at key
  have hx := congrArg V3.x key
  have hy := congrArg V3.y key
  have hz := congrArg V3.z key
  simp only [V3.sub_x, V3.sub_y, V3.sub_z, V3.smul_x, V3.smul_y, V3.smul_z] at hx hy hz
  obtain ⟨a, ha⟩ : ∃ a, a = k1 * V3.dot r1 r2 - k2 * V3.dot r2 r2 := ⟨_, rfl⟩
  obtain ⟨b, hb⟩ : ∃ b, b = k1 * V3.dot r1 r1 - k2 * V3.dot r1 r2 := ⟨_, rfl⟩
  have gx : a * r1.x = b * r2.x := by rw [ha, hb]; linear_combination hx
  have gy : a * r1.y = b * r2.y := by rw [ha, hb]; linear_combination hy
  have gz : a * r1.z = b * r2.z := by rw [ha, hb]; linear_combination hz
  have ha0 : a = 0 := by
    by_contra h0
    apply hna
    refine ⟨?_, ?_, ?_⟩ <;> apply mul_left_cancel₀ h0
    · linear_combination r2.z * gy - r2.y * gz
    · linear_combination r2.x * gz - r2.z * gx
    · linear_combination r2.y * gx - r2.x * gy
  have hb0 : b = 0 := by
    by_contra h0
    apply hna
    refine ⟨?_, ?_, ?_⟩ <;> apply mul_left_cancel₀ h0
    · linear_combination r1.z * gy - r1.y * gz
    · linear_combination r1.x * gz - r1.z * gx
    · linear_combination r1.y * gx - r1.x * gy
  have n1 := norm_mul_self r1
  have n2 := norm_mul_self r2
  have hdet : V3.dot r1 r1 * V3.dot r2 r2 - V3.dot r1 r2 ^ 2 ≠ 0 := by
    rw [← n1, ← n2]
    have : 0 < (V3.norm r1 * V3.norm r2 - V3.dot r1 r2) * (V3.norm r1 * V3.norm r2 + V3.dot r1 r2) :=
      mul_pos (by linarith) (by linarith)
    nlinarith
  rw [ha0] at ha
  rw [hb0] at hb
  have k10 : k1 = 0 := by
    apply mul_left_cancel₀ hdet
    linear_combination V3.dot r1 r2 * ha - V3.dot r2 r2 * hb
  have k20 : k2 = 0 := by
    apply mul_left_cancel₀ hdet
    linear_combination V3.dot r1 r1 * ha - V3.dot r1 r2 * hb
  have fin : ∀ (v w r : V3), v - w = (0 : ℝ) • r → v = w := by
    intro v w r h
    have hx := congrArg V3.x h
    have hy := congrArg V3.y h
    have hz := congrArg V3.z h
    simp only [V3.sub_x, V3.sub_y, V3.sub_z, V3.smul_x, V3.smul_y, V3.smul_z, zero_mul] at hx hy hz
    ext <;> linarith
  exact ⟨fin _ _ r1 (by rw [hk1, k10]), fin _ _ r2 (by rw [hk2, k20])⟩

/-- **Adequacy of the specification**: two states at positions that are not aligned have the same first integrals
exactly when some Kepler motion goes from one to the other, in one order or the other. -/
theorem oneOrbit_iff {μ : ℝ} (hμ : 0 < μ) {r1 r2 v1 v2 : V3} (hna : NotAligned r1 r2) :
    OneOrbit μ r1 v1 r2 v2 ↔ (∃ T, LambertArc μ r1 r2 v1 v2 T 0) ∨ ∃ T, LambertArc μ r2 r1 v2 v1 T 0 := by
  constructor
  · intro h
    obtain ⟨A, V, hG, hV, rfl, rfl⟩ := fg_of_oneOrbit hμ hna h
    exact hG.oneMotion hμ hV
  · rintro (⟨T, hT⟩ | ⟨T, hT⟩)
    · exact arc_oneOrbit hμ hna hT
    · exact OneOrbit.symm (arc_oneOrbit hμ (NotAligned.symm hna) hT)

/-! ## The solvers -/

/-- **C60** for `izzo2015`. -/
theorem izzo_oneOrbit {mu : ℝ} {r1 r2 : V3} {tof : ℝ} {M : ℕ} {pro low : Bool} {maxiter : ℕ} {atol rtol : ℝ} {v1 v2 : V3}
    (h : izzo2015 mu r1 r2 tof (M : ℤ) pro low maxiter atol rtol = .ok (v1, v2)) : OneOrbit mu r1 v1 r2 v2 := by
  obtain ⟨hmu, A, V, hG, hV, rfl, rfl, -⟩ := izzo_velocities h
  exact hG.oneOrbit hmu hV

/-- **C60** for `vallado2013`. -/
theorem vallado_oneOrbit {mu : ℝ} {r1 r2 : V3} {tof : ℝ} {M : ℤ} {pro low : Bool} {maxiter : ℕ} {atol rtol : ℝ}
    {full : Bool} {clock : ℝ} {out : Output} (hna : NotAligned r1 r2)
    (h : vallado2013 mu r1 r2 tof M pro low maxiter atol rtol full clock = .ok out) :
    OneOrbit mu r1 out.v1 r2 out.v2 := by
  have hmu : 0 < mu := by
    have h' := h
    unfold vallado2013 at h'
    simp only [bind_ok, raiseIf_ok] at h'
    obtain ⟨_, ha, -⟩ := h'
    exact (assertParameters_ok ha).1
  obtain ⟨⟨T, hT, -⟩, -⟩ := vallado_kepler_transfer h hna
  exact arc_oneOrbit hmu hna hT

section
open Delatorre

/-- **C60** for `delatorre2018`, without any hypothesis on the tolerances. -/
theorem delatorre_oneOrbit {mu : ℝ} {r1 r2 : V3} {tof : ℝ} {M : ℤ} {pro low : Bool} {maxiter : ℕ} {atol rtol : ℝ}
    {full : Bool} {clock : ℝ} {out : Output}
    (h : delatorre2018 mu r1 r2 tof M pro low maxiter atol rtol full clock = .ok out) :
    OneOrbit mu r1 out.v1 r2 out.v2 := by
  unfold delatorre2018 at h
  simp only [bind_ok, psqrt_ok, stumpff0_eq, pdiv_ok, vdiv_ok] at h
  obtain ⟨_, ha, θ, hθ, _, ⟨_, rfl⟩, ⟨z, k⟩, hz, _, hc0, p, ⟨hV0, hp⟩, _, ⟨hp0, rfl⟩, _, ⟨hmp, rfl⟩,
    g, ⟨_, hg⟩, _, ⟨_, rfl⟩, v1, ⟨hg0, rfl⟩, v2, ⟨_, rfl⟩, _, _, h⟩ := h
  obtain ⟨hmu, -, -, htof, hM⟩ := assertParameters_ok ha
  have hsin : Real.sin θ ≠ 0 := by
    intro h0; apply hg0; rw [hg, h0]; simp
  have hna := notAligned_of_sin hθ hsin
  have hang := angle_of_eq hna hθ
  have hR1 := norm_pos_of_notAligned_left hna
  have hR2 := norm_pos_of_notAligned_right hna
  obtain ⟨hG, hshort⟩ := hang.halfGeo hna
  have hcos := hang.cos_lt_one
  have hp00 : 0 < p := lt_of_le_of_ne (nonneg_of_mul_nonneg_right hmp hmu) (Ne.symm hp0)
  simp only at hV0 hp h
  generalize V3.norm r1 + V3.norm r2 - 2 * Real.sqrt (V3.norm r1 * V3.norm r2) * Real.cos (θ / 2) * _ = V at hV0 hp
  have hV : 0 < V := by
    have : 0 < V3.norm r1 * V3.norm r2 * (1 - Real.cos θ) := by
      have : 0 < 1 - Real.cos θ := by linarith
      positivity
    rw [hp] at hp00
    exact (div_pos_iff_of_pos_left this).1 hp00
  have hgA := g_pform hang hna hmu hV hp
  rw [← hg] at hgA
  have hout := (Except.ok.inj h).symm
  subst hout
  have hv1 : g⁻¹ • (r2 - (1 - V3.norm r2 * (1 - Real.cos θ) / p) • r1) =
      fgV1 mu r1 r2 (halfA (V3.norm r1) (V3.norm r2) θ) V := by
    rw [f_pform hR1 hR2 hang.cos_lt_one.ne' hV hp, hgA]; rfl
  have hv2 : g⁻¹ • ((1 - V3.norm r1 * (1 - Real.cos θ) / p) • r2 - r1) =
      fgV2 mu r1 r2 (halfA (V3.norm r1) (V3.norm r2) θ) V := by
    rw [gdot_pform hR1 hR2 hang.cos_lt_one.ne' hV hp, hgA]; rfl
  simp only [mkOutput_v1, mkOutput_v2]
  rw [hv1, hv2]
  exact hG.oneOrbit hmu hV

end

section
open Gooding

/-- **C60** for `gooding1990`, also when its root finder left the domain of the time of flight equation. -/
theorem gooding_oneOrbit {mu : ℝ} {r1 r2 : V3} {tof : ℝ} {M : ℕ} {pro low : Bool} {maxiter : ℕ} {atol rtol : ℝ}
    {full : Bool} {clock : ℝ} {out : Output}
    (h : gooding1990 mu r1 r2 tof (M : ℤ) pro low maxiter atol rtol full clock = .ok out) :
    OneOrbit mu r1 out.v1 r2 out.v2 := by
  have h' := h
  unfold gooding1990 at h'
  simp only [bind_ok, vdiv_ok] at h'
  obtain ⟨_, hval, ir1, -, ir2, -, θ, hθ, _, hθ0, ih, hih, -⟩ := h'
  obtain ⟨hmu, -, -, htof, -⟩ := assertParameters_ok hval
  have hna := notAligned_of_orbitNormal hih
  obtain ⟨s, q, hS, hG, hqs, heq⟩ := gooding_eq (M := M) pro low maxiter atol rtol clock full hna hmu htof
  rw [heq] at h
  have hs := hS.spos
  simp only [bind_ok] at h
  obtain ⟨res, hres, h⟩ := h
  cases res with
  | four a b c => simp at h
  | five n x xpl k tp =>
    have h := Except.ok.inj h
    have hL := (lanc_lancY hS.lam_lt (selectRoot low n x xpl)).eta_pos
    rw [← h, mkOutput_v1, mkOutput_v2]
    exact hG.oneOrbit hmu (by positivity)

end

section
open Thorne

/-- **C60** for `thorne2004`, in every plane. -/
theorem thorne_oneOrbit {brentq : Brent} {mu : ℝ} {r1 r2 : V3} {tof : ℝ} {M : ℤ} {pro low : Bool} {maxiter : ℕ}
    {atol rtol : ℝ} {full : Bool} {clock : ℝ} {out : Output}
    (h : thorne2004 brentq mu r1 r2 tof M pro low maxiter atol rtol full clock = .ok out) :
    OneOrbit mu r1 out.v1 r2 out.v2 := by
  obtain ⟨hM, hmu, htof, hna, θ, tP, tMin, a, br, n, tpi, x, y, v1, v2, hθ, htP, hsa, hx, hy, hrec, -, rfl⟩ :=
    thorne_ok_split h
  obtain ⟨ll, hG, hS, hll, hsg, hlam, hrc⟩ := Thorne.geo hna pro
  have hs := hS.spos
  unfold getYFromX at hy
  rw [hlam, ok_bind] at hy
  have hL : Lanc ll x y := lanc_of_sqrt hS.lam_lt (psqrt_ok.1 hy).2
  rw [hrc hmu hL] at hrec
  simp only [Except.ok.injEq, Prod.mk.injEq] at hrec
  obtain ⟨rfl, rfl⟩ := hrec
  have := hL.eta_pos
  rw [mkOutput_v1, mkOutput_v2]
  exact hG.oneOrbit hmu (by positivity)

end

section
open Arora

/-- **C60** for `arora2013`, also when the solution has left the branch of the requested number of revolutions. -/
theorem arora_oneOrbit {minimize : Minimizer} {brentq : Brent} {mu : ℝ} {r1 r2 : V3} {tof : ℝ} {M : ℤ} {pro low : Bool}
    {maxiter : ℕ} {atol rtol : ℝ} {full : Bool} {clock : ℝ} {out : Output}
    (h : arora2013 minimize brentq mu r1 r2 tof M pro low maxiter atol rtol full clock = .ok out) :
    OneOrbit mu r1 out.v1 r2 out.v2 := by
  obtain ⟨hna, hmu, htof, hM0⟩ := notAligned_of_ok h
  obtain ⟨M, rfl⟩ := Int.eq_ofNat_of_zero_le hM0
  rw [arora_eq hmu hna htof hM0] at h
  simp only [bind_ok] at h
  obtain ⟨k0, hk0, ⟨k, n⟩, hit, tpi, -, ⟨v1, v2⟩, hrec, h⟩ := h
  have hout := (Except.ok.inj h).symm
  subst hout
  obtain ⟨hna0, hn, ⟨W, hW, hu0, hle⟩, hk⟩ := iterate_ok hit
  have hA := angle_of_eq hna (transferAngle_eq hna pro)
  have hG := (getA_signedA hA hna).2
  have hR1 := hG.R1
  have hR2 := hG.R2
  have hP : 0 < V3.norm r1 + V3.norm r2 := add_pos hR1 hR2
  have hu : 1 - k * tauOf pro r1 r2 =
      (V3.norm r1 + V3.norm r2 - k * signedA pro r1 r2) / (V3.norm r1 + V3.norm r2) := by
    unfold tauOf; field_simp
  obtain ⟨V, hV⟩ : ∃ V, V = V3.norm r1 + V3.norm r2 - k * signedA pro r1 r2 := ⟨_, rfl⟩
  rw [← hV] at hu
  have hV0 : 0 < V := by
    rcases hu0.lt_or_eq with h1 | h1
    · rw [hu] at h1; exact (div_pos_iff_of_pos_right hP).1 h1
    · exfalso
      unfold reconstruct at hrec
      simp only [bind_ok, vdiv_ok, psqrt_ok, ← h1] at hrec
      obtain ⟨_, -, _, ⟨_, rfl⟩, _, -, _, ⟨hg, -⟩, -⟩ := hrec
      apply hg; simp
  rw [Arora.reconstruct_eq hmu hna hV hV0] at hrec
  obtain ⟨rfl, rfl⟩ := Prod.mk.inj (Except.ok.inj hrec)
  simp only [mkOutput_v1, mkOutput_v2]
  exact hG.oneOrbit hmu hV0

end

/-- **C60** for `jiang2016`. -/
theorem jiang_oneOrbit {mu : ℝ} {r1 r2 : V3} {tof : ℝ} {M : ℤ} {pro low : Bool} {maxiter : ℕ}
    {atol rtol : ℝ} {full : Bool} {clock : ℝ} {out : Output}
    (h : jiang2016 mu r1 r2 tof M pro low maxiter atol rtol full clock = .ok out) :
    OneOrbit mu r1 out.v1 r2 out.v2 := by
  obtain ⟨-, hmu, -, hna, -⟩ := jiang_ok_split h
  obtain ⟨-, T, hT, -⟩ := jiang_kepler_transfer_partial h
  exact arc_oneOrbit hmu hna hT

/-- **C60** for `mcelreath2025`, also when its solution runs backwards in time. -/
theorem mcelreath_oneOrbit {mu : ℝ} {r1 r2 : V3} {tof : ℝ} {M : ℤ} {pro low : Bool} {maxiter : ℕ}
    {atol rtol : ℝ} {full : Bool} {clock : ℝ} {out : Output}
    (h : mcelreath2025 mu r1 r2 tof M pro low maxiter atol rtol full clock = .ok out) :
    OneOrbit mu r1 out.v1 r2 out.v2 := by
  obtain ⟨-, hmu, -, hna, -⟩ := mcelreath_ok_split h
  obtain ⟨-, ⟨T, hT, -⟩ | ⟨-, -, ⟨T, hT⟩, -⟩⟩ := mcelreath_kepler_transfer_partial h
  · exact arc_oneOrbit hmu hna hT
  · exact OneOrbit.symm (arc_oneOrbit hmu (NotAligned.symm hna) hT)

/-- **C60** for `negrete2024`. -/
theorem negrete_oneOrbit {mu : ℝ} {r1 r2 : V3} {tof : ℝ} {M : ℤ} {pro low : Bool} {maxiter : ℕ}
    {atol rtol : ℝ} {full : Bool} {clock : ℝ} {out : Output}
    (h : negrete2024 mu r1 r2 tof M pro low maxiter atol rtol full clock = .ok out) :
    OneOrbit mu r1 out.v1 r2 out.v2 := by
  obtain ⟨-, hmu, -, -, z, tpi, v1, v2, hG, -⟩ := negrete_ok_split h
  obtain ⟨-, z, T, k, hT, -⟩ := negrete_kepler_transfer_partial h
  exact arc_oneOrbit hmu hG.hna hT

/-- **C60** for `battin1984`. -/
theorem battin_oneOrbit {mu : ℝ} {r1 r2 : V3} {tof : ℝ} {M : ℤ} {pro low : Bool} {maxiter : ℕ}
    {atol rtol : ℝ} {full : Bool} {clock : ℝ} {out : Output} (hna : NotAligned r1 r2)
    (h : battin1984 mu r1 r2 tof M pro low maxiter atol rtol full clock = .ok out) :
    OneOrbit mu r1 out.v1 r2 out.v2 := by
  obtain ⟨hmu, -⟩ := Battin.ok_split h
  obtain ⟨⟨T, hT⟩, -⟩ := battin_kepler_transfer_partial hna h
  exact arc_oneOrbit hmu hna hT

/-- **C60** for `pan2016`, outside the hyperbolas that its rounding of the eccentricity spoils. -/
theorem pan_oneOrbit_partial {brentq : Brent} (hb : BrentSpec brentq) (he : BrentEvaluates brentq)
    {mu : ℝ} {r1 r2 : V3} {tof : ℝ} {M : ℤ} {pro low : Bool} {maxiter : ℕ} {atol rtol : ℝ} {full : Bool}
    {clock : ℝ} {out : Output} (hatol : 0 ≤ atol)
    (h : pan2016 brentq mu r1 r2 tof M pro low maxiter atol rtol full clock = .ok out)
    (hnb : ¬ BarelyHyperbolic mu r1 out.v1) : OneOrbit mu r1 out.v1 r2 out.v2 := by
  have h' := h
  unfold pan2016 at h'
  simp only [bind_ok, raiseIf_ok, assertTransferAngleNotZero, assertTransferAngleNotPi] at h'
  obtain ⟨_, hM, _, hv, θ, hθ, _, h0, _, hpi, -⟩ := h'
  obtain ⟨hmu, -⟩ := assertParameters_iff.1 hv
  obtain ⟨-, hT⟩ := pan_kepler_transfer_partial hb he hatol h
  obtain ⟨T, hT, -⟩ := hT hnb
  exact arc_oneOrbit hmu (notAligned_of_angle hθ h0 hpi) hT

/-- **C60** for `avanzini2008`, outside the equatorial plane (or prograde from the positive `x` axis in it). -/
theorem avanzini_oneOrbit_partial {mu : ℝ} {r1 r2 : V3} {tof : ℝ} {M : ℤ} {pro low : Bool} {maxiter : ℕ}
    {atol rtol : ℝ} {full : Bool} {clock : ℝ} {out : Output}
    (h : avanzini2008 mu r1 r2 tof M pro low maxiter atol rtol full clock = .ok out)
    (hplane : r1.z = 0 → r2.z = 0 → pro = true ∧ r1.y = 0 ∧ 0 < r1.x) :
    OneOrbit mu r1 out.v1 r2 out.v2 := by
  obtain ⟨-, hmu, g, F, x, n, eccT, el, hg, hF, -, hT, -⟩ := Avanzini.ok_split h
  obtain ⟨hpi, -, -⟩ := Avanzini.eccT_lt hF hT
  obtain ⟨-, T, hT, -⟩ := avanzini_kepler_transfer_partial h hplane
  exact arc_oneOrbit hmu (Avanzini.geometry_good hg hpi).hna hT

/-- In the equatorial plane the velocities of `avanzini2008` do not lie on one orbit run in the requested sense. -/
theorem avanzini_equatorial_not_oneOrbit {mu : ℝ} {r1 r2 : V3} {tof : ℝ} {M : ℤ} {pro low : Bool} {maxiter : ℕ}
    {atol rtol : ℝ} {full : Bool} {clock : ℝ} {out : Output}
    (h : avanzini2008 mu r1 r2 tof M pro low maxiter atol rtol full clock = .ok out)
    (z1 : r1.z = 0) (z2 : r2.z = 0) (hpro : pro = true → ¬ (r1.y = 0 ∧ 0 < r1.x))
    (hret : pro = false → ¬ (r2.y = 0 ∧ 0 < r2.x)) :
    ¬ (OneOrbit mu r1 out.v1 r2 out.v2 ∧ Sense pro r1 out.v1) := by
  rintro ⟨⟨ho1, -, ho3⟩, hs⟩
  refine avanzini_equatorial_not_conserved h z1 z2 hpro hret ?_ ho1.symm hs
  unfold eccVec
  rw [one_div, one_div, one_div]
  exact ho3.symm

section
open Der

/-- **C60** for `der2011`: the two velocities lie on one orbit except exactly when the near-parabolic shortcut
of l.150-151 was taken. -/
theorem der_oneOrbit_iff {brentq : Brent} (hb : BrentSpec brentq) {mu : ℝ} {r1 r2 : V3} {tof : ℝ} {M : ℤ}
    {pro low : Bool} {maxiter : ℕ} {atol rtol : ℝ} {full : Bool} {clock : ℝ} {out : Output}
    (h : der2011 brentq mu r1 r2 tof M pro low maxiter atol rtol full clock = .ok out) :
    OneOrbit mu r1 out.v1 r2 out.v2 ↔ ¬ (M = 0 ∧ NearParabolic mu r1 r2 pro tof atol rtol) := by
  obtain ⟨hM, hmu, htof, hna, ψ, sigma, tau, x, y, n, tpi, v1, v2, hψ, hsig, htau, hf, -, hrec, rfl⟩ :=
    der_ok_split h
  obtain ⟨s, σ, hG, hS, h0, hsg, hcs, hnt⟩ := Der.geo hna (angle_of_eq hna hψ)
  have hs := hS.spos
  rw [hcs] at hsig
  obtain rfl := Except.ok.inj hsig
  rw [hnt mu tof hmu] at htau
  have htau := Except.ok.inj htau
  have hl := hS.lam_lt
  obtain ⟨k, rfl⟩ := Int.eq_ofNat_of_zero_le hM
  rw [mkOutput_v1, mkOutput_v2]
  rcases findPathParameter_ok hl h0 hb hf with ⟨h1, hcl, rfl, rfl, -⟩ | ⟨hno, hx1, hx2, rfl, -, -⟩
  · have hnear := (near_iff hS hmu h0 hsg htau.symm).2 hcl
    refine iff_of_false ?_ (not_not.2 ⟨by exact_mod_cast h1, hnear⟩)
    rw [reconstruct_eq hmu h0 hG hS] at hrec
    simp only [Except.ok.injEq, Prod.mk.injEq] at hrec
    obtain ⟨rfl, rfl⟩ := hrec
    apply not_oneOrbit_of_outer hna
    have hσ : 0 < |y| := abs_pos.2 h0
    have e1 : y / |y| = sg y := by
      rw [div_eq_iff hσ.ne', sg_mul]
    rw [e1]
    generalize Real.sqrt (mu / (2 * s)) = q
    rcases sg_cases y with h | h <;> rw [h]
    · ext <;> simp [outer] <;> ring
    · ext <;> simp [outer] <;> ring
  · refine iff_of_true ?_ ?_
    · have hL := lanc_lancY hl x
      rw [computeY_eq hl h0, reconstruct_lanc hmu h0 hG hS hL] at hrec
      simp only [Except.ok.injEq, Prod.mk.injEq] at hrec
      obtain ⟨rfl, rfl⟩ := hrec
      have := hL.eta_pos
      exact hG.oneOrbit hmu (by positivity)
    · rintro ⟨h1, h2⟩
      exact hno ⟨by exact_mod_cast h1, (near_iff hS hmu h0 hsg htau.symm).1 h2⟩

/-- **C21 and C60**: whenever the shortcut is taken, for any times near the parabolic one, what is returned is
not a transfer, for no time and no number of revolutions. -/
theorem der_near_parabolic_never_a_transfer {brentq : Brent} (hb : BrentSpec brentq) {mu : ℝ} {r1 r2 : V3} {tof : ℝ}
    {pro low : Bool} {maxiter : ℕ} {atol rtol : ℝ} {full : Bool} {clock : ℝ} {out : Output}
    (h : der2011 brentq mu r1 r2 tof 0 pro low maxiter atol rtol full clock = .ok out)
    (hn : NearParabolic mu r1 r2 pro tof atol rtol) (T : ℝ) (N : ℕ) : ¬ LambertArc mu r1 r2 out.v1 out.v2 T N := by
  intro hT
  obtain ⟨-, hmu, -, hna, -⟩ := der_ok_split h
  exact (der_oneOrbit_iff hb h).1 (arc_oneOrbit hmu hna hT) ⟨rfl, hn⟩

end

/-- **C60** for `gauss1809`: the two velocities lie on one orbit exactly when the two positions are at the same
distance; otherwise even their angular momenta differ. -/
theorem gauss_oneOrbit_iff {mu : ℝ} {r1 r2 : V3} {tof : ℝ} {M : ℤ} {pro low : Bool} {maxiter : ℕ}
    {atol rtol : ℝ} {full : Bool} {clock : ℝ} {out : Output}
    (h : gauss1809 mu r1 r2 tof M pro low maxiter atol rtol full clock = .ok out) :
    (OneOrbit mu r1 out.v1 r2 out.v2 ↔ len r1 = len r2) ∧
      (len r1 ≠ len r2 → outer r1 out.v1 ≠ outer r2 out.v2) := by
  obtain ⟨hmu, htof, -, hna, θ, s, w, x, n, tpi, v1, v2, hθ, hs, hw, hl, hvel, -, rfl⟩ := gauss_ok_split h
  have hA := angle_of_eq hna hθ
  obtain ⟨hG, hsh⟩ := hA.halfGeo hna
  have hR1 := hG.R1
  have hR2 := hG.R2
  obtain ⟨d, V, δ, -, hV, hV0, rfl, hδ, rfl⟩ := Gauss.velocities_ok hmu hA hna hvel
  rw [mkOutput_v1, mkOutput_v2]
  have hne : len r1 ≠ len r2 → outer r1 (fgV1 mu r1 r2 (halfA (V3.norm r1) (V3.norm r2) θ) V) ≠
      outer r2 (fgV2 mu r1 r2 (halfA (V3.norm r1) (V3.norm r2) θ) V + (δ * (1 / V3.norm r2 - 1 / V3.norm r1)) • r1) := by
    intro hlen heq
    rw [len_eq_norm, len_eq_norm] at hlen
    have e : ∀ a b c : V3, outer a (b + c) = outer a b + outer a c := by
      intro a b c; unfold outer; ext <;> simp <;> ring
    rw [e, outer_fgV1, outer_fgV2] at heq
    have hc : δ * (1 / V3.norm r2 - 1 / V3.norm r1) ≠ 0 := by
      refine mul_ne_zero hδ ?_
      rw [sub_ne_zero]
      intro h1
      apply hlen
      field_simp at h1
      exact h1
    generalize δ * (1 / V3.norm r2 - 1 / V3.norm r1) = c at hc heq
    have hx := congrArg V3.x heq
    have hy := congrArg V3.y heq
    have hz := congrArg V3.z heq
    simp only [V3.add_x, V3.add_y, V3.add_z, outer, V3.smul_x, V3.smul_y, V3.smul_z, left_eq_add] at hx hy hz
    apply hna
    refine ⟨?_, ?_, ?_⟩ <;> apply mul_left_cancel₀ hc <;> linarith
  refine ⟨⟨fun ho => ?_, fun hlen => ?_⟩, hne⟩
  · by_contra hlen
    exact hne hlen ho.1
  · rw [len_eq_norm, len_eq_norm] at hlen
    have hz : δ * (1 / V3.norm r2 - 1 / V3.norm r1) = 0 := by rw [hlen]; ring
    rw [hz]
    have : ∀ v : V3, v + (0 : ℝ) • r1 = v := by intro v; ext <;> simp
    rw [this]
    exact hG.oneOrbit hmu hV0

/-! ## Cases meeting the hypotheses -/

section Examples

private theorem na12 : NotAligned ⟨1, 0, 0⟩ ⟨0, 2, 0⟩ := by simp [NotAligned]

/-- `izzo2015` returns, between positions at different distances, two states of one orbit. -/
example : ∃ tof v1 v2, izzo2015 1 ⟨1, 0, 0⟩ ⟨0, 2, 0⟩ tof 0 true true 35 1e-5 1e-7 = .ok (v1, v2) ∧
    OneOrbit 1 ⟨1, 0, 0⟩ v1 ⟨0, 2, 0⟩ v2 := by
  obtain ⟨tof, v1, v2, -, h⟩ := izzo_returns_minimum_energy one_pos na12 true true 34 (atol := 1e-5) (by norm_num) 1e-7
  exact ⟨tof, v1, v2, h, izzo_oneOrbit (M := 0) h⟩

/-- `delatorre2018` with negative tolerances. -/
example (low : Bool) (maxiter : ℕ) : ∃ tof out, delatorre2018 1 ⟨1, 0, 0⟩ ⟨0, 2, 0⟩ tof 3 true low maxiter (-1) (-1)
    false 0 = .ok out ∧ OneOrbit 1 ⟨1, 0, 0⟩ out.v1 ⟨0, 2, 0⟩ out.v2 := by
  obtain ⟨tof, out, -, h⟩ := delatorre_returns one_pos na12 (M := 3) (by norm_num) true low maxiter (atol := -1)
    (rtol := -1) false 0
  exact ⟨tof, out, by exact_mod_cast h, delatorre_oneOrbit h⟩

/-- `arora2013` asked for two revolutions and returning a direct hyperbolic transfer: still one orbit. -/
example (minimize : Minimizer) (brentq : Brent) : ∃ tof out, arora2013 minimize brentq 1 ⟨1, 0, 0⟩ ⟨0, 2, 0⟩ tof 2 true true
    35 1e-5 1e-7 false 0 = .ok out ∧ OneOrbit 1 ⟨1, 0, 0⟩ out.v1 ⟨0, 2, 0⟩ out.v2 := by
  obtain ⟨tof, out, -, -, h, -⟩ := arora_returns_hyperbolic minimize brentq one_pos na12 (pro := true)
    (by norm_num [ShortWay, crossZ]) (by norm_num [V3.dot]) 2 true 34 (atol := 1e-5) (by norm_num) 1e-7 false 0
  exact ⟨tof, out, by exact_mod_cast h, arora_oneOrbit h⟩

/-- `thorne2004` in a plane through the polar axis. -/
example : ∃ tof atol rtol out, thorne2004 exactBrent 1 ⟨1, 0, 0⟩ ⟨0, 0, 2⟩ tof 0 true true 35 atol rtol false 0 = .ok out ∧
    OneOrbit 1 ⟨1, 0, 0⟩ out.v1 ⟨0, 0, 2⟩ out.v2 := by
  obtain ⟨tof, δ, -, hδ, h⟩ := thorne_returns (r1 := ⟨1, 0, 0⟩) (r2 := ⟨0, 0, 2⟩) one_pos (by simp [NotAligned]) true true
  obtain ⟨out, h, -⟩ := h 35 0 0 (by norm_num) le_rfl hδ le_rfl hδ false 0
  exact ⟨tof, 0, 0, out, h, thorne_oneOrbit h⟩

/-- `gauss1809` between positions at different distances: not one orbit. -/
example : ∃ tof atol out, gauss1809 1 ⟨1, 0, 0⟩ ⟨0, 2, 0⟩ tof 0 true true 35 atol 1e-7 false 0 = .ok out ∧
    ¬ OneOrbit 1 ⟨1, 0, 0⟩ out.v1 ⟨0, 2, 0⟩ out.v2 := by
  obtain ⟨tof, atol, out, -, h, -⟩ := gauss_returns one_pos na12 true true 34 1e-7 false 0 (x := 1 / 2) (by norm_num)
    (by norm_num)
  refine ⟨tof, atol, out, h, fun ho => ?_⟩
  have := (gauss_oneOrbit_iff h).1.1 ho
  have h2 : Real.sqrt 4 = 2 := by rw [show (4 : ℝ) = 2 ^ 2 by norm_num, Real.sqrt_sq (by norm_num)]
  norm_num [len, h2] at this

/-- `gauss1809` between positions at the same distance: one orbit. -/
example : ∃ tof atol out, gauss1809 1 ⟨1, 0, 0⟩ ⟨0, 1, 0⟩ tof 0 true true 35 atol 1e-7 false 0 = .ok out ∧
    OneOrbit 1 ⟨1, 0, 0⟩ out.v1 ⟨0, 1, 0⟩ out.v2 := by
  obtain ⟨tof, atol, out, -, h, -⟩ := gauss_returns (r1 := ⟨1, 0, 0⟩) (r2 := ⟨0, 1, 0⟩) one_pos (by simp [NotAligned])
    true true 34 1e-7 false 0 (x := 1 / 2) (by norm_num) (by norm_num)
  exact ⟨tof, atol, out, h, (gauss_oneOrbit_iff h).1.2 (by norm_num [len])⟩

/-- `der2011` returns two states of one orbit at one time of flight, and two states of different orbits at another. -/
example : (∃ tof out, der2011 exactBrent 1 ⟨1, 0, 0⟩ ⟨0, 2, 0⟩ tof 0 true true 35 0 0 false 0 = .ok out ∧
      OneOrbit 1 ⟨1, 0, 0⟩ out.v1 ⟨0, 2, 0⟩ out.v2) ∧
    ∃ tof out, der2011 exactBrent 1 ⟨1, 0, 0⟩ ⟨0, 2, 0⟩ tof 0 true true 35 0 0 false 0 = .ok out ∧
      ¬ OneOrbit 1 ⟨1, 0, 0⟩ out.v1 ⟨0, 2, 0⟩ out.v2 := by
  constructor
  · obtain ⟨tof, δ, -, hδ, h⟩ := der_returns one_pos na12 true true
    obtain ⟨out, h, hT, -⟩ := h exactBrent 35 0 0 (by norm_num) le_rfl hδ le_rfl hδ false 0
    exact ⟨tof, out, h, arc_oneOrbit one_pos na12 hT⟩
  · obtain ⟨tof, ht, -, h⟩ := der_parabolic_not_a_transfer one_pos na12 true
    obtain ⟨out, h, -⟩ := h exactBrent true 35 0 0 false 0 le_rfl le_rfl
    refine ⟨tof, out, h, fun ho => (der_oneOrbit_iff exactBrent_spec h).1 ho ⟨rfl, ?_⟩⟩
    unfold NearParabolic
    rw [ht, sub_self, abs_zero]
    simp

/-- `avanzini2008` outside the equatorial plane. -/
example : ∃ tof out, avanzini2008 1 ⟨1, 0, 0⟩ ⟨0, 0, 1⟩ tof 0 true true 35 1e-5 1e-7 false 0 = .ok out ∧
    OneOrbit 1 ⟨1, 0, 0⟩ out.v1 ⟨0, 0, 1⟩ out.v2 := by
  have hna : NotAligned ⟨1, 0, 0⟩ ⟨0, 0, 1⟩ := by simp [NotAligned]
  obtain ⟨out, h⟩ := avanzini_returns one_pos hna (by norm_num [len]) (transferAngle_eq hna true) true 33 (atol := 1e-5)
    (rtol := 1e-7) (by norm_num) false 0
  exact ⟨_, out, h, avanzini_oneOrbit_partial h (fun _ h2 => absurd h2 (by norm_num))⟩

end Examples

end Lamberthub
