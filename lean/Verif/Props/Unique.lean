import Verif.Proofs.PathConverse
import Verif.Proofs.PathTime
import Verif.Props.ValladoMore
import Verif.Props.DelatorreMore

/-!
# C44: zero-revolution transfers are unique

Uniqueness, existence and continuity of the solution of Lambert's problem without complete
revolutions, among all Kepler motions, and what follows for the solvers.
-/

set_option autoImplicit false

namespace Lamberthub
open Spec LC

/-- Two velocities at `r` turn the same way about the centre. -/
def Spec.SameTurn (r v w : V3) : Prop := 0 < Spec.inner (outer r v) (outer r w)

namespace LC

theorem outer_fgV1 (μ : ℝ) (r1 r2 : V3) (A V : ℝ) :
    outer r1 (fgV1 μ r1 r2 A V) = (A * Real.sqrt (V / μ))⁻¹ • outer r1 r2 := by
  unfold fgV1 outer
  ext <;> simp <;> ring

theorem outer_sq_pos {r1 r2 : V3} (h : NotAligned r1 r2) : 0 < Spec.inner (outer r1 r2) (outer r1 r2) := by
  unfold Spec.inner outer
  by_contra hc
  push Not at hc
  simp only [] at hc
  apply h
  refine ⟨?_, ?_, ?_⟩ <;>
    nlinarith [sq_nonneg (r1.y * r2.z - r1.z * r2.y), sq_nonneg (r1.z * r2.x - r1.x * r2.z),
      sq_nonneg (r1.x * r2.y - r1.y * r2.x)]

/-- Transfers that turn the same way have the same signed geometry. -/
theorem geo_eq_of_sameTurn {μ : ℝ} (hμ : 0 < μ) {r1 r2 : V3} {A A' V V' : ℝ} (hG : Geo r1 r2 A) (hG' : Geo r1 r2 A')
    (hV : 0 < V) (hV' : 0 < V') (h : SameTurn r1 (fgV1 μ r1 r2 A V) (fgV1 μ r1 r2 A' V')) : A = A' := by
  unfold SameTurn at h
  rw [outer_fgV1, outer_fgV1] at h
  have e : Spec.inner ((A * Real.sqrt (V / μ))⁻¹ • outer r1 r2) ((A' * Real.sqrt (V' / μ))⁻¹ • outer r1 r2) =
      (A * Real.sqrt (V / μ))⁻¹ * (A' * Real.sqrt (V' / μ))⁻¹ * Spec.inner (outer r1 r2) (outer r1 r2) := by
    unfold Spec.inner; simp; ring
  rw [e] at h
  have h1 := pos_of_mul_pos_left h (outer_sq_pos hG.hna).le
  rw [← mul_inv, inv_pos] at h1
  have g1 : 0 < Real.sqrt (V / μ) := by positivity
  have g2 : 0 < Real.sqrt (V' / μ) := by positivity
  have h2 : 0 < A * A' := by
    have : A * Real.sqrt (V / μ) * (A' * Real.sqrt (V' / μ)) = A * A' * (Real.sqrt (V / μ) * Real.sqrt (V' / μ)) := by ring
    rw [this] at h1
    exact pos_of_mul_pos_left h1 (by positivity)
  rcases sq_eq_sq_iff_eq_or_eq_neg.1 (hG.hA2.trans hG'.hA2.symm) with h3 | h3
  · exact h3
  · rw [h3] at h2; nlinarith [sq_nonneg A']

theorem sameTurn_of_sense {pro : Bool} {μ : ℝ} (hμ : 0 < μ) {r1 r2 : V3} {A A' V V' : ℝ} (hG : Geo r1 r2 A)
    (hG' : Geo r1 r2 A') (hV : 0 < V) (hV' : 0 < V') (h : Sense pro r1 (fgV1 μ r1 r2 A V))
    (h' : Sense pro r1 (fgV1 μ r1 r2 A' V')) : SameTurn r1 (fgV1 μ r1 r2 A V) (fgV1 μ r1 r2 A' V') := by
  unfold Sense at h h'
  rw [fgV1_angMomZ] at h h'
  unfold SameTurn
  rw [outer_fgV1, outer_fgV1]
  have e : Spec.inner ((A * Real.sqrt (V / μ))⁻¹ • outer r1 r2) ((A' * Real.sqrt (V' / μ))⁻¹ • outer r1 r2) =
      (A * Real.sqrt (V / μ))⁻¹ * (A' * Real.sqrt (V' / μ))⁻¹ * Spec.inner (outer r1 r2) (outer r1 r2) := by
    unfold Spec.inner; simp; ring
  rw [e]
  refine mul_pos ?_ (outer_sq_pos hG.hna)
  generalize (A * Real.sqrt (V / μ))⁻¹ = a at h ⊢
  generalize (A' * Real.sqrt (V' / μ))⁻¹ = b at h' ⊢
  generalize r1.x * r2.y - r1.y * r2.x = c at h h'
  have h2 : 0 < (a * b) * c ^ 2 := by
    cases pro
    · simp only [Bool.false_eq_true, if_false] at h h'
      have := mul_pos_of_neg_of_neg h h'
      linarith
    · simp only [if_true] at h h'
      have := mul_pos h h'
      linarith
  exact pos_of_mul_pos_left h2 (sq_nonneg c)

end LC

/-- **C44**, uniqueness.  Two Kepler motions from `r1` to `r2` of the same duration, without
complete revolutions and turning the same way, have the same velocities. -/
theorem zero_rev_unique {mu : ℝ} (hmu : 0 < mu) {r1 r2 v1 v2 w1 w2 : V3} {T : ℝ} (hna : NotAligned r1 r2)
    (h : LambertArc mu r1 r2 v1 v2 T 0) (h' : LambertArc mu r1 r2 w1 w2 T 0) (hs : SameTurn r1 v1 w1) :
    v1 = w1 ∧ v2 = w2 := by
  obtain ⟨A, V, hG, hP, rfl, rfl⟩ := path_of_arc hmu hna h
  obtain ⟨A', V', hG', hP', rfl, rfl⟩ := path_of_arc hmu hna h'
  obtain rfl := geo_eq_of_sameTurn hmu hG hG' hP.V_pos hP'.V_pos hs
  obtain rfl := hP.unique hmu (Vallado.bound hG) hP'
  exact ⟨rfl, rfl⟩

/-- The same with the sense of motion of the library. -/
theorem zero_rev_unique_sense {mu : ℝ} (hmu : 0 < mu) {r1 r2 v1 v2 w1 w2 : V3} {T : ℝ} {pro : Bool} (hna : NotAligned r1 r2)
    (h : LambertArc mu r1 r2 v1 v2 T 0) (h' : LambertArc mu r1 r2 w1 w2 T 0) (hs : Sense pro r1 v1)
    (hs' : Sense pro r1 w1) : v1 = w1 ∧ v2 = w2 := by
  refine zero_rev_unique hmu hna h h' ?_
  obtain ⟨A, V, hG, hP, rfl, rfl⟩ := path_of_arc hmu hna h
  obtain ⟨A', V', hG', hP', rfl, rfl⟩ := path_of_arc hmu hna h'
  exact sameTurn_of_sense hmu hG hG' hP.V_pos hP'.V_pos hs hs'

/-- **C44**, existence and uniqueness: without complete revolutions Lambert's problem has
exactly one solution for each sense, for every positive time of flight. -/
theorem zero_rev_exists_unique {mu : ℝ} (hmu : 0 < mu) {r1 r2 : V3} {T : ℝ} (hT : 0 < T) (hnp : NotPolar r1 r2)
    (pro : Bool) : ∃! v : V3 × V3, LambertArc mu r1 r2 v.1 v.2 T 0 ∧ Sense pro r1 v.1 := by
  have hna : NotAligned r1 r2 := fun h => hnp h.2.2
  obtain ⟨hG, hsh⟩ := (angle_of_eq hna (transferAngle_eq hna pro)).halfGeo hna
  generalize halfA (V3.norm r1) (V3.norm r2) _ = A at hG hsh
  obtain ⟨V, hP⟩ := Path.exists hmu hG.hA (Vallado.bound hG) hT
  have ha := hP.arc hmu hG
  have hs := sense_of_sign (r1 := r1) (r2 := r2) hmu hP.V_pos hG.hA hnp hsh
  refine ⟨(fgV1 mu r1 r2 A V, fgV2 mu r1 r2 A V), ⟨ha, hs⟩, ?_⟩
  rintro ⟨w1, w2⟩ ⟨h1, h2⟩
  obtain ⟨e1, e2⟩ := zero_rev_unique_sense hmu hna h1 ha h2 hs
  simp only [] at e1 e2
  rw [e1, e2]

/-- The path parameter depends continuously on the time. -/
theorem LC.Path.close {μ P A : ℝ} (hμ : 0 < μ) (hP : |Real.sqrt 2 * A| < P) {V T : ℝ} (h : LC.Path μ P A 0 V T)
    {U : Set ℝ} (hU : U ∈ nhds V) : ∃ δ > 0, ∀ V' T', LC.Path μ P A 0 V' T' → |T' - T| < δ → V' ∈ U := by
  obtain ⟨a, ha, rfl, rfl⟩ := h.uv hμ
  have hm := uvT_strictMonoOn (μ := μ) hμ hP
  have hc := uvY_continuousAt (P := P) (A := A) ha.1
  have h1 : ∀ᶠ x in nhds a, x < 4 * Real.pi ^ 2 := eventually_lt_nhds ha.1
  have h2 : ∀ᶠ x in nhds a, 0 < uvY P A x := hc.eventually (lt_mem_nhds ha.2)
  have h3 : ∀ᶠ x in nhds a, uvY P A x ∈ U := hc hU
  obtain ⟨η, hη, hball⟩ := Metric.eventually_nhds_iff.1 (h1.and (h2.and h3))
  have hin : ∀ x, |x - a| < η → x ∈ uvDom P A ∧ uvY P A x ∈ U := fun x hx => by
    obtain ⟨k1, k2, k3⟩ := hball (y := x) (by rw [Real.dist_eq]; exact hx)
    exact ⟨⟨k1, k2⟩, k3⟩
  have hl := (hin (a - η / 2) (by rw [abs_lt]; constructor <;> linarith)).1
  have hu := (hin (a + η / 2) (by rw [abs_lt]; constructor <;> linarith)).1
  have e1 := hm hl ha (by linarith)
  have e2 := hm ha hu (by linarith)
  refine ⟨min (uvT μ P A a - uvT μ P A (a - η / 2)) (uvT μ P A (a + η / 2) - uvT μ P A a),
    lt_min (by linarith) (by linarith), fun V' T' h' hT => ?_⟩
  obtain ⟨b, hb, rfl, rfl⟩ := h'.uv hμ
  obtain ⟨t1, t2⟩ := abs_lt.1 hT
  have m1 := min_le_left (uvT μ P A a - uvT μ P A (a - η / 2)) (uvT μ P A (a + η / 2) - uvT μ P A a)
  have m2 := min_le_right (uvT μ P A a - uvT μ P A (a - η / 2)) (uvT μ P A (a + η / 2) - uvT μ P A a)
  have b1 : a - η / 2 < b := (hm.lt_iff_lt hl hb).1 (by linarith)
  have b2 : b < a + η / 2 := (hm.lt_iff_lt hb hu).1 (by linarith)
  exact (hin b (by rw [abs_lt]; constructor <;> linarith)).2

/-- **C44**, continuity: transfers of nearly the same duration have nearly the same
velocities. -/
theorem zero_rev_continuous {mu : ℝ} (hmu : 0 < mu) {r1 r2 v1 v2 : V3} {T : ℝ} (hna : NotAligned r1 r2)
    (h : LambertArc mu r1 r2 v1 v2 T 0) {ε : ℝ} (hε : 0 < ε) :
    ∃ δ > 0, ∀ (T' : ℝ) (w1 w2 : V3), LambertArc mu r1 r2 w1 w2 T' 0 → SameTurn r1 v1 w1 → |T' - T| < δ →
      len (w1 - v1) < ε ∧ len (w2 - v2) < ε := by
  obtain ⟨A, V, hG, hP, rfl, rfl⟩ := path_of_arc hmu hna h
  have hV0 := hP.V_pos
  have hg : Real.sqrt (V / mu) ≠ 0 := by positivity
  have hA := hG.hA
  have c1 : ContinuousAt (fun W => len (fgV1 mu r1 r2 A W - fgV1 mu r1 r2 A V)) V := by
    unfold len fgV1
    simp only [V3.sub_x, V3.sub_y, V3.sub_z, V3.smul_x, V3.smul_y, V3.smul_z]
    have : A * Real.sqrt (V / mu) ≠ 0 := mul_ne_zero hA hg
    fun_prop (disch := assumption)
  have c2 : ContinuousAt (fun W => len (fgV2 mu r1 r2 A W - fgV2 mu r1 r2 A V)) V := by
    unfold len fgV2
    simp only [V3.sub_x, V3.sub_y, V3.sub_z, V3.smul_x, V3.smul_y, V3.smul_z]
    have : A * Real.sqrt (V / mu) ≠ 0 := mul_ne_zero hA hg
    fun_prop (disch := assumption)
  have z : ∀ v : V3, len (v - v) = 0 := fun v => by simp [len]
  have k1 : ∀ᶠ W in nhds V, len (fgV1 mu r1 r2 A W - fgV1 mu r1 r2 A V) < ε :=
    c1.eventually (gt_mem_nhds (by simp only [z]; exact hε))
  have k2 : ∀ᶠ W in nhds V, len (fgV2 mu r1 r2 A W - fgV2 mu r1 r2 A V) < ε :=
    c2.eventually (gt_mem_nhds (by simp only [z]; exact hε))
  obtain ⟨δ, hδ, hd⟩ := hP.close hmu (Vallado.bound hG) (k1.and k2)
  refine ⟨δ, hδ, fun T' w1 w2 h' hs hT => ?_⟩
  obtain ⟨A', V', hG', hP', rfl, rfl⟩ := path_of_arc hmu hna h'
  obtain rfl := geo_eq_of_sameTurn hmu hG hG' hV0 hP'.V_pos hs
  exact hd V' T' hP' hT

/-- **C44**, for the solvers: the velocities returned by any two programs that solve the same
zero-revolution problem within the tolerance `δ` differ by less than `ε`, when `δ` is small
enough. -/
theorem zero_rev_agree {mu : ℝ} (hmu : 0 < mu) {r1 r2 : V3} (hnp : NotPolar r1 r2) {tof : ℝ} (htof : 0 < tof) (pro : Bool)
    {ε : ℝ} (hε : 0 < ε) :
    ∃ δ > 0, ∀ v1 v2 w1 w2 : V3,
      (∃ T, LambertArc mu r1 r2 v1 v2 T 0 ∧ |T - tof| < δ) → Sense pro r1 v1 →
      (∃ T, LambertArc mu r1 r2 w1 w2 T 0 ∧ |T - tof| < δ) → Sense pro r1 w1 →
      len (v1 - w1) < ε ∧ len (v2 - w2) < ε := by
  have hna : NotAligned r1 r2 := fun h => hnp h.2.2
  obtain ⟨u, ⟨hu, hus⟩, -⟩ := zero_rev_exists_unique hmu htof hnp pro
  obtain ⟨δ, hδ, hd⟩ := zero_rev_continuous hmu hna hu (half_pos hε)
  have st : ∀ {T : ℝ} {w1 w2 : V3}, LambertArc mu r1 r2 w1 w2 T 0 → Sense pro r1 w1 → SameTurn r1 u.1 w1 := by
    intro T w1 w2 hw hs
    obtain ⟨A, V, hG, hP, e, -⟩ := path_of_arc hmu hna hu
    obtain ⟨A', V', hG', hP', rfl, rfl⟩ := path_of_arc hmu hna hw
    rw [e] at hus ⊢
    exact sameTurn_of_sense hmu hG hG' hP.V_pos hP'.V_pos hus hs
  have tri : ∀ a b c : V3, len (a - b) ≤ len (a - c) + len (b - c) := by
    intro a b c
    have e1 := len_sq (a - b)
    have e2 := len_sq (a - c)
    have e3 := len_sq (b - c)
    simp only [V3.sub_x, V3.sub_y, V3.sub_z] at e1 e2 e3
    have p1 : 0 ≤ len (a - c) := Real.sqrt_nonneg _
    have p2 : 0 ≤ len (b - c) := Real.sqrt_nonneg _
    have cs : |(a.x - c.x) * (b.x - c.x) + (a.y - c.y) * (b.y - c.y) + (a.z - c.z) * (b.z - c.z)| ≤
        len (a - c) * len (b - c) := by
      apply abs_le_of_sq_le_sq _ (by positivity)
      rw [mul_pow, e2, e3]
      nlinarith [sq_nonneg ((a.x - c.x) * (b.y - c.y) - (a.y - c.y) * (b.x - c.x)),
        sq_nonneg ((a.x - c.x) * (b.z - c.z) - (a.z - c.z) * (b.x - c.x)),
        sq_nonneg ((a.y - c.y) * (b.z - c.z) - (a.z - c.z) * (b.y - c.y))]
    have := (abs_le.1 cs).1
    apply le_of_sq_le_sq _ (by positivity)
    nlinarith
  refine ⟨δ, hδ, ?_⟩
  rintro v1 v2 w1 w2 ⟨T, hT, hTd⟩ hs ⟨T', hT', hTd'⟩ hs'
  obtain ⟨a1, a2⟩ := hd T v1 v2 hT (st hT hs) hTd
  obtain ⟨b1, b2⟩ := hd T' w1 w2 hT' (st hT' hs') hTd'
  have t1 := tri v1 w1 u.1
  have t2 := tri v2 w2 u.2
  constructor <;> linarith

/-- **C44** for two solvers of the library: with tight enough tolerances `vallado2013` and
`delatorre2018` return the same velocities up to `ε`, whatever the other options. -/
theorem vallado_delatorre_agree {mu : ℝ} (hmu : 0 < mu) {r1 r2 : V3} (hnp : NotPolar r1 r2) {tof : ℝ} (htof : 0 < tof)
    (pro : Bool) {ε : ℝ} (hε : 0 < ε) :
    ∃ δ > 0, ∀ {low low' : Bool} {N N' : ℕ} {atol rtol atol' rtol' : ℝ} {fo fo' : Bool} {clock clock' : ℝ} {out out' : Output},
      rtol * tof < δ → 0 ≤ atol' + rtol' * tof → atol' + rtol' * tof < δ →
      vallado2013 mu r1 r2 tof 0 pro low N atol rtol fo clock = .ok out →
      delatorre2018 mu r1 r2 tof 0 pro low' N' atol' rtol' fo' clock' = .ok out' →
      len (out.v1 - out'.v1) < ε ∧ len (out.v2 - out'.v2) < ε := by
  have hna : NotAligned r1 r2 := fun h => hnp h.2.2
  obtain ⟨δ, hδ, hd⟩ := zero_rev_agree hmu hnp htof pro hε
  refine ⟨min δ tof, lt_min hδ htof, ?_⟩
  intro low low' N N' atol rtol atol' rtol' fo fo' clock clock' out out' h1 h0 h2 hv hd'
  have l1 := min_le_left δ tof
  have l2 := min_le_right δ tof
  obtain ⟨⟨T, hT, hTd⟩, hs⟩ := vallado_kepler_transfer hv hna
  obtain ⟨-, ⟨T', hT', hTd'⟩, hs'⟩ := delatorre_kepler_transfer hd' (by linarith)
  refine hd _ _ _ _ ⟨T, hT, by linarith⟩ (hs hnp) ⟨T', by simpa using hT', ?_⟩ (hs' hnp)
  rcases hTd' with rfl | h
  · simpa using hδ
  · linarith

/-- The hypotheses are satisfiable: one transfer for each sense between `(1,0,0)` and
`(0,1,0)` in any time. -/
example {T : ℝ} (hT : 0 < T) (pro : Bool) :
    ∃! v : V3 × V3, LambertArc 1 ⟨1, 0, 0⟩ ⟨0, 1, 0⟩ v.1 v.2 T 0 ∧ Sense pro ⟨1, 0, 0⟩ v.1 :=
  zero_rev_exists_unique one_pos hT (by simp [NotPolar]) pro

end Lamberthub
