import Verif.Proofs.NegreteUniform
import Verif.Proofs.UVTime
import Verif.Props.Der

/-!
# C25: `negrete2024` converges to the requested time of flight

The number of contour points is `max 4 maxiter`.  On zero-revolution problems faster than the
parabola, the transfer returned tends to the requested one as `maxiter` grows, provided the
disc chosen by the code holds a single simple pole.
-/

set_option autoImplicit false

namespace Lamberthub
open Spec Set Filter Topology Negrete McElreath LC

namespace Negrete

/-- What the contour method needs: `f` is `h / (z - p)` on `W`, with `h` holomorphic on `D`
and `h p ≠ 0`. -/
structure SimplePole (f : ℂ → Py ℂ) (h : ℂ → ℂ) (D W : Set ℂ) (p : ℝ) : Prop where
  openW : IsOpen W
  sub : W ⊆ D
  eq : ∀ z ∈ W, f z = .ok (h z / (z - p))
  out : (p : ℂ) ∉ W
  diff : DifferentiableOn ℂ h D
  ne : h p ≠ 0

theorem SimplePole.near {f : ℂ → Py ℂ} {h : ℂ → ℂ} {D W : Set ℂ} {p c R atol rtol : ℝ} (H : SimplePole f h D W p)
    (hD : Metric.closedBall (c : ℂ) R ⊆ D) (hs : Metric.sphere (c : ℂ) R ⊆ W) (hp : |p - c| < R)
    (hat : 0 < atol) (hrt : 0 ≤ rtol) {ε : ℝ} (hε : 0 < ε) :
    ∀ᶠ q in 𝓝 (c, R) ×ˢ atTop, ∃ z, singleRoot f q.1.1 q.1.2 q.2 atol rtol = .ok z ∧ |z - p| < ε :=
  singleRoot_near H.openW H.eq H.out (H.diff.continuousOn.mono H.sub) hs
    ⟨H.diff.mono (Metric.ball_subset_closedBall.trans hD), H.diff.continuousOn.mono
      (Metric.closure_ball_subset_closedBall.trans hD)⟩ hp H.ne hat hrt hε

theorem refineLoop_near {f : ℂ → Py ℂ} {h : ℂ → ℂ} {D W : Set ℂ} {p zMin zMax atol rtol : ℝ} (H : SimplePole f h D W p)
    (hc : ∀ z, refinementCenter z zMin zMax = z) (hr : ContinuousAt (fun z => refinementRadius z zMin zMax) p)
    (hD : Metric.closedBall (p : ℂ) (refinementRadius p zMin zMax) ⊆ D)
    (hs : Metric.sphere (p : ℂ) (refinementRadius p zMin zMax) ⊆ W)
    (hr0 : 0 < refinementRadius p zMin zMax) (hat : 0 < atol) (hrt : 0 ≤ rtol) :
    ∀ (k : ℕ) {ε : ℝ}, 0 < ε → ∃ δ > 0, ∃ N : ℕ, ∀ z, |z - p| < δ → ∀ n ≥ N, ∃ z',
      refineLoop f zMin zMax n atol rtol k z = .ok z' ∧ |z' - p| < ε
  | 0, ε, hε => ⟨ε, hε, 0, fun z hz _ _ => ⟨z, rfl, hz⟩⟩
  | k + 1, ε, hε => by
    obtain ⟨δ, hδ, N, hN⟩ := refineLoop_near H hc hr hD hs hr0 hat hrt k hε
    have h1 := H.near hD hs (by rw [sub_self, abs_zero]; exact hr0) hat hrt hδ
    have ht : Tendsto (fun q : ℝ × ℕ => ((q.1, refinementRadius q.1 zMin zMax), q.2)) (𝓝 p ×ˢ atTop)
        (𝓝 (p, refinementRadius p zMin zMax) ×ˢ atTop) :=
      Tendsto.prodMap (f := fun z : ℝ => (z, refinementRadius z zMin zMax)) (g := id)
        (continuousAt_id.prodMk hr) tendsto_id
    have h2 := ht.eventually h1
    rw [eventually_prod_iff] at h2
    obtain ⟨pa, hpa, pb, hpb, hab⟩ := h2
    obtain ⟨δ', hδ', hball⟩ := Metric.eventually_nhds_iff.1 hpa
    obtain ⟨N', hN'⟩ := eventually_atTop.1 hpb
    refine ⟨δ', hδ', max N N', fun z hz n hn => ?_⟩
    obtain ⟨z', hz', hlt⟩ := hab (hball (by rw [Real.dist_eq]; exact hz)) (hN' n (le_trans (le_max_right _ _) hn))
    obtain ⟨z'', hz'', hlt'⟩ := hN z' hlt n (le_trans (le_max_left _ _) hn)
    refine ⟨z'', ?_, hlt'⟩
    rw [refineLoop]
    simp only [hc]
    simp only at hz'
    rw [hz', ok_bind]
    exact hz''

/-- The radius of a refinement pass between the bounds of a hyperbolic contour. -/
theorem radius_hyp {z zMin : ℝ} (h1 : zMin < 0) (h2 : zMin < z) (h3 : z < 0) :
    refinementRadius z zMin 0 = max (min (min (0.5 * (z - zMin)) 2) (0.5 * (0 - z))) 1e-8 := by
  unfold refinementRadius
  have n1 : ¬ (zMin = 0 ∧ 0 < z ∧ z < 1) := fun h => h1.ne h.1
  simp only [if_neg n1, if_pos (And.intro h2 h3)]
  rw [← min_def_lt (0.5 * (z - zMin)) 2, ← min_def_lt (0.5 * (0 - z)), min_comm (0.5 * (0 - z)),
    max_comm]
  exact (max_def_lt _ _).symm

theorem hyperbolicLoop_le {mu R1 R2 A tof zl : ℝ} {b : Bool} : ∀ (n : ℕ) {z : ℝ}, z ≤ -1 →
    hyperbolicLoop mu R1 R2 A tof n z = .ok (zl, b) → zl ≤ -1
  | 0, z, hz, h => by
    rw [hyperbolicLoop, Except.ok.injEq, Prod.mk.injEq] at h
    rw [← h.1]; exact hz
  | n + 1, z, hz, h => by
    rw [hyperbolicLoop, bind_ok] at h
    obtain ⟨y, -, h⟩ := h
    split at h
    · rw [bind_ok] at h
      obtain ⟨t, -, h⟩ := h
      split at h
      · rw [Except.ok.injEq, Prod.mk.injEq] at h
        rw [← h.1]; exact hz
      · exact hyperbolicLoop_le n (by linarith) h
    · exact hyperbolicLoop_le n (by linarith) h

theorem center_hyp {z zMin : ℝ} (h1 : zMin < 0) : refinementCenter z zMin 0 = z := by
  unfold refinementCenter
  rw [if_neg fun h => h1.ne h.1]

end Negrete

/-- **C25**, convergence.  Zero-revolution problem faster than the parabola.  Let the search
of the code find the lower bound `zLow`, let `zs` be the root of the time equation inside the
contour, and let the pole function have there a simple pole and be holomorphic elsewhere on
the discs the code uses.  Then for every `ε` and every large enough `maxiter`, `negrete2024`
returns the velocities of a direct Kepler transfer, in the requested sense, whose time of
flight is within `ε` of the requested one. -/
theorem negrete_hyperbolic_converges {mu : ℝ} {r1 r2 : V3} {tof : ℝ} {pro : Bool} (hmu : 0 < mu) (htof : 0 < tof)
    (hna : NotAligned r1 r2) (hfast : tof < parabolicTime mu r1 r2 pro) {zLow zs atol rtol : ℝ}
    (hloop : hyperbolicLoop mu (V3.norm r1) (V3.norm r2) (signedA pro r1 r2) tof 64 (-1) = .ok (zLow, true))
    (h1 : zLow * (1 - 5e-7) < zs) (h2 : zs < zLow * 5e-7)
    (hy : 0 < uvY (V3.norm r1 + V3.norm r2) (signedA pro r1 r2) zs)
    (hT : uvT mu (V3.norm r1 + V3.norm r2) (signedA pro r1 r2) zs = tof) {h : ℂ → ℂ} {D W : Set ℂ}
    (H : SimplePole (poleFunction mu (V3.norm r1) (V3.norm r2) (signedA pro r1 r2) tof) h D W zs)
    (hD1 : Metric.closedBall ((zLow / 2 : ℝ) : ℂ) (-zLow / 2 * (1 - 1e-6)) ⊆ D)
    (hs1 : Metric.sphere ((zLow / 2 : ℝ) : ℂ) (-zLow / 2 * (1 - 1e-6)) ⊆ W)
    (hD2 : Metric.closedBall (zs : ℂ) (refinementRadius zs (zLow * (1 - 5e-7)) 0) ⊆ D)
    (hs2 : Metric.sphere (zs : ℂ) (refinementRadius zs (zLow * (1 - 5e-7)) 0) ⊆ W)
    (hat : 0 < atol) (hrt : 0 ≤ rtol) {ε : ℝ} (hε : 0 < ε) :
    ∃ N : ℕ, ∀ maxiter ≥ N, ∀ (low full : Bool) (clock : ℝ), ∃ out T,
      negrete2024 mu r1 r2 tof 0 pro low maxiter atol rtol full clock = .ok out ∧
      LambertArc mu r1 r2 out.v1 out.v2 T 0 ∧ (NotPolar r1 r2 → Sense pro r1 out.v1) ∧ |T - tof| < ε := by
  have hpi := Real.pi_pos
  have h8 := hyperbolicLoop_le 64 le_rfl hloop
  have hzl : zLow < 0 := by linarith
  have h10 : r1 ≠ 0 := by rintro rfl; simp [NotAligned] at hna
  have h12 : r1 ≠ r2 := by rintro rfl; simp [NotAligned, mul_comm] at hna
  obtain ⟨θ, hθ⟩ : ∃ θ, getTransferAngle r1 r2 pro = .ok θ := ⟨_, transferAngle_eq hna pro⟩
  have hA := angle_of_eq hna hθ
  obtain ⟨hAe, hG⟩ := getA_signedA hA hna
  have hA' : Negrete.getA (V3.norm r1) (V3.norm r2) θ = .ok (signedA pro r1 r2) := hAe
  have hy0 : 0 < uvY (V3.norm r1 + V3.norm r2) (signedA pro r1 r2) 0 :=
    Vallado.uvY_pos hG.R1 hG.R2 hG.A2_lt le_rfl (by positivity)
  have htp : tofAtZ 0 mu (V3.norm r1) (V3.norm r2) (signedA pro r1 r2) = .ok (parabolicTime mu r1 r2 pro) := by
    rw [tofAtZ_zero hmu hy0.le, uvT_zero hmu hy0.le, uvY_zero, Tpar_parabolicTime hmu hG]
  have hzs0 : zs < 0 := by norm_num at h2; linarith
  have hzm : zLow * (1 - 5e-7) < 0 := by norm_num; linarith
  -- the root of the time equation, and what happens close to it
  have hev : ∀ᶠ z in 𝓝 zs, 0 < uvY (V3.norm r1 + V3.norm r2) (signedA pro r1 r2) z ∧
      |uvT mu (V3.norm r1 + V3.norm r2) (signedA pro r1 r2) z - tof| < ε ∧ z < zLow * 1e-7 := by
    have c1 := (uvY_continuousAt (P := V3.norm r1 + V3.norm r2) (A := signedA pro r1 r2)
      (by nlinarith : zs < 4 * Real.pi ^ 2)).eventually (lt_mem_nhds hy)
    have c2 := (uvT_continuousAt (μ := mu) (P := V3.norm r1 + V3.norm r2) (A := signedA pro r1 r2)
      (by nlinarith : zs < 4 * Real.pi ^ 2))
    rw [ContinuousAt, hT] at c2
    have c3 := Metric.tendsto_nhds.1 c2 ε hε
    have c4 : ∀ᶠ z in 𝓝 zs, z < zLow * 1e-7 := gt_mem_nhds (by norm_num at h2 ⊢; linarith)
    filter_upwards [c1, c3, c4] with z a b c using ⟨a, by rwa [Real.dist_eq] at b, c⟩
  obtain ⟨ε', hε', hball⟩ := Metric.eventually_nhds_iff.1 hev
  -- the refinement passes
  have hrad : ContinuousAt (fun z => refinementRadius z (zLow * (1 - 5e-7)) 0) zs := by
    have e : (fun z => refinementRadius z (zLow * (1 - 5e-7)) 0) =ᶠ[𝓝 zs] fun z =>
        max (min (min (0.5 * (z - zLow * (1 - 5e-7))) 2) (0.5 * (0 - z))) 1e-8 := by
      filter_upwards [lt_mem_nhds h1, gt_mem_nhds hzs0] with z a b using radius_hyp hzm a b
    exact ContinuousAt.congr (by fun_prop) e.symm
  have hr0 : 0 < refinementRadius zs (zLow * (1 - 5e-7)) 0 := by
    rw [radius_hyp hzm h1 hzs0]
    exact lt_max_of_lt_right (by norm_num)
  obtain ⟨δ, hδ, N1, hN1⟩ := refineLoop_near H (fun z => center_hyp hzm) hrad hD2 hs2 hr0 hat hrt 2 hε'
  have hin : |zs - zLow / 2| < -zLow / 2 * (1 - 1e-6) := by
    rw [abs_lt]; norm_num at h1 h2 ⊢; constructor <;> linarith
  have hroot := H.near hD1 hs1 hin hat hrt hδ
  rw [eventually_prod_iff] at hroot
  obtain ⟨pa, hpa, pb, hpb, hab⟩ := hroot
  obtain ⟨N2, hN2⟩ := eventually_atTop.1 hpb
  refine ⟨max N1 N2, fun maxiter hm low full clock => ?_⟩
  obtain ⟨n, hn⟩ : ∃ n, n = max 4 maxiter := ⟨_, rfl⟩
  have hn1 : N1 ≤ n := by rw [hn]; exact le_trans (le_trans (le_max_left _ _) hm) (le_max_right _ _)
  have hn2 : N2 ≤ n := by rw [hn]; exact le_trans (le_trans (le_max_right _ _) hm) (le_max_right _ _)
  obtain ⟨z0, hz0, hlt0⟩ := hab hpa.self_of_nhds (hN2 n hn2)
  obtain ⟨z, hz, hlt⟩ := hN1 z0 hlt0 n hn1
  obtain ⟨hyz, htz, hzn⟩ := hball (y := z) (by rw [Real.dist_eq]; exact hlt)
  have hfind : findZ mu (V3.norm r1) (V3.norm r2) (signedA pro r1 r2) tof 0 low n atol rtol = .ok z := by
    have e1 : (0.5 : ℝ) * zLow = zLow / 2 := by norm_num; ring
    have e2 : |zLow / 2| * (1 - 1e-6 : ℝ) = -zLow / 2 * (1 - 1e-6) := by rw [abs_of_neg (by linarith)]; ring
    have e3 : zLow / 2 - -zLow / 2 * (1 - 1e-6 : ℝ) = zLow * (1 - 5e-7) := by norm_num; ring
    rw [findZ, if_pos rfl, htp, ok_bind, singleContour, if_pos hfast, hyperbolicContour, hloop, ok_bind]
    simp only []
    rw [ok_bind]
    simp only []
    rw [raiseIf_neg _ (by simp), ok_bind, ok_bind]
    simp only []
    rw [e1, e2, e3, hz0, ok_bind]
    exact hz
  have hzl' : (1e-8 : ℝ) ≤ |z| := by rw [abs_of_neg (by norm_num at hzn; linarith)]; norm_num at hzn ⊢; linarith
  have hz4 : z < 4 * Real.pi ^ 2 := by norm_num at hzn; nlinarith
  have h2z := series2_pos_of_lt hz4
  obtain ⟨tpi, htpi⟩ := timePerIter_pos full clock (n := 3 * n) (by rw [hn]; omega)
  have hg : signedA pro r1 r2 * Real.sqrt (uvY (V3.norm r1 + V3.norm r2) (signedA pro r1 r2) z / mu) ≠ 0 :=
    mul_ne_zero hG.hA (Real.sqrt_pos.2 (div_pos hyz hmu)).ne'
  have hrec : Negrete.reconstruct mu r1 r2 (V3.norm r1) (V3.norm r2) (signedA pro r1 r2) z =
      .ok (fgV1 mu r1 r2 (signedA pro r1 r2) (uvY (V3.norm r1 + V3.norm r2) (signedA pro r1 r2) z),
        fgV2 mu r1 r2 (signedA pro r1 r2) (uvY (V3.norm r1 + V3.norm r2) (signedA pro r1 r2) z)) := by
    rw [Negrete.reconstruct, yAtZ_large_eq hzl' h2z, ok_bind, Complex.ofReal_re]
    simp only []
    rw [pdiv_eq hG.R1.ne', ok_bind, pdiv_eq hmu.ne', ok_bind, psqrt_eq (by positivity), ok_bind, pdiv_eq hG.R2.ne', ok_bind,
      vdiv_eq hg, ok_bind, vdiv_eq hg, ok_bind]
    rfl
  refine ⟨mkOutput full (fgV1 mu r1 r2 (signedA pro r1 r2) (uvY (V3.norm r1 + V3.norm r2) (signedA pro r1 r2) z))
    (fgV2 mu r1 r2 (signedA pro r1 r2) (uvY (V3.norm r1 + V3.norm r2) (signedA pro r1 r2) z)) n tpi,
    uvT mu (V3.norm r1 + V3.norm r2) (signedA pro r1 r2) z, ?_, ?_, ?_, htz⟩
  · unfold negrete2024
    rw [assertParameters_eq hmu h10 h12 htof le_rfl, ok_bind]
    simp only []
    rw [hθ, ok_bind, assertTransferAngleNotZero, raiseIf_neg _ hA.pos.ne', ok_bind, hA', ok_bind,
      raiseIf_neg _ (by rw [show (0.0 : ℝ) = 0 by norm_num]; exact hG.hA), ok_bind, Int.toNat_zero, ← hn, hfind, ok_bind,
      htpi, ok_bind, hrec, ok_bind]
  · rw [mkOutput_v1, mkOutput_v2]; exact (uv_path hmu hz4 hyz).arc hmu hG
  · intro hnp; rw [mkOutput_v1]; exact Negrete.sense hmu hyz hG hnp

end Lamberthub
