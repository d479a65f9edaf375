import Verif.Props.NegreteConverges

/-!
# C47: the multi-revolution search of `negrete2024` converges to the two poles
-/

set_option autoImplicit false

namespace Lamberthub
open Spec Set Filter Topology Negrete McElreath

namespace Negrete

theorem radius_mid {z zMin zMax : ℝ} (h1 : zMin ≠ 0) (h2 : zMin < z) (h3 : z < zMax) :
    refinementRadius z zMin zMax = max (min (min (0.5 * (z - zMin)) 2) (0.5 * (zMax - z))) 1e-8 := by
  unfold refinementRadius
  have n1 : ¬ (zMin = 0 ∧ 0 < z ∧ z < 1) := fun h => h1 h.1
  simp only [if_neg n1, if_pos (And.intro h2 h3)]
  rw [← min_def_lt (0.5 * (z - zMin)) 2, ← min_def_lt (0.5 * (zMax - z)), min_comm (0.5 * (zMax - z)), max_comm]
  exact (max_def_lt _ _).symm

theorem radius_mid_continuous {p zMin zMax : ℝ} (h1 : zMin ≠ 0) (h2 : zMin < p) (h3 : p < zMax) :
    ContinuousAt (fun z => refinementRadius z zMin zMax) p := by
  have e : (fun z => refinementRadius z zMin zMax) =ᶠ[𝓝 p] fun z =>
      max (min (min (0.5 * (z - zMin)) 2) (0.5 * (zMax - z))) 1e-8 := by
    filter_upwards [lt_mem_nhds h2, gt_mem_nhds h3] with z a b using radius_mid h1 a b
  exact ContinuousAt.congr (by fun_prop) e.symm

theorem center_mid {z zMin zMax : ℝ} (h1 : zMin ≠ 0) : refinementCenter z zMin zMax = z := by
  unfold refinementCenter
  rw [if_neg fun h => h1 h.1]

/-- A square root of a number close to `w ^ 2` is close to `w` or to `-w`. -/
theorem sqrt_close {s w : ℂ} (hw : w ≠ 0) {e : ℝ} (he : 0 < e) (h : ‖s ^ 2 - w ^ 2‖ < ‖w‖ * e) :
    ‖s - w‖ < e ∨ ‖s + w‖ < e := by
  by_contra hc
  rw [not_or, not_lt, not_lt] at hc
  have hw' : 0 < ‖w‖ := _root_.norm_pos_iff.2 hw
  have e1 : ‖s - w‖ * ‖s + w‖ = ‖s ^ 2 - w ^ 2‖ := by rw [← norm_mul]; congr 1; ring
  have e2 : 2 * ‖w‖ ≤ ‖s - w‖ + ‖s + w‖ := by
    have := norm_sub_le (s + w) (s - w)
    rw [show s + w - (s - w) = 2 * w by ring, norm_mul, Complex.norm_ofNat] at this
    linarith
  rcases le_total ‖s - w‖ ‖s + w‖ with h1 | h1
  · have : ‖w‖ ≤ ‖s + w‖ := by linarith
    nlinarith [norm_nonneg (s - w)]
  · have : ‖w‖ ≤ ‖s - w‖ := by linarith
    nlinarith [norm_nonneg (s + w)]

/-- The roots recovered from moments close to those of two poles are close to the poles. -/
theorem momentRoots_near {α β z1 z2 : ℂ} (hα : α ≠ 0) (hβ : β ≠ 0) (hz : z1 ≠ z2) {ι : Type} {l : Filter ι}
    {I0 I1 I2 I3 : ι → ℂ} (h0 : Tendsto I0 l (𝓝 (α + β))) (h1 : Tendsto I1 l (𝓝 (α * z1 + β * z2)))
    (h2 : Tendsto I2 l (𝓝 (α * z1 ^ 2 + β * z2 ^ 2))) (h3 : Tendsto I3 l (𝓝 (α * z1 ^ 3 + β * z2 ^ 3)))
    {ε : ℝ} (hε : 0 < ε) :
    ∀ᶠ i in l, ∃ u v, momentRoots (I0 i) (I1 i) (I2 i) (I3 i) = .ok (u, v) ∧
      (‖u - z1‖ < ε ∧ ‖v - z2‖ < ε ∨ ‖u - z2‖ < ε ∧ ‖v - z1‖ < ε) := by
  have hd : z1 - z2 ≠ 0 := sub_ne_zero.2 hz
  obtain ⟨k, hk⟩ : ∃ k, k = α * β * (z1 - z2) ^ 2 := ⟨_, rfl⟩
  have hk0 : k ≠ 0 := by rw [hk]; exact mul_ne_zero (mul_ne_zero hα hβ) (pow_ne_zero _ hd)
  have ha : Tendsto (fun i => I1 i ^ 2 - I0 i * I2 i) l (𝓝 (-k)) := by
    have := (h1.pow 2).sub (h0.mul h2)
    rwa [show (α * z1 + β * z2) ^ 2 - (α + β) * (α * z1 ^ 2 + β * z2 ^ 2) = -k by rw [hk]; ring] at this
  have hb : Tendsto (fun i => I3 i * I0 i - I1 i * I2 i) l (𝓝 (k * (z1 + z2))) := by
    have := (h3.mul h0).sub (h1.mul h2)
    rwa [show (α * z1 ^ 3 + β * z2 ^ 3) * (α + β) - (α * z1 + β * z2) * (α * z1 ^ 2 + β * z2 ^ 2) = k * (z1 + z2) by
      rw [hk]; ring] at this
  have hc : Tendsto (fun i => I2 i ^ 2 - I1 i * I3 i) l (𝓝 (-(k * (z1 * z2)))) := by
    have := (h2.pow 2).sub (h1.mul h3)
    rwa [show (α * z1 ^ 2 + β * z2 ^ 2) ^ 2 - (α * z1 + β * z2) * (α * z1 ^ 3 + β * z2 ^ 3) = -(k * (z1 * z2)) by
      rw [hk]; ring] at this
  have hdisc : Tendsto (fun i => (I3 i * I0 i - I1 i * I2 i) * (I3 i * I0 i - I1 i * I2 i) -
      4 * (I1 i ^ 2 - I0 i * I2 i) * (I2 i ^ 2 - I1 i * I3 i)) l (𝓝 ((k * (z1 - z2)) ^ 2)) := by
    have := (hb.mul hb).sub ((ha.const_mul 4).mul hc)
    rwa [show k * (z1 + z2) * (k * (z1 + z2)) - 4 * -k * -(k * (z1 * z2)) = (k * (z1 - z2)) ^ 2 by ring] at this
  -- the two quotients, for either sign of the root
  have hw : k * (z1 - z2) ≠ 0 := mul_ne_zero hk0 hd
  obtain ⟨e, he, hee⟩ : ∃ e > 0, ∀ᶠ i in l, ∀ s : ℂ, ∀ σ : ℂ, ‖s - σ * (k * (z1 - z2))‖ < e → (σ = 1 ∨ σ = -1) →
      ‖(-(I3 i * I0 i - I1 i * I2 i) + s) / (2 * (I1 i ^ 2 - I0 i * I2 i)) -
        (-(k * (z1 + z2)) + σ * (k * (z1 - z2))) / (2 * -k)‖ < ε := by
    have hcont : ∀ σ : ℂ, ∀ᶠ q : ℂ × ℂ × ℂ in 𝓝 (k * (z1 + z2), -k, σ * (k * (z1 - z2))),
        ‖(-q.1 + q.2.2) / (2 * q.2.1) - (-(k * (z1 + z2)) + σ * (k * (z1 - z2))) / (2 * -k)‖ < ε := by
      intro σ
      have : ContinuousAt (fun q : ℂ × ℂ × ℂ => (-q.1 + q.2.2) / (2 * q.2.1)) (k * (z1 + z2), -k, σ * (k * (z1 - z2))) :=
        ContinuousAt.div (by fun_prop) (by fun_prop) (mul_ne_zero two_ne_zero (neg_ne_zero.2 hk0))
      have := Metric.tendsto_nhds.1 this ε hε
      filter_upwards [this] with q hq
      rwa [dist_eq_norm] at hq
    have hsplit : ∀ σ : ℂ, ∃ e > 0, ∀ᶠ i in l, ∀ s : ℂ, ‖s - σ * (k * (z1 - z2))‖ < e →
        ‖(-(I3 i * I0 i - I1 i * I2 i) + s) / (2 * (I1 i ^ 2 - I0 i * I2 i)) -
          (-(k * (z1 + z2)) + σ * (k * (z1 - z2))) / (2 * -k)‖ < ε := by
      intro σ
      obtain ⟨e, he, hball⟩ := Metric.eventually_nhds_iff.1 (hcont σ)
      refine ⟨e, he, ?_⟩
      filter_upwards [Metric.tendsto_nhds.1 hb e he, Metric.tendsto_nhds.1 ha e he] with i b1 b2 s hs
      refine hball (y := (I3 i * I0 i - I1 i * I2 i, I1 i ^ 2 - I0 i * I2 i, s)) ?_
      rw [Prod.dist_eq, Prod.dist_eq]
      exact max_lt b1 (max_lt b2 (by rw [dist_eq_norm]; exact hs))
    obtain ⟨e1, he1, H1⟩ := hsplit 1
    obtain ⟨e2, he2, H2⟩ := hsplit (-1)
    refine ⟨min e1 e2, lt_min he1 he2, ?_⟩
    filter_upwards [H1, H2] with i a b s σ hs hσ
    rcases hσ with rfl | rfl
    · exact a s (hs.trans_le (min_le_left _ _))
    · exact b s (hs.trans_le (min_le_right _ _))
  have hz2 : (-(k * (z1 + z2)) + 1 * (k * (z1 - z2))) / (2 * -k) = z2 := by field_simp; ring
  have hz1 : (-(k * (z1 + z2)) + -1 * (k * (z1 - z2))) / (2 * -k) = z1 := by field_simp; ring
  filter_upwards [hee, Metric.tendsto_nhds.1 hdisc (‖k * (z1 - z2)‖ * e) (mul_pos (_root_.norm_pos_iff.2 hw) he),
    ha.eventually_ne (neg_ne_zero.2 hk0)] with i hi hdi hai
  obtain ⟨s, hs⟩ : ∃ s, s = csqrt ((I3 i * I0 i - I1 i * I2 i) * (I3 i * I0 i - I1 i * I2 i) -
      4 * (I1 i ^ 2 - I0 i * I2 i) * (I2 i ^ 2 - I1 i * I3 i)) := ⟨_, rfl⟩
  have hs2 : s ^ 2 = (I3 i * I0 i - I1 i * I2 i) * (I3 i * I0 i - I1 i * I2 i) -
      4 * (I1 i ^ 2 - I0 i * I2 i) * (I2 i ^ 2 - I1 i * I3 i) := by
    rw [hs]; unfold csqrt; rw [← Complex.cpow_nat_mul]; norm_num
  rw [dist_eq_norm, ← hs2] at hdi
  have h2a : 2 * (I1 i ^ 2 - I0 i * I2 i) ≠ 0 := mul_ne_zero two_ne_zero hai
  refine ⟨_, _, by rw [momentRoots, ← hs, cdiv_eq h2a, ok_bind, cdiv_eq h2a, ok_bind], ?_⟩
  rcases sqrt_close hw he hdi with hc | hc
  · right
    have a1 := hi s 1 (by rwa [one_mul]) (.inl rfl)
    have a2 := hi (-s) (-1) (by rwa [neg_one_mul, neg_sub_neg, norm_sub_rev]) (.inr rfl)
    rw [hz2] at a1
    rw [hz1, ← sub_eq_add_neg] at a2
    exact ⟨a1, a2⟩
  · left
    have a1 := hi s (-1) (by rwa [neg_one_mul, sub_neg_eq_add]) (.inr rfl)
    have a2 := hi (-s) 1 (by rw [one_mul, ← norm_neg]; rwa [show -(-s - k * (z1 - z2)) = s + k * (z1 - z2) by ring]) (.inl rfl)
    rw [hz1] at a1
    rw [hz2, ← sub_eq_add_neg] at a2
    exact ⟨a1, a2⟩

/-- `f` is `h / ((z - p) (z - q))` on `W`, with `h` holomorphic on `D` and non-zero at the two
poles. -/
structure TwoPoles (f : ℂ → Py ℂ) (h : ℂ → ℂ) (D W : Set ℂ) (p q : ℝ) : Prop where
  openW : IsOpen W
  sub : W ⊆ D
  eq : ∀ z ∈ W, f z = .ok (h z / ((z - p) * (z - q)))
  outp : (p : ℂ) ∉ W
  outq : (q : ℂ) ∉ W
  diff : DifferentiableOn ℂ h D
  nep : h p ≠ 0
  neq : h q ≠ 0

theorem TwoPoles.symm {f : ℂ → Py ℂ} {h : ℂ → ℂ} {D W : Set ℂ} {p q : ℝ} (H : TwoPoles f h D W p q) :
    TwoPoles f h D W q p :=
  ⟨H.openW, H.sub, fun z hz => by rw [H.eq z hz, mul_comm], H.outq, H.outp, H.diff, H.neq, H.nep⟩

theorem TwoPoles.single {f : ℂ → Py ℂ} {h : ℂ → ℂ} {D W : Set ℂ} {p q : ℝ} (H : TwoPoles f h D W p q) (hpq : p ≠ q) :
    SimplePole f (fun z => h z / (z - q)) (D \ {(q : ℂ)}) W p := by
  refine ⟨H.openW, fun z hz => ⟨H.sub hz, ?_⟩, fun z hz => ?_, H.outp, ?_, ?_⟩
  · rintro rfl; exact H.outq hz
  · rw [H.eq z hz, div_div, mul_comm]
  · refine (H.diff.mono diff_subset).div (by fun_prop) fun z hz h0 => hz.2 ?_
    exact sub_eq_zero.1 h0
  · refine div_ne_zero H.nep (sub_ne_zero.2 ?_)
    exact_mod_cast hpq

theorem pt_mem {R : ℝ} (hR : 0 ≤ R) (c t : ℝ) : pt (c, R) t ∈ Metric.sphere (c : ℂ) R := by
  rw [mem_sphere_iff_norm, pt, add_sub_cancel_left, norm_mul, Complex.norm_real, Real.norm_of_nonneg hR,
    show 2 * Complex.I * Real.pi * (t : ℂ) = ((2 * Real.pi * t : ℝ) : ℂ) * Complex.I by push_cast; ring,
    Complex.norm_exp_ofReal_mul_I, mul_one]

theorem TwoPoles.moments {f : ℂ → Py ℂ} {h : ℂ → ℂ} {D W : Set ℂ} {p q c R : ℝ} (H : TwoPoles f h D W p q) (hpq : p ≠ q)
    (hD : Metric.closedBall (c : ℂ) R ⊆ D) (hs : Metric.sphere (c : ℂ) R ⊆ W) (hp : |p - c| < R) (hq : |q - c| < R) (k : ℕ) :
    Tendsto (contourSum (fun z => z ^ k * (h z / ((z - p) * (z - q)))) c R) atTop
      (𝓝 (2 * Real.pi * Complex.I * (h p / (p - q)) * p ^ k + 2 * Real.pi * Complex.I * (h q / (q - p)) * q ^ k)) := by
  have hR : 0 < R := lt_of_le_of_lt (abs_nonneg _) hp
  have hpqc : (p : ℂ) - q ≠ 0 := sub_ne_zero.2 (by exact_mod_cast hpq)
  have hqpc : (q : ℂ) - p ≠ 0 := sub_ne_zero.2 (by exact_mod_cast hpq.symm)
  have hb : ∀ {t : ℝ}, |t - c| < R → (t : ℂ) ∈ Metric.ball (c : ℂ) R := by
    intro t ht
    rw [mem_ball_iff_norm, ← Complex.ofReal_sub, Complex.norm_real]; exact ht
  have hh : DiffContOnCl ℂ h (Metric.ball (c : ℂ) R) := ⟨H.diff.mono (Metric.ball_subset_closedBall.trans hD),
    H.diff.continuousOn.mono (Metric.closure_ball_subset_closedBall.trans hD)⟩
  have hcs : ∀ {t : ℝ}, (t : ℂ) ∉ W → ContinuousOn (fun z => z ^ k * (h z / (z - t))) (Metric.sphere (c : ℂ) R) := by
    intro t ht
    refine (continuousOn_id.pow k).mul (ContinuousOn.div (H.diff.continuousOn.mono (hs.trans H.sub)) (by fun_prop) ?_)
    intro z hz h0
    exact ht (by rw [← sub_eq_zero.1 h0]; exact hs hz)
  have t1 := contourSum_tendsto hR.le (hcs H.outp)
  have t2 := contourSum_tendsto hR.le (hcs H.outq)
  rw [moment_integral k hh (hb hp)] at t1
  rw [moment_integral k hh (hb hq)] at t2
  have t3 := (t1.sub t2).mul_const ((p : ℂ) - q)⁻¹
  refine (t3.congr fun n => ?_).trans_eq ?_
  · unfold contourSum
    rw [← sub_div, ← Finset.sum_sub_distrib, div_mul_eq_mul_div, Finset.sum_mul]
    congr 1
    refine Finset.sum_congr rfl fun i _ => ?_
    have hm := hs (pt_mem hR.le c ((i : ℝ) / n))
    unfold pt at hm
    simp only at hm
    generalize (c : ℂ) + R * Complex.exp (2 * Complex.I * Real.pi * ((i / n : ℝ) : ℂ)) = z at hm ⊢
    have n1 : z - p ≠ 0 := fun h0 => H.outp (by rw [← sub_eq_zero.1 h0]; exact hm)
    have n2 : z - q ≠ 0 := fun h0 => H.outq (by rw [← sub_eq_zero.1 h0]; exact hm)
    field_simp
    ring
  · congr 1
    field_simp
    ring

end Negrete

/-- **C47**, convergence of the multi-revolution search.  Let the integrand have exactly two
simple poles `p < q`, both real, inside the contour of `M` revolutions, each alone in the disc
of its refinement.  For every `ε` and every large enough number of nodes, the multi-revolution
branch of `_find_z` returns on both paths; the low path within `ε` of `p` and the high path
within `ε` of `q`. -/
theorem negrete_two_poles_converge {f : ℂ → Py ℂ} {h : ℂ → ℂ} {D W : Set ℂ} {p q atol rtol : ℝ} {M : ℕ} (hM : 1 ≤ M)
    (H : TwoPoles f h D W p q) (hpq : p < q)
    (hD : Metric.closedBall ((2 * Real.pi ^ 2 * (2 * M ^ 2 + 2 * M + 1) : ℝ) : ℂ) (2 * Real.pi ^ 2 * (2 * M + 1) - 0.5) ⊆ D)
    (hs : Metric.sphere ((2 * Real.pi ^ 2 * (2 * M ^ 2 + 2 * M + 1) : ℝ) : ℂ) (2 * Real.pi ^ 2 * (2 * M + 1) - 0.5) ⊆ W)
    (hp : (2 * M * Real.pi) ^ 2 + 0.5 < p) (hq : q < (2 * (M + 1) * Real.pi) ^ 2 - 0.5)
    {rp rq : ℝ} (hrp : rp = min (min (0.5 * (p - (2 * M * Real.pi) ^ 2)) 2) (0.5 * ((2 * (M + 1) * Real.pi) ^ 2 - p)))
    (hrq : rq = min (min (0.5 * (q - (2 * M * Real.pi) ^ 2)) 2) (0.5 * ((2 * (M + 1) * Real.pi) ^ 2 - q)))
    (hDp : Metric.closedBall (p : ℂ) rp ⊆ D) (hsp : Metric.sphere (p : ℂ) rp ⊆ W) (hp' : rp < q - p)
    (hDq : Metric.closedBall (q : ℂ) rq ⊆ D) (hsq : Metric.sphere (q : ℂ) rq ⊆ W) (hq' : rq < q - p)
    (hat : 0 < atol) (hrt : 0 ≤ rtol) {ε : ℝ} (hε : 0 < ε) :
    ∃ N : ℕ, ∀ n ≥ N, ∃ zl zh, findZMulti f M true n atol rtol = .ok zl ∧ findZMulti f M false n atol rtol = .ok zh ∧
      |zl - p| < ε ∧ |zh - q| < ε := by
  have hpi := Real.pi_gt_three
  have hM1 : (1 : ℝ) ≤ M := by exact_mod_cast hM
  obtain ⟨zMin, hzMin⟩ : ∃ t, t = (2 * M * Real.pi) ^ 2 := ⟨_, rfl⟩
  obtain ⟨zMax, hzMax⟩ : ∃ t, t = (2 * (M + 1) * Real.pi) ^ 2 := ⟨_, rfl⟩
  obtain ⟨c, hc⟩ : ∃ t, t = 2 * Real.pi ^ 2 * (2 * (M : ℝ) ^ 2 + 2 * M + 1) := ⟨_, rfl⟩
  obtain ⟨R, hR⟩ : ∃ t, t = 2 * Real.pi ^ 2 * (2 * (M : ℝ) + 1) - 0.5 := ⟨_, rfl⟩
  have hlo : c - R = zMin + 0.5 := by rw [hc, hR, hzMin]; ring
  have hhi : c + R = zMax - 0.5 := by rw [hc, hR, hzMax]; ring
  rw [← hc, ← hR] at hD hs
  rw [← hzMin] at hp hrp hrq
  rw [← hzMax] at hq hrp hrq
  have hz0 : zMin ≠ 0 := by
    rw [hzMin]; positivity
  norm_num at hlo hhi hp hq
  have hpc : |p - c| < R := by rw [abs_lt]; constructor <;> linarith
  have hqc : |q - c| < R := by rw [abs_lt]; constructor <;> linarith
  have er : ∀ {t r : ℝ}, r = min (min (0.5 * (t - zMin)) 2) (0.5 * (zMax - t)) → zMin + 1 / 2 < t → t < zMax - 1 / 2 →
      refinementRadius t zMin zMax = r ∧ 0 < r := by
    intro t r hr h1 h2
    have hr1 : (1 / 4 : ℝ) ≤ r := by
      rw [hr]; refine le_min (le_min ?_ ?_) ?_ <;> norm_num <;> linarith
    rw [radius_mid hz0 (by linarith) (by linarith), ← hr, max_eq_left (by norm_num; linarith)]
    exact ⟨rfl, by linarith⟩
  obtain ⟨erp, hrp0⟩ := er hrp hp (by linarith)
  obtain ⟨erq, hrq0⟩ := er hrq (by linarith) hq
  obtain ⟨ε1, hε1e⟩ : ∃ t, t = min ε ((q - p) / 2) := ⟨_, rfl⟩
  have hε1 : 0 < ε1 := by rw [hε1e]; exact lt_min hε (by linarith)
  have hεa : ε1 ≤ ε := by rw [hε1e]; exact min_le_left _ _
  have hεb : ε1 ≤ (q - p) / 2 := by rw [hε1e]; exact min_le_right _ _
  -- the refinements
  have sub : ∀ {a b r : ℝ}, r < |b - a| → Metric.closedBall (a : ℂ) r ⊆ D → Metric.closedBall (a : ℂ) r ⊆ D \ {(b : ℂ)} := by
    intro a b r hr hsub z hz
    refine ⟨hsub hz, ?_⟩
    rintro rfl
    rw [mem_closedBall_iff_norm, ← Complex.ofReal_sub, Complex.norm_real, Real.norm_eq_abs] at hz
    linarith
  have hqp : |q - p| = q - p := abs_of_pos (by linarith)
  have hpq' : |p - q| = q - p := by rw [abs_sub_comm, hqp]
  obtain ⟨δ1, hδ1, N1, hN1⟩ := refineLoop_near (H.single hpq.ne) (fun z => center_mid hz0)
    (radius_mid_continuous (zMax := zMax) hz0 (by linarith) (by linarith)) (by rw [erp]; exact sub (by rw [hqp]; exact hp') hDp)
    (by rw [erp]; exact hsp) (by rw [erp]; exact hrp0) hat hrt 2 hε1
  obtain ⟨δ2, hδ2, N2, hN2⟩ := refineLoop_near (H.symm.single hpq.ne') (fun z => center_mid hz0)
    (radius_mid_continuous (zMax := zMax) hz0 (by linarith) (by linarith)) (by rw [erq]; exact sub (by rw [hpq']; exact hq') hDq)
    (by rw [erq]; exact hsq) (by rw [erq]; exact hrq0) hat hrt 2 hε1
  -- the first contour
  have hpqc : (p : ℂ) - q ≠ 0 := sub_ne_zero.2 (by exact_mod_cast hpq.ne)
  have hqpc : (q : ℂ) - p ≠ 0 := sub_ne_zero.2 (by exact_mod_cast hpq.ne')
  have hm := H.moments hpq.ne hD hs hpc hqc
  have m0 := hm 0
  have m1 := hm 1
  rw [pow_zero, pow_zero, mul_one, mul_one] at m0
  rw [pow_one, pow_one] at m1
  obtain ⟨δ, hδ⟩ : ∃ δ, δ = min (min δ1 δ2) (min atol (min ε ((q - p) / 2))) := ⟨_, rfl⟩
  have hδ0 : 0 < δ := by rw [hδ]; exact lt_min (lt_min hδ1 hδ2) (lt_min hat (lt_min hε (by linarith)))
  have le1 : δ ≤ δ1 := by rw [hδ]; exact (min_le_left _ _).trans (min_le_left _ _)
  have le2 : δ ≤ δ2 := by rw [hδ]; exact (min_le_left _ _).trans (min_le_right _ _)
  have le3 : δ ≤ atol := by rw [hδ]; exact (min_le_right _ _).trans (min_le_left _ _)
  have le5 : δ ≤ (q - p) / 2 := by rw [hδ]; exact (min_le_right _ _).trans ((min_le_right _ _).trans (min_le_right _ _))
  obtain ⟨N3, hN3⟩ := eventually_atTop.1 (momentRoots_near (mul_ne_zero Complex.two_pi_I_ne_zero (div_ne_zero H.nep hpqc))
    (mul_ne_zero Complex.two_pi_I_ne_zero (div_ne_zero H.neq hqpc)) (by exact_mod_cast hpq.ne) m0 m1 (hm 2) (hm 3) hδ0)
  refine ⟨max (max 1 N1) (max N2 N3), fun n hn => ?_⟩
  have n1 : 1 ≤ n := (le_max_left _ _).trans ((le_max_left _ _).trans hn)
  have nN1 : N1 ≤ n := (le_max_right _ _).trans ((le_max_left _ _).trans hn)
  have nN2 : N2 ≤ n := (le_max_left _ _).trans ((le_max_right _ _).trans hn)
  have nN3 : N3 ≤ n := (le_max_right _ _).trans ((le_max_right _ _).trans hn)
  have hR0 : 0 ≤ R := (abs_nonneg _).trans hpc.le
  obtain ⟨I, hI, hIk⟩ := contourIntegrals_eq hR0 (fun z hz => H.eq z (hs hz)) 3 n1
  obtain ⟨u, v, huv, hor⟩ := hN3 n nN3
  rw [← hIk 0 (by norm_num), ← hIk 1 (by norm_num), ← hIk 2 (by norm_num), ← hIk 3 le_rfl] at huv
  have parts : ∀ {w : ℂ} {t : ℝ}, ‖w - t‖ < δ → |w.re - t| < δ ∧ |w.im| < δ := by
    intro w t hw
    have a := Complex.abs_re_le_norm (w - t)
    have b := Complex.abs_im_le_norm (w - t)
    rw [Complex.sub_re, Complex.ofReal_re] at a
    rw [Complex.sub_im, Complex.ofReal_im, sub_zero] at b
    exact ⟨a.trans_lt hw, b.trans_lt hw⟩
  have hmm : |min u.re v.re - p| < δ ∧ |max u.re v.re - q| < δ ∧ |u.im| < δ ∧ |v.im| < δ := by
    rcases hor with ⟨a, b⟩ | ⟨a, b⟩
    · obtain ⟨a1, a2⟩ := parts a
      obtain ⟨b1, b2⟩ := parts b
      have : u.re ≤ v.re := by linarith [(abs_lt.1 a1).2, (abs_lt.1 b1).1]
      rw [min_eq_left this, max_eq_right this]
      exact ⟨a1, b1, a2, b2⟩
    · obtain ⟨a1, a2⟩ := parts a
      obtain ⟨b1, b2⟩ := parts b
      have : v.re ≤ u.re := by linarith [(abs_lt.1 a1).1, (abs_lt.1 b1).2]
      rw [min_eq_right this, max_eq_left this]
      exact ⟨b1, a1, a2, b2⟩
  obtain ⟨hmin, hmax, hu, hv⟩ := hmm
  obtain ⟨lo, hlo', hlo1⟩ := hN1 _ (hmin.trans_le le1) n nN1
  obtain ⟨hi, hhi', hhi1⟩ := hN2 _ (hmax.trans_le le2) n nN2
  have hord : lo ≤ hi := by linarith [(abs_lt.1 hlo1).2, (abs_lt.1 hhi1).1]
  have him : ¬ (|u.im| > atol + rtol * |u.re| ∨ |v.im| > atol + rtol * |v.re|) := by
    have t1 := mul_nonneg hrt (abs_nonneg u.re)
    have t2 := mul_nonneg hrt (abs_nonneg v.re)
    rintro (h0 | h0) <;> linarith
  have hrun : ∀ low, findZMulti f M low n atol rtol = .ok (if low = true then min lo hi else max lo hi) := by
    intro low
    unfold findZMulti
    simp only []
    rw [← hc, ← hR, hI, ok_bind, huv, ok_bind]
    simp only []
    rw [raiseIf_neg _ him, ok_bind, ← hzMin, ← hzMax, refineSingleRoot, hlo', ok_bind, refineSingleRoot, hhi', ok_bind]
  refine ⟨lo, hi, ?_, ?_, hlo1.trans_le hεa, hhi1.trans_le hεa⟩
  · rw [hrun, if_pos rfl, min_eq_left hord]
  · rw [hrun, if_neg (by simp), max_eq_right hord]

/-- The hypotheses of `negrete_two_poles_converge` are met for one revolution by the poles 60
and 100. -/
example : ∃ N : ℕ, ∀ n ≥ N, ∃ zl zh,
    findZMulti (fun z => .ok (Complex.exp z / ((z - (60 : ℝ)) * (z - (100 : ℝ))))) 1 true n 1e-5 1e-7 = .ok zl ∧
    findZMulti (fun z => .ok (Complex.exp z / ((z - (60 : ℝ)) * (z - (100 : ℝ))))) 1 false n 1e-5 1e-7 = .ok zh ∧
    |zl - 60| < 1e-9 ∧ |zh - 100| < 1e-9 := by
  have p1 := Real.pi_gt_d2
  have p2 := Real.pi_lt_d2
  have q1 : 9.8596 < Real.pi ^ 2 := by nlinarith
  have q2 : Real.pi ^ 2 < 9.9225 := by nlinarith
  norm_num at q1 q2
  have e1 : (2 * (1 : ℕ) * Real.pi) ^ 2 = 4 * Real.pi ^ 2 := by push_cast; ring
  have e2 : (2 * ((1 : ℕ) + 1) * Real.pi) ^ 2 = 16 * Real.pi ^ 2 := by push_cast; ring
  have hW : TwoPoles (fun z => .ok (Complex.exp z / ((z - (60 : ℝ)) * (z - (100 : ℝ))))) Complex.exp univ
      {z | z ≠ (60 : ℝ) ∧ z ≠ (100 : ℝ)} 60 100 := by
    refine ⟨?_, subset_univ _, fun z _ => rfl, fun h => h.1 rfl, fun h => h.2 rfl, Complex.differentiable_exp.differentiableOn,
      Complex.exp_ne_zero _, Complex.exp_ne_zero _⟩
    exact (isOpen_compl_singleton (x := ((60 : ℝ) : ℂ))).inter (isOpen_compl_singleton (x := ((100 : ℝ) : ℂ)))
  have out : ∀ {c r : ℝ}, |60 - c| ≠ r → |100 - c| ≠ r → Metric.sphere (c : ℂ) r ⊆ {z | z ≠ (60 : ℝ) ∧ z ≠ (100 : ℝ)} := by
    intro c r h1 h2 z hz
    rw [mem_sphere_iff_norm] at hz
    constructor <;> rintro rfl <;> rw [← Complex.ofReal_sub, Complex.norm_real, Real.norm_eq_abs] at hz
    · exact h1 hz
    · exact h2 hz
  have hr : ∀ t : ℝ, 60 ≤ t → t ≤ 100 → (2 : ℝ) =
      min (min (0.5 * (t - (2 * (1 : ℕ) * Real.pi) ^ 2)) 2) (0.5 * ((2 * ((1 : ℕ) + 1) * Real.pi) ^ 2 - t)) := by
    intro t h1 h2
    rw [e1, e2, min_eq_right (a := 0.5 * (t - 4 * Real.pi ^ 2)) (by norm_num; linarith), min_eq_left (by norm_num; linarith)]
  refine negrete_two_poles_converge (M := 1) le_rfl hW (by norm_num) (subset_univ _) (out ?_ ?_) (by rw [e1]; norm_num; linarith)
    (by rw [e2]; norm_num; linarith) (hr 60 le_rfl (by norm_num)) (hr 100 (by norm_num) le_rfl) (subset_univ _) (out ?_ ?_)
    (by norm_num) (subset_univ _) (out ?_ ?_) (by norm_num) (by norm_num) (by norm_num) (by norm_num)
  · refine ne_of_lt ?_
    rw [abs_lt]; push_cast; constructor <;> norm_num <;> linarith
  · refine ne_of_lt ?_
    rw [abs_lt]; push_cast; constructor <;> norm_num <;> linarith
  all_goals norm_num

end Lamberthub
