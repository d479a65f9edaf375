import Verif.Proofs.GoodingWell
import Verif.Proofs.GoodingStart
import Verif.Proofs.IzzoMultiSlow

/-! # `xlamb` for long times with revolutions -/

set_option autoImplicit false

namespace Lamberthub
open Filter Topology Spec LC

namespace Gooding
open Izzo (endC endC_pos rv rv1 rv2 rv_end_lim rv_end_pos rv_end_deriv)

/-- For long times one pass from a start that is too far from the end divides the distance to it by five, whatever
the time requested. -/
theorem step_slow_rev {q s : ℝ} (hq : q ^ 2 < 1) (hs : s = 1 ∨ s = -1) {M : ℕ} (hM : 1 ≤ M) {u : ℝ → ℝ}
    (hu : Tendsto u atTop (𝓝[>] 0)) {c : ℝ} (hc : 0 < c) (hb : ∀ᶠ τ in atTop, c ≤ u τ ^ 2 * τ) :
    ∃ Z : ℝ → ℝ, Tendsto Z atTop (𝓝 (1 / 5)) ∧ Tendsto (fun τ => revT q M (s * (1 - u τ * Z τ)) / τ) atTop (𝓝 0) ∧
      ∀ᶠ τ in atTop, nextM q M τ (s * (1 - u τ)) = s * (1 - u τ * Z τ) ∧ rev1 q M (s * (1 - u τ)) ≠ 0 ∧
      rev1 q M (s * (1 - u τ)) ^ 2 + (τ - revT q M (s * (1 - u τ))) * rev2 q M (s * (1 - u τ)) / 2 ≠ 0 := by
  have hs2 : s ^ 2 = 1 := by rcases hs with rfl | rfl <;> norm_num
  have hs0 : s ≠ 0 := by rcases hs with rfl | rfl <;> norm_num
  have hC := endC_pos hs hM
  obtain ⟨hu0, hup⟩ := tendsto_nhdsWithin_iff.1 hu
  have hsu : Tendsto (fun τ => Real.sqrt (u τ)) atTop (𝓝 0) := by
    have h2 := (Real.continuous_sqrt.tendsto 0).comp hu0
    rw [Real.sqrt_zero] at h2
    exact h2
  have hG : Tendsto (fun u => revT q M (s * (1 - u)) * (u * Real.sqrt u)) (𝓝[>] 0) (𝓝 (endC s M)) := rv_end_lim hq hs M
  have htm := hG.comp hu
  have hratio : Tendsto (fun τ => revT q M (s * (1 - u τ)) / τ) atTop (𝓝 0) := by
    have h := (htm.abs.mul (hsu.const_mul (1 / c)))
    rw [mul_zero, mul_zero] at h
    refine squeeze_zero_norm' ?_ h
    filter_upwards [hb, hup, eventually_gt_atTop 0] with τ h1 h2 h3
    have h2' : 0 < u τ := h2
    have hs := Real.sqrt_pos.2 h2'
    have hss := Real.sq_sqrt h2'.le
    simp only [Function.comp]
    rw [Real.norm_eq_abs, abs_div, abs_of_pos h3, abs_mul, abs_of_pos (by positivity : 0 < u τ * Real.sqrt (u τ)),
      div_le_iff₀ h3]
    have e : |revT q M (s * (1 - u τ))| * (u τ * Real.sqrt (u τ)) * (1 / c * Real.sqrt (u τ)) * τ =
        |revT q M (s * (1 - u τ))| * ((u τ ^ 2 * τ) / c) := by
      calc _ = |revT q M (s * (1 - u τ))| * (u τ * Real.sqrt (u τ) ^ 2 * τ / c) := by ring
        _ = _ := by rw [hss]; ring
    rw [e]
    exact le_mul_of_one_le_right (abs_nonneg _) (by rw [one_le_div hc]; exact h1)
  obtain ⟨d1, d2, -⟩ := rv_end_deriv hq hs hM
  have p1 := d1.comp hu
  have p2 := d2.comp hu
  have hpos : ∀ᶠ τ in atTop, 0 < revT q M (s * (1 - u τ)) :=
    (hu.eventually (rv_end_pos hq hs hM)).mono fun τ h => h.1
  obtain ⟨P, hP⟩ : ∃ P : ℝ → ℝ, P = fun τ => u τ * rev1 q M (s * (1 - u τ)) / revT q M (s * (1 - u τ)) := ⟨_, rfl⟩
  obtain ⟨R, hR⟩ : ∃ R : ℝ → ℝ, R = fun τ => u τ ^ 2 * rev2 q M (s * (1 - u τ)) / revT q M (s * (1 - u τ)) := ⟨_, rfl⟩
  obtain ⟨k, hk⟩ : ∃ k : ℝ → ℝ, k = fun τ => revT q M (s * (1 - u τ)) / τ := ⟨_, rfl⟩
  have lP : Tendsto P atTop (𝓝 (3 * s / 2)) := by rw [hP]; exact p1
  have lR : Tendsto R atTop (𝓝 (15 / 4)) := by rw [hR]; exact p2
  have lk : Tendsto k atTop (𝓝 0) := by rw [hk]; exact hratio
  have lD : Tendsto (fun τ => P τ ^ 2 * k τ + (1 - k τ) * R τ / 2) atTop (𝓝 (15 / 8)) := by
    have h := ((lP.pow 2).mul lk).add (((lk.const_sub 1).mul lR).div_const 2)
    rw [show (3 * s / 2 : ℝ) ^ 2 * 0 + (1 - 0) * (15 / 4) / 2 = 15 / 8 by ring] at h
    exact h
  obtain ⟨Z, hZd⟩ : ∃ Z : ℝ → ℝ, Z = fun τ => 1 - s * ((1 - k τ) * P τ / (P τ ^ 2 * k τ + (1 - k τ) * R τ / 2)) := ⟨_, rfl⟩
  have lZ : Tendsto Z atTop (𝓝 (1 / 5)) := by
    have h := ((((lk.const_sub 1).mul lP).div lD (by norm_num)).const_mul s).const_sub 1
    rw [show (1 : ℝ) - s * ((1 - 0) * (3 * s / 2) / (15 / 8)) = 1 / 5 by linear_combination -4 / 5 * hs2] at h
    rw [hZd]
    exact h
  have hZp := lZ.eventually (lt_mem_nhds (show (0 : ℝ) < 1 / 5 by norm_num))
  refine ⟨Z, lZ, ?_, ?_⟩
  · have huZ : Tendsto (fun τ => u τ * Z τ) atTop (𝓝[>] 0) := by
      rw [tendsto_nhdsWithin_iff]
      constructor
      · have h := hu0.mul lZ
        rw [zero_mul] at h
        exact h
      · filter_upwards [hup, hZp] with τ h1 h2
        exact mul_pos h1 h2
    have hA := hG.comp huZ
    have hsZ : Tendsto (fun τ => Z τ * Real.sqrt (Z τ)) atTop (𝓝 (1 / 5 * Real.sqrt (1 / 5))) :=
      lZ.mul ((Real.continuous_sqrt.tendsto _).comp lZ)
    have hs5 : 0 < Real.sqrt (1 / 5) := Real.sqrt_pos.2 (by norm_num)
    have h := (((hA.div htm hC.ne').div hsZ (by positivity)).mul hratio)
    rw [mul_zero] at h
    refine h.congr' ?_
    filter_upwards [hup, hZp, eventually_gt_atTop 0, hpos] with τ h1 h2 h3 h5
    have h1' : 0 < u τ := h1
    have e1 := Real.sqrt_pos.2 h1'
    have e2 := Real.sqrt_pos.2 h2
    simp only [Function.comp, Pi.div_apply]
    rw [Real.sqrt_mul h1'.le]
    generalize revT q M (s * (1 - u τ)) = a at *
    generalize revT q M (s * (1 - u τ * Z τ)) = b at *
    generalize Real.sqrt (u τ) = c at *
    generalize Real.sqrt (Z τ) = d at *
    field_simp
  filter_upwards [hpos, hup, eventually_gt_atTop 0, lD.eventually_ne (show (15 / 8 : ℝ) ≠ 0 by norm_num),
    lP.eventually_ne (show (3 * s / 2 : ℝ) ≠ 0 by positivity)] with τ ht h2 h3 hD hP0
  have h2' : 0 < u τ := h2
  have f1 : rev1 q M (s * (1 - u τ)) = P τ * revT q M (s * (1 - u τ)) / u τ := by rw [hP]; field_simp
  have f2 : rev2 q M (s * (1 - u τ)) = R τ * revT q M (s * (1 - u τ)) / u τ ^ 2 := by rw [hR]; field_simp
  have f3 : revT q M (s * (1 - u τ)) = k τ * τ := by rw [hk]; field_simp
  have hk0 : 0 < k τ := by
    rw [f3] at ht
    by_contra h
    nlinarith
  have hden : rev1 q M (s * (1 - u τ)) ^ 2 + (τ - revT q M (s * (1 - u τ))) * rev2 q M (s * (1 - u τ)) / 2 =
      (P τ ^ 2 * k τ + (1 - k τ) * R τ / 2) * (k τ * τ ^ 2 / u τ ^ 2) := by
    rw [f1, f2, f3]; field_simp
  refine ⟨?_, ?_, ?_⟩
  · have eZ : s * (1 - u τ * Z τ) = s * (1 - u τ) + u τ * ((1 - k τ) * P τ / (P τ ^ 2 * k τ + (1 - k τ) * R τ / 2)) := by
      rw [hZd]; simp only []
      linear_combination u τ * ((1 - k τ) * P τ / (P τ ^ 2 * k τ + (1 - k τ) * R τ / 2)) * hs2
    rw [eZ, nextM, hden, f1, f3]
    generalize P τ ^ 2 * k τ + (1 - k τ) * R τ / 2 = D at *
    congr 1
    field_simp
  · rw [f1, f3]
    exact div_ne_zero (mul_ne_zero hP0 (by positivity)) h2'.ne'
  · rw [hden]
    exact mul_ne_zero hD (by positivity)

/-- `_xlamb_iter` from such a start. -/
theorem iter_slow_rev {q s : ℝ} (hq : q ^ 2 < 1) (hs : s = 1 ∨ s = -1) {M : ℕ} (hM : 1 ≤ M) {u : ℝ → ℝ}
    (hu : Tendsto u atTop (𝓝[>] 0)) {c : ℝ} (hc : 0 < c) (hb : ∀ᶠ τ in atTop, c ≤ u τ ^ 2 * τ) {atol rtol : ℝ}
    (ha : 0 < atol) (hr : 0 < rtol) :
    ∃ v : ℝ → ℝ, Tendsto v atTop (𝓝[>] 0) ∧ Tendsto (fun τ => revT q M (s * (1 - v τ)) / τ) atTop (𝓝 0) ∧
      ∀ᶠ τ in atTop, ∀ (maxiter k : ℕ) (xold : ℝ),
        xlambIter M q (1 - q ^ 2) (2 * τ) atol rtol maxiter (k + 1) 1 (s * (1 - u τ)) xold = .ok (s * (1 - v τ), 1) := by
  obtain ⟨Z, hZ, hlim, hev⟩ := step_slow_rev hq hs hM hu hc hb
  have hs0 : s ≠ 0 := by rcases hs with rfl | rfl <;> norm_num
  obtain ⟨hu0, hup⟩ := tendsto_nhdsWithin_iff.1 hu
  have t1 : Tendsto (fun τ => |s * (1 - u τ * Z τ) - s * (1 - u τ)|) atTop (𝓝 0) := by
    have h := ((((hu0.mul hZ).const_sub 1).const_mul s).sub ((hu0.const_sub 1).const_mul s)).abs
    simpa using h
  have t2 : Tendsto (fun τ => |s * (1 - u τ * Z τ) / (s * (1 - u τ)) - 1|) atTop (𝓝 0) := by
    have h := (((((hu0.mul hZ).const_sub 1).const_mul s).div ((hu0.const_sub 1).const_mul s) (by simpa using hs0)).sub_const 1).abs
    rw [zero_mul, sub_zero, mul_one, div_self hs0, sub_self, abs_zero] at h
    exact h
  refine ⟨fun τ => u τ * Z τ, ?_, hlim, ?_⟩
  · rw [tendsto_nhdsWithin_iff]
    constructor
    · have h := hu0.mul hZ
      rw [zero_mul] at h
      exact h
    · filter_upwards [hup, hZ.eventually (lt_mem_nhds (show (0 : ℝ) < 1 / 5 by norm_num))] with τ h1 h2
      exact mul_pos h1 h2
  · filter_upwards [hev, t1.eventually (gt_mem_nhds ha), t2.eventually (gt_mem_nhds hr), hup,
      hu0.eventually (gt_mem_nhds one_pos)] with τ ⟨g2, g3, g4⟩ g5 g6 g7 g8 maxiter k xold
    have g7' : 0 < u τ := g7
    rw [iter_succ_rev hM hq (by rcases hs with rfl | rfl <;> linarith) (by rcases hs with rfl | rfl <;> linarith)
      (mul_ne_zero hs0 (by linarith)) g3 g4, g2, if_pos ⟨g5.le, g6.le⟩]

/-- The factor of the corrections of the two starts. -/
theorem factor_pos {M : ℕ} {κ thr2 : ℝ} (h0 : 0 < thr2) (h1 : thr2 < 1) (hκ0 : 0 ≤ κ) (hκ : κ ≤ 1) :
    0 < (1.0 + ((M : ℤ) : ℝ) + κ * (thr2 - 0.5)) / (1.0 + 0.15 * ((M : ℤ) : ℝ)) ∧ 1.0 + 0.15 * ((M : ℤ) : ℝ) ≠ 0 := by
  have hM : (0 : ℝ) ≤ ((M : ℤ) : ℝ) := by positivity
  have hd : 0 < 1.0 + 0.15 * ((M : ℤ) : ℝ) := by norm_num; positivity
  refine ⟨div_pos ?_ hd, hd.ne'⟩
  norm_num
  nlinarith

/-- The first start for long times. -/
theorem firstStart_long {M : ℕ} {thr2 xm d tmin : ℝ} (h0 : 0 < thr2) (h1 : thr2 < 1) (hx : xm < 1) (hd : 0 < d) :
    ∃ u : ℝ → ℝ, Tendsto u atTop (𝓝[>] 0) ∧ (∃ c > 0, ∀ᶠ τ in atTop, c ≤ u τ ^ 2 * τ) ∧
      ∀ᶠ τ in atTop, firstStart M thr2 xm (2 * τ - tmin) d = .ok (1 * (1 - u τ)) := by
  obtain ⟨hk, hkd⟩ := factor_pos (M := M) (κ := 1.0) h0 h1 (by norm_num) (by norm_num)
  obtain ⟨K, hK⟩ : ∃ K, K = (1.0 + ((M : ℤ) : ℝ) + 1.0 * (thr2 - 0.5)) / (1.0 + 0.15 * ((M : ℤ) : ℝ)) := ⟨_, rfl⟩
  rw [← hK] at hk
  obtain ⟨e, he⟩ : ∃ e, e = 1 - xm := ⟨_, rfl⟩
  have he0 : 0 < e := by linarith
  obtain ⟨X, hX⟩ : ∃ X : ℝ → ℝ, X = fun D => Real.sqrt (D / (d / 2 + D / e ^ 2)) := ⟨_, rfl⟩
  obtain ⟨W, hW⟩ : ∃ W : ℝ → ℝ, W = fun D => (1 - (e - X D)) * 4 / (4 + D) + (e - X D) ^ 2 := ⟨_, rfl⟩
  obtain ⟨V, hV⟩ : ∃ V : ℝ → ℝ, V = fun D => (e - X D) + K * X D ^ 2 * (0.5 * W D + 0.03 * X D * Real.sqrt (W D)) := ⟨_, rfl⟩
  have lX : Tendsto X atTop (𝓝 e) := by
    have h : Tendsto (fun D : ℝ => 1 / (d / 2 / D + 1 / e ^ 2)) atTop (𝓝 (1 / (0 + 1 / e ^ 2))) :=
      tendsto_const_nhds.div ((tendsto_const_nhds.div_atTop tendsto_id).add_const _) (by positivity)
    have h2 := (Real.continuous_sqrt.tendsto _).comp h
    rw [show (1 : ℝ) / (0 + 1 / e ^ 2) = e ^ 2 by field_simp; ring, Real.sqrt_sq he0.le] at h2
    refine h2.congr' ?_
    filter_upwards [eventually_gt_atTop 0] with D hD
    simp only [Function.comp, hX]
    congr 1
    field_simp
  have hXlt : ∀ D, 0 < D → X D < e := by
    intro D hD
    rw [hX]
    simp only []
    rw [Real.sqrt_lt' he0, div_lt_iff₀ (by positivity)]
    have : e ^ 2 * (d / 2 + D / e ^ 2) = e ^ 2 * d / 2 + D := by field_simp
    rw [this]
    have : 0 < e ^ 2 * d / 2 := by positivity
    linarith
  have lW : Tendsto W atTop (𝓝 0) := by
    have h4 : Tendsto (fun D : ℝ => 4 + D) atTop atTop := tendsto_atTop_add_const_left _ _ tendsto_id
    have h := ((((lX.const_sub e).const_sub 1).mul_const 4).div_atTop h4).add ((lX.const_sub e).pow 2)
    rw [sub_self] at h
    norm_num at h
    rw [hW]; exact h
  have lsW : Tendsto (fun D => Real.sqrt (W D)) atTop (𝓝 0) := by
    have h2 := (Real.continuous_sqrt.tendsto 0).comp lW
    rw [Real.sqrt_zero] at h2
    exact h2
  have lV : Tendsto V atTop (𝓝 0) := by
    have h := (lX.const_sub e).add (((lX.pow 2).const_mul K).mul ((lW.const_mul 0.5).add ((lX.const_mul 0.03).mul lsW)))
    rw [sub_self] at h
    norm_num at h
    rw [hV]; norm_num; exact h
  have hD : Tendsto (fun τ : ℝ => 2 * τ - tmin) atTop atTop :=
    tendsto_atTop_add_const_right _ _ (tendsto_id.const_mul_atTop two_pos)
  have hclose : ∀ᶠ D in atTop, 0 < D ∧ e / 2 < X D ∧ X D < e ∧ 1 / 2 < 1 - (e - X D) := by
    filter_upwards [eventually_gt_atTop 0, lX.eventually (lt_mem_nhds (half_lt_self he0)),
      lX.eventually (lt_mem_nhds (show e - 1 / 2 < e by linarith))] with D a b c
    exact ⟨a, b, hXlt D a, by linarith⟩
  have hlow : ∀ᶠ D in atTop, 0 < V D ∧ (0.03 * K * (e / 2) ^ 3) ^ 2 * (2 / (4 + D)) ≤ V D ^ 2 := by
    filter_upwards [hclose] with D ⟨a, b, c, f⟩
    have hWge : 2 / (4 + D) ≤ W D := by
      rw [hW]; simp only []
      have h1 : 2 / (4 + D) ≤ (1 - (e - X D)) * 4 / (4 + D) := div_le_div_of_nonneg_right (by linarith) (by linarith)
      have h2 := sq_nonneg (e - X D)
      linarith
    have hW0 : 0 < W D := lt_of_lt_of_le (by positivity) hWge
    have hsW := Real.sqrt_pos.2 hW0
    have hXp : 0 < X D := by linarith [half_pos he0]
    have hX3 : (e / 2) ^ 3 ≤ X D ^ 3 := pow_le_pow_left₀ (by positivity) b.le 3
    have hVge : 0.03 * K * (e / 2) ^ 3 * Real.sqrt (W D) ≤ V D := by
      rw [hV]; simp only []
      have h1 : K * X D ^ 2 * (0.5 * W D + 0.03 * X D * Real.sqrt (W D)) =
        K * X D ^ 2 * (0.5 * W D) + 0.03 * K * X D ^ 3 * Real.sqrt (W D) := by ring
      have h2 : 0.03 * K * (e / 2) ^ 3 * Real.sqrt (W D) ≤ 0.03 * K * X D ^ 3 * Real.sqrt (W D) := by gcongr
      have h3 : 0 ≤ K * X D ^ 2 * (0.5 * W D) := by positivity
      rw [h1]; linarith
    have hlo : 0 < 0.03 * K * (e / 2) ^ 3 * Real.sqrt (W D) := by positivity
    refine ⟨lt_of_lt_of_le hlo hVge, ?_⟩
    have h5 := pow_le_pow_left₀ hlo.le hVge 2
    rw [mul_pow _ (Real.sqrt (W D)), Real.sq_sqrt hW0.le] at h5
    exact (mul_le_mul_of_nonneg_left hWge (sq_nonneg _)).trans h5
  refine ⟨fun τ => V (2 * τ - tmin), ?_, ⟨(0.03 * K * (e / 2) ^ 3) ^ 2 / 2, by positivity, ?_⟩, ?_⟩
  · rw [tendsto_nhdsWithin_iff]
    exact ⟨lV.comp hD, (hD.eventually hlow).mono fun τ h => h.1⟩
  · filter_upwards [hD.eventually hlow, eventually_gt_atTop 0, eventually_gt_atTop ((4 - tmin) / 2),
      hD.eventually (eventually_gt_atTop 0)] with τ h hτ hτ2 hτ3
    have h2 := mul_le_mul_of_nonneg_right h.2 hτ.le
    have h3 : 1 / 2 ≤ 2 / (4 + (2 * τ - tmin)) * τ := by
      rw [div_mul_eq_mul_div, div_le_div_iff₀ (by norm_num) (by linarith)]; linarith
    have h4 := mul_le_mul_of_nonneg_left h3 (sq_nonneg (0.03 * K * (e / 2) ^ 3))
    linarith
  · filter_upwards [hD.eventually hclose, hD.eventually hlow] with τ ⟨a, b, c, f⟩ _
    generalize 2 * τ - tmin = D at *
    have e1 : (1.0 : ℝ) - xm = e := by rw [he]; norm_num
    have hW0 : 0 ≤ W D := by
      rw [hW]; simp only []
      have : 0 ≤ (1 - (e - X D)) * 4 / (4 + D) := div_nonneg (by linarith) (by linarith)
      have := sq_nonneg (e - X D)
      linarith
    have hXe : Real.sqrt (D / (d / 2.0 + D / e ^ 2)) = X D := by rw [hX]; norm_num
    have hWe : (xm + X D) * 4.0 / (4.0 + D) + (1.0 - (xm + X D)) ^ 2 = W D := by
      rw [hW]; simp only []
      rw [show xm = 1 - e by linarith]
      norm_num
      ring_nf
    unfold firstStart
    rw [e1, pdiv_eq (by positivity), ok_bind, pdiv_eq (by norm_num; positivity), ok_bind,
      psqrt_eq (by norm_num; positivity), ok_bind, hXe]
    simp only []
    rw [pdiv_eq (by norm_num; linarith), ok_bind]
    rw [hWe, psqrt_eq hW0, ok_bind, pdiv_eq hkd, ok_bind, ← hK]
    congr 1
    rw [hV]
    simp only []
    rw [show xm = 1 - e by linarith]
    norm_num
    ring

/-- The second start for long times. -/
theorem secondStart_long {q thr2 : ℝ} {M : ℕ} (hq : q ^ 2 < 1) (hM : 1 ≤ M) (h0 : 0 < thr2) (h1 : thr2 < 1) :
    ∃ u : ℝ → ℝ, Tendsto u atTop (𝓝[>] 0) ∧ (∃ c > 0, ∀ᶠ τ in atTop, c ≤ u τ ^ 2 * τ) ∧
      ∀ᶠ τ in atTop, ∀ tmin tdiffm d2t2 xm xpl : ℝ, ∀ n : ℤ,
        secondStart M q (1 - q ^ 2) (2 * τ) thr2 tmin tdiffm d2t2 xm xpl n = .ok (n, -1 * (1 - u τ)) := by
  obtain ⟨hk, hkd⟩ := factor_pos (M := M) (κ := 0.24) h0 h1 (by norm_num) (by norm_num)
  obtain ⟨K, hK⟩ : ∃ K, K = (1.0 + ((M : ℤ) : ℝ) + 0.24 * (thr2 - 0.5)) / (1.0 + 0.15 * ((M : ℤ) : ℝ)) := ⟨_, rfl⟩
  rw [← hK] at hk
  obtain ⟨⟨d1, d2, d3⟩, htl⟩ := tlamb_time (lanc_lancY hq 0) (M := M) (by norm_num) (.inr (by norm_num)) (n := 0) (by norm_num)
  obtain ⟨t0, ht0⟩ : ∃ t0, t0 = 2 * revT q M 0 := ⟨_, rfl⟩
  have htl' : tlamb M q (1 - q ^ 2) 0.0 0 = .ok (t0, d1, d2, d3) := by
    rw [show (0.0 : ℝ) = 0 by norm_num, htl, ht0]; rfl
  have ht : 0 < t0 := by
    have h1 := revT_gt hq (x := 0) (by norm_num) (by norm_num) M
    have h2 : 0 ≤ (M : ℝ) * Real.pi := by have := Real.pi_pos; positivity
    rw [ht0]; linarith
  have hex : ∀ D : ℝ, ∃ x : ℝ, 0 < D → bilinear D t0 thr2 = .ok x ∧ -1 < x ∧ x < 0 ∧
      x + 1 ≤ |-D / (D + 4) + 1| + |1 - Real.sqrt (D / (D + 1.5 * t0))| := by
    intro D
    by_cases hD : 0 < D
    · obtain ⟨e, e0, e1, hb, -⟩ := bilinear_ok (thr2 := thr2) hD ht h1
      obtain ⟨m1, m2⟩ := bilinear_mem hD ht e0 e1
      refine ⟨_, fun _ => ⟨hb, m1, m2, ?_⟩⟩
      generalize -D / (D + 4) = a at *
      generalize Real.sqrt (D / (D + 1.5 * t0)) = b at *
      have h2 : (1 - e) * (a + 1) ≤ |a + 1| := by
        have := le_abs_self (a + 1)
        have := abs_nonneg (a + 1)
        nlinarith
      have h3 : e * (1 - b) ≤ |1 - b| := by
        have := le_abs_self (1 - b)
        have := abs_nonneg (1 - b)
        nlinarith
      linarith
    · exact ⟨0, fun h => absurd h hD⟩
  choose X hX using hex
  have la : Tendsto (fun D : ℝ => |-D / (D + 4) + 1|) atTop (𝓝 0) := by
    have h : Tendsto (fun D : ℝ => 4 / (D + 4)) atTop (𝓝 0) :=
      tendsto_const_nhds.div_atTop (tendsto_atTop_add_const_right _ _ tendsto_id)
    have h' := h.abs
    rw [abs_zero] at h'
    refine h'.congr' ?_
    filter_upwards [eventually_gt_atTop 0] with D hD
    congr 1
    field_simp
    ring
  have lb : Tendsto (fun D : ℝ => |1 - Real.sqrt (D / (D + 1.5 * t0))|) atTop (𝓝 0) := by
    have h : Tendsto (fun D : ℝ => 1 - 1.5 * t0 / (D + 1.5 * t0)) atTop (𝓝 (1 - 0)) :=
      (tendsto_const_nhds.div_atTop (tendsto_atTop_add_const_right _ _ tendsto_id)).const_sub 1
    rw [sub_zero] at h
    have h' : Tendsto (fun D : ℝ => D / (D + 1.5 * t0)) atTop (𝓝 1) := by
      refine h.congr' ?_
      filter_upwards [eventually_gt_atTop 0] with D hD
      have : 0 < D + 1.5 * t0 := by norm_num; linarith
      rw [eq_div_iff this.ne', sub_mul, div_mul_cancel₀ _ this.ne']; ring
    have h2 := (Real.continuous_sqrt.tendsto 1).comp h'
    rw [Real.sqrt_one] at h2
    have h3 := (h2.const_sub 1).abs
    rw [sub_self, abs_zero] at h3
    exact h3
  have lX : Tendsto (fun D => X D + 1) atTop (𝓝 0) := by
    have h := la.add lb
    rw [add_zero] at h
    refine squeeze_zero' ?_ ?_ h
    · filter_upwards [eventually_gt_atTop 0] with D hD
      linarith [(hX D hD).2.1]
    · filter_upwards [eventually_gt_atTop 0] with D hD using (hX D hD).2.2.2
  have lw : Tendsto (fun D : ℝ => 4 / (4 + D)) atTop (𝓝 0) :=
    tendsto_const_nhds.div_atTop (tendsto_atTop_add_const_left _ _ tendsto_id)
  have lsw : Tendsto (fun D : ℝ => Real.sqrt (4 / (4 + D))) atTop (𝓝 0) := by
    have h2 := (Real.continuous_sqrt.tendsto 0).comp lw
    rw [Real.sqrt_zero] at h2
    exact h2
  obtain ⟨V, hV⟩ : ∃ V : ℝ → ℝ, V = fun D => (X D + 1) + K * X D ^ 2 * (0.5 * (4 / (4 + D)) - 0.03 * X D * Real.sqrt (4 / (4 + D))) :=
    ⟨_, rfl⟩
  have lX' : Tendsto X atTop (𝓝 (-1)) := by
    have := lX.sub_const 1
    simpa using this
  have lV : Tendsto V atTop (𝓝 0) := by
    have h := lX.add (((lX'.pow 2).const_mul K).mul ((lw.const_mul 0.5).sub ((lX'.const_mul 0.03).mul lsw)))
    norm_num at h
    rw [hV]; norm_num; exact h
  have hlow : ∀ᶠ D in atTop, 0 < V D ∧ (0.02 * K) ^ 2 * (4 / (4 + D)) ≤ V D ^ 2 := by
    filter_upwards [eventually_gt_atTop 0, lX'.eventually (gt_mem_nhds (show (-1 : ℝ) < -9 / 10 by norm_num))] with D hD hx
    obtain ⟨-, x1, x2, -⟩ := hX D hD
    have hw : 0 < 4 / (4 + D) := by positivity
    rw [hV]
    simp only []
    have hs := Real.sqrt_pos.2 hw
    have hss := Real.sq_sqrt hw.le
    generalize 4 / (4 + D) = w at *
    generalize Real.sqrt w = r at *
    generalize X D = x at *
    have h6 : (81 / 100 : ℝ) ≤ x ^ 2 := by nlinarith
    have h7 : 0.027 * r ≤ 0.5 * w - 0.03 * x * r := by norm_num; nlinarith
    have h8 := mul_le_mul h6 h7 (by norm_num; positivity) (sq_nonneg x)
    have h9 : 0.02 * r ≤ x ^ 2 * (0.5 * w - 0.03 * x * r) := by norm_num at h8 ⊢; linarith
    have h10 := mul_le_mul_of_nonneg_left h9 hk.le
    have hge : 0.02 * K * r ≤ x + 1 + K * x ^ 2 * (0.5 * w - 0.03 * x * r) := by
      have e1 : K * (0.02 * r) = 0.02 * K * r := by ring
      have e2 : K * (x ^ 2 * (0.5 * w - 0.03 * x * r)) = K * x ^ 2 * (0.5 * w - 0.03 * x * r) := by ring
      rw [e1, e2] at h10
      linarith
    have hlo : 0 < 0.02 * K * r := by positivity
    refine ⟨lt_of_lt_of_le hlo hge, ?_⟩
    have h5 := pow_le_pow_left₀ hlo.le hge 2
    rw [mul_pow _ r, hss] at h5
    exact h5
  have hDt : Tendsto (fun τ : ℝ => 2 * τ - t0) atTop atTop :=
    tendsto_atTop_add_const_right _ _ (tendsto_id.const_mul_atTop two_pos)
  refine ⟨fun τ => V (2 * τ - t0), ?_, ⟨(0.02 * K) ^ 2, by positivity, ?_⟩, ?_⟩
  · rw [tendsto_nhdsWithin_iff]
    exact ⟨lV.comp hDt, (hDt.eventually hlow).mono fun τ h => h.1⟩
  · filter_upwards [hDt.eventually hlow, eventually_gt_atTop 2, hDt.eventually (eventually_gt_atTop 0)] with τ h hτ hτ3
    have h2 := mul_le_mul_of_nonneg_right h.2 (show 0 ≤ τ by linarith)
    have h3 : 1 ≤ 4 / (4 + (2 * τ - t0)) * τ := by
      rw [div_mul_eq_mul_div, one_le_div (by linarith)]; linarith
    have h4 := mul_le_mul_of_nonneg_left h3 (sq_nonneg (0.02 * K))
    linarith
  · filter_upwards [hDt.eventually (eventually_gt_atTop 0), hDt.eventually hlow] with τ hD hl tmin tdiffm d2t2 xm xpl n
    unfold secondStart
    rw [htl', ok_bind]
    simp only []
    generalize 2 * τ - t0 = D at *
    obtain ⟨hb, x1, x2, -⟩ := hX D hD
    have h4 : (0 : ℝ) ≤ 4.0 / (4.0 + D) := by norm_num; positivity
    rw [if_neg (by linarith), hb, ok_bind, pdiv_eq (by norm_num; linarith), ok_bind, psqrt_eq h4, ok_bind, pdiv_eq hkd, ok_bind, ← hK]
    have e : X D * (1.0 + K * X D * (0.5 * (4.0 / (4.0 + D)) - 0.03 * X D * Real.sqrt (4.0 / (4.0 + D)))) = -1 * (1 - V D) := by
      rw [hV]; norm_num; ring
    rw [e, if_neg]
    have := hl.1
    norm_num
    linarith

end Gooding
end Lamberthub
