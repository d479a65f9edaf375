import Verif.Proofs.PathTime
import Mathlib.Topology.Order.IntermediateValue
import Mathlib.Analysis.Calculus.Deriv.MeanValue
import Mathlib.Analysis.Real.Pi.Bounds

/-!
# The time curve of transfers with complete revolutions

For `M ≥ 1` the time of flight, as a function of Lancaster's variable `x ∈ (-1, 1)`, first
decreases to a minimum reached at one point of `(0, 1/2)`, then increases; it is unbounded at both
ends.
-/

set_option autoImplicit false

namespace Lamberthub
open LC Set

/-- Dimensionless time of the transfer of parameter `x` with `M` complete revolutions. -/
noncomputable def revT (lam : ℝ) (M : ℕ) (x : ℝ) : ℝ := lancT lam x (lancY lam x) M

theorem revT_hasDerivAt {lam x : ℝ} (hl : lam ^ 2 < 1) (h1 : -1 < x) (h2 : x < 1) (M : ℕ) :
    HasDerivAt (revT lam M) (lancT1 lam x (lancY lam x) (revT lam M x)) x :=
  lancT_hasDerivAt_ell hl h1 h2 M

theorem revT_continuousAt {lam x : ℝ} (hl : lam ^ 2 < 1) (h1 : -1 < x) (h2 : x < 1) (M : ℕ) :
    ContinuousAt (revT lam M) x := (revT_hasDerivAt hl h1 h2 M).continuousAt

/-- `revT (1-x²)^{3/2}` exceeds `Mπ` by the zero-revolution part, which is positive. -/
theorem revT_split {lam x : ℝ} (h1 : -1 < x) (h2 : x < 1) (M : ℕ) :
    revT lam M x * Real.sqrt (1 - x ^ 2) ^ 3 = M * Real.pi + revT lam 0 x * Real.sqrt (1 - x ^ 2) ^ 3 := by
  have hw : 0 < 1 - x ^ 2 := by nlinarith
  have hwp : 0 < Real.sqrt (1 - x ^ 2) := Real.sqrt_pos.2 hw
  have hw2 : Real.sqrt (1 - x ^ 2) ^ 2 = 1 - x ^ 2 := Real.sq_sqrt hw.le
  unfold revT lancT
  rw [if_pos h2, if_pos h2]
  generalize Real.arccos _ = ψ
  generalize lancY lam x = y
  generalize Real.sqrt (1 - x ^ 2) = w at *
  rw [← hw2]
  field_simp
  push_cast
  ring

theorem two_sub_sin_strictMono : StrictMono fun t : ℝ => 2 * t - Real.sin (2 * t) := by
  intro a b hab
  have e : Real.sin (2 * b) - Real.sin (2 * a) = 2 * (Real.sin (b - a) * Real.cos (b + a)) := by
    rw [Real.sin_sub_sin]; ring_nf
  have h1 : Real.sin (b - a) * Real.cos (b + a) < b - a := by
    have h2 : |Real.sin (b - a) * Real.cos (b + a)| ≤ |Real.sin (b - a)| := by
      rw [abs_mul]; exact mul_le_of_le_one_right (abs_nonneg _) (Real.abs_cos_le_one _)
    have h3 : |Real.sin (b - a)| < |b - a| := Real.abs_sin_lt_abs (by linarith)
    rw [abs_of_pos (by linarith : 0 < b - a)] at h3
    linarith [le_abs_self (Real.sin (b - a) * Real.cos (b + a))]
  show 2 * a - Real.sin (2 * a) < 2 * b - Real.sin (2 * b)
  linarith

theorem revT_zero_pos {lam x : ℝ} (hl : lam ^ 2 < 1) (h1 : -1 < x) (h2 : x < 1) : 0 < revT lam 0 x := by
  have hL := lanc_lancY hl x
  have hw : 0 < 1 - x ^ 2 := by nlinarith
  have hwp : 0 < Real.sqrt (1 - x ^ 2) := Real.sqrt_pos.2 hw
  have hw2 : Real.sqrt (1 - x ^ 2) ^ 2 = 1 - x ^ 2 := Real.sq_sqrt hw.le
  have hw1 : Real.sqrt (1 - x ^ 2) ≤ 1 := by
    rw [Real.sqrt_le_one]; nlinarith [sq_nonneg x]
  have hla := abs_lt.1 ((sq_lt_one_iff_abs_lt_one _).1 hl)
  have hlt : lam * Real.sqrt (1 - x ^ 2) < Real.sqrt (1 - x ^ 2) := by nlinarith
  have hgt : -1 ≤ lam * Real.sqrt (1 - x ^ 2) := by nlinarith
  have hF : ∀ t, t < Real.pi / 2 → 2 * t - Real.sin (2 * t) < Real.pi := by
    intro t ht
    have := two_sub_sin_strictMono ht
    simpa [mul_div_cancel₀] using this
  have hkey : 0 < revT lam 0 x * (2 * Real.sqrt (1 - x ^ 2) ^ 3) := by
    unfold revT
    rcases le_total 0 x with hx | hx
    · rw [lancT_ellA_lagrange hL h2 hx hwp hw2]
      have := two_sub_sin_strictMono (Real.strictMonoOn_arcsin ⟨hgt, hlt.le.trans hw1⟩ ⟨by linarith, hw1⟩ hlt)
      simp only at this
      linarith
    · rw [lancT_ellB_lagrange hL hx hwp hw2]
      have h3 := hF (Real.arcsin (lam * Real.sqrt (1 - x ^ 2)))
        (Real.arcsin_lt_pi_div_two.2 (hlt.trans_le hw1))
      have h4 := two_sub_sin_strictMono.monotone (Real.arcsin_le_pi_div_two (Real.sqrt (1 - x ^ 2)))
      simp [mul_div_cancel₀] at h4
      linarith
  exact (mul_pos_iff_of_pos_right (by positivity)).1 hkey

theorem revT_lower {lam x : ℝ} (hl : lam ^ 2 < 1) (h1 : -1 < x) (h2 : x < 1) (M : ℕ) :
    M * Real.pi < revT lam M x * Real.sqrt (1 - x ^ 2) ^ 3 := by
  have hw : 0 < 1 - x ^ 2 := by nlinarith
  have hwp : 0 < Real.sqrt (1 - x ^ 2) := Real.sqrt_pos.2 hw
  rw [revT_split h1 h2]
  have := revT_zero_pos hl h1 h2
  have : 0 < revT lam 0 x * Real.sqrt (1 - x ^ 2) ^ 3 := by positivity
  linarith

theorem revT_pos {lam x : ℝ} (hl : lam ^ 2 < 1) (h1 : -1 < x) (h2 : x < 1) (M : ℕ) : 0 < revT lam M x := by
  have hw : 0 < 1 - x ^ 2 := by nlinarith
  have hwp : 0 < Real.sqrt (1 - x ^ 2) := Real.sqrt_pos.2 hw
  have h := revT_lower hl h1 h2 M
  have hM : 0 ≤ M * Real.pi := by positivity
  exact (mul_pos_iff_of_pos_right (by positivity)).1 (hM.trans_lt h)

/-- A transfer with `M` revolutions takes more than `Mπ` units of time. -/
theorem revT_gt {lam x : ℝ} (hl : lam ^ 2 < 1) (h1 : -1 < x) (h2 : x < 1) (M : ℕ) :
    M * Real.pi < revT lam M x := by
  have h := revT_lower hl h1 h2 M
  have hp := revT_pos hl h1 h2 M
  have hw1 : Real.sqrt (1 - x ^ 2) ≤ 1 := by
    rw [Real.sqrt_le_one]; nlinarith [sq_nonneg x]
  have : Real.sqrt (1 - x ^ 2) ^ 3 ≤ 1 := pow_le_one₀ (Real.sqrt_nonneg _) hw1
  nlinarith

/-- numerator of the derivative of the time -/
noncomputable def revG (lam : ℝ) (M : ℕ) (x : ℝ) : ℝ :=
  3 * revT lam M x * x - 2 + 2 * lam ^ 3 * x / lancY lam x

/-- `revG / x`, made monotone by the integrating factor `(1-x²)^{3/2}` -/
noncomputable def revH (lam : ℝ) (M : ℕ) (x : ℝ) : ℝ :=
  Real.sqrt (1 - x ^ 2) ^ 3 * (3 * revT lam M x - 2 / x + 2 * lam ^ 3 / lancY lam x)

theorem revH_eq {lam x : ℝ} (M : ℕ) (hx : x ≠ 0) :
    x * revH lam M x = Real.sqrt (1 - x ^ 2) ^ 3 * revG lam M x := by
  unfold revH revG
  field_simp

theorem abs_lam_mul_lt {lam x y : ℝ} (h : Lanc lam x y) : |lam * x| < y :=
  abs_lt.2 ⟨by linarith [h.add_pos], by linarith [h.eta_pos]⟩

theorem revG_neg_of_nonpos {lam x : ℝ} (hl : lam ^ 2 < 1) (h1 : -1 < x) (hx : x ≤ 0) (M : ℕ) :
    revG lam M x < 0 := by
  have hL := lanc_lancY hl x
  have hy := hL.y_pos
  have hT := revT_pos hl h1 (by linarith : x < 1) M
  have h3 := abs_lam_mul_lt hL
  unfold revG
  have h4 : lam ^ 3 * x / lancY lam x < 1 := by
    rw [div_lt_one hy]
    have : lam ^ 3 * x = lam ^ 2 * (lam * x) := by ring
    rw [this]
    have h5 := le_abs_self (lam * x)
    nlinarith [sq_nonneg lam]
  have e : 2 * lam ^ 3 * x / lancY lam x = 2 * (lam ^ 3 * x / lancY lam x) := by ring
  rw [e]
  nlinarith [mul_nonneg hT.le (neg_nonneg.2 hx)]

theorem sqrt_cube_hasDerivAt {x : ℝ} (h : 0 < 1 - x ^ 2) :
    HasDerivAt (fun x : ℝ => Real.sqrt (1 - x ^ 2) ^ 3) (-3 * x * Real.sqrt (1 - x ^ 2)) x := by
  have hwp : 0 < Real.sqrt (1 - x ^ 2) := Real.sqrt_pos.2 h
  have d0 : HasDerivAt (fun x : ℝ => 1 - x ^ 2) (-(2 * x)) x := by
    simpa using ((hasDerivAt_id x).pow 2).const_sub 1
  have d1 := (d0.sqrt h.ne').pow 3
  refine d1.congr_deriv ?_
  field_simp
  push_cast
  ring

theorem revH_hasDerivAt {lam x : ℝ} (hl : lam ^ 2 < 1) (h0 : 0 < x) (h2 : x < 1) (M : ℕ) :
    HasDerivAt (revH lam M)
      (Real.sqrt (1 - x ^ 2) ^ 3 * (2 / x ^ 2 - 2 * lam ^ 5 * x / lancY lam x ^ 3)) x := by
  have hL := lanc_lancY hl x
  have hy := hL.y_pos
  have hw : 0 < 1 - x ^ 2 := by nlinarith
  have hwp : 0 < Real.sqrt (1 - x ^ 2) := Real.sqrt_pos.2 hw
  have hw2 : Real.sqrt (1 - x ^ 2) ^ 2 = 1 - x ^ 2 := Real.sq_sqrt hw.le
  have dT := revT_hasDerivAt hl (by linarith : -1 < x) h2 M
  have dy := lancY_hasDerivAt hl x
  have d1 := sqrt_cube_hasDerivAt hw
  have d2 : HasDerivAt (fun x : ℝ => 2 / x) (-(2 / x ^ 2)) x := by
    have := (hasDerivAt_inv h0.ne').const_mul 2
    refine this.congr_deriv ?_
    ring
  have d3 : HasDerivAt (fun x => 2 * lam ^ 3 / lancY lam x)
      (-(2 * lam ^ 3 * (lam ^ 2 * x / lancY lam x)) / lancY lam x ^ 2) x := by
    have := (hasDerivAt_const x (2 * lam ^ 3)).div dy hy.ne'
    refine this.congr_deriv ?_
    ring
  have d := d1.mul (((dT.const_mul 3).sub d2).add d3)
  refine d.congr_deriv ?_
  simp only [Pi.add_apply, Pi.sub_apply]
  unfold lancT1
  generalize Real.sqrt (1 - x ^ 2) = w at *
  rw [← hw2]
  generalize revT lam M x = T at *
  have hy0 := hy.ne'
  generalize lancY lam x = y at *
  field_simp
  ring

theorem revH_strictMono {lam : ℝ} (hl : lam ^ 2 < 1) (M : ℕ) : StrictMonoOn (revH lam M) (Ioo 0 1) := by
  refine strictMonoOn_of_deriv_pos (convex_Ioo 0 1) ?_ ?_
  · intro x hx
    exact (revH_hasDerivAt hl hx.1 hx.2 M).continuousAt.continuousWithinAt
  · intro x hx
    rw [interior_Ioo] at hx
    obtain ⟨hx0, hx1⟩ := hx
    rw [(revH_hasDerivAt hl hx0 hx1 M).deriv]
    have hL := lanc_lancY hl x
    have hy := hL.y_pos
    have hw : 0 < 1 - x ^ 2 := by nlinarith
    have hwp : 0 < Real.sqrt (1 - x ^ 2) := Real.sqrt_pos.2 hw
    refine mul_pos (by positivity) ?_
    rw [sub_pos, div_lt_div_iff₀ (by positivity) (by positivity)]
    have h3 := abs_lam_mul_lt hL
    have h4 : (lam * x) ^ 3 < lancY lam x ^ 3 := by
      refine lt_of_le_of_lt (le_abs_self _) ?_
      rw [abs_pow]
      exact pow_lt_pow_left₀ h3 (abs_nonneg _) (by norm_num)
    have h5 : lam ^ 2 * (lam * x) ^ 3 < lancY lam x ^ 3 := by
      have : 0 < lancY lam x ^ 3 := by positivity
      nlinarith [sq_nonneg lam]
    nlinarith

theorem revG_half_pos {lam : ℝ} (hl : lam ^ 2 < 1) {M : ℕ} (hM : 1 ≤ M) : 0 < revG lam M (1 / 2) := by
  have hL := lanc_lancY hl (1 / 2)
  have hy := hL.y_pos
  have h := revT_gt hl (by norm_num : (-1 : ℝ) < 1 / 2) (by norm_num) M
  have hM' : (1 : ℝ) ≤ M := by exact_mod_cast hM
  have hpi := Real.pi_gt_three
  have h3 : 3 < revT lam M (1 / 2) := by nlinarith
  have h4 := abs_lam_mul_lt hL
  have h5 : -1 < lam ^ 3 * (1 / 2) / lancY lam (1 / 2) := by
    rw [lt_div_iff₀ hy]
    have := neg_abs_le (lam * (1 / 2))
    nlinarith [sq_nonneg lam]
  unfold revG
  have e : 2 * lam ^ 3 * (1 / 2) / lancY lam (1 / 2) = 2 * (lam ^ 3 * (1 / 2) / lancY lam (1 / 2)) := by ring
  rw [e]
  linarith

/-- The parameter of the fastest transfer with `M` revolutions. -/
theorem revG_root {lam : ℝ} (hl : lam ^ 2 < 1) {M : ℕ} (hM : 1 ≤ M) :
    ∃ m, 0 < m ∧ m < 1 / 2 ∧ (∀ x, -1 < x → x < m → revG lam M x < 0) ∧ revG lam M m = 0 ∧
      ∀ x, m < x → x < 1 → 0 < revG lam M x := by
  have hc : ContinuousOn (revG lam M) (Icc 0 (1 / 2)) := by
    intro x hx
    have hL := lanc_lancY hl x
    have c1 := revT_continuousAt hl (by linarith [hx.1] : -1 < x) (by linarith [hx.2]) M
    have c2 := (lancY_hasDerivAt hl x).continuousAt
    refine ContinuousAt.continuousWithinAt ?_
    unfold revG
    exact (((continuousAt_const.mul c1).mul continuousAt_id).sub continuousAt_const).add
      ((continuousAt_const.mul continuousAt_id).div c2 hL.y_pos.ne')
  have h0 : revG lam M 0 < 0 := revG_neg_of_nonpos hl (by norm_num) le_rfl M
  have h1 := revG_half_pos hl hM
  obtain ⟨m, ⟨hm0, hm1⟩, hm⟩ := intermediate_value_Ioo (by norm_num) hc ⟨h0, h1⟩
  have hH : ∀ x, 0 < x → x < 1 → (0 < revG lam M x ↔ 0 < revH lam M x) := by
    intro x hx0 hx1
    have e := revH_eq (lam := lam) M hx0.ne'
    have hw : 0 < 1 - x ^ 2 := by nlinarith
    have hwp : 0 < Real.sqrt (1 - x ^ 2) := Real.sqrt_pos.2 hw
    have hw3 : 0 < Real.sqrt (1 - x ^ 2) ^ 3 := by positivity
    rw [← mul_pos_iff_of_pos_left hw3, ← e, mul_pos_iff_of_pos_left hx0]
  have hH' : ∀ x, 0 < x → x < 1 → (revG lam M x < 0 ↔ revH lam M x < 0) := by
    intro x hx0 hx1
    have e := revH_eq (lam := lam) M hx0.ne'
    have hw : 0 < 1 - x ^ 2 := by nlinarith
    have hwp : 0 < Real.sqrt (1 - x ^ 2) := Real.sqrt_pos.2 hw
    have hw3 : 0 < Real.sqrt (1 - x ^ 2) ^ 3 := by positivity
    constructor <;> intro h
    · by_contra hn
      have := mul_neg_of_pos_of_neg hw3 h
      rw [← e] at this
      exact absurd (mul_nonneg hx0.le (not_lt.1 hn)) (not_le.2 this)
    · by_contra hn
      have := mul_neg_of_pos_of_neg hx0 h
      rw [e] at this
      exact absurd (mul_nonneg hw3.le (not_lt.1 hn)) (not_le.2 this)
  have hm2 : m < 1 := by linarith
  have hHm : revH lam M m = 0 := by
    have e := revH_eq (lam := lam) M hm0.ne'
    rw [hm, mul_zero] at e
    exact (mul_eq_zero.1 e).resolve_left hm0.ne'
  refine ⟨m, hm0, hm1, fun x hx1 hxm => ?_, hm, fun x hxm hx1 => ?_⟩
  · rcases le_or_gt x 0 with hx0 | hx0
    · exact revG_neg_of_nonpos hl hx1 hx0 M
    · rw [hH' x hx0 (by linarith), ← hHm]
      exact revH_strictMono hl M ⟨hx0, by linarith⟩ ⟨hm0, hm2⟩ hxm
  · rw [hH x (by linarith) hx1, ← hHm]
    exact revH_strictMono hl M ⟨hm0, hm2⟩ ⟨by linarith, hx1⟩ hxm

/-- **The time curve has one valley.** -/
theorem revT_valley {lam : ℝ} (hl : lam ^ 2 < 1) {M : ℕ} (hM : 1 ≤ M) :
    ∃ m, 0 < m ∧ m < 1 / 2 ∧ StrictAntiOn (revT lam M) (Ioc (-1) m) ∧
      StrictMonoOn (revT lam M) (Ico m 1) := by
  obtain ⟨m, hm0, hm1, hneg, -, hpos⟩ := revG_root hl hM
  have hder : ∀ x, -1 < x → x < 1 → deriv (revT lam M) x = revG lam M x / (1 - x ^ 2) := fun x h1 h2 =>
    (revT_hasDerivAt hl h1 h2 M).deriv
  refine ⟨m, hm0, hm1, strictAntiOn_of_deriv_neg (convex_Ioc _ _) ?_ ?_, strictMonoOn_of_deriv_pos (convex_Ico _ _) ?_ ?_⟩
  · intro x hx
    exact (revT_continuousAt hl hx.1 (by linarith [hx.2]) M).continuousWithinAt
  · intro x hx
    rw [interior_Ioc] at hx
    have hx1 : x < 1 := by linarith [hx.2]
    rw [hder x hx.1 hx1]
    exact div_neg_of_neg_of_pos (hneg x hx.1 hx.2) (by nlinarith [hx.1])
  · intro x hx
    exact (revT_continuousAt hl (by linarith [hx.1]) hx.2 M).continuousWithinAt
  · intro x hx
    rw [interior_Ico] at hx
    have hx1 : -1 < x := by linarith [hx.1]
    rw [hder x hx1 hx.2]
    exact div_pos (hpos x hx.1 hx.2) (by nlinarith [hx.2])

theorem revT_large {lam : ℝ} (hl : lam ^ 2 < 1) {M : ℕ} (hM : 1 ≤ M) {c : ℝ} (hc : c < 1) (hc0 : 0 ≤ c) (T : ℝ) :
    ∃ t, c < t ∧ t < 1 ∧ ∀ x, x ^ 2 = t ^ 2 → T < revT lam M x := by
  -- choose `1 - t² ≤ 1 / (1 + |T|)`
  obtain ⟨d, hd⟩ : ∃ d, d = min (1 / (1 + |T|)) (1 - c ^ 2) / 2 := ⟨_, rfl⟩
  have hT : 0 < 1 + |T| := by positivity
  have hc2 : 0 < 1 - c ^ 2 := by nlinarith
  have hd0 : 0 < d := by rw [hd]; positivity
  have hd1 : d < 1 / (1 + |T|) := by
    rw [hd]; have := min_le_left (1 / (1 + |T|)) (1 - c ^ 2)
    have : 0 < min (1 / (1 + |T|)) (1 - c ^ 2) := by positivity
    linarith
  have hd2 : d < 1 - c ^ 2 := by
    rw [hd]; have := min_le_right (1 / (1 + |T|)) (1 - c ^ 2)
    linarith
  have hd3 : d < 1 := by nlinarith [sq_nonneg c]
  have ht2 : Real.sqrt (1 - d) ^ 2 = 1 - d := Real.sq_sqrt (by linarith)
  have ht0 : 0 < Real.sqrt (1 - d) := Real.sqrt_pos.2 (by linarith)
  refine ⟨Real.sqrt (1 - d), ?_, ?_, ?_⟩
  · exact lt_of_pow_lt_pow_left₀ 2 ht0.le (by rw [ht2]; linarith)
  · exact lt_of_pow_lt_pow_left₀ 2 zero_le_one (by rw [ht2]; linarith)
  · intro x hx
    rw [ht2] at hx
    have hxa := abs_lt.1 ((sq_lt_one_iff_abs_lt_one x).1 (by linarith))
    have h := revT_lower hl hxa.1 hxa.2 M
    have hp := revT_pos hl hxa.1 hxa.2 M
    rw [hx, show 1 - (1 - d) = d by ring] at h
    have hs0 : 0 < Real.sqrt d := Real.sqrt_pos.2 hd0
    have hs2 : Real.sqrt d ^ 2 = d := Real.sq_sqrt hd0.le
    have hs1 : Real.sqrt d ≤ 1 := Real.sqrt_le_one.2 hd3.le
    have h3 : Real.sqrt d ^ 3 ≤ d := by
      rw [pow_succ, hs2]; exact mul_le_of_le_one_right hd0.le hs1
    have hM' : (1 : ℝ) ≤ M := by exact_mod_cast hM
    have hpi := Real.pi_gt_three
    have h4 : 1 < revT lam M x * d := by nlinarith
    have h5 : revT lam M x * d < revT lam M x * (1 / (1 + |T|)) := mul_lt_mul_of_pos_left hd1 hp
    have h6 : 1 < revT lam M x * (1 / (1 + |T|)) := h4.trans h5
    rw [mul_one_div, lt_div_iff₀ hT] at h6
    linarith [le_abs_self T]

/-- Number of parameters that reach a given time: none below the minimum, the minimiser at it, two above it. -/
theorem revT_solutions {lam : ℝ} (hl : lam ^ 2 < 1) {M : ℕ} (hM : 1 ≤ M) :
    ∃ m, 0 < m ∧ m < 1 / 2 ∧ StrictAntiOn (revT lam M) (Ioc (-1) m) ∧ StrictMonoOn (revT lam M) (Ico m 1) ∧
      (∀ x, -1 < x → x < 1 → revT lam M m ≤ revT lam M x) ∧
      (∀ x, -1 < x → x < 1 → revT lam M x = revT lam M m → x = m) ∧
      ∀ T, revT lam M m < T → ∃ a b, -1 < a ∧ a < m ∧ m < b ∧ b < 1 ∧ revT lam M a = T ∧ revT lam M b = T ∧
        ∀ x, -1 < x → x < 1 → revT lam M x = T → x = a ∨ x = b := by
  obtain ⟨m, hm0, hm1, hanti, hmono⟩ := revT_valley hl hM
  have hm2 : m < 1 := by linarith
  have hmin : ∀ x, -1 < x → x < 1 → x ≠ m → revT lam M m < revT lam M x := by
    intro x h1 h2 hne
    rcases lt_or_gt_of_ne hne with h | h
    · exact hanti ⟨h1, h.le⟩ ⟨by linarith, le_rfl⟩ h
    · exact hmono ⟨le_rfl, hm2⟩ ⟨h.le, h2⟩ h
  refine ⟨m, hm0, hm1, hanti, hmono, ?_, ?_, ?_⟩
  · intro x h1 h2
    rcases eq_or_ne x m with rfl | hne
    · exact le_rfl
    · exact (hmin x h1 h2 hne).le
  · intro x h1 h2 h
    by_contra hne
    exact absurd h (hmin x h1 h2 hne).ne'
  · intro T hT
    obtain ⟨t, ht0, ht1, ht⟩ := revT_large hl hM hm2 hm0.le T
    have hcon : ∀ u v, -1 < u → v < 1 → ContinuousOn (revT lam M) (Icc u v) := fun u v hu hv x hx =>
      (revT_continuousAt hl (by linarith [hx.1]) (by linarith [hx.2]) M).continuousWithinAt
    obtain ⟨a, ⟨ha0, ha1⟩, ha⟩ := intermediate_value_Ioo' (by linarith : -t ≤ m) (hcon (-t) m (by linarith) hm2)
      ⟨hT, ht (-t) (by ring)⟩
    obtain ⟨b, ⟨hb0, hb1⟩, hb⟩ := intermediate_value_Ioo (by linarith : m ≤ t) (hcon m t (by linarith) ht1)
      ⟨hT, ht t rfl⟩
    refine ⟨a, b, by linarith, ha1, hb0, by linarith, ha, hb, fun x h1 h2 hx => ?_⟩
    rcases le_total x m with h | h
    · left; exact hanti.injOn ⟨h1, h⟩ ⟨by linarith, ha1.le⟩ (hx.trans ha.symm)
    · right; exact hmono.injOn ⟨h, h2⟩ ⟨hb0.le, by linarith⟩ (hx.trans hb.symm)

/-- With complete revolutions the parameter `V` determines the time. -/
theorem LC.Path.time_unique {μ P A V T T' : ℝ} {M : ℕ} (hM : 1 ≤ M) (hA : A ≠ 0) (h : Path μ P A M V T)
    (h' : Path μ P A M V T') : T = T' := by
  cases h with
  | par => omega
  | hyp => omega
  | ell h1 h2 hV0 hV =>
    rename_i φ
    cases h' with
    | par => omega
    | hyp => omega
    | ell h1' h2' hV0' hV' =>
      rename_i φ'
      have hr : Real.sqrt 2 * A ≠ 0 := mul_ne_zero (by positivity) hA
      have hcos : Real.cos φ = Real.cos φ' := by
        have : (-1 : ℝ) ^ M * (Real.sqrt 2 * A) * (Real.cos φ - Real.cos φ') = 0 := by linear_combination hV - hV'
        have := (mul_eq_zero.1 this).resolve_left (mul_ne_zero (pow_ne_zero _ (by norm_num)) hr)
        linarith
      have hc : Real.cos (φ - M * Real.pi) = Real.cos (φ' - M * Real.pi) := by
        rw [Real.cos_sub_nat_mul_pi, Real.cos_sub_nat_mul_pi, hcos]
      have := Real.injOn_cos ⟨by linarith, by linarith⟩ ⟨by linarith, by linarith⟩ hc
      have : φ = φ' := by linarith
      rw [this]

/-- Every path with complete revolutions comes from a Lancaster variable. -/
theorem LC.Path.rev {μ s lam V T : ℝ} {M : ℕ} (hM : 1 ≤ M) (hμ : 0 < μ) (hs : 0 < s) (hl : lam ^ 2 < 1) (hl0 : lam ≠ 0)
    (h : Path μ (s * (1 + lam ^ 2)) (Real.sqrt 2 * s * lam) M V T) :
    ∃ x, -1 < x ∧ x < 1 ∧ V = s * (lancY lam x - lam * x) ^ 2 ∧ T = Real.sqrt (s ^ 3 / (2 * μ)) * revT lam M x := by
  have h0 := h
  cases h with
  | par => omega
  | hyp => omega
  | ell h1 h2 hV0 hV =>
    rename_i φ
    obtain ⟨k, hk⟩ : ∃ k, k = (-1) ^ M * Real.cos φ := ⟨_, rfl⟩
    have hk2 : k ^ 2 < 1 := by
      have hs1 := neg_one_pow_sin h1 h2
      have e : ((-1 : ℝ) ^ M * Real.sin φ) ^ 2 + k ^ 2 = 1 := by
        rw [hk]
        have := neg_one_pow_mul_self M
        have := Real.sin_sq_add_cos_sq φ
        linear_combination (Real.sin φ ^ 2 + Real.cos φ ^ 2) * neg_one_pow_mul_self M + this
      nlinarith
    have hr2 : Real.sqrt 2 ^ 2 = 2 := Real.sq_sqrt (by norm_num)
    have hVk : V = s * (1 + lam ^ 2 - 2 * lam * k) := by
      rw [hV, hk]; linear_combination (-(-1) ^ M * s * lam * Real.cos φ) * hr2
    have hka := abs_lt.1 ((sq_lt_one_iff_abs_lt_one _).1 hk2)
    have hla := abs_lt.1 ((sq_lt_one_iff_abs_lt_one _).1 hl)
    have hη0 : 0 < 1 + lam ^ 2 - 2 * lam * k := by
      have := hVk ▸ hV0
      exact pos_of_mul_pos_right this hs.le
    obtain ⟨η, hη, hη2⟩ : ∃ η, 0 < η ∧ η ^ 2 = 1 + lam ^ 2 - 2 * lam * k :=
      ⟨Real.sqrt _, Real.sqrt_pos.2 hη0, Real.sq_sqrt hη0.le⟩
    obtain ⟨x, hx⟩ : ∃ x, x = (k - lam) / η := ⟨_, rfl⟩
    have hxη : x * η = k - lam := by rw [hx]; field_simp
    have hy0 : 0 < η + lam * x := by
      have e : η * (η + lam * x) = 1 - lam * k := by linear_combination hη2 + lam * hxη
      have : lam * k < 1 := by nlinarith [sq_nonneg (lam - k)]
      exact pos_of_mul_pos_right (by rw [e]; linarith) hη.le
    have hL : Lanc lam x (η + lam * x) := ⟨hl, by linear_combination hη2 + 2 * lam * hxη, hy0⟩
    have hyl : η + lam * x = lancY lam x := by
      unfold lancY; rw [← hL.y_sq, Real.sqrt_sq hy0.le]
    have hx2 : x ^ 2 < 1 := by
      have e : x ^ 2 * η ^ 2 = η ^ 2 - (1 - k ^ 2) := by
        rw [← mul_pow, hxη, hη2]; ring
      have : 0 < η ^ 2 := by positivity
      nlinarith
    have hxa := abs_lt.1 ((sq_lt_one_iff_abs_lt_one _).1 hx2)
    have hVx : V = s * (lancY lam x - lam * x) ^ 2 := by
      rw [← hyl, hVk]; linear_combination (-s) * hη2
    refine ⟨x, hxa.1, hxa.2, hVx, ?_⟩
    obtain ⟨T', hT', e⟩ := (lanc_lancY hl x).path (M := M) hμ hs hxa.1 (.inr hxa.2)
    rw [← hVx] at hT'
    have hA : Real.sqrt 2 * s * lam ≠ 0 := mul_ne_zero (by positivity) hl0
    rw [h0.time_unique hM hA hT', revT, ← e, ← mul_assoc, ← Real.sqrt_mul (by positivity)]
    rw [show s ^ 3 / (2 * μ) * (2 * μ / s ^ 3) = 1 by field_simp, Real.sqrt_one, one_mul]

/-- Transfers that leave the apoapsis behind are slower: `x` and `-x` have the same energy. -/
theorem revT_neg {lam x : ℝ} (hl : lam ^ 2 < 1) (h0 : 0 < x) (h1 : x < 1) (M : ℕ) : revT lam M x < revT lam M (-x) := by
  have hL := lanc_lancY hl x
  have hL' := lanc_lancY hl (-x)
  have hw : 0 < 1 - x ^ 2 := by nlinarith
  have hwp : 0 < Real.sqrt (1 - x ^ 2) := Real.sqrt_pos.2 hw
  have hw2 : Real.sqrt (1 - x ^ 2) ^ 2 = 1 - x ^ 2 := Real.sq_sqrt hw.le
  have hw1 : Real.sqrt (1 - x ^ 2) < 1 := by
    rw [Real.sqrt_lt' one_pos]; nlinarith
  have s1 := revT_split (lam := lam) (by linarith : -1 < x) h1 M
  have s2 := revT_split (lam := lam) (by linarith : -1 < -x) (by linarith : -x < 1) M
  have a := lancT_ellA_lagrange hL h1 h0.le hwp hw2
  have b := lancT_ellB_lagrange hL' (by linarith : -x ≤ 0) hwp (by rw [hw2]; ring)
  have hF := two_sub_sin_strictMono (Real.arcsin_lt_pi_div_two.2 hw1)
  simp [mul_div_cancel₀] at hF
  rw [neg_sq] at s2
  unfold revT at s1 s2 ⊢
  have hw3 : 0 < Real.sqrt (1 - x ^ 2) ^ 3 := by positivity
  refine lt_of_mul_lt_mul_right (a := Real.sqrt (1 - x ^ 2) ^ 3) ?_ hw3.le
  linarith

end Lamberthub
