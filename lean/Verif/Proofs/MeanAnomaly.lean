import Verif.Proofs.AnomalyLemmas
import Mathlib.Analysis.SpecialFunctions.Log.Deriv

/-! # The mean anomaly as a function of the true anomaly, and its derivative -/

set_option autoImplicit false

namespace Lamberthub

/-- True anomalies reached in one passage on a conic of eccentricity `e`. -/
def NuDom (e ν : ℝ) : Prop := -Real.pi < ν ∧ ν < Real.pi ∧ 0 < 1 + e * Real.cos ν

/-- value of `kepler_from_nu` -/
noncomputable def meanOf (e ν : ℝ) : ℝ :=
  if e < 1 then keplerElliptic (2 * Real.arctan (eccRatio e * Real.tan (ν / 2))) e
  else if e = 1 then keplerParabolic (Real.tan (ν / 2))
  else keplerHyperbolic (2 * Real.artanh (hypRatio e * Real.tan (ν / 2))) e

theorem keplerFromNu_eq {e ν : ℝ} (he : 0 ≤ e) (h : NuDom e ν) :
    keplerFromNu ν e = .ok (meanOf e ν) := by
  obtain ⟨h1, h2, h3⟩ := h
  unfold keplerFromNu meanOf
  rw [if_neg (not_lt.2 he)]
  by_cases he1 : e < 1
  · rw [if_pos ⟨he, he1⟩, nuToE_eq he he1 h1 h2, ok_bind, if_pos he1]
  · rw [if_neg (fun h => he1 h.2), if_neg he1]
    by_cases he2 : e = 1
    · rw [if_pos he2, if_pos he2, nuToB, ptan, if_neg (cos_half_pos h1 h2).ne', ok_bind]
    · have : 1 < e := lt_of_le_of_ne (not_lt.1 he1) (Ne.symm he2)
      rw [if_neg he2, if_neg he2, nuToH_eq this h1 h2 h3, ok_bind]

/-- `(1 - e²)^(3/2)` for ellipses, `2` for parabolas, `(e² - 1)^(3/2)` for hyperbolas -/
noncomputable def meanFactor (e : ℝ) : ℝ :=
  if e < 1 then Real.sqrt (1 - e ^ 2) ^ 3 else if e = 1 then 2 else Real.sqrt (e ^ 2 - 1) ^ 3

theorem meanFactor_pos {e : ℝ} (he : 0 ≤ e) : 0 < meanFactor e := by
  unfold meanFactor
  split
  · have : 0 < 1 - e ^ 2 := by nlinarith
    positivity
  · split
    · norm_num
    · rename_i h1 h2
      have h3 : 1 < e := lt_of_le_of_ne (not_lt.1 h1) (Ne.symm h2)
      have : 0 < e ^ 2 - 1 := by nlinarith
      positivity

theorem hasDerivAt_tan_half {ν : ℝ} (hc : Real.cos (ν / 2) ≠ 0) :
    HasDerivAt (fun x => Real.tan (x / 2)) ((1 + Real.tan (ν / 2) ^ 2) / 2) ν := by
  have h := (Real.hasDerivAt_tan hc).comp ν ((hasDerivAt_id ν).div_const 2)
  refine (h.congr_deriv ?_).congr_of_eventuallyEq (Filter.Eventually.of_forall fun y => rfl)
  rw [Real.tan_eq_sin_div_cos]
  field_simp
  rw [Real.cos_sq_add_sin_sq]

theorem cos_of_tan_half {ν : ℝ} (hc : Real.cos (ν / 2) ≠ 0) :
    Real.cos ν = (1 - Real.tan (ν / 2) ^ 2) / (1 + Real.tan (ν / 2) ^ 2) := by
  have e1 : Real.cos ν = Real.cos (ν / 2) ^ 2 - Real.sin (ν / 2) ^ 2 := by
    rw [← Real.cos_two_mul']; congr 1; ring
  have e2 := Real.sin_sq_add_cos_sq (ν / 2)
  have h : 0 < 1 + Real.tan (ν / 2) ^ 2 := by positivity
  rw [eq_div_iff h.ne', e1, Real.tan_eq_sin_div_cos]
  field_simp
  linear_combination (Real.cos (ν / 2) ^ 2 - Real.sin (ν / 2) ^ 2) * e2

theorem sin_of_tan_half {ν : ℝ} (hc : Real.cos (ν / 2) ≠ 0) :
    Real.sin ν = 2 * Real.tan (ν / 2) / (1 + Real.tan (ν / 2) ^ 2) := by
  have e1 : Real.sin ν = 2 * Real.sin (ν / 2) * Real.cos (ν / 2) := by
    rw [← Real.sin_two_mul]; congr 1; ring
  have e2 := Real.sin_sq_add_cos_sq (ν / 2)
  have h : 0 < 1 + Real.tan (ν / 2) ^ 2 := by positivity
  rw [eq_div_iff h.ne', e1, Real.tan_eq_sin_div_cos]
  field_simp
  linear_combination Real.sin (ν / 2) * e2

theorem cos_two_arctan (x : ℝ) : Real.cos (2 * Real.arctan x) = (1 - x ^ 2) / (1 + x ^ 2) := by
  have h := cos_of_tan_half (ν := 2 * Real.arctan x) (by
    rw [mul_div_cancel_left₀ _ two_ne_zero]; exact (Real.cos_arctan_pos x).ne')
  rw [h, tan_half_two_arctan]

theorem sin_two_arctan (x : ℝ) : Real.sin (2 * Real.arctan x) = 2 * x / (1 + x ^ 2) := by
  have h := sin_of_tan_half (ν := 2 * Real.arctan x) (by
    rw [mul_div_cancel_left₀ _ two_ne_zero]; exact (Real.cos_arctan_pos x).ne')
  rw [h, tan_half_two_arctan]

theorem cosh_two_artanh {x : ℝ} (hx : x ∈ Set.Ioo (-1 : ℝ) 1) :
    Real.cosh (2 * Real.artanh x) = (1 + x ^ 2) / (1 - x ^ 2) := by
  have h : 0 < 1 - x ^ 2 := by nlinarith [hx.1, hx.2]
  rw [Real.cosh_two_mul, Real.cosh_artanh hx, Real.sinh_artanh hx, div_pow, div_pow,
    Real.sq_sqrt h.le]
  field_simp

theorem sinh_two_artanh {x : ℝ} (hx : x ∈ Set.Ioo (-1 : ℝ) 1) :
    Real.sinh (2 * Real.artanh x) = 2 * x / (1 - x ^ 2) := by
  have h : 0 < 1 - x ^ 2 := by nlinarith [hx.1, hx.2]
  rw [Real.sinh_two_mul, Real.cosh_artanh hx, Real.sinh_artanh hx]
  have e : Real.sqrt (1 - x ^ 2) * Real.sqrt (1 - x ^ 2) = 1 - x ^ 2 := Real.mul_self_sqrt h.le
  rw [show 2 * x / (1 - x ^ 2) = 2 * x / (Real.sqrt (1 - x ^ 2) * Real.sqrt (1 - x ^ 2)) by rw [e]]
  have : Real.sqrt (1 - x ^ 2) ≠ 0 := (Real.sqrt_pos.2 h).ne'
  field_simp

theorem hasDerivAt_two_artanh {x : ℝ} (hx : x ∈ Set.Ioo (-1 : ℝ) 1) :
    HasDerivAt (fun y => 2 * Real.artanh y) (2 / (1 - x ^ 2)) x := by
  have h1 : 0 < 1 + x := by linarith [hx.1]
  have h2 : 0 < 1 - x := by linarith [hx.2]
  have hd : HasDerivAt (fun y : ℝ => Real.log ((1 + y) / (1 - y))) (2 / (1 - x ^ 2)) x := by
    have hq : HasDerivAt (fun y : ℝ => (1 + y) / (1 - y)) (2 / (1 - x) ^ 2) x := by
      have := ((hasDerivAt_id x).const_add 1).div ((hasDerivAt_id x).const_sub 1) h2.ne'
      refine (this.congr_deriv ?_).congr_of_eventuallyEq (Filter.Eventually.of_forall fun y => rfl)
      simp only [id]
      congr 1; ring
    have := hq.log (div_pos h1 h2).ne'
    refine this.congr_deriv ?_
    have e : 1 - x ^ 2 = (1 + x) * (1 - x) := by ring
    rw [e]
    field_simp
  refine hd.congr_of_eventuallyEq ?_
  filter_upwards [Ioo_mem_nhds hx.1 hx.2] with y hy
  rw [Real.artanh_eq_half_log ⟨hy.1.le, hy.2.le⟩]; ring

theorem eccRatio_sq {e : ℝ} (h0 : 0 ≤ e) (h1 : e < 1) : (1 + e) * eccRatio e ^ 2 = 1 - e := by
  unfold eccRatio
  rw [Real.sq_sqrt (div_nonneg (by linarith) (by linarith))]
  have : 1 + e ≠ 0 := by linarith
  field_simp

theorem hypRatio_sq {e : ℝ} (h1 : 1 < e) : (e + 1) * hypRatio e ^ 2 = e - 1 := by
  unfold hypRatio
  rw [Real.sq_sqrt (div_nonneg (by linarith) (by linarith))]
  have : e + 1 ≠ 0 := by linarith
  field_simp

theorem eccRatio_mul {e : ℝ} (h0 : 0 ≤ e) (h1 : e < 1) :
    (1 + e) * eccRatio e = Real.sqrt (1 - e ^ 2) := by
  symm
  rw [Real.sqrt_eq_iff_mul_self_eq (by nlinarith) (by
    have := eccRatio_pos (by linarith) h1; have : 0 < 1 + e := by linarith
    positivity)]
  have := eccRatio_sq h0 h1
  linear_combination -(1 + e) * this

theorem hypRatio_mul {e : ℝ} (h1 : 1 < e) : (e + 1) * hypRatio e = Real.sqrt (e ^ 2 - 1) := by
  symm
  rw [Real.sqrt_eq_iff_mul_self_eq (by nlinarith) (by
    have := hypRatio_pos h1; have : 0 < 1 + e := by linarith
    positivity)]
  have := hypRatio_sq h1
  linear_combination -(e + 1) * this

/-- `dM/dν = k(e) / (1 + e cos ν)²` on every conic. -/
theorem meanOf_deriv {e ν : ℝ} (he : 0 ≤ e) (h : NuDom e ν) :
    HasDerivAt (meanOf e) (meanFactor e / (1 + e * Real.cos ν) ^ 2) ν := by
  obtain ⟨h1, h2, h3⟩ := h
  have hc := (cos_half_pos h1 h2).ne'
  have ht := hasDerivAt_tan_half hc
  have hcos := cos_of_tan_half hc
  unfold meanFactor
  by_cases he1 : e < 1
  · have hf : meanOf e = fun x =>
        keplerElliptic (2 * Real.arctan (eccRatio e * Real.tan (x / 2))) e := by
      funext x; unfold meanOf; rw [if_pos he1]
    rw [hf, if_pos he1]
    have hE := ((ht.const_mul (eccRatio e)).arctan).const_mul 2
    have hM := hE.sub ((hE.sin).const_mul e)
    unfold keplerElliptic
    refine (hM.congr_deriv ?_).congr_of_eventuallyEq (Filter.Eventually.of_forall fun y => rfl)
    rw [hcos] at h3 ⊢
    rw [cos_two_arctan]
    have hs2 := eccRatio_sq he he1
    have hsm := eccRatio_mul he he1
    have hsp := eccRatio_pos (by linarith) he1
    rw [← hsm]
    generalize eccRatio e = s at *
    generalize Real.tan (ν / 2) = t at *
    have hden : 1 + e * ((1 - t ^ 2) / (1 + t ^ 2)) = (1 + e) * (1 + (s * t) ^ 2) / (1 + t ^ 2) := by
      field_simp
      linear_combination -t ^ 2 * hs2
    rw [hden]
    have h4 : (0 : ℝ) < 1 + t ^ 2 := by positivity
    have h5 : (0 : ℝ) < 1 + s ^ 2 * t ^ 2 := by positivity
    have h6 : 1 + e ≠ 0 := by linarith
    field_simp
    have : (1 + s ^ 2 * t ^ 2 - e * (1 - s ^ 2 * t ^ 2)) = (1 + t ^ 2) * (1 - e) := by
      linear_combination t ^ 2 * hs2
    rw [this, ← hs2]
    ring
  · by_cases he2 : e = 1
    · subst he2
      have hf : meanOf 1 = fun x => keplerParabolic (Real.tan (x / 2)) := by
        funext x; unfold meanOf; rw [if_neg he1, if_pos rfl]
      rw [hf, if_neg he1, if_pos rfl]
      have hM := ht.add ((ht.pow 3).const_mul (1 / 3))
      unfold keplerParabolic
      refine (hM.congr_deriv ?_).congr_of_eventuallyEq (Filter.Eventually.of_forall fun y => rfl)
      rw [hcos]
      generalize Real.tan (ν / 2) = t at *
      have h4 : (0 : ℝ) < 1 + t ^ 2 := by positivity
      have : 1 + 1 * ((1 - t ^ 2) / (1 + t ^ 2)) = 2 / (1 + t ^ 2) := by
        field_simp; ring
      rw [this]
      field_simp
      push_cast
      ring
    · have he3 : 1 < e := lt_of_le_of_ne (not_lt.1 he1) (Ne.symm he2)
      have hf : meanOf e = fun x =>
          keplerHyperbolic (2 * Real.artanh (hypRatio e * Real.tan (x / 2))) e := by
        funext x; unfold meanOf; rw [if_neg he1, if_neg he2]
      rw [hf, if_neg he1, if_neg he2]
      have hx : hypRatio e * Real.tan (ν / 2) ∈ Set.Ioo (-1 : ℝ) 1 := (abs_hyp_lt he3 h1 h2).2 h3
      have hH := (hasDerivAt_two_artanh hx).comp ν (ht.const_mul (hypRatio e))
      have hM := ((hH.sinh).const_mul e).sub hH
      unfold keplerHyperbolic
      refine (hM.congr_deriv ?_).congr_of_eventuallyEq (Filter.Eventually.of_forall fun y => rfl)
      simp only [Function.comp]
      rw [cosh_two_artanh hx]
      rw [hcos] at h3 ⊢
      have hs2 := hypRatio_sq he3
      have hsm := hypRatio_mul he3
      have hsp := hypRatio_pos he3
      rw [← hsm]
      generalize hypRatio e = s at *
      generalize Real.tan (ν / 2) = t at *
      have h5 : (0 : ℝ) < 1 - (s * t) ^ 2 := by nlinarith [hx.1, hx.2]
      have hden : 1 + e * ((1 - t ^ 2) / (1 + t ^ 2)) = (e + 1) * (1 - (s * t) ^ 2) / (1 + t ^ 2) := by
        field_simp
        linear_combination t ^ 2 * hs2
      rw [hden]
      have h4 : (0 : ℝ) < 1 + t ^ 2 := by positivity
      have h6 : e + 1 ≠ 0 := by linarith
      have h7 : e * ((1 + (s * t) ^ 2) / (1 - (s * t) ^ 2)) - 1 =
          (1 + t ^ 2) * ((e + 1) * s ^ 2) / (1 - (s * t) ^ 2) := by
        rw [mul_div_assoc', div_sub_one h5.ne', div_left_inj' h5.ne']
        linear_combination -1 * hs2
      have e1 : e * ((1 + (s * t) ^ 2) / (1 - (s * t) ^ 2) *
          (2 / (1 - (s * t) ^ 2) * (s * ((1 + t ^ 2) / 2)))) -
          2 / (1 - (s * t) ^ 2) * (s * ((1 + t ^ 2) / 2)) =
          (e * ((1 + (s * t) ^ 2) / (1 - (s * t) ^ 2)) - 1) *
          (2 / (1 - (s * t) ^ 2) * (s * ((1 + t ^ 2) / 2))) := by ring
      rw [e1, h7]
      generalize 1 - (s * t) ^ 2 = D at *
      field_simp

theorem nuDom_zero {e : ℝ} (he : 0 ≤ e) : NuDom e 0 := by
  have := Real.pi_pos
  exact ⟨by linarith, by linarith, by rw [Real.cos_zero]; linarith⟩

theorem nuDom_neg {e ν : ℝ} (h : NuDom e ν) : NuDom e (-ν) := by
  obtain ⟨h1, h2, h3⟩ := h
  exact ⟨by linarith, by linarith, by rwa [Real.cos_neg]⟩

/-- The domain is an interval. -/
theorem nuDom_between {e a b x : ℝ} (he : 0 ≤ e) (ha : NuDom e a) (hb : NuDom e b) (h1 : a ≤ x)
    (h2 : x ≤ b) : NuDom e x := by
  obtain ⟨a1, a2, a3⟩ := ha
  obtain ⟨b1, b2, b3⟩ := hb
  refine ⟨by linarith, by linarith, ?_⟩
  have key : ∀ u v : ℝ, |u| ≤ |v| → |v| < Real.pi → 0 < 1 + e * Real.cos v →
      0 < 1 + e * Real.cos u := by
    intro u v huv hv h
    have := Real.cos_le_cos_of_nonneg_of_le_pi (abs_nonneg u) hv.le huv
    rw [Real.cos_abs, Real.cos_abs] at this
    nlinarith
  rcases le_total |a| |b| with h | h
  · rcases le_total 0 x with hx | hx
    · refine key x b ?_ (abs_lt.2 ⟨b1, b2⟩) b3
      rw [abs_of_nonneg hx]; exact h2.trans (le_abs_self b)
    · refine key x b (le_trans ?_ h) (abs_lt.2 ⟨b1, b2⟩) b3
      rw [abs_of_nonpos hx]; exact (neg_le_neg h1).trans (neg_le_abs a)
  · rcases le_total 0 x with hx | hx
    · refine key x a (le_trans ?_ h) (abs_lt.2 ⟨a1, a2⟩) a3
      rw [abs_of_nonneg hx]; exact h2.trans (le_abs_self b)
    · refine key x a ?_ (abs_lt.2 ⟨a1, a2⟩) a3
      rw [abs_of_nonpos hx]; exact (neg_le_neg h1).trans (neg_le_abs a)

theorem meanOf_strictMono {e : ℝ} (he : 0 ≤ e) {a b : ℝ} (ha : NuDom e a) (hb : NuDom e b)
    (hab : a < b) : meanOf e a < meanOf e b := by
  have hd : ∀ x ∈ Set.Icc a b, NuDom e x := fun x hx => nuDom_between he ha hb hx.1 hx.2
  refine strictMonoOn_of_deriv_pos (convex_Icc a b) ?_ ?_ (Set.left_mem_Icc.2 hab.le)
    (Set.right_mem_Icc.2 hab.le) hab
  · intro x hx
    exact (meanOf_deriv he (hd x hx)).continuousAt.continuousWithinAt
  · intro x hx
    rw [interior_Icc] at hx
    have hx' := hd x ⟨hx.1.le, hx.2.le⟩
    rw [(meanOf_deriv he hx').deriv]
    have := meanFactor_pos he
    have := hx'.2.2
    positivity

theorem meanOf_zero (e : ℝ) : meanOf e 0 = 0 := by
  unfold meanOf keplerElliptic keplerParabolic keplerHyperbolic
  simp

theorem artanh_neg_eq {x : ℝ} (hx : x ∈ Set.Ioo (-1 : ℝ) 1) : Real.artanh (-x) = -Real.artanh x := by
  have h1 : 0 < 1 + x := by linarith [hx.1]
  have h2 : 0 < 1 - x := by linarith [hx.2]
  rw [Real.artanh_eq_half_log ⟨by linarith, by linarith⟩, Real.artanh_eq_half_log ⟨hx.1.le, hx.2.le⟩,
    show (1 + -x) / (1 - -x) = ((1 + x) / (1 - x))⁻¹ by rw [inv_div]; ring, Real.log_inv]
  ring

theorem meanOf_neg {e ν : ℝ} (h : NuDom e ν) : meanOf e (-ν) = -meanOf e ν := by
  unfold meanOf keplerElliptic keplerParabolic keplerHyperbolic
  rw [neg_div, Real.tan_neg]
  split
  · rw [mul_neg, Real.arctan_neg, mul_neg, Real.sin_neg]; ring
  · split
    · ring
    · rename_i h1 h2
      have he3 : 1 < e := lt_of_le_of_ne (not_lt.1 h1) (Ne.symm h2)
      rw [mul_neg, artanh_neg_eq ((abs_hyp_lt he3 h.1 h.2.1).2 h.2.2), mul_neg, Real.sinh_neg]; ring

end Lamberthub
