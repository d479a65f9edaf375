import Verif.Model.Kepler
import Verif.Proofs.PyLemmas
import Mathlib.Analysis.SpecialFunctions.Trigonometric.ArctanDeriv
import Mathlib.Analysis.Calculus.Deriv.MeanValue
import Mathlib.Analysis.SpecialFunctions.Trigonometric.DerivHyp

/-! # Lemmas on the anomaly conversions -/

set_option autoImplicit false

namespace Lamberthub

theorem cos_half_pos {x : ℝ} (h1 : -Real.pi < x) (h2 : x < Real.pi) : 0 < Real.cos (x / 2) :=
  Real.cos_pos_of_mem_Ioo ⟨by linarith, by linarith⟩

theorem two_arctan_range (x : ℝ) : -Real.pi < 2 * Real.arctan x ∧ 2 * Real.arctan x < Real.pi := by
  have h1 := Real.neg_pi_div_two_lt_arctan x
  have h2 := Real.arctan_lt_pi_div_two x
  constructor <;> linarith

theorem two_arctan_tan_half {x : ℝ} (h1 : -Real.pi < x) (h2 : x < Real.pi) :
    2 * Real.arctan (Real.tan (x / 2)) = x := by
  rw [Real.arctan_tan (by linarith) (by linarith)]; ring

theorem tan_half_two_arctan (x : ℝ) : Real.tan (2 * Real.arctan x / 2) = x := by
  rw [mul_div_cancel_left₀ _ (two_ne_zero), Real.tan_arctan]

theorem tan_half_strictMono : StrictMonoOn (fun x => Real.tan (x / 2)) (Set.Ioo (-Real.pi) Real.pi) := by
  intro a ha b hb hab
  exact Real.strictMonoOn_tan ⟨by linarith [ha.1], by linarith [ha.2]⟩
    ⟨by linarith [hb.1], by linarith [hb.2]⟩ (by linarith)

theorem two_arctan_strictMono : StrictMono fun x => 2 * Real.arctan x := by
  intro a b hab
  have := Real.arctan_strictMono hab
  simp only; linarith

/-- factor of the half-angle relation -/
noncomputable def eccRatio (e : ℝ) : ℝ := Real.sqrt ((1 - e) / (1 + e))

theorem eccRatio_pos {e : ℝ} (h0 : -1 < e) (h1 : e < 1) : 0 < eccRatio e :=
  Real.sqrt_pos.2 (div_pos (by linarith) (by linarith))

theorem eccRatio_inv {e : ℝ} : Real.sqrt ((1 + e) / (1 - e)) = (eccRatio e)⁻¹ := by
  unfold eccRatio
  rw [← Real.sqrt_inv, inv_div]

theorem nuToE_eq {nu e : ℝ} (he0 : 0 ≤ e) (he1 : e < 1) (h1 : -Real.pi < nu) (h2 : nu < Real.pi) :
    nuToE nu e = .ok (2 * Real.arctan (eccRatio e * Real.tan (nu / 2))) := by
  unfold nuToE
  rw [pdiv_eq (by linarith), ok_bind, psqrt_eq (div_nonneg (by linarith) (by linarith)), ok_bind,
    ptan, if_neg (cos_half_pos h1 h2).ne', ok_bind]
  rfl

theorem eToNu_eq {E e : ℝ} (he0 : 0 ≤ e) (he1 : e < 1) (h1 : -Real.pi < E) (h2 : E < Real.pi) :
    eToNu E e = .ok (2 * Real.arctan ((eccRatio e)⁻¹ * Real.tan (E / 2))) := by
  unfold eToNu
  rw [pdiv_eq (by linarith), ok_bind, psqrt_eq (div_nonneg (by linarith) (by linarith)), ok_bind,
    ptan, if_neg (cos_half_pos h1 h2).ne', ok_bind, eccRatio_inv]

/-- factor of the hyperbolic half-angle relation -/
noncomputable def hypRatio (e : ℝ) : ℝ := Real.sqrt ((e - 1) / (e + 1))

theorem hypRatio_pos {e : ℝ} (h1 : 1 < e) : 0 < hypRatio e :=
  Real.sqrt_pos.2 (div_pos (by linarith) (by linarith))

theorem hypRatio_inv {e : ℝ} : Real.sqrt ((e + 1) / (e - 1)) = (hypRatio e)⁻¹ := by
  unfold hypRatio
  rw [← Real.sqrt_inv, inv_div]

/-- The true anomalies strictly between the asymptotes. -/
theorem abs_hyp_lt {nu e : ℝ} (he : 1 < e) (h1 : -Real.pi < nu) (h2 : nu < Real.pi) :
    (-1 < hypRatio e * Real.tan (nu / 2) ∧ hypRatio e * Real.tan (nu / 2) < 1) ↔
      0 < 1 + e * Real.cos nu := by
  have hc := cos_half_pos h1 h2
  rw [← abs_lt, ← sq_lt_one_iff_abs_lt_one]
  unfold hypRatio
  rw [mul_pow, Real.sq_sqrt (div_nonneg (by linarith) (by linarith)), Real.tan_eq_sin_div_cos,
    div_pow, div_mul_div_comm, div_lt_one (by have : 0 < e + 1 := by linarith
                                              positivity)]
  have e1 : Real.cos nu = 2 * Real.cos (nu / 2) ^ 2 - 1 := by
    rw [← Real.cos_two_mul]; congr 1; ring
  rw [e1]
  have e2 := Real.sin_sq_add_cos_sq (nu / 2)
  constructor <;> intro h <;> nlinarith

theorem nuToH_eq {nu e : ℝ} (he : 1 < e) (h1 : -Real.pi < nu) (h2 : nu < Real.pi)
    (h3 : 0 < 1 + e * Real.cos nu) :
    nuToH nu e = .ok (2 * Real.artanh (hypRatio e * Real.tan (nu / 2))) := by
  unfold nuToH
  rw [pdiv_eq (by linarith), ok_bind, psqrt_eq (div_nonneg (by linarith) (by linarith)), ok_bind,
    ptan, if_neg (cos_half_pos h1 h2).ne', ok_bind]
  have := (abs_hyp_lt he h1 h2).2 h3
  unfold hypRatio at this
  rw [partanh, if_pos this, ok_bind]
  rfl

theorem hToNu_eq {H e : ℝ} (he : 1 < e) :
    hToNu H e = .ok (2 * Real.arctan ((hypRatio e)⁻¹ * Real.tanh (H / 2))) := by
  unfold hToNu
  rw [pdiv_eq (by linarith), ok_bind, psqrt_eq (div_nonneg (by linarith) (by linarith)), ok_bind,
    hypRatio_inv]

end Lamberthub
