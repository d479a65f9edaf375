import Verif.Proofs.UVTime
import Verif.Proofs.IzzoDeriv
import Verif.Proofs.LagrangeTime
import Verif.Proofs.PolarForm

/-! # Zero-revolution paths: the time determines the path, every time is reached -/

set_option autoImplicit false

namespace Lamberthub
namespace LC
open Spec

variable {μ P A : ℝ}

/-- A zero-revolution path is a point of the universal-variable domain. -/
theorem Path.uv (hμ : 0 < μ) {V T : ℝ} (h : Path μ P A 0 V T) :
    ∃ ψ ∈ uvDom P A, uvY P A ψ = V ∧ uvT μ P A ψ = T := by
  have hpi := Real.pi_pos
  cases h with
  | ell h1 h2 hV0 hV =>
    rename_i φ
    have h1 : 0 < φ := by simpa using h1
    have h2 : φ < Real.pi := by simpa using h2
    have hV : V = P - Real.sqrt 2 * A * Real.cos φ := by rw [hV]; ring
    have hs := Real.sin_pos_of_pos_of_lt_pi h1 h2
    have hY := uvY_ell (P := P) (A := A) h1 h2
    rw [← hV] at hY
    exact ⟨(2 * φ) ^ 2, ⟨by nlinarith, by rw [hY]; exact hV0⟩, hY, by
      rw [uvT_sq hμ h1 hs.ne' (by rw [hY]; exact hV0.le), hY]⟩
  | par hV0 hV =>
    have hY : uvY P A 0 = V := by rw [uvY_zero, hV]
    exact ⟨0, ⟨by positivity, by rw [hY]; exact hV0⟩, hY, by
      rw [uvT_zero hμ (by rw [hY]; exact hV0.le), hY]⟩
  | hyp hφ hV0 hV =>
    rename_i φ
    have hY := uvY_neg_sq (P := P) (A := A) hφ
    rw [← hV] at hY
    exact ⟨-(2 * φ) ^ 2, ⟨by nlinarith [sq_nonneg (2 * φ)], by rw [hY]; exact hV0⟩, hY, by
      rw [uvT_neg_sq hμ hφ (by rw [hY]; exact hV0.le), hY]⟩

/-- The cosine parameter of the universal variable. -/
theorem uvK_strictAnti (hA : A ≠ 0) {a b : ℝ} (hab : a < b) (hb : b < 4 * Real.pi ^ 2) :
    (P - uvY P A b) / A < (P - uvY P A a) / A := by
  have hr : 0 < Real.sqrt 2 := by positivity
  have hell : ∀ {φ : ℝ}, 0 < φ → φ < Real.pi →
      (P - uvY P A ((2 * φ) ^ 2)) / A = Real.sqrt 2 * Real.cos φ := by
    intro φ h1 h2; rw [uvY_ell h1 h2]; field_simp; ring
  have hhyp : ∀ {φ : ℝ}, 0 < φ → (P - uvY P A (-(2 * φ) ^ 2)) / A = Real.sqrt 2 * Real.cosh φ := by
    intro φ h1; rw [uvY_neg_sq h1]; field_simp; ring
  have hpar : (P - uvY P A 0) / A = Real.sqrt 2 := by rw [uvY_zero]; field_simp; ring
  have cos_lt : ∀ {φ : ℝ}, 0 < φ → φ < Real.pi → Real.sqrt 2 * Real.cos φ < Real.sqrt 2 := by
    intro φ h1 h2
    have : Real.cos φ < Real.cos 0 := Real.strictAntiOn_cos ⟨le_rfl, Real.pi_pos.le⟩ ⟨h1.le, h2.le⟩ h1
    rw [Real.cos_zero] at this
    nlinarith
  have cosh_gt : ∀ {φ : ℝ}, 0 < φ → Real.sqrt 2 < Real.sqrt 2 * Real.cosh φ := by
    intro φ h1
    have := Real.one_lt_cosh.2 h1.ne'
    nlinarith
  rcases lt_trichotomy b 0 with hb0 | rfl | hb0
  · obtain ⟨x, hx, rfl⟩ := half_sqrt_neg hb0
    obtain ⟨y, hy, rfl⟩ := half_sqrt_neg (hab.trans hb0)
    have hxy : x < y := by
      have : (2 * x) ^ 2 < (2 * y) ^ 2 := by linarith
      have := lt_of_pow_lt_pow_left₀ 2 (by positivity) this
      linarith
    rw [hhyp hx, hhyp hy]
    have : Real.cosh x < Real.cosh y := by rw [Real.cosh_lt_cosh, abs_of_pos hx, abs_of_pos hy]; exact hxy
    nlinarith
  · obtain ⟨y, hy, rfl⟩ := half_sqrt_neg hab
    rw [hpar, hhyp hy]; exact cosh_gt hy
  · obtain ⟨x, hx, rfl⟩ := half_sqrt hb0
    have hxp := phi_lt_pi hx hb
    rw [hell hx hxp]
    rcases lt_trichotomy a 0 with ha0 | rfl | ha0
    · obtain ⟨y, hy, rfl⟩ := half_sqrt_neg ha0
      rw [hhyp hy]; exact (cos_lt hx hxp).trans (cosh_gt hy)
    · rw [hpar]; exact cos_lt hx hxp
    · obtain ⟨y, hy, rfl⟩ := half_sqrt ha0
      have hyx : y < x := by
        have := lt_of_pow_lt_pow_left₀ 2 (by positivity) hab
        linarith
      rw [hell hy (hyx.trans hxp)]
      have : Real.cos x < Real.cos y := Real.strictAntiOn_cos ⟨hy.le, (hyx.trans hxp).le⟩ ⟨hx.le, hxp.le⟩ hyx
      nlinarith

/-- Along the zero-revolution family, longer times have smaller `(P - V) / A`. -/
theorem Path.time_lt_iff (hμ : 0 < μ) (hA : A ≠ 0) (hP : |Real.sqrt 2 * A| < P) {V T V' T' : ℝ}
    (h : Path μ P A 0 V T) (h' : Path μ P A 0 V' T') : T < T' ↔ (P - V') / A < (P - V) / A := by
  obtain ⟨a, ha, rfl, rfl⟩ := h.uv hμ
  obtain ⟨b, hb, rfl, rfl⟩ := h'.uv hμ
  rw [(uvT_strictMonoOn hμ hP).lt_iff_lt ha hb]
  rcases lt_trichotomy a b with hab | rfl | hab
  · simp [hab, uvK_strictAnti hA hab hb.1]
  · simp
  · simp [hab.not_gt, (uvK_strictAnti (P := P) hA hab ha.1).not_gt]

/-- The time determines a zero-revolution path. -/
theorem Path.unique (hμ : 0 < μ) (hP : |Real.sqrt 2 * A| < P) {V V' T : ℝ}
    (h : Path μ P A 0 V T) (h' : Path μ P A 0 V' T) : V = V' := by
  obtain ⟨a, ha, rfl, rfl⟩ := h.uv hμ
  obtain ⟨b, hb, rfl, hT⟩ := h'.uv hμ
  rw [(uvT_strictMonoOn hμ hP).injOn ha hb hT.symm]

/-- Every positive time is the time of a zero-revolution path. -/
theorem Path.exists (hμ : 0 < μ) (hA : A ≠ 0) (hP : |Real.sqrt 2 * A| < P) {T : ℝ} (hT : 0 < T) :
    ∃ V, Path μ P A 0 V T := by
  obtain ⟨ψ, ⟨hψ, rfl⟩, -⟩ := uvT_exists_unique hμ hA hP hT
  exact ⟨_, uv_path hμ hψ.1 hψ.2⟩

end LC

open LC

theorem lanc_geo {lam : ℝ} (hl : lam ^ 2 < 1) {s : ℝ} (hs : 0 < s) :
    |Real.sqrt 2 * (Real.sqrt 2 * s * lam)| < s * (1 + lam ^ 2) := by
  have hr2 : Real.sqrt 2 ^ 2 = 2 := Real.sq_sqrt (by norm_num)
  rw [show Real.sqrt 2 * (Real.sqrt 2 * s * lam) = 2 * s * lam by linear_combination s * lam * hr2,
    abs_mul, abs_of_pos (by positivity : 0 < 2 * s)]
  have h1 : |lam| < 1 := (sq_lt_one_iff_abs_lt_one _).1 hl
  have h2 : lam ^ 2 = |lam| ^ 2 := (sq_abs lam).symm
  rw [h2]
  nlinarith [mul_pos hs (mul_self_pos.2 (by linarith : 1 - |lam| ≠ 0))]

/-- `η = y - λx` varies against `λx`. -/
theorem Lanc.eta_lt_iff {lam x y x' y' : ℝ} (h : Lanc lam x y) (h' : Lanc lam x' y') :
    y' - lam * x' < y - lam * x ↔ lam * x < lam * x' := by
  have e : ∀ {x y : ℝ}, Lanc lam x y → (y - lam * x) ^ 2 + 2 * (lam * x) * (y - lam * x) = 1 - lam ^ 2 := by
    intro x y h; linear_combination h.y_sq
  have h1 := e h
  have h2 := e h'
  have p1 := h.eta_pos
  have p2 := h'.eta_pos
  constructor
  · intro hlt
    by_contra hc
    push Not at hc
    have q : 0 < 1 - lam ^ 2 := by linarith [h.lam_lt]
    nlinarith [mul_pos p1 p2, mul_nonneg (sub_nonneg.2 hc) (mul_pos p1 p2).le,
      mul_pos (sub_pos.2 hlt) (mul_pos p1 p2), mul_pos (sub_pos.2 hlt) q]
  · intro hlt
    by_contra hc
    push Not at hc
    have q : 0 < 1 - lam ^ 2 := by linarith [h.lam_lt]
    nlinarith [mul_pos p1 p2, mul_nonneg (sub_nonneg.2 hc) (mul_pos p1 p2).le,
      mul_pos (sub_pos.2 hlt) (mul_pos p1 p2), mul_nonneg (sub_nonneg.2 hc) q.le]

theorem Lanc.k_lt_iff {lam x y x' y' : ℝ} (hl0 : lam ≠ 0) (h : Lanc lam x y) (h' : Lanc lam x' y') {s : ℝ}
    (hs : 0 < s) :
    (s * (1 + lam ^ 2) - s * (y - lam * x) ^ 2) / (Real.sqrt 2 * s * lam) <
      (s * (1 + lam ^ 2) - s * (y' - lam * x') ^ 2) / (Real.sqrt 2 * s * lam) ↔ x < x' := by
  have hr : 0 < Real.sqrt 2 := by positivity
  have p1 := h.eta_pos
  have p2 := h'.eta_pos
  have e : ∀ t : ℝ, (s * (1 + lam ^ 2) - s * t ^ 2) / (Real.sqrt 2 * s * lam) =
      ((1 + lam ^ 2) - t ^ 2) / lam / Real.sqrt 2 := by intro t; field_simp
  rw [e, e, div_lt_div_iff_of_pos_right hr]
  rcases lt_or_gt_of_ne hl0 with hneg | hpos
  · rw [div_lt_div_right_of_neg hneg]
    have := h'.eta_lt_iff h
    rw [mul_lt_mul_left_of_neg hneg, ← pow_lt_pow_iff_left₀ p1.le p2.le two_ne_zero] at this
    rw [← this]
    constructor <;> intro <;> linarith
  · rw [div_lt_div_iff_of_pos_right hpos]
    have := h.eta_lt_iff h'
    rw [mul_lt_mul_iff_right₀ hpos, ← pow_lt_pow_iff_left₀ p2.le p1.le two_ne_zero] at this
    rw [← this]
    constructor <;> intro <;> linarith

/-- The zero-revolution time decreases with the Lancaster variable. -/
theorem lancT_strictAnti {lam : ℝ} (hl : lam ^ 2 < 1) (hl0 : lam ≠ 0) :
    StrictAntiOn (fun x => lancT lam x (lancY lam x) 0) (Set.Ioi (-1)) := by
  intro x hx x' hx' hlt
  have hL := lanc_lancY hl x
  have hL' := lanc_lancY hl x'
  have h2 : (0 : ℝ) < 1 / 2 := by norm_num
  obtain ⟨T, hT, e⟩ := hL.path (M := 0) h2 one_pos hx (.inl rfl)
  obtain ⟨T', hT', e'⟩ := hL'.path (M := 0) h2 one_pos hx' (.inl rfl)
  have h1 : Real.sqrt (2 * (1 / 2) / 1 ^ 3) = 1 := by norm_num
  rw [h1, one_mul] at e e'
  have hA : Real.sqrt 2 * 1 * lam ≠ 0 := mul_ne_zero (by positivity) hl0
  have := (hT'.time_lt_iff h2 hA (lanc_geo hl one_pos) hT).2 ((hL.k_lt_iff hl0 hL' one_pos).2 hlt)
  rw [e, e'] at this
  exact this

/-- Every zero-revolution path comes from a Lancaster variable. -/
theorem LC.Path.lanc {μ s lam V T : ℝ} (hμ : 0 < μ) (hs : 0 < s) (hl : lam ^ 2 < 1) (hl0 : lam ≠ 0)
    (h : Path μ (s * (1 + lam ^ 2)) (Real.sqrt 2 * s * lam) 0 V T) :
    ∃ x, -1 < x ∧ V = s * (lancY lam x - lam * x) ^ 2 ∧
      T = Real.sqrt (s ^ 3 / (2 * μ)) * lancT lam x (lancY lam x) 0 := by
  have hV := h.V_pos
  obtain ⟨η, hη, hη2⟩ : ∃ η, 0 < η ∧ η ^ 2 = V / s := ⟨Real.sqrt (V / s), by positivity, Real.sq_sqrt (by positivity)⟩
  have hq : 0 < 1 - lam ^ 2 := by linarith
  obtain ⟨x, hx⟩ : ∃ x, x = ((1 - lam ^ 2) / η - η) / (2 * lam) := ⟨_, rfl⟩
  obtain ⟨y, hy⟩ : ∃ y, y = ((1 - lam ^ 2) / η + η) / 2 := ⟨_, rfl⟩
  have hy0 : 0 < y := by rw [hy]; positivity
  have hxl : lam * x = ((1 - lam ^ 2) / η - η) / 2 := by rw [hx]; field_simp
  have hprod : (y - lam * x) * (y + lam * x) = 1 - lam ^ 2 := by rw [hxl, hy]; field_simp; ring
  have hL : Lanc lam x y := ⟨hl, by linear_combination hprod, hy0⟩
  have hyl : y = lancY lam x := by
    unfold lancY; rw [← hL.y_sq, Real.sqrt_sq hy0.le]
  have hηx : y - lam * x = η := by rw [hxl, hy]; ring
  have hVx : V = s * (lancY lam x - lam * x) ^ 2 := by
    rw [← hyl, hηx, hη2]; field_simp
  have hr2 : Real.sqrt 2 ^ 2 = 2 := Real.sq_sqrt (by norm_num)
  have hA : Real.sqrt 2 * s * lam ≠ 0 := mul_ne_zero (by positivity) hl0
  have hx1 : -1 < x := by
    have hL1 : Lanc lam (-1) 1 := ⟨hl, by ring, one_pos⟩
    rw [← hL1.k_lt_iff hl0 hL hs, hyl, ← hVx]
    have e1 : (s * (1 + lam ^ 2) - s * (1 - lam * -1) ^ 2) / (Real.sqrt 2 * s * lam) = Real.sqrt 2 * -1 := by
      rw [div_eq_iff hA]; linear_combination (s * lam) * hr2
    rw [e1]
    have key : ∀ k : ℝ, V = s * (1 + lam ^ 2) - Real.sqrt 2 * (Real.sqrt 2 * s * lam) * k →
        (s * (1 + lam ^ 2) - V) / (Real.sqrt 2 * s * lam) = Real.sqrt 2 * k := by
      intro k hk
      rw [div_eq_iff hA, hk]; ring
    have hpi := Real.pi_pos
    have hr : 0 < Real.sqrt 2 := by positivity
    have hk : ∃ k, -1 < k ∧ V = s * (1 + lam ^ 2) - Real.sqrt 2 * (Real.sqrt 2 * s * lam) * k := by
      cases h with
      | ell h1 h2 hV0 hVe =>
        rename_i φ
        have h1 : 0 < φ := by simpa using h1
        have h2 : φ < Real.pi := by simpa using h2
        have := Real.strictAntiOn_cos ⟨h1.le, h2.le⟩ ⟨hpi.le, le_rfl⟩ h2
        rw [Real.cos_pi] at this
        exact ⟨Real.cos φ, this, by rw [hVe]; ring⟩
      | par hV0 hVe => exact ⟨1, by norm_num, by rw [hVe]; ring⟩
      | hyp hφ hV0 hVe =>
        rename_i φ
        exact ⟨Real.cosh φ, by linarith [Real.one_le_cosh φ], hVe⟩
    obtain ⟨k, hk1, hk2⟩ := hk
    rw [key k hk2]
    exact mul_lt_mul_of_pos_left hk1 hr
  refine ⟨x, hx1, hVx, ?_⟩
  obtain ⟨T', hT', e⟩ := hL.path (M := 0) hμ hs hx1 (.inl rfl)
  rw [hyl, ← hVx] at hT'
  have hg := lanc_geo hl hs
  have hTT : T = T' := by
    have h1 := h.time_lt_iff hμ hA hg hT'
    have h2 := hT'.time_lt_iff hμ hA hg h
    simp only [lt_irrefl, iff_false, not_lt] at h1 h2
    exact le_antisymm h2 h1
  rw [hTT, ← hyl, ← e, ← mul_assoc, ← Real.sqrt_mul (by positivity)]
  rw [show s ^ 3 / (2 * μ) * (2 * μ / s ^ 3) = 1 by field_simp, Real.sqrt_one, one_mul]

end Lamberthub
