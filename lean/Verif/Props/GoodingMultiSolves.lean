import Verif.Proofs.GoodingWell
import Verif.Props.GoodingMulti

/-!
# C77: `gooding1990` solves problems with many revolutions near their minimum time

The specification is `Spec.LambertArc`, `Spec.Feasible` and the energy: on the low path the transfer with the larger
energy of the two that exist.
-/

set_option autoImplicit false

namespace Lamberthub
open Filter Topology Spec LC

namespace Gooding

set_option maxHeartbeats 1600000 in
/-- `xlamb` slightly above the minimum time. -/
theorem xlamb_near {q m : ℝ} {M : ℕ} (hq : q ^ 2 < 1) (hM : 1 ≤ M) (hm : Fastest q M m) (hz : rev1 q M m = 0)
    (ha : 0 < rev2 q M m) :
    ∃ H0 : ℝ, 0 < H0 ∧ ∀ (atol rtol : ℝ), 0 < atol → 0 < rtol → ∀ n maxiter : ℕ, 1 ≤ atol * 2 ^ n → 1 ≤ rtol * 2 ^ n →
      n + 1 ≤ maxiter → ∀ x0 xm y num, xmStart M (arctan2 (1 - q ^ 2) (2.0 * q) / Real.pi) = .ok x0 →
      tminLoop M q (1 - q ^ 2) atol rtol maxiter 1 x0 = .ok (xm, 2 * revT q M y, 2 * rev2 q M y, num) → num + 1 ≠ maxiter →
      |xm - m| ≤ rtol + atol → |y - m| ≤ 2 * (rtol + atol) → ∀ (full : Bool) (clock τ : ℝ),
      revT q M m + 500 * rev2 q M m * (rtol + atol) ^ 2 ≤ τ → τ ≤ revT q M m + H0 →
      ∃ xl xr k tpi, xlamb M q (1 - q ^ 2) (2 * τ) maxiter atol rtol full clock = .ok (.five 2 xl xr (k + 1) tpi) ∧
        -1 < xl ∧ xl < m ∧ m < xr ∧ xr < 1 ∧ (revT q M xl - τ) ^ 2 ≤ 9 * rev2 q M m * atol ^ 2 * (τ - revT q M m) ∧
        (revT q M xr - τ) ^ 2 ≤ 9 * rev2 q M m * atol ^ 2 * (τ - revT q M m) := by
  obtain ⟨t0, t1⟩ := thr2_mem hq
  generalize hthr : arctan2 (1 - q ^ 2) (2.0 * q) / Real.pi = thr2 at t0 t1
  obtain ⟨v0, v1, hanti, hmono⟩ := hm.valley hq hM
  obtain ⟨ρ, hρ, p1, p2⟩ := time_parabola hq hm.mem.1 hm.mem.2 hz ha
  obtain ⟨b, hb⟩ : ∃ b, b = revT q M 0 - revT q M m := ⟨_, rfl⟩
  have hb0 : 0 < b := by
    have := hanti ⟨by norm_num, v0.le⟩ ⟨hm.mem.1, le_rfl⟩ v0
    linarith
  obtain ⟨a, hae⟩ : ∃ a, a = rev2 q M m := ⟨_, rfl⟩
  obtain ⟨B, hB⟩ : ∃ B, B = 2 * a / b + 4 / m ^ 2 := ⟨_, rfl⟩
  have hB0 : 0 < B := by rw [hB, hae]; positivity
  obtain ⟨ρ', hρ'⟩ : ∃ ρ', ρ' = min (min (ρ / 2) (m / 8)) (min (1 / 100) (1 / (100 * B))) := ⟨_, rfl⟩
  have hρ0 : 0 < ρ' := by rw [hρ']; positivity
  have r1 : ρ' ≤ ρ / 2 := by rw [hρ']; exact (min_le_left _ _).trans (min_le_left _ _)
  have r2 : ρ' ≤ m / 8 := by rw [hρ']; exact (min_le_left _ _).trans (min_le_right _ _)
  have r3 : ρ' ≤ 1 / 100 := by rw [hρ']; exact (min_le_right _ _).trans (min_le_left _ _)
  have r4 : ρ' ≤ 1 / (100 * B) := by rw [hρ']; exact (min_le_right _ _).trans (min_le_right _ _)
  rw [← hae] at ha
  refine ⟨min (a * ρ' ^ 2 / 4) (b / 2), by positivity,
    fun atol rtol hat hrt n maxiter hn hn' hmax x0 xm y num hx0 hl hne hxm hy full clock τ hτ1 hτ2 => ?_⟩
  obtain ⟨δ, hδ⟩ : ∃ δ, δ = rtol + atol := ⟨_, rfl⟩
  have hδ0 : 0 < δ := by linarith
  rw [← hδ] at hxm hy hτ1
  rw [← hae] at hτ1 ⊢
  obtain ⟨H, hH⟩ : ∃ H, H = τ - revT q M m := ⟨_, rfl⟩
  have hHδ : 500 * a * δ ^ 2 ≤ H := by linarith
  have hH0 : 0 < H := lt_of_lt_of_le (by positivity) hHδ
  have hH1 : H ≤ a * ρ' ^ 2 / 4 := by have := min_le_left (a * ρ' ^ 2 / 4) (b / 2); linarith
  have hH2 : H ≤ b / 2 := by have := min_le_right (a * ρ' ^ 2 / 4) (b / 2); linarith
  have hτ : revT q M m + H = τ := by linarith
  rw [← hH]
  -- what both sides share
  have common : ∀ σ : ℝ, |σ| = 1 → ∃ R, 0 < R ∧ R ≤ ρ' ∧ revT q M (m + σ * R) = τ ∧ δ ≤ R / 30 ∧
      |2 * τ - 2 * revT q M y - a * R ^ 2| ≤ a * R ^ 2 / 50 ∧ |rev2 q M y - a| ≤ a / 1000 ∧ revT q M y ≤ revT q M m + H ∧
      ∀ xs, |xs - (m + σ * R)| ≤ R / 2 → ∀ xold, ∃ x k, xlambIter M q (1 - q ^ 2) (2 * τ) atol rtol maxiter maxiter 1 xs xold =
        .ok (x, k + 1) ∧ |x - (m + σ * R)| ≤ R / 2 ∧ -1 < x ∧ x < 1 ∧ (revT q M x - τ) ^ 2 ≤ 9 * a * atol ^ 2 * H := by
    intro σ hσ
    obtain ⟨R, hR0, hR1, hRt, hR2⟩ := root_near hq (by rw [← hae]; exact ha) hρ0 (by linarith : ρ' ≤ ρ)
      (fun x hx => ⟨(p1 x hx).1, (p1 x hx).2.1⟩) p2 hσ hH0 (by rw [← hae]; exact hH1)
    rw [← hae] at hR2
    rw [hτ] at hRt
    have haR : 0 < a * R ^ 2 := by positivity
    obtain ⟨g1, g2⟩ := abs_le.1 hR2
    have hδR : δ ≤ R / 30 := by
      by_contra hcon
      push Not at hcon
      have : (R / 30) ^ 2 < δ ^ 2 := pow_lt_pow_left₀ hcon (by positivity) (by norm_num)
      have h3 := mul_lt_mul_of_pos_left this ha
      linarith
    have hyρ : |y - m| ≤ ρ := by linarith
    have hy2 := (p1 y hyρ).2.2.1
    rw [← hae] at hy2
    have hTy := p2 y m (R / 15) (by linarith) (by linarith) (by rw [sub_self, abs_zero]; positivity)
    rw [sub_self, ← hae] at hTy
    have hysq : (y - m) ^ 2 ≤ (R / 15) ^ 2 := by
      rw [← sq_abs (y - m)]; exact pow_le_pow_left₀ (abs_nonneg _) (by linarith) 2
    have hysq0 := sq_nonneg (y - m)
    have hTy1 : revT q M y - revT q M m ≤ a * R ^ 2 / 400 := by
      have h3 := (abs_le.1 hTy).2
      have h4 : 1 / 1000 * a * (R / 15) * |y - m| ≤ 1 / 1000 * a * (R / 15) * (R / 15) := by gcongr; linarith
      have h5 := mul_le_mul_of_nonneg_left hysq ha.le
      linarith
    have hTy0 : revT q M m ≤ revT q M y := hm.least y ⟨(p1 y hyρ).1, (p1 y hyρ).2.1⟩
    have hrm : m + σ * R - m = σ * R := by ring
    have habs : |m + σ * R - m| = R := by rw [hrm, abs_mul, hσ, one_mul, abs_of_pos hR0]
    refine ⟨R, hR0, hR1, hRt, hδR, ?_, by linarith, by linarith, fun xs hxs xold => ?_⟩
    · rw [abs_le]; constructor <;> linarith
    have hstep : ∀ x, |x - (m + σ * R)| ≤ R / 2 → rev1 q M x ≠ 0 ∧
        rev1 q M x ^ 2 + (τ - revT q M x) * rev2 q M x / 2 ≠ 0 ∧ |nextM q M τ x - (m + σ * R)| ≤ |x - (m + σ * R)| / 2 ∧
        |revT q M x - τ| ≤ 2 * a * R * |x - (m + σ * R)| := by
      intro x hx
      have := step_root (by rw [← hae]; exact ha) (fun x hx => (p1 x hx).2.2) p2 (r := m + σ * R) (x := x)
        (fun h => by rw [h, sub_self, abs_zero] at habs; linarith) (by rw [habs]; linarith) (by rw [habs]; exact hx)
      rwa [hRt, ← hae, habs] at this
    have hσ1 := abs_le.1 hσ.le
    have hdom : ∀ x, |x - (m + σ * R)| ≤ R / 2 → m / 4 ≤ x ∧ x < 1 := by
      intro x hx
      obtain ⟨c1, c2⟩ := abs_le.1 hx
      have c3 : -R ≤ σ * R := by have := mul_le_mul_of_nonneg_right hσ1.1 hR0.le; linarith
      have c4 : σ * R ≤ R := by have := mul_le_mul_of_nonneg_right hσ1.2 hR0.le; linarith
      constructor <;> linarith
    have hpn : (0 : ℝ) < 2 ^ n := by positivity
    have hmn : m / 4 ≤ rtol * (m / 4) * 2 ^ n := by
      have := mul_le_mul_of_nonneg_left hn' (show 0 ≤ m / 4 by positivity); linarith
    obtain ⟨x, k, hx, hx1, hx2⟩ := loop_rev hM hq (show 0 < m / 4 by positivity) hdom
      (fun x hx => ⟨(hstep x hx).1, (hstep x hx).2.1, (hstep x hx).2.2.1⟩) hat hrt maxiter n maxiter 0 xs xold hxs
      (by linarith) (by linarith) hmax
    obtain ⟨d1, d2⟩ := hdom x hx1
    refine ⟨x, k, hx, hx1, by linarith, d2, ?_⟩
    have h3 := (hstep x hx1).2.2.2
    have h4 : |revT q M x - τ| ≤ 2 * a * R * atol := h3.trans (by gcongr)
    have h5 : (revT q M x - τ) ^ 2 ≤ (2 * a * R * atol) ^ 2 := by
      rw [← sq_abs (revT q M x - τ)]; exact pow_le_pow_left₀ (abs_nonneg _) h4 2
    have h6 : a * R ^ 2 ≤ 9 / 4 * H := by linarith
    have h7 : 0 ≤ 4 * a * atol ^ 2 := by positivity
    have h8 := mul_le_mul_of_nonneg_left h6 h7
    calc _ ≤ _ := h5
      _ = 4 * a * atol ^ 2 * (a * R ^ 2) := by ring
      _ ≤ _ := h8
      _ = _ := by ring
  obtain ⟨R, hR0, hR1, hRt, hδR, hA, hd, hTy, hrun⟩ := common 1 (by norm_num)
  obtain ⟨L, hL0, hL1, hLt, hδL, hA', -, -, hrun'⟩ := common (-1) (by norm_num)
  obtain ⟨xs, hxs, hxs'⟩ := firstStart_close (M := M) (thr2 := thr2) (d2t := 2 * rev2 q M y) t0 t1 ha v0 v1 hR0 (by linarith)
    (by linarith) hA (by rw [mul_div_cancel_left₀ _ two_ne_zero]; exact hd) (hxm.trans hδR)
  obtain ⟨xr, kr, hxr, hxr1, hxr2, hxr3, hxr4⟩ := hrun xs (by rw [one_mul]; exact hxs') xs
  have hxs1 : xs < 1 := by have := (abs_le.1 hxs').2; linarith
  have hBL : L ^ 2 * (2 * a / b + 4 / m ^ 2) ≤ 1 / 100 := by
    rw [← hB]
    have h3 : L * B ≤ 1 / 100 := by
      have := mul_le_mul_of_nonneg_right (hL1.trans r4) hB0.le
      have e : 1 / (100 * B) * B = 1 / 100 := by field_simp
      rwa [e] at this
    have h4 : L * (L * B) ≤ 1 * (1 / 100) := mul_le_mul (by linarith) h3 (by positivity) (by norm_num)
    linarith
  obtain ⟨xs2, hs2, hs2'⟩ := secondStart_close (q := q) (τ := τ) (thr2 := thr2) (xpl := xr) (n := 2) (Ty := revT q M y)
    (b := b) (d2 := rev2 q M y) hq hM ha v0 hL0 (by linarith) hA' hd (hxm.trans hδL) hb0 (by linarith) (by linarith) hBL
  obtain ⟨xl, kl, hxl, hxl1, hxl2, hxl3, hxl4⟩ := hrun' xs2 (by rw [show m + -1 * L = m - L by ring]; exact hs2') xs2
  obtain ⟨c1, c2⟩ := abs_le.1 hxr1
  obtain ⟨c3, c4⟩ := abs_le.1 hxl1
  have hTd : 2 * τ - 2 * revT q M y > 0 := by
    have := (abs_le.1 hA).1
    have : 0 < a * R ^ 2 := by positivity
    linarith
  have hy2 : 0 < rev2 q M y := by have := (abs_le.1 hd).1; linarith
  obtain ⟨tpi, htpi⟩ : ∃ tpi, finish M q (1 - q ^ 2) (2 * τ) maxiter atol rtol full clock 2 xs2 xr =
      .ok (.five 2 xl xr (kl + 1) tpi) := by
    rw [finish, hxl, ok_bind]
    cases full
    · exact ⟨0.0, rfl⟩
    · refine ⟨clock / ((kl + 1 : ℕ) : ℝ), ?_⟩
      simp only [if_true]
      rw [pdiv_eq (by positivity), ok_bind]
  refine ⟨xl, xr, kl, tpi, ?_, hxl2, by linarith, by linarith, hxr3, hxl4, hxr4⟩
  have hm0 : (M : ℤ) ≠ 0 := by omega
  unfold xlamb xlambMulti
  simp only []
  rw [if_neg hm0, hthr, hx0, ok_bind, hl, ok_bind]
  simp only []
  rw [raiseIf_neg _ hne, ok_bind, raiseIf_neg _ (by linarith), ok_bind, if_neg (by linarith),
    if_neg (by linarith : ¬ 2 * rev2 q M y = 0), hxs, ok_bind, if_neg (by norm_num; exact hxs1), hxr, ok_bind]
  simp only []
  rw [show 2 * rev2 q M y / 2.0 = rev2 q M y by norm_num, hs2, ok_bind]
  exact htpi

end Gooding

open Gooding in
/-- **C77.**  For every geometry there is a number of revolutions from which on `gooding1990` solves, on both
paths, all problems whose time exceeds the smallest feasible one `T₀` by more than the tolerances and by less than a
bound `ε` that does not depend on the tolerances: the velocities returned belong to a transfer with that
number of revolutions whose time `T` is the requested one up to `atol · √(60 π M (tof - T₀))` time units, and of all
transfers with the time `T` it is the one with the largest energy on the low path, the smallest on the high path.  Missing: fewer revolutions and
times farther from `T₀`. -/
theorem gooding_multi_solved_partial {mu : ℝ} (hmu : 0 < mu) {r1 r2 : V3} (hnp : NotPolar r1 r2) (pro : Bool) :
    ∃ M0 : ℕ, ∀ M : ℕ, M0 ≤ M → ∃ T0 ε : ℝ, 0 < ε ∧ IsLeast {T | Feasible mu r1 r2 pro T M} T0 ∧
      ∀ atol rtol : ℝ, 0 < atol → 0 < rtol → ∀ n maxiter : ℕ, 1 ≤ atol * 2 ^ n → 1 ≤ rtol * 2 ^ n → n + 3 ≤ maxiter →
      ∀ (low full : Bool) (clock tof : ℝ),
        T0 + 3000 * Real.pi * M * (rtol + atol) ^ 2 * timeUnit mu r1 r2 ≤ tof → tof ≤ T0 + ε → ∃ v1 v2 k tpi T,
        gooding1990 mu r1 r2 tof M pro low maxiter atol rtol full clock = .ok (mkOutput full v1 v2 k tpi) ∧
        LambertArc mu r1 r2 v1 v2 T M ∧ Sense pro r1 v1 ∧
        (T - tof) ^ 2 ≤ 60 * Real.pi * M * atol ^ 2 * timeUnit mu r1 r2 * (tof - T0) ∧
        ∀ w1 w2, LambertArc mu r1 r2 w1 w2 T M → Sense pro r1 w1 →
          (low = true → energy mu r1 w1 ≤ energy mu r1 v1) ∧ (low = false → energy mu r1 v1 ≤ energy mu r1 w1) := by
  have hna : NotAligned r1 r2 := fun h => hnp h.2.2
  obtain ⟨s, q, hS, hG, hqs, -⟩ := gooding_eq (tof := 1) (M := 0) pro true 1 1 1 1 true hna hmu one_pos
  have hs := hS.spos
  have hq := hS.lam_lt
  have hq0 : q ≠ 0 := by rintro rfl; exact hG.hA (by ring)
  have hU : 0 < Real.sqrt (s ^ 3 / (2 * mu)) := by positivity
  have hUt := Der.unit_eq (mu := mu) hS
  have hinv : Real.sqrt (2 * mu / s ^ 3) = (Real.sqrt (s ^ 3 / (2 * mu)))⁻¹ := by rw [← Real.sqrt_inv, inv_div]
  have h8 : Real.sqrt (8 * mu / s ^ 3) = 2 * (Real.sqrt (s ^ 3 / (2 * mu)))⁻¹ := by
    rw [show 8 * mu / s ^ 3 = 2 ^ 2 * (2 * mu / s ^ 3) by ring, Real.sqrt_mul (by norm_num), Real.sqrt_sq (by norm_num), hinv]
  rw [hUt]
  generalize hUe : Real.sqrt (s ^ 3 / (2 * mu)) = U at *
  obtain ⟨M0, hM0, hsearch⟩ := search_many hq
  refine ⟨M0, fun M hM => ?_⟩
  have hM' : 1 ≤ M := hM0.trans hM
  have hMp : (0 : ℝ) < M := by exact_mod_cast hM'
  obtain ⟨m, hm⟩ := exists_fastest hq hM'
  obtain ⟨hz, ha, haM, hsr⟩ := hsearch M hM m hm
  obtain ⟨H0, hH0, hnear⟩ := xlamb_near hq hM' hm hz ha
  have hf := fun T => feasible_iff hmu hnp hS hq0 hqs hM' hm T
  simp only [hinv] at hf
  refine ⟨U * revT q M m, U * H0, by positivity, ⟨?_, ?_⟩,
    fun atol rtol hat hrt n maxiter hn hn' hmax low full clock tof ht1 ht2 => ?_⟩
  · change Feasible mu r1 r2 pro _ M
    rw [hf, inv_mul_cancel_left₀ hU.ne']
  · intro T hT
    have := (hf T).1 hT
    rw [inv_mul_eq_div, le_div_iff₀ hU] at this
    linarith
  have hT0 : 0 < revT q M m := by
    have h1 := revT_gt hq hm.mem.1 hm.mem.2 M
    have h2 : 0 < (M : ℝ) * Real.pi := by have := Real.pi_pos; positivity
    linarith
  have htof : 0 < tof := by
    have h1 : 0 ≤ 3000 * Real.pi * M * (rtol + atol) ^ 2 * U := by have := Real.pi_pos; positivity
    have h2 := mul_pos hU hT0
    linarith
  obtain ⟨x0, xm, y, num, hx0, hl, hne, hxm, hy, -⟩ := hsr atol rtol hat hrt.le n maxiter hn hmax
  obtain ⟨τ, hτ⟩ : ∃ τ, τ = tof / U := ⟨_, rfl⟩
  have htofU : tof = U * τ := by rw [hτ]; field_simp
  obtain ⟨xl, xr, k, tpi, hx, l1, l2, l3, l4, l5, l6⟩ := hnear atol rtol hat hrt n maxiter hn hn' (by omega) x0 xm y num hx0 hl hne
    hxm hy full clock τ (by
      rw [hτ, le_div_iff₀ hU]
      have h1 : rev2 q M m * ((rtol + atol) ^ 2 * U) ≤ 6 * Real.pi * M * ((rtol + atol) ^ 2 * U) :=
        mul_le_mul_of_nonneg_right haM (by positivity)
      nlinarith) (by rw [hτ, div_le_iff₀ hU]; linarith)
  obtain ⟨s', q', hS', hG', hqs', heq⟩ := gooding_eq (M := M) pro low maxiter atol rtol clock full hna hmu htof
  obtain ⟨e1, e2⟩ := semi_unique hS hS' hq0 (hqs.trans hqs'.symm)
  rw [e1, e2, h8, show 2 * U⁻¹ * tof = 2 * τ by rw [hτ]; ring, hx, ok_bind] at heq
  simp only [] at heq
  obtain ⟨x, hxe⟩ : ∃ x, x = selectRoot low 2 xl xr := ⟨_, rfl⟩
  rw [← hxe] at heq
  have hside : (low = true → x = xr) ∧ (low = false → x = xl) := by
    rw [hxe, selectRoot, if_pos (by norm_num)]
    constructor
    · rintro rfl; rw [if_pos rfl, max_eq_right (by linarith)]
    · rintro rfl; rw [if_neg (by norm_num), min_eq_left (by linarith)]
  have hxd : -1 < x ∧ x < 1 ∧ (revT q M x - τ) ^ 2 ≤ 9 * rev2 q M m * atol ^ 2 * (τ - revT q M m) := by
    cases low
    · rw [hside.2 rfl]; exact ⟨l1, by linarith, l5⟩
    · rw [hside.1 rfl]; exact ⟨by linarith, l4, l6⟩
  obtain ⟨s'', q'', hS'', hq0'', hqs'', hG'', harc⟩ := rev_arcs hmu hnp pro
  obtain ⟨e3, e4⟩ := semi_unique hS hS'' hq0 (hqs.trans hqs''.symm)
  rw [e3, e4] at harc
  rw [hUe] at harc
  obtain ⟨hA, hSn⟩ := (harc hM' (U * revT q M x) (revV mu r1 r2 s q x)).2 ⟨x, hxd.1, hxd.2.1, rfl, rfl⟩
  refine ⟨(revV mu r1 r2 s q x).1, (revV mu r1 r2 s q x).2, k + 1, tpi, _, heq, hA, hSn, ?_, fun w1 w2 hw hsw => ?_⟩
  · have hge : 0 ≤ τ - revT q M m := by
      by_contra hcon
      push Not at hcon
      have h3 : 0 < 9 * rev2 q M m * atol ^ 2 := by positivity
      have := mul_neg_of_pos_of_neg h3 hcon
      nlinarith [sq_nonneg (revT q M x - τ), hxd.2.2]
    have h1 : 9 * rev2 q M m * atol ^ 2 * (τ - revT q M m) ≤ 60 * Real.pi * M * atol ^ 2 * (τ - revT q M m) := by
      have hpiM : 0 < Real.pi * M := mul_pos Real.pi_pos hMp
      have h9 : 9 * rev2 q M m ≤ 60 * Real.pi * M := by linarith
      exact mul_le_mul_of_nonneg_right (mul_le_mul_of_nonneg_right h9 (sq_nonneg atol)) hge
    have h2 : (U * revT q M x - tof) ^ 2 = U ^ 2 * (revT q M x - τ) ^ 2 := by rw [htofU]; ring
    rw [h2]
    calc _ ≤ U ^ 2 * (60 * Real.pi * M * atol ^ 2 * (τ - revT q M m)) :=
          mul_le_mul_of_nonneg_left (hxd.2.2.trans h1) (by positivity)
      _ = _ := by rw [htofU]; ring
  · obtain ⟨k1, k2⟩ := side_energy hmu hnp hM' hS hG hqs hm hxd.1 hxd.2.1 (by rw [hUe]) hw hsw
    refine ⟨fun h => k1 ?_, fun h => k2 ?_⟩
    · rw [hside.1 h]; exact l3.le
    · rw [hside.2 h]; exact l2.le

/-- A quarter turn: for every large number of revolutions there are tolerances and a time that meet the hypotheses. -/
example : ∃ M0 : ℕ, ∀ M : ℕ, M0 ≤ M → ∃ atol rtol : ℝ, ∃ maxiter : ℕ, ∃ tof v1 v2 k tpi T, 0 < atol ∧ 0 < rtol ∧
    gooding1990 1 ⟨1, 0, 0⟩ ⟨0, 1, 0⟩ tof M true true maxiter atol rtol false 1 = .ok (mkOutput false v1 v2 k tpi) ∧
    LambertArc 1 ⟨1, 0, 0⟩ ⟨0, 1, 0⟩ v1 v2 T M := by
  obtain ⟨M0, h⟩ := gooding_multi_solved_partial one_pos (r1 := ⟨1, 0, 0⟩) (r2 := ⟨0, 1, 0⟩) (by simp [NotPolar]) true
  refine ⟨M0, fun M hM => ?_⟩
  obtain ⟨T0, ε, hε, -, h⟩ := h M hM
  obtain ⟨C, hC⟩ : ∃ C, C = 3000 * Real.pi * M * timeUnit 1 ⟨1, 0, 0⟩ ⟨0, 1, 0⟩ := ⟨_, rfl⟩
  have hlim : Tendsto (fun t : ℝ => C * (t + t) ^ 2) (𝓝[>] 0) (𝓝 0) := by
    have hc : Continuous fun t : ℝ => C * (t + t) ^ 2 := by fun_prop
    have := hc.tendsto 0
    rw [add_zero, zero_pow two_ne_zero, mul_zero] at this
    exact this.mono_left nhdsWithin_le_nhds
  obtain ⟨t, ht, ht0⟩ := ((hlim.eventually (gt_mem_nhds hε)).and self_mem_nhdsWithin).exists
  have ht0' : (0 : ℝ) < t := ht0
  obtain ⟨n, hn⟩ := pow_unbounded_of_one_lt (1 / t) (by norm_num : (1 : ℝ) < 2)
  have hn' : 1 ≤ t * 2 ^ n := by rw [div_lt_iff₀ ht0'] at hn; linarith
  obtain ⟨v1, v2, k, tpi, T, e, hA, -⟩ := h t t ht0' ht0' n (n + 3) hn' hn' le_rfl true false 1 (T0 + ε)
    (by rw [hC] at ht; nlinarith) le_rfl
  exact ⟨t, t, n + 3, T0 + ε, v1, v2, k, tpi, T, ht0', ht0', e, hA⟩

end Lamberthub
