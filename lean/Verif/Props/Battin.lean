import Verif.Proofs.BattinLemmas
import Verif.Proofs.PForm
import Verif.Proofs.PolarForm
import Verif.Proofs.AssertLemmas
import Verif.Proofs.Conserved
import Verif.Props.Angles
import Verif.Props.Der

/-! # C27 and C43: what `battin1984` returns -/

set_option autoImplicit false

namespace Lamberthub
open Spec LC

namespace Battin

/-- The value of `xi` computed by the code. -/
theorem xiAt_eq {x : ℝ} (hx : -1 < x) (levels : ℕ) :
    xiAt x levels = .ok (8 * (Real.sqrt (1 + x) + 1) /
      (3 + 1 / (5 + x / (Real.sqrt (1 + x) + 1) ^ 2 + 9 * (x / (Real.sqrt (1 + x) + 1) ^ 2) / 7 * 1))) ∧
    19 / 8 * (Real.sqrt (1 + x) + 1) ≤ 8 * (Real.sqrt (1 + x) + 1) /
      (3 + 1 / (5 + x / (Real.sqrt (1 + x) + 1) ^ 2 + 9 * (x / (Real.sqrt (1 + x) + 1) ^ 2) / 7 * 1)) := by
  have h1 : 0 ≤ 1 + x := by linarith
  have hr : 0 < Real.sqrt (1 + x) := Real.sqrt_pos.2 (by linarith)
  have hr2 : Real.sqrt (1 + x) ^ 2 = 1 + x := Real.sq_sqrt h1
  have he : -1 < x / (Real.sqrt (1 + x) + 1) ^ 2 := by
    rw [lt_div_iff₀ (by positivity)]; nlinarith
  unfold xiAt
  rw [psqrt_eq h1, ok_bind, pdiv_eq (by positivity), ok_bind, xiLoop_eq, ok_bind]
  generalize Real.sqrt (1 + x) = r at *
  generalize x / (r + 1) ^ 2 = η at *
  have hD : 19 / 7 < 5 + η + 9 * η / 7 * 1 := by linarith
  generalize 5 + η + 9 * η / 7 * 1 = D at *
  have hD0 : 0 < D := by linarith
  rw [pdiv_eq hD0.ne', ok_bind, pdiv_eq (by positivity)]
  refine ⟨rfl, ?_⟩
  have hD1 : 1 / D ≤ 7 / 19 := by rw [div_le_iff₀ hD0]; linarith
  rw [le_div_iff₀ (by positivity)]
  nlinarith

theorem h1_nonneg {x ll m h1 h2 : ℝ} (hx : -1 < x) (hl : 0 < 1 + 2 * x + ll)
    (h : hCoefficients x ll m = .ok (h1, h2)) : 0 ≤ h1 := by
  obtain ⟨hxi, hb⟩ := xiAt_eq hx 125
  unfold hCoefficients at h
  rw [hxi, ok_bind] at h
  simp only [bind_ok, pdiv_ok] at h
  obtain ⟨_, ⟨-, rfl⟩, _, ⟨-, rfl⟩, h⟩ := h
  simp only [Except.ok.injEq, Prod.mk.injEq] at h
  obtain ⟨rfl, -⟩ := h
  generalize 8 * (Real.sqrt (1 + x) + 1) /
      (3 + 1 / (5 + x / (Real.sqrt (1 + x) + 1) ^ 2 + 9 * (x / (Real.sqrt (1 + x) + 1) ^ 2) / 7 * 1)) = xi at *
  have hr : 0 < Real.sqrt (1 + x) := Real.sqrt_pos.2 (by linarith)
  have hr2 : x = Real.sqrt (1 + x) ^ 2 - 1 := by rw [Real.sq_sqrt (by linarith)]; ring
  generalize Real.sqrt (1 + x) = r at *
  subst hr2
  have ha : 0 < 4 * (r ^ 2 - 1) + xi * (3 + (r ^ 2 - 1)) := by
    have : 19 / 8 * (r + 1) * (3 + (r ^ 2 - 1)) ≤ xi * (3 + (r ^ 2 - 1)) :=
      mul_le_mul_of_nonneg_right hb (by nlinarith)
    nlinarith [mul_pos hr hr, mul_pos hr (mul_pos hr hr)]
  have hc : 0 ≤ 1 + 3 * (r ^ 2 - 1) + xi := by nlinarith
  positivity

theorem h_some {x ll m : ℝ} (hx : -1 < x) (hl : 0 < 1 + 2 * x + ll) : ∃ h1 h2 xi d, hCoefficients x ll m = .ok (h1, h2) ∧
    0 < d ∧ 0 < xi ∧ h2 = m * (x - ll + xi) / d := by
  obtain ⟨hxi, hb⟩ := xiAt_eq hx 125
  unfold hCoefficients
  rw [hxi, ok_bind]
  generalize 8 * (Real.sqrt (1 + x) + 1) /
      (3 + 1 / (5 + x / (Real.sqrt (1 + x) + 1) ^ 2 + 9 * (x / (Real.sqrt (1 + x) + 1) ^ 2) / 7 * 1)) = xi at *
  have hr : 0 < Real.sqrt (1 + x) := Real.sqrt_pos.2 (by linarith)
  have hr2 : Real.sqrt (1 + x) ^ 2 = 1 + x := Real.sq_sqrt (by linarith)
  generalize Real.sqrt (1 + x) = r at *
  have ha : 0 < 4 * x + xi * (3 + x) := by
    have : 19 / 8 * (r + 1) * (3 + x) ≤ xi * (3 + x) :=
      mul_le_mul_of_nonneg_right hb (by nlinarith)
    nlinarith [mul_pos hr hr, mul_pos hr (mul_pos hr hr)]
  have hd : 0 < (1 + 2 * x + ll) * (4 * x + xi * (3 + x)) := by positivity
  simp only []
  rw [pdiv_eq hd.ne', ok_bind, pdiv_eq hd.ne', ok_bind]
  exact ⟨_, _, xi, _, rfl, hd, by nlinarith, rfl⟩

theorem uAtH_le {h1 h2 u : ℝ} (h : uAtH h1 h2 = .ok u) : u ≤ 1 := by
  unfold uAtH uAtB at h
  simp only [bind_ok, psqrt_ok, pdiv_ok] at h
  obtain ⟨B, -, _, ⟨hB, rfl⟩, hne, rfl⟩ := h
  have hr := Real.sqrt_nonneg (1 + B)
  have hr2 : B = Real.sqrt (1 + B) ^ 2 - 1 := by rw [Real.sq_sqrt hB]; ring
  rw [div_le_one (by positivity)]
  nlinarith

theorem second_pos {u h1 h2 y : ℝ} (hu : u ≤ 1) (h1' : 0 ≤ h1) (h : secondEquation u h1 h2 = .ok y) : 0 < y := by
  unfold secondEquation at h
  simp only [bind_ok, psqrt_ok, pdiv_ok] at h
  obtain ⟨B, -, K, hK, _, ⟨-, rfl⟩, _, ⟨-, rfl⟩, h⟩ := h
  obtain ⟨hK0, hK1⟩ := KAt_bounds hu hK
  rw [← Except.ok.inj h]
  have : 0 < 1 - 2 * u * K := by nlinarith
  have : 0 ≤ Real.sqrt (B + 1) / (1 - 2 * u * K) := div_nonneg (Real.sqrt_nonneg _) this.le
  positivity

theorem first_ok {y ll m x : ℝ} (hm : 0 < m) (hy : 0 < y) (h : firstEquation y ll m = .ok x) :
    -1 < x ∧ 0 < x + ll ∧ (x + ll) * (1 + x) = m / y ^ 2 := by
  unfold firstEquation at h
  simp only [bind_ok, psqrt_ok, pdiv_ok] at h
  obtain ⟨_, ⟨-, rfl⟩, _, ⟨hp, rfl⟩, h⟩ := h
  have hx := Except.ok.inj h
  have hq : 0 < m / y ^ 2 := by positivity
  have hs : Real.sqrt (((1 - ll) / 2) ^ 2 + m / y ^ 2) ^ 2 = ((1 - ll) / 2) ^ 2 + m / y ^ 2 := Real.sq_sqrt hp
  have hs0 := Real.sqrt_nonneg (((1 - ll) / 2) ^ 2 + m / y ^ 2)
  generalize Real.sqrt (((1 - ll) / 2) ^ 2 + m / y ^ 2) = R at *
  generalize m / y ^ 2 = q at *
  have h1 : |(1 - ll) / 2| < R := abs_lt_of_sq_lt_sq (by linarith) hs0
  have h2 := abs_lt.1 h1
  refine ⟨by linarith, by linarith, ?_⟩
  rw [← hx]
  linear_combination hs

theorem loop_ok {ll m atol : ℝ} (hm : 0 < m) : ∀ (rem k : ℕ) {x0 x y : ℝ} {n : ℕ}, -1 < x0 → 0 < 1 + 2 * x0 + ll →
    loop ll m atol rem k x0 = .ok (x, y, n) →
    k ≤ n ∧ n < k + rem ∧ 0 < y ∧ -1 < x ∧ 0 < x + ll ∧ (x + ll) * (1 + x) = m / y ^ 2
  | 0, k, x0, x, y, n, _, _, h => by simp [loop] at h
  | rem + 1, k, x0, x, y, n, h0, hl, h => by
    rw [loop] at h
    simp only [bind_ok] at h
    obtain ⟨⟨h1, h2⟩, hh, u, hu, y', hy, x', hx, h⟩ := h
    have hh1 := h1_nonneg h0 hl hh
    have hy0 := second_pos (uAtH_le hu) hh1 hy
    obtain ⟨a, b, c⟩ := first_ok hm hy0 hx
    split at h
    · simp only [Except.ok.injEq, Prod.mk.injEq] at h
      obtain ⟨rfl, rfl, rfl⟩ := h
      exact ⟨le_rfl, by omega, hy0, a, b, c⟩
    · obtain ⟨e1, e2, e3⟩ := loop_ok hm rem (k + 1) a (by linarith) h
      exact ⟨by omega, by omega, e3⟩

theorem getLambda_ok {c s θ lam : ℝ} (hs : 0 < s) (hc : 0 < c) (h : getLambda c s θ = .ok lam) :
    lam ^ 2 = (s - c) / s ∧ lam ^ 2 < 1 ∧ (0 < lam → θ < Real.pi) ∧ (lam < 0 → ¬ θ < Real.pi) := by
  unfold getLambda at h
  simp only [bind_ok, psqrt_ok, pdiv_ok] at h
  obtain ⟨_, ⟨hp, rfl⟩, _, ⟨-, rfl⟩, h⟩ := h
  have hl := Except.ok.inj h
  have hsq : lam ^ 2 = (s - c) / s := by
    have : lam ^ 2 = (Real.sqrt (s * (s - c)) / s) ^ 2 := by
      rw [← hl]; split <;> simp
    rw [this, div_pow, Real.sq_sqrt hp]; field_simp
  have h0 := abs_nonneg (Real.sqrt (s * (s - c)) / s)
  refine ⟨hsq, by rw [hsq, div_lt_one hs]; linarith, fun h1 => ?_, fun h1 h2 => ?_⟩
  · by_contra h2
    rw [if_neg h2] at hl
    linarith
  · rw [if_pos h2] at hl
    linarith

/-- The variable of Battin's equations describes a zero-revolution path. -/
theorem path {mu P A x : ℝ} (hx : -1 < x) (hV : 0 < P - Real.sqrt 2 * A * ((1 - x) / (1 + x))) :
    ∃ T, Path mu P A 0 (P - Real.sqrt 2 * A * ((1 - x) / (1 + x))) T := by
  have h1 : 0 < 1 + x := by linarith
  rcases lt_trichotomy x 0 with h0 | h0 | h0
  · have hc : 1 < (1 - x) / (1 + x) := by rw [lt_div_iff₀ h1]; linarith
    refine ⟨_, Path.hyp (Real.arcosh_pos hc) hV ?_⟩
    rw [Real.cosh_arcosh hc.le]
  · subst h0
    exact ⟨_, Path.par hV (by norm_num)⟩
  · have hc : (1 - x) / (1 + x) < 1 := by rw [div_lt_one h1]; linarith
    have hc' : -1 < (1 - x) / (1 + x) := by rw [lt_div_iff₀ h1]; linarith
    have hφ1 : Real.arccos ((1 - x) / (1 + x)) < Real.pi :=
      lt_of_le_of_ne (Real.arccos_le_pi _) (fun h => by rw [Real.arccos_eq_pi] at h; linarith)
    have hφ0 := Real.arccos_pos.2 hc
    refine ⟨_, Path.ell (M := 0) (φ := Real.arccos ((1 - x) / (1 + x))) (by simpa using hc) (by simpa using hφ1) hV ?_⟩
    rw [Real.cos_arccos hc'.le hc.le]; ring

/-- Unfolding a successful run. -/
theorem ok_split {mu : ℝ} {r1 r2 : V3} {tof : ℝ} {M : ℤ} {pro low : Bool} {maxiter : ℕ} {atol rtol : ℝ}
    {full : Bool} {clock : ℝ} {out : Output}
    (h : battin1984 mu r1 r2 tof M pro low maxiter atol rtol full clock = .ok out) :
    0 < mu ∧ 0 < tof ∧ 0 ≤ M ∧ 0 < V3.norm r1 ∧ 0 < V3.norm (r2 - r1) ∧ ∃ θ s lam ll m x y n tpi v1 v2,
      getTransferAngle r1 r2 pro = .ok θ ∧ s = (V3.norm r1 + V3.norm r2 + V3.norm (r2 - r1)) / 2 ∧
      getLambda (V3.norm (r2 - r1)) s θ = .ok lam ∧ -1 < lam ∧ lam < 1 ∧ ll = ((1 - lam) / (1 + lam)) ^ 2 ∧
      m = 8 * mu * tof ^ 2 / (s ^ 3 * (1 + lam) ^ 6) ∧ 0 < m ∧ 1 ≤ n ∧ n ≤ maxiter ∧
      0 < y ∧ -1 < x ∧ 0 < x + ll ∧ (x + ll) * (1 + x) = m / y ^ 2 ∧
      velocities r1 r2 tof s lam m x y = .ok (v1, v2) ∧
      timePerIter full clock n = .ok tpi ∧ out = mkOutput full v1 v2 n tpi := by
  unfold battin1984 at h
  simp only [bind_ok] at h
  obtain ⟨_, hv, θ, hθ, lam, hlam, ll, hll, m, hm, q, -, r, -, ⟨x, y, n⟩, hl, tpi, ht, ⟨v1, v2⟩, hvel, h⟩ := h
  obtain ⟨hmu, h1, h12, htof, hM⟩ := assertParameters_iff.1 hv
  have hR1 : 0 < V3.norm r1 := norm_pos_iff.2 h1
  have hR2 : 0 ≤ V3.norm r2 := norm_nonneg _
  have hc : 0 < V3.norm (r2 - r1) := by
    rw [norm_pos_iff]
    intro h0
    apply h12
    have hx := congrArg V3.x h0
    have hy := congrArg V3.y h0
    have hz := congrArg V3.z h0
    simp only [V3.sub_x, V3.sub_y, V3.sub_z, V3.zero_x, V3.zero_y, V3.zero_z] at hx hy hz
    ext <;> linarith
  have hs : 0 < (V3.norm r1 + V3.norm r2 + V3.norm (r2 - r1)) / 2 := by positivity
  obtain ⟨hl1, hl2, -⟩ := getLambda_ok hs hc hlam
  have hlb := abs_lt.1 ((sq_lt_one_iff_abs_lt_one _).1 hl2)
  unfold getLl at hll
  simp only [bind_ok, pdiv_ok] at hll
  obtain ⟨_, ⟨-, rfl⟩, hll⟩ := hll
  have hll' := (Except.ok.inj hll).symm
  unfold getM at hm
  obtain ⟨-, hm'⟩ := pdiv_ok.1 hm
  have h1l : 0 < 1 + lam := by linarith [hlb.1]
  have hm0 : 0 < m := by rw [hm']; positivity
  have hll0 : 0 ≤ ll := by rw [hll']; positivity
  have hx0 : -1 < (if r * tof > 4 / 3 * (1 - lam ^ 3) then ll else 0) := by split <;> linarith
  have hx1 : 0 < 1 + 2 * (if r * tof > 4 / 3 * (1 - lam ^ 3) then ll else 0) + ll := by split <;> linarith
  obtain ⟨e1, e2, e3, e4, e5, e6⟩ := loop_ok hm0 _ _ hx0 hx1 hl
  exact ⟨hmu, htof, hM, hR1, hc, θ, _, lam, ll, m, x, y, n, tpi, v1, v2, hθ, rfl, hlam, hlb.1, hlb.2, hll', hm', hm0,
    e1, by omega, e3, e4, e5, e6, hvel, ht, (Except.ok.inj h).symm⟩

end Battin

open Battin

/-- **C27 (partial).** Whenever `battin1984` returns for positions that are not aligned with
the attracting centre, the returned velocities are those of a zero-revolution Kepler transfer from `r1` to
`r2`, turning in the requested sense when the plane does not contain the polar axis.

Missing: aligned positions, for which the code returns radial velocities
(`battin_aligned_radial`), and planes through the polar axis, where neither sense exists. -/
theorem battin_kepler_transfer_partial {mu : ℝ} {r1 r2 : V3} {tof : ℝ} {M : ℤ} {pro low : Bool} {maxiter : ℕ}
    {atol rtol : ℝ} {full : Bool} {clock : ℝ} {out : Output} (hna : NotAligned r1 r2)
    (h : battin1984 mu r1 r2 tof M pro low maxiter atol rtol full clock = .ok out) :
    (∃ T, LambertArc mu r1 r2 out.v1 out.v2 T 0) ∧ (NotPolar r1 r2 → Sense pro r1 out.v1) := by
  obtain ⟨hmu, htof, -, hR1, hc, θ, s, lam, ll, m, x, y, n, tpi, v1, v2, hθ, hs, hlam, hl1, hl2, hll, hm, hm0, -, -,
    hy, hx, hxl, hxy, hvel, -, rfl⟩ := ok_split h
  have hA := angle_of_eq hna hθ
  obtain ⟨hG, hsh⟩ := hA.halfGeo hna
  have hR2 := hG.R2
  have hs0 : 0 < s := by rw [hs]; positivity
  obtain ⟨hlsq, -, hp, hn⟩ := getLambda_ok hs0 hc hlam
  obtain ⟨s', lam', hS, hAs⟩ := hG.semi
  have hss : s' = s := by rw [hS.hs, hs]
  subst hss
  have hr2 : Real.sqrt 2 ^ 2 = 2 := Real.sq_sqrt (by norm_num)
  have hrp : 0 < Real.sqrt 2 := by positivity
  have hll' : lam' ^ 2 = lam ^ 2 := by
    rw [hlsq, hS.chord]; field_simp; ring
  have hlne : lam ≠ 0 := by
    intro h0
    rw [h0] at hll'
    apply hG.hA
    rw [hAs, pow_eq_zero_iff two_ne_zero |>.1 (hll'.trans (by ring))]; ring
  have hsgn : 0 < halfA (V3.norm r1) (V3.norm r2) θ ↔ θ < Real.pi := by rw [hsh, hA.short]
  have hlam' : lam' = lam := by
    rcases sq_eq_sq_iff_eq_or_eq_neg.1 hll' with h1 | h1
    · exact h1
    · exfalso
      rcases lt_or_gt_of_ne hlne with h2 | h2
      · apply hn h2
        rw [← hsgn, hAs, h1]
        have : 0 < -lam := by linarith
        positivity
      · have := hsgn.2 (hp h2)
        rw [hAs, h1] at this
        have h3 : 0 < Real.sqrt 2 * s' * lam := by positivity
        linarith
  rw [hlam'] at hAs hS
  generalize halfA (V3.norm r1) (V3.norm r2) θ = A at *
  have hkA : Real.sqrt 2 * A = 2 * s' * lam := by rw [hAs]; linear_combination s' * lam * hr2
  have h1x : 0 < 1 + x := by linarith
  have h1l : 0 < 1 + lam := by linarith
  have hV : V3.norm r1 + V3.norm r2 - Real.sqrt 2 * A * ((1 - x) / (1 + x)) = s' * (1 + lam) ^ 2 * (x + ll) / (1 + x) := by
    rw [hkA, hS.sum, hll]; field_simp; ring
  have hV0 : 0 < V3.norm r1 + V3.norm r2 - Real.sqrt 2 * A * ((1 - x) / (1 + x)) := by rw [hV]; positivity
  obtain ⟨T, hT⟩ := path (mu := mu) hx hV0
  -- the velocities
  unfold velocities at hvel
  simp only [bind_ok, pdiv_ok, vdiv_ok] at hvel
  obtain ⟨_, ⟨-, rfl⟩, t11, ⟨hs11, rfl⟩, _, ⟨-, rfl⟩, _, ⟨-, rfl⟩, hvel⟩ := hvel
  simp only [Except.ok.injEq, Prod.mk.injEq] at hvel
  rw [hV] at hT hV0
  obtain ⟨V, hVV⟩ : ∃ V, V = s' * (1 + lam) ^ 2 * (x + ll) / (1 + x) := ⟨_, rfl⟩
  rw [← hVV] at hT hV0
  have hys : 0 < y * (1 + x) := by positivity
  have ht : m * s' * (1 + lam) ^ 2 / (y * (1 + x)) = V * (y * (1 + x)) := by
    have hmy : m = (x + ll) * (1 + x) * y ^ 2 := by rw [hxy]; field_simp
    rw [hVV]; field_simp; rw [hmy]; ring
  have hmu' : V / mu = 8 * tof ^ 2 / (s' * (1 + lam) ^ 2 * (y * (1 + x))) ^ 2 := by
    have : V * (y * (1 + x)) ^ 2 = m * s' * (1 + lam) ^ 2 := by
      rw [div_eq_iff hys.ne'] at ht
      linear_combination -ht
    rw [hm] at this
    field_simp at this ⊢
    linear_combination this
  have hsq : Real.sqrt (V / mu) = 2 * Real.sqrt 2 * tof / (s' * (1 + lam) ^ 2 * (y * (1 + x))) := by
    rw [hmu', Real.sqrt_div (by positivity), Real.sqrt_sq (by positivity),
      show 8 * tof ^ 2 = (2 * Real.sqrt 2 * tof) ^ 2 by rw [mul_pow, mul_pow, hr2]; ring, Real.sqrt_sq (by positivity)]
  have hg : (A * Real.sqrt (V / mu))⁻¹ = (1 + lam) ^ 2 / (4 * tof * lam) * (y * (1 + x)) := by
    have : A * Real.sqrt (V / mu) = 4 * tof * lam / ((1 + lam) ^ 2 * (y * (1 + x))) := by
      rw [hsq, hAs]; field_simp; rw [hr2]; ring
    rw [this, inv_div]; field_simp
  have hv1 : v1 = fgV1 mu r1 r2 A V := by
    rw [← hvel.1, fgV1, hg, ht]
    generalize (1 + lam) ^ 2 / (4 * tof * lam) = k
    generalize y * (1 + x) = z
    ext <;> simp only [V3.add_x, V3.add_y, V3.add_z, V3.smul_x, V3.smul_y, V3.smul_z, V3.sub_x, V3.sub_y, V3.sub_z] <;>
      field_simp <;> ring
  have hv2 : v2 = fgV2 mu r1 r2 A V := by
    rw [← hvel.2, fgV2, hg, ht]
    generalize (1 + lam) ^ 2 / (4 * tof * lam) = k
    generalize y * (1 + x) = z
    ext <;> simp only [V3.add_x, V3.add_y, V3.add_z, V3.smul_x, V3.smul_y, V3.smul_z, V3.sub_x, V3.sub_y, V3.sub_z] <;>
      field_simp <;> ring
  simp only [mkOutput_v1, mkOutput_v2, hv1, hv2]
  exact ⟨⟨T, hT.arc hmu hG⟩, fun hnp => sense_of_sign hmu hV0 hG.hA hnp hsh⟩

/-- **Finding.** For positions aligned with the attracting centre `battin1984` does not refuse: if it returns, the
departure velocity is radial, so that the trajectory has no angular momentum and turns in
neither sense. -/
theorem battin_aligned_radial {mu : ℝ} {r1 r2 : V3} {tof : ℝ} {M : ℤ} {pro low : Bool} {maxiter : ℕ}
    {atol rtol : ℝ} {full : Bool} {clock : ℝ} {out : Output} (hna : ¬ NotAligned r1 r2)
    (h : battin1984 mu r1 r2 tof M pro low maxiter atol rtol full clock = .ok out) :
    outer r1 out.v1 = 0 ∧ ¬ Sense pro r1 out.v1 := by
  obtain ⟨hmu, htof, -, hR1, hc, θ, s, lam, ll, m, x, y, n, tpi, v1, v2, hθ, hs, hlam, hl1, hl2, hll, hm, hm0, -, -,
    hy, hx, hxl, hxy, hvel, -, rfl⟩ := ok_split h
  unfold velocities at hvel
  simp only [bind_ok, pdiv_ok, vdiv_ok] at hvel
  obtain ⟨_, ⟨-, rfl⟩, t11, ⟨hs11, rfl⟩, _, ⟨-, rfl⟩, _, ⟨-, rfl⟩, hvel⟩ := hvel
  simp only [Except.ok.injEq, Prod.mk.injEq] at hvel
  unfold NotAligned at hna
  rw [not_not] at hna
  obtain ⟨hx0, hy0, hz0⟩ := hna
  have ho : outer r1 v1 = 0 := by
    rw [← hvel.1]
    generalize (1 + lam) ^ 2 / (4 * tof * lam) = k
    ext <;> simp only [outer, V3.add_x, V3.add_y, V3.add_z, V3.smul_x, V3.smul_y, V3.smul_z, V3.sub_x, V3.sub_y,
      V3.sub_z, V3.zero_x, V3.zero_y, V3.zero_z]
    · linear_combination k * (y * (1 + x)) * hx0
    · linear_combination k * (y * (1 + x)) * hy0
    · linear_combination k * (y * (1 + x)) * hz0
  rw [mkOutput_v1]
  refine ⟨ho, fun hS => ?_⟩
  have hz : r1.x * v1.y - r1.y * v1.x = 0 := by simpa [outer] using congrArg V3.z ho
  unfold Sense angMomZ at hS
  rw [hz] at hS
  cases pro <;> simp at hS

/-- `battin1984` returns at the first pass for every slow problem, with a suitable tolerance. -/
theorem battin_returns {mu : ℝ} (hmu : 0 < mu) {r1 r2 : V3} (hr1 : r1 ≠ 0) (h12 : r1 ≠ r2) (hr2 : 0 < V3.norm r2)
    {pro : Bool} {θ lam : ℝ} (hθ : getTransferAngle r1 r2 pro = .ok θ)
    (hlam : getLambda (V3.norm (r2 - r1)) ((V3.norm r1 + V3.norm r2 + V3.norm (r2 - r1)) / 2) θ = .ok lam)
    (hl0 : lam ≠ 0) {tof : ℝ} (htof : 0 < tof)
    (hT : 4 / 3 * (1 - lam ^ 3) <
      Real.sqrt (8 * mu / ((V3.norm r1 + V3.norm r2 + V3.norm (r2 - r1)) / 2) ^ 3) * tof)
    (low : Bool) (k : ℕ) (rtol : ℝ) (full : Bool) (clock : ℝ) :
    ∃ atol out, battin1984 mu r1 r2 tof 0 pro low (k + 1) atol rtol full clock = .ok out := by
  have hR1 : 0 < V3.norm r1 := norm_pos_iff.2 hr1
  have hc : 0 < V3.norm (r2 - r1) := by
    rw [norm_pos_iff]
    intro h0
    apply h12
    have hx := congrArg V3.x h0
    have hy := congrArg V3.y h0
    have hz := congrArg V3.z h0
    simp only [V3.sub_x, V3.sub_y, V3.sub_z, V3.zero_x, V3.zero_y, V3.zero_z] at hx hy hz
    ext <;> linarith
  obtain ⟨s, hs⟩ : ∃ s, s = (V3.norm r1 + V3.norm r2 + V3.norm (r2 - r1)) / 2 := ⟨_, rfl⟩
  have hs0 : 0 < s := by rw [hs]; positivity
  rw [← hs] at hlam hT
  obtain ⟨-, hl2, -⟩ := getLambda_ok hs0 hc hlam
  have hlb := abs_lt.1 ((sq_lt_one_iff_abs_lt_one _).1 hl2)
  have h1l : 0 < 1 + lam := by linarith [hlb.1]
  have h1l' : 0 < 1 - lam := by linarith [hlb.2]
  have hll0 : 0 < ((1 - lam) / (1 + lam)) ^ 2 := by positivity
  have hm0 : 0 < 8 * mu * tof ^ 2 / (s ^ 3 * (1 + lam) ^ 6) := by positivity
  obtain ⟨ll, hll⟩ : ∃ ll, ll = ((1 - lam) / (1 + lam)) ^ 2 := ⟨_, rfl⟩
  obtain ⟨m, hm⟩ : ∃ m, m = 8 * mu * tof ^ 2 / (s ^ 3 * (1 + lam) ^ 6) := ⟨_, rfl⟩
  rw [← hll] at hll0
  rw [← hm] at hm0
  obtain ⟨h1, h2, xi, d, hh, hd, hxi, hh2⟩ := h_some (m := m) (show -1 < ll by linarith) (show 0 < 1 + 2 * ll + ll by linarith)
  have hh1 := h1_nonneg (by linarith) (by linarith) hh
  have hh2' : 0 < h2 := by rw [hh2, sub_self, zero_add]; positivity
  have hB : BAt h1 h2 = .ok (27 * h2 / (4 * (1 + h1) ^ 3)) := pdiv_eq (by positivity)
  have hB0 : 0 < 27 * h2 / (4 * (1 + h1) ^ 3) := by positivity
  generalize 27 * h2 / (4 * (1 + h1) ^ 3) = B at *
  have hu : uAtH h1 h2 = .ok (-B / (2 * Real.sqrt (1 + B) + 1)) := by
    unfold uAtH uAtB
    rw [hB, ok_bind, psqrt_eq (by linarith), ok_bind, pdiv_eq (by positivity)]
  have hu0 : -B / (2 * Real.sqrt (1 + B) + 1) ≤ 0 := div_nonpos_of_nonpos_of_nonneg (by linarith) (by positivity)
  generalize -B / (2 * Real.sqrt (1 + B) + 1) = u at *
  obtain ⟨K, hK⟩ := KAt_some hu0 1000
  have hK0 := (KAt_bounds (by linarith) hK).1
  have hne : 0 < 1 - 2 * u * K := by nlinarith
  obtain ⟨y, hy⟩ : ∃ y, secondEquation u h1 h2 = .ok y := by
    unfold secondEquation
    rw [hB, ok_bind, hK, ok_bind, psqrt_eq (by linarith), ok_bind, pdiv_eq hne.ne', ok_bind]
    exact ⟨_, rfl⟩
  have hy0 := second_pos (by linarith) hh1 hy
  obtain ⟨x, hx⟩ : ∃ x, firstEquation y ll m = .ok x := by
    unfold firstEquation
    rw [pdiv_eq (by positivity), ok_bind, psqrt_eq (by positivity), ok_bind]
    exact ⟨_, rfl⟩
  obtain ⟨hx1, -, -⟩ := first_ok hm0 hy0 hx
  obtain ⟨tpi, htpi⟩ := timePerIter_pos full clock (le_refl 1)
  have h1x : 0 < 1 + x := by linarith
  have hloop : loop ll m |x - ll| (k + 1) 1 ll = .ok (x, y, 1) := by
    rw [loop, hh]
    simp only [ok_bind]
    rw [hu, ok_bind, hy, ok_bind, hx, ok_bind, if_pos le_rfl]
  obtain ⟨v, hv⟩ : ∃ v, velocities r1 r2 tof s lam m x y = .ok v := by
    unfold velocities
    rw [pdiv_eq (by positivity), ok_bind]
    simp only []
    rw [pdiv_eq (by positivity), ok_bind, vdiv_eq hR1.ne', ok_bind,
      vdiv_eq hr2.ne', ok_bind]
    exact ⟨_, rfl⟩
  refine ⟨|x - ll|, mkOutput full v.1 v.2 1 tpi, ?_⟩
  unfold battin1984
  rw [assertParameters_eq hmu hr1 h12 htof le_rfl, ok_bind, hθ, ok_bind, ← hs, hlam, ok_bind, getLl,
    pdiv_eq h1l.ne', ok_bind, ok_bind, getM, pdiv_eq (by positivity), ok_bind, pdiv_eq (by positivity), ok_bind,
    psqrt_eq (by positivity), ok_bind, if_pos hT, ← hll, ← hm]
  simp only []
  rw [hloop]
  simp only [ok_bind]
  rw [htpi, ok_bind, hv]
  rfl

theorem Battin.cubic_poly {t : ℝ} (h0 : 0 < t) (h2 : t ≤ 2) : (81 + 62 * t + 4 * t ^ 2) ^ 4 <
    1458 * ((t + 2) * (2 * t + 3)) * (81 + 62 * t + 4 * t ^ 2) ^ 2 + 314928 * (t * (t + 2) ^ 2 * (2 * t + 3) ^ 2) := by
  have p : ∀ n : ℕ, t ^ (n + 1) ≤ 2 * t ^ n := fun n => by
    rw [pow_succ, mul_comm]; exact mul_le_mul_of_nonneg_right h2 (by positivity)
  have p1 := p 1
  have p2 := p 2
  have p3 := p 3
  have p4 := p 4
  have p5 := p 5
  have p6 := p 6
  have p7 := p 7
  norm_num at p1 p2 p3 p4 p5 p6 p7
  have t2 : 0 < t ^ 2 := by positivity
  have t3 : 0 < t ^ 3 := by positivity
  have e : 1458 * ((t + 2) * (2 * t + 3)) * (81 + 62 * t + 4 * t ^ 2) ^ 2 + 314928 * (t * (t + 2) ^ 2 * (2 * t + 3) ^ 2) -
      (81 + 62 * t + 4 * t ^ 2) ^ 4 = 14348907 + 34366518 * t + 27564948 * t ^ 2 + 5718600 * t ^ 3 - 3232864 * t ^ 4 -
      1908128 * t ^ 5 - 343104 * t ^ 6 - 15872 * t ^ 7 - 256 * t ^ 8 := by ring
  linarith

/-- **Finding.** `_battin_second_equation` does not return a root of the cubic
`y³ - (1 + h1) y² - h2 = 0` that it is meant to solve: for `0 < B ≤ 8` the cubic is
strictly negative at the returned value.  (The auxiliary `u` divides by `2 √(1+B) + 1` where equation (55)
of the cited report has `2 (√(1+B) + 1)`.) -/
theorem battin_cubic_wrong {h1 h2 u y : ℝ} (hh1 : -1 < h1) (hh2 : 0 < h2)
    (hB8 : 27 * h2 / (4 * (1 + h1) ^ 3) ≤ 8) (hu : uAtH h1 h2 = .ok u) (hy : secondEquation u h1 h2 = .ok y) :
    y ^ 3 - (1 + h1) * y ^ 2 - h2 < 0 := by
  have h1p : 0 < 1 + h1 := by linarith
  have hB : BAt h1 h2 = .ok (27 * h2 / (4 * (1 + h1) ^ 3)) := pdiv_eq (by positivity)
  have hB0 : 0 < 27 * h2 / (4 * (1 + h1) ^ 3) := by positivity
  have hh2' : h2 = 4 * (1 + h1) ^ 3 * (27 * h2 / (4 * (1 + h1) ^ 3)) / 27 := by field_simp
  generalize 27 * h2 / (4 * (1 + h1) ^ 3) = B at *
  unfold uAtH uAtB at hu
  unfold secondEquation at hy
  rw [hB, ok_bind] at hu hy
  simp only [bind_ok, psqrt_ok, pdiv_ok] at hu hy
  obtain ⟨_, ⟨hBp, rfl⟩, -, hu⟩ := hu
  obtain ⟨K, hK, _, ⟨-, rfl⟩, _, ⟨-, rfl⟩, hy⟩ := hy
  have hy' := Except.ok.inj hy
  rw [add_comm B 1] at hy'
  have hb0 := Real.sqrt_nonneg (1 + B)
  have hb2 : B = Real.sqrt (1 + B) ^ 2 - 1 := by rw [Real.sq_sqrt hBp]; ring
  generalize Real.sqrt (1 + B) = b at *
  have hb1 : 1 < b := by nlinarith
  have hb3 : b ≤ 3 := by nlinarith
  -- the argument of the fraction
  obtain ⟨w, hw⟩ : ∃ w, w = (b ^ 2 - 1) / (2 * b + 1) := ⟨_, rfl⟩
  have hw0 : 0 < w := by rw [hw]; exact div_pos (by nlinarith) (by linarith)
  have hwb : w * (2 * b + 1) = b ^ 2 - 1 := by rw [hw, div_mul_cancel₀ _ (by linarith)]
  have huw : u = -w := by rw [hu, hw, hb2]; ring
  obtain ⟨n, -, hKn⟩ := KAt_ok (by rw [huw]; linarith) hK
  have hf := (front_neg (show u ≤ 0 by rw [huw]; linarith) n).1
  generalize contFrac (fun j => coefK j * u) 0 n = f at *
  have hf1 : 1 / (1 + 4 / 27 * w) ≤ f := by
    rw [huw] at hf; convert hf using 2; ring
  have hK1 : 9 * K * (1 + 4 / 27 * w) ^ 2 ≥ 1 := by
    have h4 : 0 < 1 + 4 / 27 * w := by positivity
    have h5 : 1 ≤ f * (1 + 4 / 27 * w) := by rw [div_le_iff₀ h4] at hf1; exact hf1
    rw [hKn]
    nlinarith
  -- the excess of the denominator over one
  obtain ⟨ε, hε⟩ : ∃ ε, ε = 2 * w * K := ⟨_, rfl⟩
  obtain ⟨E, hE⟩ : ∃ E, E = 162 * w / (27 + 4 * w) ^ 2 := ⟨_, rfl⟩
  have hE0 : 0 < E := by rw [hE]; positivity
  have hEε : E ≤ ε := by
    rw [hE, div_le_iff₀ (by positivity), hε]
    have : 162 * w * 1 ≤ 162 * w * (9 * K * (1 + 4 / 27 * w) ^ 2) := mul_le_mul_of_nonneg_left hK1 (by linarith)
    linarith
  have hε0 : 0 < ε := by linarith
  have hbE : b - 1 < 9 * E + 12 * E ^ 2 := by
    obtain ⟨t, rfl⟩ : ∃ t, b = 1 + t := ⟨b - 1, by ring⟩
    have ht0 : 0 < t := by linarith
    have ht2 : t ≤ 2 := by linarith
    have hQ : 27 + 4 * w = (81 + 62 * t + 4 * t ^ 2) / (2 * t + 3) := by
      rw [eq_div_iff (by positivity)]; linear_combination 4 * hwb
    have hw' : w = t * (t + 2) / (2 * t + 3) := by
      rw [eq_div_iff (by positivity)]; linear_combination hwb
    have hE' : E = 162 * (t * (t + 2) * (2 * t + 3)) / (81 + 62 * t + 4 * t ^ 2) ^ 2 := by
      rw [hE, hQ, hw']; field_simp
    have hq : 0 < 81 + 62 * t + 4 * t ^ 2 := by positivity
    have e : 9 * E + 12 * E ^ 2 = t * (1458 * ((t + 2) * (2 * t + 3)) * (81 + 62 * t + 4 * t ^ 2) ^ 2 +
        314928 * (t * (t + 2) ^ 2 * (2 * t + 3) ^ 2)) / (81 + 62 * t + 4 * t ^ 2) ^ 4 := by
      rw [hE']; field_simp; ring
    rw [e, lt_div_iff₀ (by positivity), show (1 + t - 1) = t by ring]
    apply mul_lt_mul_of_pos_left _ ht0
    exact cubic_poly ht0 ht2
  have hD : 1 - 2 * u * K = 1 + ε := by rw [huw, hε]; ring
  rw [hD] at hy'
  have hD0 : (1 + ε) ≠ 0 := by positivity
  have key : y ^ 3 - (1 + h1) * y ^ 2 - h2 =
      (1 + h1) ^ 3 * b ^ 2 / (27 * (1 + ε) ^ 3) * (3 * (1 + ε) + b - 4 * (1 + ε) ^ 3) := by
    rw [← hy', hh2', hb2]; field_simp; ring
  rw [key]
  apply mul_neg_of_pos_of_neg
  · have : 0 < b := by linarith
    positivity
  · have : 0 < ε ^ 3 := by positivity
    have : E ^ 2 ≤ ε ^ 2 := by gcongr
    nlinarith

/-- The hypotheses are satisfiable: `h1 = 0`, `h2 = 4/9`, `B = 3`. -/
example : ∃ u y, uAtH 0 (4 / 9) = .ok u ∧ secondEquation u 0 (4 / 9) = .ok y := by
  have hB : BAt 0 (4 / 9) = .ok 3 := by unfold BAt; rw [pdiv_eq (by norm_num)]; norm_num
  have h4 : Real.sqrt (1 + 3) = 2 := by
    rw [show (1 + 3 : ℝ) = 2 ^ 2 by norm_num]; exact Real.sqrt_sq (by norm_num)
  have hu : uAtH 0 (4 / 9) = .ok (-3 / 5) := by
    unfold uAtH uAtB
    rw [hB, ok_bind, psqrt_eq (by norm_num), ok_bind, h4, pdiv_eq (by norm_num)]
    norm_num
  obtain ⟨K, hK⟩ := KAt_some (u := -3 / 5) (by norm_num) 1000
  have hK0 := (KAt_bounds (by norm_num) hK).1
  refine ⟨_, 1 / 3 * (2 + 2 / (1 - 2 * (-3 / 5) * K)), hu, ?_⟩
  unfold secondEquation
  rw [hB, ok_bind, hK, ok_bind, psqrt_eq (by norm_num), ok_bind, add_comm (3 : ℝ) 1, h4,
    pdiv_eq (by nlinarith), ok_bind]
  norm_num

/-! ### C43 -/

namespace Spec

/-- Battin's function `xi` with `n` levels of its continued fraction: the partial numerators
are `k²/(4k²-1) η` with `k = 4, 5, ...` (equation (53) of the report cited by the code). -/
noncomputable def battinXi (x : ℝ) (n : ℕ) : ℝ :=
  let r := Real.sqrt (1 + x)
  let η := x / (r + 1) ^ 2
  8 * (r + 1) / (3 + 1 / (5 + η + 9 * η / 7 *
    contFrac (fun k => -(((k : ℝ) + 4) ^ 2 / (4 * ((k : ℝ) + 4) ^ 2 - 1) * η)) 0 n))

/-- Battin's function `K` with `n` levels of its continued fraction: the partial numerators
are `4/27 u`, then alternately `2(3k+1)(6k-1)/(9(4k-1)(4k+1)) u` and
`2(3k+2)(6k+1)/(9(4k+1)(4k+3)) u`. -/
noncomputable def battinK (u : ℝ) (n : ℕ) : ℝ :=
  (contFrac (fun j => (if j % 2 = 0 then
      2 * (3 * (j / 2 : ℝ) + 2) * (6 * (j / 2 : ℝ) + 1) / (9 * (4 * (j / 2 : ℝ) + 1) * (4 * (j / 2 : ℝ) + 3))
    else 2 * (3 * ((j + 1) / 2 : ℝ) + 1) * (6 * ((j + 1) / 2 : ℝ) - 1) /
      (9 * (4 * ((j + 1) / 2 : ℝ) - 1) * (4 * ((j + 1) / 2 : ℝ) + 1))) * u) 0 n / 3) ^ 2

end Spec

/-- The tails of the fraction of `xi` are positive. -/
theorem Battin.xi_tail {η : ℝ} (hη : -1 < η) (n : ℕ) : ∀ k : ℕ,
    0 < contFrac (fun k => -(((k : ℝ) + 4) ^ 2 / (4 * ((k : ℝ) + 4) ^ 2 - 1) * η)) k n ∧
    contFrac (fun k => -(((k : ℝ) + 4) ^ 2 / (4 * ((k : ℝ) + 4) ^ 2 - 1) * η)) k n ≤ (2 * k + 7) / (k + 3) := by
  induction n with
  | zero =>
    intro k
    simp only [contFrac]
    refine ⟨one_pos, ?_⟩
    rw [one_le_div (by positivity)]
    linarith [show (0 : ℝ) ≤ k from Nat.cast_nonneg k]
  | succ n ih =>
    intro k
    obtain ⟨h1, h2⟩ := ih (k + 1)
    rw [contFrac]
    generalize contFrac (fun k => -(((k : ℝ) + 4) ^ 2 / (4 * ((k : ℝ) + 4) ^ 2 - 1) * η)) (k + 1) n = t at *
    have hk : (0 : ℝ) ≤ k := Nat.cast_nonneg k
    have hd : 0 < 4 * ((k : ℝ) + 4) ^ 2 - 1 := by nlinarith
    push_cast at h2
    have hg : ((k : ℝ) + 4) ^ 2 / (4 * ((k : ℝ) + 4) ^ 2 - 1) * ((2 * (k + 1) + 7) / (k + 1 + 3)) =
        1 - (k + 3) / (2 * k + 7) := by
      rw [show 4 * ((k : ℝ) + 4) ^ 2 - 1 = (2 * k + 7) * (2 * k + 9) by ring]
      field_simp
      ring
    have h := inv_bound (u := -η) (a := ((k : ℝ) + 4) ^ 2 / (4 * ((k : ℝ) + 4) ^ 2 - 1)) (by positivity) h1 h2
      (by linarith) hg (by positivity) (by rw [div_le_one (by positivity)]; linarith)
    rw [one_div_div] at h
    convert h using 3 <;> ring

/-- **C43 is false.** `_xi_at_x` ignores its number of levels: it always returns the value
with no level at all of the continued fraction, which differs from the truncation
with the requested number of levels for every `x ≠ 0` and every positive number of levels. -/
theorem battin_xi_no_level {x : ℝ} (hx : -1 < x) (levels : ℕ) :
    xiAt x levels = .ok (battinXi x 0) ∧ (x ≠ 0 → 1 ≤ levels → battinXi x levels ≠ battinXi x 0) := by
  refine ⟨(xiAt_eq hx levels).1, fun h0 h1 he => ?_⟩
  obtain ⟨n, rfl⟩ := Nat.exists_eq_add_of_le' h1
  unfold battinXi at he
  simp only [] at he
  have hr : 0 < Real.sqrt (1 + x) := Real.sqrt_pos.2 (by linarith)
  have hr2 : Real.sqrt (1 + x) ^ 2 = 1 + x := Real.sq_sqrt (by linarith)
  have hη : -1 < x / (Real.sqrt (1 + x) + 1) ^ 2 := by
    rw [lt_div_iff₀ (by positivity)]; nlinarith
  have hη1 : x / (Real.sqrt (1 + x) + 1) ^ 2 < 1 := by
    rw [div_lt_iff₀ (by positivity)]; nlinarith
  have hη0 : x / (Real.sqrt (1 + x) + 1) ^ 2 ≠ 0 := by positivity
  generalize x / (Real.sqrt (1 + x) + 1) ^ 2 = η at *
  have hr1 : 8 * (Real.sqrt (1 + x) + 1) ≠ 0 := by positivity
  generalize 8 * (Real.sqrt (1 + x) + 1) = c at *
  obtain ⟨f1, f2⟩ := Battin.xi_tail hη (n + 1) 0
  obtain ⟨t1, -⟩ := Battin.xi_tail hη n 1
  have hf : contFrac (fun k => -(((k : ℝ) + 4) ^ 2 / (4 * ((k : ℝ) + 4) ^ 2 - 1) * η)) 0 (n + 1) ≠ 1 := by
    rw [contFrac]
    generalize contFrac (fun k => -(((k : ℝ) + 4) ^ 2 / (4 * ((k : ℝ) + 4) ^ 2 - 1) * η)) (0 + 1) n = t at *
    intro h2
    have h3 := eq_of_one_div_eq_one_div (h2.trans (one_div_one).symm)
    norm_num at h3
    exact h3.elim hη0 (fun h4 => absurd h4 t1.ne')
  generalize contFrac (fun k => -(((k : ℝ) + 4) ^ 2 / (4 * ((k : ℝ) + 4) ^ 2 - 1) * η)) 0 (n + 1) = f at *
  simp only [contFrac] at he
  norm_num at f2
  have hD : ∀ g : ℝ, 0 < g → g ≤ 7 / 3 → 0 < 5 + η + 9 * η / 7 * g := by
    intro g h2 h3
    nlinarith
  have d1 := hD f f1 f2
  have d2 := hD 1 one_pos (by norm_num)
  have e1 : 3 + 1 / (5 + η + 9 * η / 7 * f) = 3 + 1 / (5 + η + 9 * η / 7 * 1) := by
    have p1 : 3 + 1 / (5 + η + 9 * η / 7 * f) ≠ 0 := by positivity
    have p2 : 3 + 1 / (5 + η + 9 * η / 7 * 1) ≠ 0 := by positivity
    rw [div_eq_div_iff p1 p2] at he
    exact (mul_left_cancel₀ hr1 he).symm
  have e2 := eq_of_one_div_eq_one_div (add_left_cancel e1)
  exact hf (mul_left_cancel₀ (show 9 * η / 7 ≠ 0 by positivity) (add_left_cancel e2))

/-- **C43, the other fraction (partial).** For every `u ≤ 1` (all values that the solver can
produce, `Battin.uAtH_le`), `_K_at_u` returns a truncation of Battin's continued fraction, with at
most `2 levels + 1` levels (two per pass after the first one). -/
theorem battin_K_fraction_partial {u K : ℝ} {levels : ℕ} (hu : u ≤ 1) (h : KAt u levels = .ok K) :
    ∃ n, n ≤ 2 * levels + 1 ∧ K = battinK u n := by
  obtain ⟨n, h1, h2⟩ := KAt_ok hu h
  refine ⟨n, h1, ?_⟩
  rw [h2, battinK]
  congr 4
  funext j
  congr 1
  unfold coefK gamma1 gamma2
  rcases Nat.even_or_odd' j with ⟨k, rfl | rfl⟩
  · rw [if_pos (by omega), if_pos (by omega), show 2 * k / 2 = k by omega]
    push_cast
    rw [show (2 * (k : ℝ) / 2) = k by ring]
  · rw [if_neg (by omega), if_neg (by omega), show (2 * k + 1) / 2 + 1 = k + 1 by omega]
    push_cast
    rw [show ((2 * (k : ℝ) + 1 + 1) / 2) = k + 1 by ring]

/-! ### The hypotheses are satisfiable -/

/-- A slow transfer between non-aligned positions is accepted. -/
example : ∃ tof atol out, battin1984 1 ⟨1, 0, 0⟩ ⟨0, 2, 0⟩ tof 0 true true 35 atol 1e-7 false 0 = .ok out := by
  have hna : NotAligned ⟨1, 0, 0⟩ ⟨0, 2, 0⟩ := by simp [NotAligned]
  have hθ := transferAngle_eq hna true
  generalize (if ShortWay true (⟨1, 0, 0⟩ : V3) ⟨0, 2, 0⟩ then _ else _ : ℝ) = θ at hθ
  have hA := angle_of_eq hna hθ
  obtain ⟨hG, -⟩ := hA.halfGeo hna
  obtain ⟨s, l, hS, hAs⟩ := hG.semi
  have hl0 : l ≠ 0 := fun h => hG.hA (by rw [hAs, h]; ring)
  obtain ⟨lam, hlam, hl⟩ : ∃ lam, getLambda (V3.norm (⟨0, 2, 0⟩ - ⟨1, 0, 0⟩)) s θ = .ok lam ∧ lam ≠ 0 := by
    have hsc : s * (s - V3.norm (⟨0, 2, 0⟩ - ⟨1, 0, 0⟩)) = (s * l) ^ 2 := by rw [hS.chord]; ring
    unfold getLambda
    rw [psqrt_eq (by rw [hsc]; positivity), ok_bind, pdiv_eq hS.spos.ne', ok_bind]
    refine ⟨_, rfl, ?_⟩
    rw [hsc, Real.sqrt_sq_eq_abs]
    have : |(|s * l| / s)| ≠ 0 := by
      have := hS.spos.ne'
      positivity
    split <;> simpa using this
  rw [hS.hs] at hlam
  have hs0 := hS.spos
  rw [hS.hs] at hs0
  have hq : 0 < Real.sqrt (8 * 1 / ((V3.norm ⟨1, 0, 0⟩ + V3.norm ⟨0, 2, 0⟩ + V3.norm (⟨0, 2, 0⟩ - ⟨1, 0, 0⟩)) / 2) ^ 3) := by
    positivity
  obtain ⟨tof, ht⟩ : ∃ tof, tof = (|4 / 3 * (1 - lam ^ 3)| + 1) /
    Real.sqrt (8 * 1 / ((V3.norm ⟨1, 0, 0⟩ + V3.norm ⟨0, 2, 0⟩ + V3.norm (⟨0, 2, 0⟩ - ⟨1, 0, 0⟩)) / 2) ^ 3) := ⟨_, rfl⟩
  refine ⟨tof, battin_returns one_pos (by intro h; simpa using congrArg V3.x h) (by intro h; simpa using congrArg V3.x h)
    hG.R2 hθ hlam hl (by rw [ht]; positivity) ?_ true 34 1e-7 false 0⟩
  rw [ht, mul_div_cancel₀ _ hq.ne']
  linarith [le_abs_self (4 / 3 * (1 - lam ^ 3))]

/-- Aligned positions are accepted as well. -/
example : ∃ tof atol out, battin1984 1 ⟨1, 0, 0⟩ ⟨2, 0, 0⟩ tof 0 true true 35 atol 1e-7 false 0 = .ok out ∧
    outer ⟨1, 0, 0⟩ out.v1 = 0 := by
  have n1 : V3.norm ⟨1, 0, 0⟩ = 1 := by norm_num [V3.norm, V3.dot]
  have n2 : V3.norm ⟨2, 0, 0⟩ = 2 := by
    rw [V3.norm, show V3.dot ⟨2, 0, 0⟩ ⟨2, 0, 0⟩ = (2 : ℝ) ^ 2 by norm_num [V3.dot], Real.sqrt_sq (by norm_num)]
  have n3 : V3.norm (⟨2, 0, 0⟩ - ⟨1, 0, 0⟩) = 1 := by
    rw [V3.norm, show V3.dot (⟨2, 0, 0⟩ - ⟨1, 0, 0⟩) (⟨2, 0, 0⟩ - ⟨1, 0, 0⟩) = (1 : ℝ) ^ 2 by norm_num [V3.dot],
      Real.sqrt_sq (by norm_num)]
  have hθ : getTransferAngle ⟨1, 0, 0⟩ ⟨2, 0, 0⟩ true = .ok 0 := by
    have h := transferAngle_aligned (r1 := ⟨1, 0, 0⟩) (k := 2) (by intro h; simpa using congrArg V3.x h) two_ne_zero true
    rw [if_pos two_pos] at h
    convert h using 2
    ext <;> simp
  have hlam : getLambda (V3.norm (⟨2, 0, 0⟩ - ⟨1, 0, 0⟩))
      ((V3.norm ⟨1, 0, 0⟩ + V3.norm ⟨2, 0, 0⟩ + V3.norm (⟨2, 0, 0⟩ - ⟨1, 0, 0⟩)) / 2) 0 = .ok (Real.sqrt 2 / 2) := by
    rw [n1, n2, n3]
    unfold getLambda
    rw [psqrt_eq (by norm_num), ok_bind, pdiv_eq (by norm_num), ok_bind, if_pos Real.pi_pos]
    norm_num [abs_of_nonneg]
    positivity
  obtain ⟨atol, out, h⟩ := battin_returns (mu := 1) one_pos (r1 := ⟨1, 0, 0⟩) (r2 := ⟨2, 0, 0⟩)
    (by intro h; simpa using congrArg V3.x h) (by intro h; simpa using congrArg V3.x h) (by rw [n2]; norm_num) hθ hlam
    (by positivity) (tof := 4 / 3) (by norm_num) (by
      rw [n1, n2, n3]
      norm_num) true 34 1e-7 false 0
  exact ⟨_, _, out, h, (battin_aligned_radial (by simp [NotAligned]) h).1⟩

end Lamberthub
