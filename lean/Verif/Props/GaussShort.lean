import Verif.Props.Gauss
import Verif.Props.CharacteristicTimes
import Mathlib.Analysis.SpecificLimits.Normed

/-! # C72: which problems `gauss1809` solves -/

set_option autoImplicit false

namespace Lamberthub
open Spec LC

namespace Gauss
open Izzo

theorem hypCoef_le_pow (n : ℕ) : hypCoef n ≤ (6 / 5) ^ n := by
  induction n with
  | zero => simp [hypCoef]
  | succ n ih =>
    have h1 : hypCoef (n + 1) = hypCoef n * ((3 + n) / (5 / 2 + n)) := by rw [hypCoef, mul_div_assoc]
    have h2 : ((3 + n) / (5 / 2 + n) : ℝ) ≤ 6 / 5 := by
      rw [div_le_div_iff₀ (by positivity) (by norm_num)]
      have : (0 : ℝ) ≤ n := Nat.cast_nonneg n
      linarith
    rw [h1, pow_succ]
    exact mul_le_mul ih h2 (by positivity) (by positivity)

theorem hypTerm_abs {x : ℝ} (hx : |x| ≤ 1 / 4) (n : ℕ) : |hypTerm x n| ≤ (3 / 10) ^ n := by
  rw [hypTerm_eq, abs_mul, abs_of_pos (hypCoef_pos n), abs_pow]
  calc hypCoef n * |x| ^ n ≤ (6 / 5) ^ n * (1 / 4) ^ n := by
        gcongr
        exact hypCoef_le_pow n
    _ = (3 / 10) ^ n := by rw [← mul_pow]; norm_num

theorem hasSum_geo : HasSum (fun n : ℕ => (3 / 10 : ℝ) ^ n) (10 / 7) := by
  have h := hasSum_geometric_of_lt_one (r := (3 / 10 : ℝ)) (by norm_num) (by norm_num)
  norm_num at h ⊢
  exact h

theorem sum_abs {x : ℝ} (hx : |x| ≤ 1 / 4) (s : Finset ℕ) : |∑ i ∈ s, hypTerm x i| ≤ 10 / 7 :=
  (Finset.abs_sum_le_sum_abs _ _).trans ((Finset.sum_le_sum fun i _ => hypTerm_abs hx i).trans
    (sum_le_hasSum s (fun i _ => by positivity) hasSum_geo))

theorem XAt_abs {x : ℝ} (hx : |x| ≤ 1 / 4) (n : ℕ) : |XAt x n| ≤ 40 / 21 := by
  rw [XAt_eq, abs_mul, abs_of_pos (by norm_num)]
  linarith [sum_abs hx (Finset.range (n + 1))]

theorem XAt_pos {x : ℝ} (hx : |x| ≤ 1 / 4) (n : ℕ) : 0 < XAt x n := by
  rw [XAt_eq, Finset.sum_range_succ']
  have h0 : hypTerm x 0 = 1 := by simp [hypTerm_eq, hypCoef]
  have h1 : |∑ i ∈ Finset.range n, hypTerm x (i + 1)| ≤ 3 / 7 := by
    have hg : HasSum (fun n : ℕ => (3 / 10 : ℝ) ^ (n + 1)) (3 / 7) := by
      have := hasSum_geo.mul_left (3 / 10)
      norm_num at this
      exact this.congr_fun (fun n => by rw [pow_succ]; ring)
    refine (Finset.abs_sum_le_sum_abs _ _).trans ((Finset.sum_le_sum fun i _ => hypTerm_abs hx (i + 1)).trans
      (sum_le_hasSum _ (fun i _ => by positivity) hg))
  have := (abs_le.1 h1).1
  rw [h0]
  linarith

theorem pow_sub_abs {a b r : ℝ} (ha : |a| ≤ r) (hb : |b| ≤ r) :
    ∀ n : ℕ, |a ^ n - b ^ n| ≤ n * r ^ (n - 1) * |a - b|
  | 0 => by simp
  | n + 1 => by
    have hr : 0 ≤ r := (abs_nonneg a).trans ha
    have ih := pow_sub_abs ha hb n
    have e : a ^ (n + 1) - b ^ (n + 1) = a * (a ^ n - b ^ n) + (a - b) * b ^ n := by ring
    have hbn : |b ^ n| ≤ r ^ n := by rw [abs_pow]; exact pow_le_pow_left₀ (abs_nonneg b) hb n
    have h1 : |a| * |a ^ n - b ^ n| ≤ r * (n * r ^ (n - 1) * |a - b|) :=
      mul_le_mul ha ih (abs_nonneg _) hr
    have h2 : |a - b| * |b ^ n| ≤ |a - b| * r ^ n := mul_le_mul_of_nonneg_left hbn (abs_nonneg _)
    have h3 : r * (n * r ^ (n - 1) * |a - b|) = n * r ^ n * |a - b| := by
      rcases n with _ | n
      · simp
      · rw [Nat.add_sub_cancel, pow_succ]; ring
    rw [e]
    refine (abs_add_le _ _).trans ?_
    rw [abs_mul, abs_mul]
    push_cast
    linarith

theorem XAt_lipschitz {x x' : ℝ} (hx : |x| ≤ 1 / 4) (hx' : |x'| ≤ 1 / 4) (n : ℕ) :
    |XAt x n - XAt x' n| ≤ 160 / 49 * |x - x'| := by
  have hg : HasSum (fun n : ℕ => (n : ℝ) * (3 / 10) ^ n) (30 / 49) := by
    have h := hasSum_coe_mul_geometric_of_norm_lt_one (r := (3 / 10 : ℝ)) (by norm_num)
    norm_num at h ⊢
    exact h
  have hterm : ∀ i : ℕ, |hypTerm x i - hypTerm x' i| ≤ 4 * |x - x'| * (i * (3 / 10) ^ i) := by
    intro i
    rw [hypTerm_eq, hypTerm_eq, ← mul_sub, abs_mul, abs_of_pos (hypCoef_pos i)]
    have h1 := pow_sub_abs hx hx' i
    have h2 : hypCoef i * |x ^ i - x' ^ i| ≤ (6 / 5) ^ i * (i * (1 / 4) ^ (i - 1) * |x - x'|) :=
      mul_le_mul (hypCoef_le_pow i) h1 (abs_nonneg _) (by positivity)
    refine h2.trans (le_of_eq ?_)
    rcases i with _ | i
    · simp
    · rw [Nat.add_sub_cancel, show (3 / 10 : ℝ) = 6 / 5 * (1 / 4) by norm_num, mul_pow, pow_succ (1 / 4 : ℝ)]
      ring
  have hs : |∑ i ∈ Finset.range (n + 1), (hypTerm x i - hypTerm x' i)| ≤ 4 * |x - x'| * (30 / 49) := by
    refine (Finset.abs_sum_le_sum_abs _ _).trans ((Finset.sum_le_sum fun i _ => hterm i).trans ?_)
    rw [← Finset.mul_sum]
    exact mul_le_mul_of_nonneg_left (sum_le_hasSum _ (fun i _ => by positivity) hg) (by positivity)
  rw [XAt_eq, XAt_eq, ← mul_sub, ← Finset.sum_sub_distrib, abs_mul, abs_of_pos (by norm_num)]
  linarith

/-- The series is cut after 51 terms: what is left out. -/
theorem XAt_tail {x : ℝ} (hx : |x| ≤ 1 / 4) : |4 / 3 * hypF x - XAt x 50| ≤ 5e-27 := by
  have hsum := summable_hypTerm (x := x) (by linarith)
  have e := hsum.sum_add_tsum_nat_add 51
  have hg : HasSum (fun n : ℕ => (3 / 10 : ℝ) ^ (n + 51)) ((3 / 10) ^ 51 * (10 / 7)) := by
    have := hasSum_geo.mul_left ((3 / 10) ^ 51)
    refine this.congr_fun ?_
    intro n
    rw [pow_add]; ring
  have h1 : |∑' i, hypTerm x (i + 51)| ≤ (3 / 10) ^ 51 * (10 / 7) := by
    rw [← Real.norm_eq_abs]
    exact tsum_of_norm_bounded hg (fun i => by rw [Real.norm_eq_abs]; exact hypTerm_abs hx _)
  have h2 : 4 / 3 * hypF x - XAt x 50 = 4 / 3 * ∑' i, hypTerm x (i + 51) := by
    rw [XAt_eq, hypF, ← e]; ring
  rw [h2, abs_mul, abs_of_pos (by norm_num)]
  refine (mul_le_mul_of_nonneg_left h1 (by norm_num)).trans ?_
  norm_num

/-- One pass of the iteration. -/
noncomputable def step (s w y : ℝ) : ℝ := secondEquation (w / y ^ 2 - s) s

section
variable {s w : ℝ} (hs0 : 0 < s) (hs1 : s ≤ 1 / 4) (hw0 : 0 < w) (hw1 : w ≤ 1 / 6)
include hs0 hs1 hw0 hw1

theorem u_mem {y : ℝ} (hy : 1 ≤ y) : 0 < w / y ^ 2 ∧ w / y ^ 2 ≤ 1 / 6 ∧ |w / y ^ 2 - s| ≤ 1 / 4 := by
  have h1 : 0 < w / y ^ 2 := by positivity
  have h2 : w / y ^ 2 ≤ 1 / 6 := (div_le_self hw0.le (one_le_pow₀ hy)).trans hw1
  exact ⟨h1, h2, abs_le.2 ⟨by linarith, by linarith⟩⟩

theorem step_ge {y : ℝ} (hy : 1 ≤ y) : 1 ≤ step s w y := by
  obtain ⟨h1, -, h3⟩ := u_mem hs0 hs1 hw0 hw1 hy
  have := mul_pos (XAt_pos h3 50) h1
  rw [step, secondEquation, add_sub_cancel]
  linarith

theorem step_contracts {y z : ℝ} (hy : 1 ≤ y) (hz : 1 ≤ z) : |step s w y - step s w z| ≤ 5 / 6 * |y - z| := by
  obtain ⟨hu0, hu1, hu⟩ := u_mem hs0 hs1 hw0 hw1 hy
  obtain ⟨hv0, hv1, hv⟩ := u_mem hs0 hs1 hw0 hw1 hz
  have hd : |w / y ^ 2 - w / z ^ 2| ≤ 1 / 3 * |y - z| := by
    have hy0 : 0 < y := by linarith
    have hz0 : 0 < z := by linarith
    have e : w / y ^ 2 - w / z ^ 2 = w * (1 / (y * z ^ 2) + 1 / (y ^ 2 * z)) * (z - y) := by
      field_simp; ring
    have h1 : 1 / (y * z ^ 2) ≤ 1 := by
      rw [div_le_one (by positivity)]
      exact one_le_mul_of_one_le_of_one_le hy (one_le_pow₀ hz)
    have h2 : 1 / (y ^ 2 * z) ≤ 1 := by
      rw [div_le_one (by positivity)]
      exact one_le_mul_of_one_le_of_one_le (one_le_pow₀ hy) hz
    have h3 : w * (1 / (y * z ^ 2) + 1 / (y ^ 2 * z)) ≤ 1 / 6 * 2 :=
      mul_le_mul hw1 (by linarith) (by positivity) (by norm_num)
    rw [e, abs_mul, abs_of_pos (by positivity), abs_sub_comm z y]
    exact mul_le_mul_of_nonneg_right (by linarith) (abs_nonneg _)
  have e : step s w y - step s w z = XAt (w / y ^ 2 - s) 50 * (w / y ^ 2 - w / z ^ 2) +
      (XAt (w / y ^ 2 - s) 50 - XAt (w / z ^ 2 - s) 50) * (w / z ^ 2) := by
    rw [step, step, secondEquation, secondEquation]; ring
  have hL := XAt_lipschitz hu hv 50
  rw [sub_sub_sub_cancel_right] at hL
  generalize w / y ^ 2 = u at *
  generalize w / z ^ 2 = v at *
  have h1 : |XAt (u - s) 50 * (u - v)| ≤ 40 / 21 * |u - v| := by
    rw [abs_mul]; exact mul_le_mul_of_nonneg_right (XAt_abs hu 50) (abs_nonneg _)
  have h2 : |(XAt (u - s) 50 - XAt (v - s) 50) * v| ≤ 160 / 49 * |u - v| * (1 / 6) := by
    rw [abs_mul, abs_of_pos hv0]; exact mul_le_mul hL hv1 hv0.le (by positivity)
  rw [e]
  refine (abs_add_le _ _).trans ?_
  linarith [abs_nonneg (y - z)]

/-- The loop ends when `(5/6) ^ remaining` times the first step is within the tolerance. -/
theorem loop_returns {atol : ℝ} : ∀ (rem k : ℕ) {y0 D : ℝ}, 1 ≤ y0 → |step s w y0 - y0| ≤ D → D * (5 / 6) ^ rem ≤ atol →
    ∃ x n y, loop s w atol (rem + 1) k y0 = .ok (x, n) ∧ 1 ≤ y ∧ firstEquation y s w = .ok x ∧
      x = w / y ^ 2 - s ∧ |secondEquation x s - y| ≤ atol := by
  intro rem
  induction rem with
  | zero =>
    intro k y0 D hy hD ha
    have hf : firstEquation y0 s w = .ok (w / y0 ^ 2 - s) := by
      rw [firstEquation, pdiv_eq (by positivity), ok_bind]
    have hc : |secondEquation (w / y0 ^ 2 - s) s - y0| ≤ atol := hD.trans (by simpa using ha)
    exact ⟨_, k, y0, by rw [loop, hf, ok_bind]; exact if_pos hc, hy, hf, rfl, hc⟩
  | succ rem ih =>
    intro k y0 D hy hD ha
    have hf : firstEquation y0 s w = .ok (w / y0 ^ 2 - s) := by
      rw [firstEquation, pdiv_eq (by positivity), ok_bind]
    by_cases hc : |secondEquation (w / y0 ^ 2 - s) s - y0| ≤ atol
    · exact ⟨_, k, y0, by rw [loop, hf, ok_bind]; exact if_pos hc, hy, hf, rfl, hc⟩
    · have h1 := step_ge hs0 hs1 hw0 hw1 hy
      obtain ⟨x, n, y, hl, h⟩ := ih (k + 1) h1 (D := 5 / 6 * D)
        ((step_contracts hs0 hs1 hw0 hw1 h1 hy).trans (by linarith)) (by rw [pow_succ] at ha; linarith)
      refine ⟨x, n, y, ?_, h⟩
      rw [loop, hf, ok_bind, ← hl]
      exact if_neg hc

end

theorem velocities_exists {mu : ℝ} {r1 r2 : V3} {pro : Bool} {θ x d : ℝ} (hmu : 0 < mu)
    (hA : Angle pro r1 r2 θ) (hna : NotAligned r1 r2) (hd : deltaAnomaly x = .ok d) :
    ∃ v, velocities mu r1 r2 θ x = .ok v := by
  obtain ⟨hG, -⟩ := hA.halfGeo hna
  have hR1 := hG.R1
  have hR2 := hG.R2
  have hAne := hG.hA
  have hgt := hG.sum_gt
  have hc := hA.cos_lt_one
  obtain ⟨k, hk⟩ : ∃ k, k = Real.sqrt 2 * halfA (V3.norm r1) (V3.norm r2) θ := ⟨_, rfl⟩
  rw [← hk] at hgt
  have hVpos : 0 < V3.norm r1 + V3.norm r2 - k * Real.cos (d / 2) := by
    have : |k * Real.cos (d / 2)| ≤ |k| := by
      rw [abs_mul]
      exact mul_le_of_le_one_right (abs_nonneg _) (Real.abs_cos_le_one _)
    linarith [le_abs_self (k * Real.cos (d / 2))]
  have hp : 0 < V3.norm r1 * V3.norm r2 * (1 - Real.cos θ) / (V3.norm r1 + V3.norm r2 - k * Real.cos (d / 2)) := by
    have : 0 < 1 - Real.cos θ := by linarith
    positivity
  have hg := g_pform hA hna hmu hVpos rfl
  have hg0 : V3.norm r1 * V3.norm r2 * Real.sin θ / Real.sqrt (mu * (V3.norm r1 * V3.norm r2 * (1 - Real.cos θ) /
      (V3.norm r1 + V3.norm r2 - k * Real.cos (d / 2)))) ≠ 0 := by
    rw [hg]; exact mul_ne_zero hAne (by positivity)
  unfold velocities
  rw [hd]
  simp only [ok_bind]
  rw [psqrt_eq (by positivity), ok_bind, k_eq, ← hk, pdiv_eq hVpos.ne', ok_bind, pdiv_eq hp.ne', ok_bind,
    psqrt_eq (by positivity), ok_bind, pdiv_eq (by positivity), ok_bind, pdiv_eq hp.ne', ok_bind,
    psqrt_eq (by positivity), ok_bind, ptan_ok.2 ⟨hA.half_cos.1, rfl⟩, ok_bind, pdiv_eq hp.ne', ok_bind,
    pdiv_eq hR1.ne', ok_bind, pdiv_eq hp.ne', ok_bind, vdiv_eq hg0, ok_bind]
  exact ⟨_, rfl⟩

end Gauss

namespace Spec

/-- Twice the square root of the product of the distances times the cosine of half the angle between the positions. -/
noncomputable def bisectorLength (r1 r2 : V3) : ℝ :=
  Real.sqrt (2 * (len r1 * len r2 + (r1.x * r2.x + r1.y * r2.y + r1.z * r2.z)))

/-- The problems on which Gauss's iteration is shown to converge: positions at most some 96 degrees apart (when
equally distant from the centre) and a short flight. -/
structure GaussShort (mu : ℝ) (r1 r2 : V3) (tof : ℝ) : Prop where
  near : 2 * (len r1 + len r2) ≤ 3 * bisectorLength r1 r2
  fast : 6 * mu * tof ^ 2 ≤ bisectorLength r1 r2 ^ 3

end Spec

open Gauss

/-- What the loop finds on a short problem. -/
theorem Gauss.short_run {mu : ℝ} (hmu : 0 < mu) {r1 r2 : V3} (hna : NotAligned r1 r2) {pro : Bool}
    (hsw : ShortWay pro r1 r2) {tof : ℝ} (htof : 0 < tof) (hS : GaussShort mu r1 r2 tof) {maxiter : ℕ}
    (hmax : 1 ≤ maxiter) {atol : ℝ} (ha : (5 / 6) ^ maxiter ≤ atol) {M : ℤ} (hM : 0 ≤ M) :
    ∃ θ x n T, Angle pro r1 r2 θ ∧ |x| ≤ 1 / 4 ∧
      Path mu (V3.norm r1 + V3.norm r2) (halfA (V3.norm r1) (V3.norm r2) θ) 0
        (V3.norm r1 + V3.norm r2 - Real.sqrt 2 * halfA (V3.norm r1) (V3.norm r2) θ * (1 - 2 * x)) T ∧
      |T - tof| ≤ (atol + 1e-27) * tof ∧ (0 < x ↔ parabolicTime mu r1 r2 pro < T) ∧
      (x < 0 ↔ T < parabolicTime mu r1 r2 pro) ∧
      ∀ low rtol full clock, ∃ tpi, gauss1809 mu r1 r2 tof M pro low maxiter atol rtol full clock =
        (velocities mu r1 r2 θ x).bind fun v => .ok (mkOutput full v.1 v.2 n tpi) := by
  have hθ := transferAngle_eq hna pro
  generalize (if ShortWay pro r1 r2 then _ else _ : ℝ) = θ at hθ
  have hA := angle_of_eq hna hθ
  obtain ⟨hG, hsh⟩ := hA.halfGeo hna
  have hR1 := hG.R1
  have hR2 := hG.R2
  have hAne := hG.hA
  have hgt := hG.sum_gt
  have hA0 : 0 < halfA (V3.norm r1) (V3.norm r2) θ := hsh.2 hsw
  obtain ⟨k, hk⟩ : ∃ k, k = Real.sqrt 2 * halfA (V3.norm r1) (V3.norm r2) θ := ⟨_, rfl⟩
  have hk0 : 0 < k := by rw [hk]; positivity
  have hK : bisectorLength r1 r2 = k := by
    rw [bisectorLength, len_eq_norm, len_eq_norm, hk, Real.sqrt_eq_iff_mul_self_eq_of_pos (hk ▸ hk0)]
    have e : r1.x * r2.x + r1.y * r2.y + r1.z * r2.z = V3.dot r1 r2 := rfl
    rw [e, ← hG.hA2]
    linear_combination halfA (V3.norm r1) (V3.norm r2) θ ^ 2 * Real.mul_self_sqrt (show (0:ℝ) ≤ 2 by norm_num)
  have hnear := hS.near
  have hfast := hS.fast
  rw [hK] at hnear hfast
  rw [len_eq_norm, len_eq_norm] at hnear
  have hs := getS_eq hR1 hR2 hAne
  have hw := getW_eq (mu := mu) (tof := tof) hR1 hR2 hAne
  rw [← hk] at hs hw hgt
  obtain ⟨s, hse⟩ : ∃ s, s = (V3.norm r1 + V3.norm r2) / (2 * k) - 1 / 2 := ⟨_, rfl⟩
  obtain ⟨w, hwe⟩ : ∃ w, w = mu * tof ^ 2 / k ^ 3 := ⟨_, rfl⟩
  rw [← hse] at hs
  rw [← hwe] at hw
  rw [abs_of_pos hk0] at hgt
  have hs0 : 0 < s := by
    rw [hse, sub_pos, lt_div_iff₀ (by positivity)]; linarith
  have hs1 : s ≤ 1 / 4 := by
    rw [hse, sub_le_iff_le_add, div_le_iff₀ (by positivity)]; linarith
  have hw0 : 0 < w := by rw [hwe]; positivity
  have hw1 : w ≤ 1 / 6 := by
    rw [hwe, div_le_iff₀ (by positivity)]; linarith
  have hD : |step s w 1 - 1| ≤ 5 / 6 := by
    obtain ⟨h1, h2, h3⟩ := u_mem hs0 hs1 hw0 hw1 (le_refl 1)
    have h4 := (abs_le.1 (XAt_abs h3 50)).2
    have h5 := XAt_pos h3 50
    rw [step, secondEquation, add_sub_cancel, add_sub_cancel_left, abs_of_pos (mul_pos h5 h1)]
    calc _ ≤ 40 / 21 * (1 / 6 : ℝ) := mul_le_mul h4 h2 h1.le (by norm_num)
      _ ≤ 5 / 6 := by norm_num
  obtain ⟨m, rfl⟩ : ∃ m, maxiter = m + 1 := ⟨maxiter - 1, by omega⟩
  obtain ⟨x, n, y, hl, hy, hf, hxe, hst⟩ := loop_returns hs0 hs1 hw0 hw1 (atol := atol) m 1 (le_refl 1) hD
    (by rw [pow_succ] at ha; linarith)
  obtain ⟨hu0, hu1, hx⟩ := u_mem hs0 hs1 hw0 hw1 hy
  rw [← hxe] at hx
  obtain ⟨-, T, hpath, hT⟩ := path_time hmu htof hna hθ hs hw hf (by linarith)
  rw [← hk] at hpath
  have hV : 2 * k * (s + x) = V3.norm r1 + V3.norm r2 - k * (1 - 2 * x) := by rw [hse]; field_simp; ring
  rw [hV] at hpath
  have hu : s + x = w / y ^ 2 := by rw [hxe]; ring
  have htail := XAt_tail hx
  have hTt : |T - tof| ≤ (atol + 1e-27) * tof := by
    have hpos : 0 < 1 + 4 / 3 * Izzo.hypF x * (s + x) := by
      have h5 := (XAt_pos hx 50)
      have h6 := (abs_le.1 htail).1
      have h7 : -1 ≤ 4 / 3 * Izzo.hypF x := by linarith
      rw [hu]
      nlinarith
    rw [abs_of_pos (by linarith : 0 < y), abs_of_pos hpos] at hT
    have e : (T - tof) * y = tof * ((1 + XAt x 50 * (s + x) - y) + (4 / 3 * Izzo.hypF x - XAt x 50) * (s + x)) := by
      linear_combination hT
    have h1 : |(4 / 3 * Izzo.hypF x - XAt x 50) * (s + x)| ≤ 5e-27 * (1 / 6) := by
      rw [abs_mul, hu, abs_of_pos hu0]
      exact mul_le_mul htail hu1 hu0.le (by norm_num)
    have h2 : |T - tof| * y ≤ tof * (atol + 1e-27) := by
      rw [← abs_of_pos (by linarith : 0 < y), ← abs_mul, e, abs_mul, abs_of_pos htof]
      refine mul_le_mul_of_nonneg_left ((abs_add_le _ _).trans ?_) htof.le
      have : |1 + XAt x 50 * (s + x) - y| ≤ atol := hst
      linarith
    have h3 : |T - tof| * 1 ≤ |T - tof| * y := mul_le_mul_of_nonneg_left hy (abs_nonneg _)
    linarith
  have hpar := Tpar_parabolicTime (pro := pro) hmu (hA.halfA_eq hna ▸ hG)
  rw [← hA.halfA_eq hna] at hpar
  have hVp : 0 < V3.norm r1 + V3.norm r2 - Real.sqrt 2 * halfA (V3.norm r1) (V3.norm r2) θ := by
    rw [← hk]; linarith
  have hpp := Path.par (μ := mu) hVp rfl
  rw [hpar] at hpp
  have hgt' : |Real.sqrt 2 * halfA (V3.norm r1) (V3.norm r2) θ| < V3.norm r1 + V3.norm r2 := hG.sum_gt
  have hsx : 0 < Real.sqrt 2 := by positivity
  have e1 : (V3.norm r1 + V3.norm r2 - (V3.norm r1 + V3.norm r2 - k * (1 - 2 * x))) /
      halfA (V3.norm r1) (V3.norm r2) θ = Real.sqrt 2 * (1 - 2 * x) := by rw [hk]; field_simp; ring
  have e2 : (V3.norm r1 + V3.norm r2 - (V3.norm r1 + V3.norm r2 - Real.sqrt 2 * halfA (V3.norm r1) (V3.norm r2) θ)) /
      halfA (V3.norm r1) (V3.norm r2) θ = Real.sqrt 2 * 1 := by field_simp; ring
  refine ⟨θ, x, n, T, hA, hx, hk ▸ hpath, hTt, ?_, ?_, ?_⟩
  · rw [hpp.time_lt_iff hmu hAne hgt' hpath, e1, e2, mul_lt_mul_iff_right₀ hsx]
    constructor <;> intro h <;> linarith
  · rw [hpath.time_lt_iff hmu hAne hgt' hpp, e1, e2, mul_lt_mul_iff_right₀ hsx]
    constructor <;> intro h <;> linarith
  · intro low rtol full clock
    obtain ⟨tpi, htpi⟩ := timePerIter_pos full clock (loop_ok _ _ hl).1
    refine ⟨tpi, ?_⟩
    unfold gauss1809
    rw [assertParameters_eq hmu (by rintro rfl; simp [NotAligned] at hna)
      (by rintro rfl; simp [NotAligned, mul_comm] at hna) htof hM, ok_bind, hθ, ok_bind]
    simp only [assertTransferAngleNotZero, assertTransferAngleNotPi]
    rw [raiseIf_neg _ hA.pos.ne', ok_bind, raiseIf_neg _ hA.ne_pi, ok_bind, hs, ok_bind, hw, ok_bind,
      show (1.00 : ℝ) = 1 by norm_num, hl]
    simp only [ok_bind]
    rw [htpi, ok_bind]
    rfl

/-- **C72.** On every short problem slower than the parabola (by more than the tolerance) `gauss1809` returns within
`maxiter` passes, as soon as `(5/6) ^ maxiter` is at most `atol`; the departure velocity is that of a transfer without
complete revolutions, in the requested sense, whose flight time is the requested one up to the tolerance. -/
theorem gauss_short_solved {mu : ℝ} (hmu : 0 < mu) {r1 r2 : V3} (hna : NotAligned r1 r2) {pro : Bool}
    (hsw : ShortWay pro r1 r2) {tof : ℝ} (htof : 0 < tof) (hS : GaussShort mu r1 r2 tof) {maxiter : ℕ}
    (hmax : 1 ≤ maxiter) {atol : ℝ} (ha : (5 / 6) ^ maxiter ≤ atol) {M : ℤ} (hM : 0 ≤ M)
    (hpar : parabolicTime mu r1 r2 pro < (1 - (atol + 1e-27)) * tof) (low : Bool) (rtol : ℝ) (full : Bool) (clock : ℝ) :
    ∃ out T w2, gauss1809 mu r1 r2 tof M pro low maxiter atol rtol full clock = .ok out ∧
      LambertArc mu r1 r2 out.v1 w2 T 0 ∧ (NotPolar r1 r2 → Sense pro r1 out.v1) ∧
      |T - tof| ≤ (atol + 1e-27) * tof ∧ (len r1 = len r2 → w2 = out.v2) := by
  obtain ⟨θ, x, n, T, hA, hx, hpath, hT, hx0, -, hrun⟩ := Gauss.short_run hmu hna hsw htof hS hmax ha hM
  obtain ⟨tpi, hrun⟩ := hrun low rtol full clock
  obtain ⟨hG, hsh⟩ := hA.halfGeo hna
  have hpos : 0 < x := hx0.2 (by linarith [(abs_le.1 hT).1])
  have hx1 := (abs_le.1 hx).2
  have hd : deltaAnomaly x = .ok (2 * Real.arccos (1 - 2 * x)) := by
    rw [deltaAnomaly, if_pos hpos, pacos_eq (by linarith) (by linarith), ok_bind]
  obtain ⟨⟨v1, v2⟩, hv⟩ := velocities_exists hmu hA hna hd
  obtain ⟨d, V, δ, hd', hV, hV0, h1, -, h2⟩ := velocities_ok hmu hA hna hv
  rw [hd] at hd'
  have hd'' := Except.ok.inj hd'
  rw [← hd'', mul_div_cancel_left₀ _ (two_ne_zero' ℝ), Real.cos_arccos (by linarith) (by linarith)] at hV
  rw [← hV] at hpath
  refine ⟨mkOutput full v1 v2 n tpi, T, fgV2 mu r1 r2 (halfA (V3.norm r1) (V3.norm r2) θ) V, ?_, ?_, ?_, hT, ?_⟩
  · rw [hrun, hv]; rfl
  · rw [mkOutput_v1, h1]; exact hpath.arc hmu hG
  · intro hnp
    rw [mkOutput_v1, h1]; exact sense_of_sign hmu hV0 hG.hA hnp hsh
  · intro he
    rw [len_eq_norm, len_eq_norm] at he
    rw [mkOutput_v2, h2, he, sub_self, mul_zero]
    ext <;> simp

/-- **C72, finding.** On every short problem faster than the parabola (by more than the tolerance) `gauss1809` returns
without an error, but the orbit of its departure velocity is an ellipse, so that the flight takes longer than the
parabola and longer than requested: the circular cosine is applied to the hyperbolic anomaly. -/
theorem gauss_fast_wrong {mu : ℝ} (hmu : 0 < mu) {r1 r2 : V3} (hnp : NotPolar r1 r2) {pro : Bool}
    (hsw : ShortWay pro r1 r2) {tof : ℝ} (htof : 0 < tof) (hS : GaussShort mu r1 r2 tof) {maxiter : ℕ}
    (hmax : 1 ≤ maxiter) {atol : ℝ} (ha : (5 / 6) ^ maxiter ≤ atol) {M : ℤ} (hM : 0 ≤ M)
    (hpar : (1 + (atol + 1e-27)) * tof < parabolicTime mu r1 r2 pro) (low : Bool) (rtol : ℝ) (full : Bool) (clock : ℝ) :
    ∃ out, gauss1809 mu r1 r2 tof M pro low maxiter atol rtol full clock = .ok out ∧ Sense pro r1 out.v1 ∧
      energyOf mu r1 out.v1 < 0 ∧ (∃ T w2, LambertArc mu r1 r2 out.v1 w2 T 0) ∧
      ∀ T w2, LambertArc mu r1 r2 out.v1 w2 T 0 → tof < T := by
  have hna : NotAligned r1 r2 := fun h => hnp h.2.2
  obtain ⟨θ, x, n, T, hA, hx, hpath, hT, -, hx0, hrun⟩ := Gauss.short_run hmu hna hsw htof hS hmax ha hM
  obtain ⟨tpi, hrun⟩ := hrun low rtol full clock
  obtain ⟨hG, hsh⟩ := hA.halfGeo hna
  have hat : 0 < atol := lt_of_lt_of_le (by positivity) ha
  have htp : tof < parabolicTime mu r1 r2 pro := by nlinarith
  have hneg : x < 0 := hx0.2 (by linarith [(abs_le.1 hT).2])
  have hx1 := (abs_le.1 hx).1
  have hd : deltaAnomaly x = .ok (2 * Real.arcosh (1 - 2 * x)) := by
    rw [deltaAnomaly, if_neg (by linarith), if_neg hneg.ne, pacosh_ok.2 ⟨by linarith, rfl⟩, ok_bind]
  obtain ⟨⟨v1, v2⟩, hv⟩ := velocities_exists hmu hA hna hd
  have hrun' : gauss1809 mu r1 r2 tof M pro low maxiter atol rtol full clock = .ok (mkOutput full v1 v2 n tpi) := by
    rw [hrun, hv]; rfl
  obtain ⟨hsense, -, hb⟩ := gauss_kepler_transfer_partial hrun'
  obtain ⟨d, V, δ, hd', hV, hV0, h1, -, h2⟩ := velocities_ok hmu hA hna hv
  have hE : energyOf mu r1 (mkOutput full v1 v2 n tpi).v1 < 0 := by
    have hsq : ∀ v : V3, len v ^ 2 = V3.dot v v := by
      intro v; rw [len, Real.sq_sqrt (by positivity)]; unfold V3.dot; ring
    rw [hd] at hd'
    have hd'' := Except.ok.inj hd'
    rw [← hd'', mul_div_cancel_left₀ _ (two_ne_zero' ℝ)] at hV
    have hc1 : 1 < 1 - 2 * x := by linarith
    have hcosh : Real.cosh (Real.arcosh (1 - 2 * x)) = 1 - 2 * x := Real.cosh_arcosh hc1.le
    have hφ : 0 < Real.arcosh (1 - 2 * x) := Real.arcosh_pos hc1
    generalize Real.arcosh (1 - 2 * x) = φ at *
    have hφπ : φ < Real.pi := by
      have h3 := Real.self_le_sinh_iff.2 hφ.le
      have h4 := Real.cosh_sq φ
      have h5 : Real.cosh φ ^ 2 ≤ (3 / 2) ^ 2 := pow_le_pow_left₀ (Real.cosh_pos φ).le (by rw [hcosh]; linarith) 2
      have := Real.pi_gt_three
      nlinarith
    have hs := Real.sin_pos_of_pos_of_lt_pi hφ hφπ
    have hcos : Real.cos φ ^ 2 < 1 := by nlinarith [Real.sin_sq_add_cos_sq φ]
    have hAne := hG.hA
    rw [energyOf, mkOutput_v1, h1, len_eq_norm r1, hsq, fgV1_energy hmu hV0 hG]
    generalize halfA (V3.norm r1) (V3.norm r2) θ = A at *
    have hr2 : Real.sqrt 2 ^ 2 = 2 := Real.sq_sqrt (by norm_num)
    have e : (V3.norm r1 + V3.norm r2 - V) ^ 2 - 2 * A ^ 2 = -(2 * A ^ 2 * (1 - Real.cos φ ^ 2)) := by
      rw [hV]; linear_combination A ^ 2 * Real.cos φ ^ 2 * hr2
    rw [e, mul_neg, neg_div]
    have : 0 < 1 - Real.cos φ ^ 2 := by linarith
    have : 0 < mu * (2 * A ^ 2 * (1 - Real.cos φ ^ 2)) / (2 * A ^ 2 * V) := by positivity
    linarith
  refine ⟨_, hrun', hsense hnp, hE, ?_, fun T' w2 h => ?_⟩
  · obtain ⟨T', w2, h, -⟩ := hb hE
    exact ⟨T', w2, h⟩
  · exact htp.trans ((((conic_of_time hmu hnp h (hsense hnp)).1 rfl).1).1 hE)

/-- **C72, finding.** On the short way `gauss1809` refuses all slow problems, whatever the tolerance and the number of
iterations: the series is cut after 51 terms and stays bounded.  Each of these problems has exactly one solution. -/
theorem gauss_slow_refused {mu : ℝ} (hmu : 0 < mu) {r1 r2 : V3} (hnp : NotPolar r1 r2) {pro : Bool}
    (hsw : ShortWay pro r1 r2) (atol : ℝ) :
    ∃ T > 0, ∀ tof, T < tof → (∃! v : V3 × V3, LambertArc mu r1 r2 v.1 v.2 tof 0 ∧ Sense pro r1 v.1) ∧
      ∀ (M : ℤ) (low : Bool) (maxiter : ℕ) (rtol : ℝ) (full : Bool) (clock : ℝ) (out : Output),
        gauss1809 mu r1 r2 tof M pro low maxiter atol rtol full clock ≠ .ok out := by
  have hna : NotAligned r1 r2 := fun h => hnp h.2.2
  have hθ := transferAngle_eq hna pro
  generalize (if ShortWay pro r1 r2 then _ else _ : ℝ) = θ at hθ
  have hA := angle_of_eq hna hθ
  obtain ⟨hG, hsh⟩ := hA.halfGeo hna
  have hR1 := hG.R1
  have hR2 := hG.R2
  have hAne := hG.hA
  have hA0 : 0 < halfA (V3.norm r1) (V3.norm r2) θ := hsh.2 hsw
  have hs := getS_eq hR1 hR2 hAne
  obtain ⟨k, hk⟩ : ∃ k, k = Real.sqrt 2 * halfA (V3.norm r1) (V3.norm r2) θ := ⟨_, rfl⟩
  have hk0 : 0 < k := by rw [hk]; positivity
  have hgt := hG.sum_gt
  rw [← hk] at hs hgt
  rw [abs_of_pos hk0] at hgt
  obtain ⟨s, hse⟩ : ∃ s, s = (V3.norm r1 + V3.norm r2) / (2 * k) - 1 / 2 := ⟨_, rfl⟩
  rw [← hse] at hs
  have hs0 : 0 < s := by
    rw [hse, sub_pos, lt_div_iff₀ (by positivity)]; linarith
  obtain ⟨C, hC⟩ : ∃ C, ∀ x ∈ Set.Icc (-s) 1, |XAt x 50| ≤ C := by
    have hc : Continuous fun x => XAt x 50 := by
      simp only [XAt_eq, Izzo.hypTerm_eq]
      fun_prop
    obtain ⟨C, hC⟩ := isCompact_Icc.exists_bound_of_continuousOn (s := Set.Icc (-s) 1) hc.continuousOn
    exact ⟨C, hC⟩
  have hC0 : 0 ≤ C := (abs_nonneg _).trans (hC 0 ⟨by linarith, by norm_num⟩)
  obtain ⟨B, hB⟩ : ∃ B, B = (s + 1) * (1 + C * (s + 1) + |atol|) ^ 2 := ⟨_, rfl⟩
  have hB0 : 0 < B := by rw [hB]; positivity
  refine ⟨Real.sqrt (B * k ^ 3 / mu), by positivity, fun tof ht => ?_⟩
  have htof : 0 < tof := (Real.sqrt_nonneg _).trans_lt ht
  refine ⟨zero_rev_exists_unique hmu htof hnp pro, fun M low maxiter rtol full clock out h => ?_⟩
  obtain ⟨-, -, -, -, θ', s', w, x, n, tpi, v1, v2, hθ', hs', hw, hl, hvel, -, rfl⟩ := gauss_ok_split h
  obtain rfl : θ = θ' := Except.ok.inj (hθ.symm.trans hθ')
  obtain rfl : s = s' := Except.ok.inj (hs.symm.trans hs')
  rw [getW_eq hR1 hR2 hAne, ← hk] at hw
  have hw' := Except.ok.inj hw
  obtain ⟨-, -, y, hf, hst⟩ := loop_ok _ _ hl
  unfold firstEquation at hf
  simp only [bind_ok, pdiv_ok] at hf
  obtain ⟨q, ⟨hy2, rfl⟩, hf⟩ := hf
  have hf' := Except.ok.inj hf
  have hy : 0 < y ^ 2 := lt_of_le_of_ne (sq_nonneg y) (Ne.symm hy2)
  have hw0 : 0 < w := by rw [← hw']; positivity
  have hsx : s + x = w / y ^ 2 := by rw [← hf']; ring
  have hx0 : 0 < s + x := by rw [hsx]; positivity
  have hx1 : x ≤ 1 := by
    obtain ⟨d, -, -, hd, -⟩ := velocities_ok hmu hA hna hvel
    rcases deltaAnomaly_ok hd with h | h
    · exact h.2.1
    · linarith [h.1]
  have hX := hC x ⟨by linarith, hx1⟩
  have hyb : |y| ≤ 1 + C * (s + 1) + |atol| := by
    have h1 : |XAt x 50 * (s + x)| ≤ C * (s + 1) := by
      rw [abs_mul, abs_of_pos hx0]; exact mul_le_mul hX (by linarith) hx0.le hC0
    have h2 : y = 1 + XAt x 50 * (s + x) - (secondEquation x s - y) := by rw [secondEquation]; ring
    rw [h2]
    refine (abs_sub _ _).trans ?_
    have h3 := abs_add_le 1 (XAt x 50 * (s + x))
    rw [abs_one] at h3
    linarith [le_abs_self atol]
  have hwB : w ≤ B := by
    have e : w = (s + x) * y ^ 2 := by rw [hsx, div_mul_cancel₀ _ hy2]
    rw [e, hB, ← sq_abs y]
    exact mul_le_mul (by linarith) (pow_le_pow_left₀ (abs_nonneg _) hyb 2) (by positivity) (by linarith)
  rw [← hw', div_le_iff₀ (by positivity)] at hwB
  have ht2 : B * k ^ 3 / mu < tof ^ 2 := (Real.sqrt_lt' htof).1 ht
  rw [div_lt_iff₀ hmu] at ht2
  linarith

namespace Gauss

theorem example_short {tof : ℝ} (h : tof ^ 2 ≤ 9 / 2) : GaussShort 1 ⟨5 / 4, 0, 0⟩ ⟨8 / 5, 6 / 5, 0⟩ tof := by
  have h1 : len ⟨5 / 4, 0, 0⟩ = 5 / 4 := by
    rw [len, Real.sqrt_eq_iff_mul_self_eq_of_pos (by norm_num)]; norm_num
  have h2 : len ⟨8 / 5, 6 / 5, 0⟩ = 2 := by
    rw [len, Real.sqrt_eq_iff_mul_self_eq_of_pos (by norm_num)]; norm_num
  have h3 : bisectorLength ⟨5 / 4, 0, 0⟩ ⟨8 / 5, 6 / 5, 0⟩ = 3 := by
    rw [bisectorLength, h1, h2, Real.sqrt_eq_iff_mul_self_eq_of_pos (by norm_num)]; norm_num
  refine ⟨?_, ?_⟩
  · rw [h1, h2, h3]; norm_num
  · rw [h3]; linarith

theorem example_par : 1.1 < parabolicTime 1 ⟨5 / 4, 0, 0⟩ ⟨8 / 5, 6 / 5, 0⟩ true ∧
    parabolicTime 1 ⟨5 / 4, 0, 0⟩ ⟨8 / 5, 6 / 5, 0⟩ true < 1.2 := by
  have h1 : len ⟨5 / 4, 0, 0⟩ = 5 / 4 := by
    rw [len, Real.sqrt_eq_iff_mul_self_eq_of_pos (by norm_num)]; norm_num
  have h2 : len ⟨8 / 5, 6 / 5, 0⟩ = 2 := by
    rw [len, Real.sqrt_eq_iff_mul_self_eq_of_pos (by norm_num)]; norm_num
  have h3 : len ((⟨8 / 5, 6 / 5, 0⟩ : V3) - ⟨5 / 4, 0, 0⟩) = 5 / 4 := by
    rw [len, Real.sqrt_eq_iff_mul_self_eq_of_pos (by norm_num)]; norm_num
  have h4 : Real.sqrt (1 - 5 / 4 / ((5 / 4 + 2 + 5 / 4) / 2)) = 2 / 3 := by
    rw [Real.sqrt_eq_iff_mul_self_eq_of_pos (by norm_num)]; norm_num
  have hS : ShortWay true ⟨5 / 4, 0, 0⟩ ⟨8 / 5, 6 / 5, 0⟩ := by norm_num [ShortWay, crossZ]
  have e : (2 / 3 * (1 - 1 * (2 / 3) ^ 3) : ℝ) = 38 / 81 := by norm_num
  rw [parabolicTime, timeUnit, h1, h2, h3, h4, if_pos hS, e]
  constructor
  · have : 2.36 < Real.sqrt (((5 / 4 + 2 + 5 / 4) / 2) ^ 3 / (2 * 1)) := Real.lt_sqrt_of_sq_lt (by norm_num)
    linarith
  · have : Real.sqrt (((5 / 4 + 2 + 5 / 4) / 2) ^ 3 / (2 * 1)) < 2.5 := (Real.sqrt_lt' (by norm_num)).2 (by norm_num)
    linarith

end Gauss

/-- The hypotheses of `gauss_short_solved` hold with the default tolerance and number of iterations, at unequal distances
from the centre. -/
example : ∃ out T w2, gauss1809 1 ⟨5 / 4, 0, 0⟩ ⟨8 / 5, 6 / 5, 0⟩ 2 0 true true 250 1e-5 1e-7 false 0 = .ok out ∧
    LambertArc 1 ⟨5 / 4, 0, 0⟩ ⟨8 / 5, 6 / 5, 0⟩ out.v1 w2 T 0 ∧ |T - 2| ≤ 3e-5 := by
  have hp := Gauss.example_par.2
  obtain ⟨out, T, w2, h1, h2, -, h3, -⟩ := gauss_short_solved (pro := true) one_pos (by norm_num [NotAligned])
    (by norm_num [ShortWay, crossZ]) two_pos (Gauss.example_short (by norm_num)) (maxiter := 250) (by norm_num)
    (atol := 1e-5) (by norm_num) le_rfl (by linarith) true 1e-7 false 0
  exact ⟨out, T, w2, h1, h2, h3.trans (by norm_num)⟩

/-- The hypotheses of `gauss_fast_wrong` hold for the same positions and half the time. -/
example : ∃ out, gauss1809 1 ⟨5 / 4, 0, 0⟩ ⟨8 / 5, 6 / 5, 0⟩ 1 0 true true 250 1e-5 1e-7 false 0 = .ok out ∧
    ∀ T w2, LambertArc 1 ⟨5 / 4, 0, 0⟩ ⟨8 / 5, 6 / 5, 0⟩ out.v1 w2 T 0 → 1 < T := by
  have hp := Gauss.example_par.1
  obtain ⟨out, h1, -, -, -, h2⟩ := gauss_fast_wrong (pro := true) one_pos (by norm_num [NotPolar])
    (by norm_num [ShortWay, crossZ]) one_pos (Gauss.example_short (by norm_num)) (maxiter := 250) (by norm_num)
    (atol := 1e-5) (by norm_num) le_rfl (by linarith) true 1e-7 false 0
  exact ⟨out, h1, h2⟩

/-- The hypotheses of `gauss_slow_refused`. -/
example : NotPolar ⟨5 / 4, 0, 0⟩ ⟨8 / 5, 6 / 5, 0⟩ ∧ ShortWay true ⟨5 / 4, 0, 0⟩ ⟨8 / 5, 6 / 5, 0⟩ := by
  norm_num [NotPolar, ShortWay, crossZ]

end Lamberthub
