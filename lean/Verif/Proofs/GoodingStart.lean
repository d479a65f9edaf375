import Verif.Proofs.GoodingRun

/-! # The starting values of `gooding1990` without revolutions -/

set_option autoImplicit false

namespace Lamberthub
open Filter Topology Spec LC

namespace Gooding
open Izzo (tm tm1 tm2)

theorem sqrt_mem {x : ℝ} (h0 : 0 ≤ x) (h1 : x ≤ 1) : 0 ≤ Real.sqrt x ∧ Real.sqrt x ≤ 1 :=
  ⟨Real.sqrt_nonneg _, by rw [Real.sqrt_le_one]; exact h1⟩

/-- The bilinear starting value and its correction towards `-√(…)`. -/
theorem bilinear_ok {tdiff t0 thr2 : ℝ} (hd : 0 < tdiff) (ht : 0 < t0) (h1 : thr2 < 1) :
    ∃ e, 0 ≤ e ∧ e ≤ 1 ∧
      bilinear tdiff t0 thr2 = .ok (-tdiff / (tdiff + 4) - e * (-tdiff / (tdiff + 4) + Real.sqrt (tdiff / (tdiff + 1.5 * t0)))) ∧
      (0 ≤ -tdiff / (tdiff + 4) + 1.7 * Real.sqrt (2 * (1 - thr2)) → e = 0) := by
  have e4 : (4.0 : ℝ) = 4 := by norm_num
  have e2 : (2.0 : ℝ) * (1.0 - thr2) = 2 * (1 - thr2) := by norm_num
  have hq : -1 < -tdiff / (tdiff + 4) := by rw [lt_div_iff₀ (by linarith)]; linarith
  have hs := Real.sqrt_nonneg (2 * (1 - thr2))
  unfold bilinear
  rw [e4, pdiv_eq (by linarith), ok_bind, e2, psqrt_eq (by linarith), ok_bind]
  simp only []
  split
  · rename_i hw
    generalize hwd : -tdiff / (tdiff + 4) + 1.7 * Real.sqrt (2 * (1 - thr2)) = w at *
    have hw1 : -w ≤ 1 := by
      have : (0 : ℝ) ≤ 1.7 * Real.sqrt (2 * (1 - thr2)) := mul_nonneg (by norm_num) hs
      linarith
    have a1 := sqrt_mem (by linarith : 0 ≤ -w) hw1
    have a2 := sqrt_mem a1.1 a1.2
    have a3 := sqrt_mem a2.1 a2.2
    have a4 := sqrt_mem a3.1 a3.2
    refine ⟨_, a4.1, a4.2, ?_, fun h => absurd hw (not_lt.2 h)⟩
    rw [d8rt, psqrt_eq (by linarith), ok_bind, psqrt_eq a1.1, ok_bind, psqrt_eq a2.1, ok_bind, psqrt_eq a3.1, ok_bind,
      pdiv_eq (by norm_num; linarith), ok_bind, psqrt_eq (by positivity), ok_bind]
  · exact ⟨0, le_rfl, zero_le_one, by rw [zero_mul, sub_zero], fun _ => rfl⟩

theorem bilinear_mem {tdiff t0 e : ℝ} (hd : 0 < tdiff) (ht : 0 < t0) (h0 : 0 ≤ e) (h1 : e ≤ 1) :
    -1 < -tdiff / (tdiff + 4) - e * (-tdiff / (tdiff + 4) + Real.sqrt (tdiff / (tdiff + 1.5 * t0))) ∧
      -tdiff / (tdiff + 4) - e * (-tdiff / (tdiff + 4) + Real.sqrt (tdiff / (tdiff + 1.5 * t0))) < 0 := by
  have hq : -1 < -tdiff / (tdiff + 4) := by rw [lt_div_iff₀ (by linarith)]; linarith
  have hq0 : -tdiff / (tdiff + 4) < 0 := div_neg_of_neg_of_pos (by linarith) (by linarith)
  have hr0 : 0 < Real.sqrt (tdiff / (tdiff + 1.5 * t0)) := Real.sqrt_pos.2 (by positivity)
  have hr1 : Real.sqrt (tdiff / (tdiff + 1.5 * t0)) < 1 := by
    rw [Real.sqrt_lt' one_pos, one_pow, div_lt_one (by positivity)]
    norm_num; linarith
  generalize -tdiff / (tdiff + 4) = a at *
  generalize Real.sqrt (tdiff / (tdiff + 1.5 * t0)) = b at *
  constructor
  · rcases h1.lt_or_eq with h | rfl
    · nlinarith
    · linarith
  · rcases h1.lt_or_eq with h | rfl
    · nlinarith
    · linarith

theorem tm_zero_pos {q : ℝ} (hq : q ^ 2 < 1) : 0 < tm q 0 := by
  have h := (Izzo.T00_bounds hq).1
  have : tm q 0 = Real.arccos q + q * Real.sqrt (1 - q ^ 2) := by
    rw [tm, lancT, if_pos one_pos, lancY]; norm_num
  rw [this]; exact h

theorem tlamb_zero {q : ℝ} (hq : q ^ 2 < 1) : ∃ d, tlamb 0 q (1 - q ^ 2) 0.0 0 = .ok (2 * tm q 0, d) := by
  obtain ⟨d, hd⟩ := tlamb_time (lanc_lancY hq 0) (M := 0) (by norm_num) (Or.inl rfl) (n := 0) (by norm_num)
  rw [Nat.cast_zero] at hd
  exact ⟨d, by rw [show (0.0 : ℝ) = 0 by norm_num, hd]; rfl⟩

/-- The start for times below the one of the least energy. -/
theorem start_fast {q τ thr2 : ℝ} (hq : q ^ 2 < 1) (h0 : 0 < τ) (h : τ ≤ tm q 0) :
    singleStart q (1 - q ^ 2) (2 * τ) thr2 = .ok (tm q 0 * (tm q 0 - τ) / (2 * τ)) := by
  obtain ⟨⟨d1, d2, d3⟩, hd⟩ := tlamb_zero hq
  unfold singleStart
  rw [hd, ok_bind]
  simp only []
  rw [if_pos (by linarith), pdiv_eq (by norm_num; exact h0.ne')]
  congr 1
  have : (-4.0 : ℝ) = -4 := by norm_num
  rw [this]
  field_simp
  ring

/-- The start for times above the one of the least energy. -/
theorem start_slow {q τ thr2 : ℝ} (hq : q ^ 2 < 1) (h1 : thr2 < 1) (h : tm q 0 < τ) :
    ∃ e, 0 ≤ e ∧ e ≤ 1 ∧
      (0 ≤ -(τ - tm q 0) / (τ - tm q 0 + 2) + 1.7 * Real.sqrt (2 * (1 - thr2)) → e = 0) ∧
      ∃ x w, x = -(τ - tm q 0) / (τ - tm q 0 + 2) -
          e * (-(τ - tm q 0) / (τ - tm q 0 + 2) + Real.sqrt ((τ - tm q 0) / (τ - tm q 0 + 1.5 * tm q 0))) ∧
        w = 2 / (2 + (τ - tm q 0)) ∧ -1 < x ∧ x < 0 ∧ 0 < w ∧ w < 1 ∧
        singleStart q (1 - q ^ 2) (2 * τ) thr2 = .ok (x * (1 + x * (0.5 * w - 0.03 * x * Real.sqrt w))) := by
  obtain ⟨⟨d1, d2, d3⟩, hd⟩ := tlamb_zero hq
  have ht := tm_zero_pos hq
  obtain ⟨e, he0, he1, hb, he⟩ := bilinear_ok (tdiff := 2 * τ - 2 * tm q 0) (t0 := 2 * tm q 0) (by linarith) (by linarith) h1
  have hmem := bilinear_mem (tdiff := 2 * τ - 2 * tm q 0) (t0 := 2 * tm q 0) (by linarith) (by linarith) he0 he1
  have hδ : 0 < τ - tm q 0 := by linarith
  have e1 : -(2 * τ - 2 * tm q 0) / (2 * τ - 2 * tm q 0 + 4) = -(τ - tm q 0) / (τ - tm q 0 + 2) := by
    rw [show -(2 * τ - 2 * tm q 0) = 2 * -(τ - tm q 0) by ring,
      show 2 * τ - 2 * tm q 0 + 4 = 2 * (τ - tm q 0 + 2) by ring, mul_div_mul_left _ _ (by norm_num)]
  have e2 : (2 * τ - 2 * tm q 0) / (2 * τ - 2 * tm q 0 + 1.5 * (2 * tm q 0)) = (τ - tm q 0) / (τ - tm q 0 + 1.5 * tm q 0) := by
    rw [show 2 * τ - 2 * tm q 0 = 2 * (τ - tm q 0) by ring,
      show 2 * (τ - tm q 0) + 1.5 * (2 * tm q 0) = 2 * (τ - tm q 0 + 1.5 * tm q 0) by ring, mul_div_mul_left _ _ (by norm_num)]
  have e3 : (4.0 : ℝ) / (4.0 + (2 * τ - 2 * tm q 0)) = 2 / (2 + (τ - tm q 0)) := by
    rw [show (4.0 : ℝ) = 2 * 2 by norm_num, show (2 * 2 : ℝ) + (2 * τ - 2 * tm q 0) = 2 * (2 + (τ - tm q 0)) by ring,
      mul_div_mul_left _ _ (by norm_num)]
  rw [e1, e2] at hb hmem
  rw [e1] at he
  refine ⟨e, he0, he1, he, _, _, rfl, rfl, hmem.1, hmem.2, by positivity, ?_, ?_⟩
  · rw [div_lt_one (by linarith)]; linarith
  · unfold singleStart
    rw [hd, ok_bind]
    simp only []
    rw [if_neg (by linarith), hb, ok_bind, pdiv_eq (by norm_num; linarith), ok_bind, e3, psqrt_eq (by positivity), ok_bind]
    norm_num

/-- The last correction keeps the sign and the domain. -/
theorem correction_mem {x w : ℝ} (h1 : -1 < x) (h2 : x < 0) (h3 : 0 < w) (h4 : w < 1) :
    0 ≤ 0.5 * w - 0.03 * x * Real.sqrt w ∧ 0.5 * w - 0.03 * x * Real.sqrt w ≤ 0.53 ∧
      -1 < x * (1 + x * (0.5 * w - 0.03 * x * Real.sqrt w)) ∧ x * (1 + x * (0.5 * w - 0.03 * x * Real.sqrt w)) < 0 := by
  obtain ⟨s0, s1⟩ := sqrt_mem h3.le h4.le
  have b0 : 0 ≤ 0.5 * w - 0.03 * x * Real.sqrt w := by
    norm_num
    nlinarith
  have b1 : 0.5 * w - 0.03 * x * Real.sqrt w ≤ 0.53 := by
    have : -x * Real.sqrt w ≤ 1 := by nlinarith
    norm_num
    nlinarith
  generalize 0.5 * w - 0.03 * x * Real.sqrt w = B at *
  norm_num at b1
  have hx2 : x ^ 2 < 1 := by nlinarith
  refine ⟨b0, by norm_num; exact b1, ?_, ?_⟩
  · nlinarith [mul_nonneg (sq_nonneg x) b0]
  · have : 0 < 1 + x * B := by nlinarith
    exact mul_neg_of_neg_of_pos h2 this

end Gooding
end Lamberthub
