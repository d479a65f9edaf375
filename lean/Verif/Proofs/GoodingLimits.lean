import Verif.Proofs.IzzoFast
import Verif.Proofs.IzzoSlow
import Verif.Proofs.GoodingStart

/-! # One pass of `gooding1990` for very short and very long times -/

set_option autoImplicit false

namespace Lamberthub
open Filter Topology Spec LC

namespace Gooding
open Izzo (tm tm1 tm2 fastC fastC_pos lancY_fast sq_ratio_fast slowC slowC_pos)

theorem arsinh_le_sqrt {z x : ℝ} (hx : 1 ≤ x) (hz0 : 0 ≤ z) (hz : z ≤ 2 * x ^ 2) :
    Real.arsinh z ≤ 4 * Real.sqrt (1 + 2 * x) := by
  have h1 : Real.sqrt (1 + z ^ 2) ≤ 1 + z := by
    rw [Real.sqrt_le_left (by linarith)]; nlinarith
  have h2 : z + Real.sqrt (1 + z ^ 2) ≤ (1 + 2 * x) ^ 2 := by nlinarith
  have h3 : 0 < z + Real.sqrt (1 + z ^ 2) := by positivity
  have hs : 0 < Real.sqrt (1 + 2 * x) := Real.sqrt_pos.2 (by linarith)
  have hsq : (1 + 2 * x) ^ 2 = Real.sqrt (1 + 2 * x) ^ 4 := by
    rw [show Real.sqrt (1 + 2 * x) ^ 4 = (Real.sqrt (1 + 2 * x) ^ 2) ^ 2 by ring, Real.sq_sqrt (by linarith)]
  rw [Real.arsinh]
  calc Real.log (z + Real.sqrt (1 + z ^ 2)) ≤ Real.log ((1 + 2 * x) ^ 2) := Real.log_le_log h3 h2
    _ = 4 * Real.log (Real.sqrt (1 + 2 * x)) := by rw [hsq, Real.log_pow]; norm_num
    _ ≤ 4 * Real.sqrt (1 + 2 * x) := by
        have := Real.log_le_sub_one_of_pos hs
        linarith

/-- `y - |q| x → 0` on fast hyperbolas. -/
theorem lancY_asymptote {q : ℝ} (hq : q ^ 2 < 1) (h0 : q ≠ 0) :
    Tendsto (fun x => lancY q x - |q| * x) atTop (𝓝 0) ∧ Tendsto (lancY q) atTop atTop := by
  have hqa : 0 < |q| := abs_pos.2 h0
  have hge : ∀ x, 0 < x → |q| * x ≤ lancY q x := by
    intro x hx
    rw [lancY]
    refine Real.le_sqrt_of_sq_le ?_
    rw [mul_pow, sq_abs]; linarith
  have htop : Tendsto (lancY q) atTop atTop := by
    refine tendsto_atTop_mono' atTop ?_ (tendsto_id.const_mul_atTop hqa)
    filter_upwards [eventually_gt_atTop 0] with x hx using hge x hx
  refine ⟨?_, htop⟩
  have h : Tendsto (fun x => (1 - q ^ 2) / lancY q x) atTop (𝓝 0) := tendsto_const_nhds.div_atTop htop
  refine squeeze_zero' ?_ ?_ h
  · filter_upwards [eventually_gt_atTop 0] with x hx
    linarith [hge x hx]
  · filter_upwards [eventually_gt_atTop 0] with x hx
    have hL := lanc_lancY hq x
    rw [le_div_iff₀ hL.y_pos]
    have h1 := hL.y_sq
    have h2 : (|q| * x) ^ 2 = q ^ 2 * x ^ 2 := by rw [mul_pow, sq_abs]
    have h3 : 0 < |q| * x := by positivity
    nlinarith [hge x hx]

theorem ratio_sub_fast : Tendsto (fun x : ℝ => x * (x ^ 2 / (x ^ 2 - 1) - 1)) atTop (𝓝 0) := by
  have h := tendsto_inv_atTop_zero.mul sq_ratio_fast
  rw [zero_mul] at h
  refine h.congr' ?_
  filter_upwards [eventually_gt_atTop 1] with x hx
  have hw : 0 < x ^ 2 - 1 := by nlinarith
  have hx0 : 0 < x := by linarith
  field_simp
  ring

/-- The time and its derivatives on fast hyperbolas, to relative accuracy `o(1/x)`. -/
theorem fast_expansion {q : ℝ} (hq : q ^ 2 < 1) (h0 : q ≠ 0) :
    Tendsto (fun x => x * (x * tm q x - fastC q)) atTop (𝓝 0) ∧
    Tendsto (fun x => x * (x ^ 2 * tm1 q x + fastC q)) atTop (𝓝 0) ∧
    Tendsto (fun x => x * (x ^ 3 * tm2 q x - 2 * fastC q)) atTop (𝓝 0) := by
  have hqa : 0 < |q| := abs_pos.2 h0
  obtain ⟨hY, hYt⟩ := lancY_asymptote hq h0
  have hρ := sq_ratio_fast
  have hρ1 := ratio_sub_fast
  have hxy : Tendsto (fun x => (lancY q x / x)⁻¹) atTop (𝓝 |q|⁻¹) := (lancY_fast hq).inv₀ hqa.ne'
  have hA : Tendsto (fun x : ℝ => Real.arsinh ((lancY q x - x * q) * Real.sqrt (x ^ 2 - 1)) /
      Real.sqrt (x ^ 2 - 1)) atTop (𝓝 0) := by
    have hb : Tendsto (fun x : ℝ => 8 * Real.sqrt (x⁻¹ * 3)) atTop (𝓝 0) := by
      have h1 : Tendsto (fun x : ℝ => Real.sqrt (x⁻¹ * 3)) atTop (𝓝 (Real.sqrt (0 * 3))) :=
        (Real.continuous_sqrt.tendsto _).comp (tendsto_inv_atTop_zero.mul_const 3)
      have h2 := h1.const_mul 8
      simpa using h2
    refine squeeze_zero' ?_ ?_ hb
    · filter_upwards [eventually_gt_atTop 1] with x hx
      have hL := lanc_lancY hq x
      have := hL.eta_pos
      have : 0 ≤ Real.arsinh ((lancY q x - x * q) * Real.sqrt (x ^ 2 - 1)) := by
        rw [Real.arsinh_nonneg_iff, mul_comm x q]; positivity
      positivity
    · filter_upwards [eventually_gt_atTop 2] with x hx
      have hL := lanc_lancY hq x
      have he := hL.eta_pos
      have hw : 0 < x ^ 2 - 1 := by nlinarith
      have hy : lancY q x ≤ x := by
        rw [lancY, Real.sqrt_le_left (by linarith)]; nlinarith
      have hsx : Real.sqrt (x ^ 2 - 1) ≤ x := by
        rw [Real.sqrt_le_left (by linarith)]; linarith
      have hsx' : x / 2 ≤ Real.sqrt (x ^ 2 - 1) := Real.le_sqrt_of_sq_le (by nlinarith)
      have hl1 : -1 < q := (abs_lt.1 ((sq_lt_one_iff_abs_lt_one _).1 hq)).1
      have h1 : lancY q x - x * q ≤ 2 * x := by nlinarith
      have h2 := arsinh_le_sqrt (x := x) (z := (lancY q x - x * q) * Real.sqrt (x ^ 2 - 1)) (by linarith)
        (by rw [mul_comm x q]; positivity) (by
          calc (lancY q x - x * q) * Real.sqrt (x ^ 2 - 1) ≤ (2 * x) * x :=
              mul_le_mul h1 hsx (Real.sqrt_nonneg _) (by linarith)
            _ = 2 * x ^ 2 := by ring)
      rw [div_le_iff₀ (Real.sqrt_pos.2 hw)]
      have h3 : Real.sqrt (1 + 2 * x) ≤ Real.sqrt (x⁻¹ * 3) * x := by
        rw [show Real.sqrt (x⁻¹ * 3) * x = Real.sqrt (x⁻¹ * 3) * Real.sqrt (x ^ 2) by rw [Real.sqrt_sq (by linarith)],
          ← Real.sqrt_mul (by positivity)]
        refine Real.sqrt_le_sqrt ?_
        have : x⁻¹ * 3 * x ^ 2 = 3 * x := by field_simp
        rw [this]; linarith
      have h4 := Real.sqrt_nonneg (x⁻¹ * 3)
      calc _ ≤ 4 * Real.sqrt (1 + 2 * x) := h2
        _ ≤ 4 * (Real.sqrt (x⁻¹ * 3) * x) := by linarith
        _ = 8 * Real.sqrt (x⁻¹ * 3) * (x / 2) := by ring
        _ ≤ _ := mul_le_mul_of_nonneg_left hsx' (by positivity)
  have E0 : Tendsto (fun x => x * (x * tm q x - fastC q)) atTop (𝓝 0) := by
    have h := ((hρ1.mul_const (fastC q)).add (((hY.const_mul (-q)).sub hA).mul hρ))
    have e : 0 * fastC q + (-q * 0 - 0) * 1 = 0 := by ring
    rw [e] at h
    refine h.congr' ?_
    filter_upwards [eventually_gt_atTop 1] with x hx
    have hw : 0 < x ^ 2 - 1 := by nlinarith
    have hsw := Real.sqrt_pos.2 hw
    rw [tm, lancT, if_neg (by linarith), if_neg hx.ne', show 1 - x ^ 2 = -(x ^ 2 - 1) by ring, fastC]
    generalize Real.arsinh ((lancY q x - x * q) * Real.sqrt (x ^ 2 - 1)) = A
    generalize Real.sqrt (x ^ 2 - 1) = s at *
    generalize hW : x ^ 2 - 1 = w at *
    have hx0 : 0 < x := by linarith
    have hx2 : x ^ 2 = w + 1 := by linarith
    field_simp
    ring
  have hYx : Tendsto (fun x => x * (x / lancY q x - 1 / |q|)) atTop (𝓝 0) := by
    have h := ((hY.mul hxy).mul_const (-1 / |q|))
    have e : 0 * |q|⁻¹ * (-1 / |q|) = 0 := by ring
    rw [e] at h
    refine h.congr' ?_
    filter_upwards [eventually_gt_atTop 0] with x hx
    have hy := (lanc_lancY hq x).y_pos
    field_simp
    ring
  have hK : 3 * fastC q - 2 + 2 * q ^ 3 * (1 / |q|) = fastC q := by
    have : q ^ 3 * (1 / |q|) = q * |q| := by
      rw [mul_one_div, div_eq_iff hqa.ne', mul_assoc, abs_mul_abs_self]; ring
    rw [mul_assoc, this, fastC]; ring
  have E1 : Tendsto (fun x => x * (x ^ 2 * tm1 q x + fastC q)) atTop (𝓝 0) := by
    have h := (((E0.mul hρ).const_mul (-3)).sub (hρ1.mul_const (fastC q))).sub ((hρ.mul hYx).const_mul (2 * q ^ 3))
    have e : -3 * (0 * 1) - 0 * fastC q - 2 * q ^ 3 * (1 * 0) = 0 := by ring
    rw [e] at h
    refine h.congr' ?_
    filter_upwards [eventually_gt_atTop 1] with x hx
    have hy := (lanc_lancY hq x).y_pos
    have hw : 0 < x ^ 2 - 1 := by nlinarith
    have hx0 : 0 < x := by linarith
    rw [tm1, lancT1, show 1 - x ^ 2 = -(x ^ 2 - 1) by ring]
    generalize tm q x = f at *
    generalize lancY q x = y at *
    generalize fastC q = K at *
    generalize 1 / |q| = a at *
    generalize hW : x ^ 2 - 1 = w at *
    have hx2 : x ^ 2 = w + 1 := by linarith
    field_simp
    linear_combination (x ^ 2 * y) * hK
  refine ⟨E0, E1, ?_⟩
  have hi : Tendsto (fun x => (lancY q x)⁻¹) atTop (𝓝 0) := tendsto_inv_atTop_zero.comp hYt
  have h := ((((E0.const_mul 3).add (E1.const_mul 5)).add (((hxy.pow 2).mul hi).const_mul (2 * (1 - q ^ 2) * q ^ 3))).mul
    hρ).neg.add (hρ1.mul_const (2 * fastC q))
  have e : -((3 * 0 + 5 * 0 + 2 * (1 - q ^ 2) * q ^ 3 * (|q|⁻¹ ^ 2 * 0)) * 1) + 0 * (2 * fastC q) = 0 := by ring
  rw [e] at h
  refine h.congr' ?_
  filter_upwards [eventually_gt_atTop 1] with x hx
  have hy := (lanc_lancY hq x).y_pos
  have hw : 0 < x ^ 2 - 1 := by nlinarith
  have hx0 : 0 < x := by linarith
  rw [tm2, lancT2, show 1 - x ^ 2 = -(x ^ 2 - 1) by ring]
  generalize tm1 q x = f1 at *
  generalize tm q x = f at *
  generalize lancY q x = y at *
  generalize fastC q = K at *
  generalize hW : x ^ 2 - 1 = w at *
  field_simp
  ring

/-- For short times one pass from any point of the right order of magnitude is asymptotically exact, in absolute
terms. -/
theorem step_fast {q ζ : ℝ} (hq : q ^ 2 < 1) (h0 : q ≠ 0) (hζ : 0 < ζ) {X : ℝ → ℝ}
    (hX : Tendsto (fun τ => X τ * τ) (𝓝[>] 0) (𝓝 ζ)) :
    Tendsto (fun τ => nextX q τ (X τ) - fastC q / τ) (𝓝[>] 0) (𝓝 0) ∧
      ∀ᶠ τ in 𝓝[>] 0, 1 < X τ ∧ tm1 q (X τ) ≠ 0 ∧
        tm1 q (X τ) ^ 2 + (τ - tm q (X τ)) * tm2 q (X τ) / 2 ≠ 0 := by
  have hc := fastC_pos hq
  have hXi : Tendsto X (𝓝[>] 0) atTop := by
    have h := (hX.pos_mul_atTop hζ tendsto_inv_nhdsGT_zero)
    refine h.congr' ?_
    filter_upwards [self_mem_nhdsWithin] with T hT
    have : (0 : ℝ) < T := hT
    field_simp
  obtain ⟨b0, b1, b2⟩ := fast_expansion hq h0
  obtain ⟨K, hK⟩ : ∃ K, K = fastC q := ⟨_, rfl⟩
  rw [← hK] at b0 b1 b2 hc ⊢
  have c0 := b0.comp hXi
  have c1 := b1.comp hXi
  have c2 := b2.comp hXi
  have hXinv : Tendsto (fun τ => (X τ)⁻¹) (𝓝[>] 0) (𝓝 0) := tendsto_inv_atTop_zero.comp hXi
  obtain ⟨e0, he0⟩ : ∃ e : ℝ → ℝ, e = fun τ => X τ * tm q (X τ) - K := ⟨_, rfl⟩
  obtain ⟨e1, he1⟩ : ∃ e : ℝ → ℝ, e = fun τ => X τ ^ 2 * tm1 q (X τ) + K := ⟨_, rfl⟩
  obtain ⟨e2, he2⟩ : ∃ e : ℝ → ℝ, e = fun τ => X τ ^ 3 * tm2 q (X τ) - 2 * K := ⟨_, rfl⟩
  have c0' : Tendsto (fun τ => X τ * e0 τ) (𝓝[>] 0) (𝓝 0) := by rw [he0]; exact c0
  have c1' : Tendsto (fun τ => X τ * e1 τ) (𝓝[>] 0) (𝓝 0) := by rw [he1]; exact c1
  have c2' : Tendsto (fun τ => X τ * e2 τ) (𝓝[>] 0) (𝓝 0) := by rw [he2]; exact c2
  have small : ∀ e : ℝ → ℝ, Tendsto (fun τ => X τ * e τ) (𝓝[>] 0) (𝓝 0) → Tendsto e (𝓝[>] 0) (𝓝 0) := by
    intro e h
    have h' := hXinv.mul h
    rw [zero_mul] at h'
    refine h'.congr' ?_
    filter_upwards [hXi.eventually (eventually_gt_atTop 0)] with τ hτ
    rw [← mul_assoc, inv_mul_cancel₀ hτ.ne', one_mul]
  have s0 := small e0 c0'
  have s1 := small e1 c1'
  have s2 := small e2 c2'
  obtain ⟨S, hS⟩ : ∃ S : ℝ → ℝ, S = fun τ => X τ * τ := ⟨_, rfl⟩
  have hSl : Tendsto S (𝓝[>] 0) (𝓝 ζ) := by rw [hS]; exact hX
  -- the denominator
  obtain ⟨D, hD⟩ : ∃ D : ℝ → ℝ, D = fun τ => (-K + e1 τ) ^ 2 + (S τ - (K + e0 τ)) * (2 * K + e2 τ) / 2 := ⟨_, rfl⟩
  have hDl : Tendsto D (𝓝[>] 0) (𝓝 (ζ * K)) := by
    have h := ((s1.const_add (-K)).pow 2).add (((hSl.sub (s0.const_add K)).mul (s2.const_add (2 * K))).div_const 2)
    rw [show (-K + 0) ^ 2 + (ζ - (K + 0)) * (2 * K + 0) / 2 = ζ * K by ring] at h
    rw [hD]; exact h
  have hζK : ζ * K ≠ 0 := by positivity
  -- the numerator of the error
  have hN : Tendsto (fun τ => ((S τ - K) * ((X τ * e1 τ) * (-2 * K + e1 τ) + (X τ * e2 τ) * (S τ - K - e0 τ) / 2 -
      (X τ * e0 τ) * K) + S τ * (X τ * e1 τ) * (S τ - K - e0 τ) + S τ * (X τ * e0 τ) * K) / (S τ * D τ)) (𝓝[>] 0) (𝓝 0) := by
    have h1 := (hSl.sub_const K).mul (((c1'.mul (s1.const_add (-2 * K))).add ((c2'.mul ((hSl.sub_const K).sub s0)).div_const 2)).sub
      (c0'.mul_const K))
    have h2 := (hSl.mul c1').mul ((hSl.sub_const K).sub s0)
    have h3 := (hSl.mul c0').mul_const K
    have h := ((h1.add h2).add h3).div (hSl.mul hDl) (mul_ne_zero hζ.ne' hζK)
    have e : ((ζ - K) * (0 * (-2 * K + 0) + 0 * (ζ - K - 0) / 2 - 0 * K) + ζ * 0 * (ζ - K - 0) + ζ * 0 * K) /
        (ζ * (ζ * K)) = 0 := by simp
    rw [e] at h
    exact h
  have hev : ∀ᶠ τ in 𝓝[>] 0, 0 < τ ∧ 1 < X τ ∧ S τ ≠ 0 ∧ D τ ≠ 0 ∧ -K + e1 τ ≠ 0 := by
    have h5 : Tendsto (fun τ => -K + e1 τ) (𝓝[>] 0) (𝓝 (-K + 0)) := s1.const_add (-K)
    filter_upwards [self_mem_nhdsWithin, hXi.eventually (eventually_gt_atTop 1), hSl.eventually_ne hζ.ne',
      hDl.eventually_ne hζK, h5.eventually_ne (by rw [add_zero]; exact neg_ne_zero.2 hc.ne')] with τ a b c d e
    exact ⟨a, b, c, d, e⟩
  have hf : ∀ τ, 1 < X τ → tm q (X τ) = (K + e0 τ) / X τ ∧ tm1 q (X τ) = (-K + e1 τ) / X τ ^ 2 ∧
      tm2 q (X τ) = (2 * K + e2 τ) / X τ ^ 3 ∧ τ = S τ / X τ := by
    intro τ hx
    have hx0 : 0 < X τ := by linarith
    rw [he0, he1, he2, hS]
    refine ⟨?_, ?_, ?_, ?_⟩ <;> field_simp <;> ring
  have hden : ∀ τ, 1 < X τ → tm1 q (X τ) ^ 2 + (τ - tm q (X τ)) * tm2 q (X τ) / 2 = D τ / X τ ^ 4 := by
    intro τ hx
    obtain ⟨f0, f1, f2, fτ⟩ := hf τ hx
    have hx0 : 0 < X τ := by linarith
    have : τ - tm q (X τ) = (S τ - (K + e0 τ)) / X τ := by rw [f0, sub_div]; congr 1
    rw [f1, this, f2, hD]
    simp only []
    field_simp
  refine ⟨hN.congr' ?_, ?_⟩
  · filter_upwards [hev] with τ ⟨hτ, hx, hs, hd, _⟩
    obtain ⟨f0, f1, f2, fτ⟩ := hf τ hx
    have hx0 : 0 < X τ := by linarith
    have ht : τ - tm q (X τ) = (S τ - (K + e0 τ)) / X τ := by rw [f0, sub_div]; congr 1
    rw [nextX, hden τ hx, ht, f1]
    have hKτ : K / τ = K * X τ / S τ := by rw [hS]; simp only []; field_simp
    rw [hKτ]
    have hDe : D τ = (-K + e1 τ) ^ 2 + (S τ - (K + e0 τ)) * (2 * K + e2 τ) / 2 := by rw [hD]
    generalize S τ = s at *
    generalize D τ = d at *
    generalize X τ = x at *
    generalize e0 τ = a0 at *
    generalize e1 τ = a1 at *
    generalize e2 τ = a2 at *
    field_simp
    rw [hDe]
    ring
  · filter_upwards [hev] with τ ⟨hτ, hx, hs, hd, he⟩
    obtain ⟨f0, f1, f2, fτ⟩ := hf τ hx
    have hx0 : 0 < X τ := by linarith
    refine ⟨hx, ?_, ?_⟩
    · rw [f1]; exact div_ne_zero he (by positivity)
    · rw [hden τ hx]; exact div_ne_zero hd (by positivity)

/-- The start for long times: it tends to `-1`, but far too slowly. -/
theorem start_long {q thr2 : ℝ} (hq : q ^ 2 < 1) (h1 : thr2 < 1) :
    ∃ u : ℝ → ℝ, Tendsto u atTop (𝓝[>] 0) ∧ (∀ᶠ τ in atTop, 1 / 10000 ≤ u τ ^ 2 * τ) ∧
      ∀ᶠ τ in atTop, singleStart q (1 - q ^ 2) (2 * τ) thr2 = .ok (u τ - 1) := by
  have ht := tm_zero_pos hq
  obtain ⟨t0, ht0⟩ : ∃ t, t = tm q 0 := ⟨_, rfl⟩
  have hex : ∀ τ : ℝ, ∃ x0, t0 < τ → ∃ e, 0 ≤ e ∧ e ≤ 1 ∧ ∃ x w,
      x = -(τ - t0) / (τ - t0 + 2) - e * (-(τ - t0) / (τ - t0 + 2) + Real.sqrt ((τ - t0) / (τ - t0 + 1.5 * t0))) ∧
      w = 2 / (2 + (τ - t0)) ∧ -1 < x ∧ x < 0 ∧ 0 < w ∧ w < 1 ∧
      x0 = x * (1 + x * (0.5 * w - 0.03 * x * Real.sqrt w)) ∧ singleStart q (1 - q ^ 2) (2 * τ) thr2 = .ok x0 := by
    intro τ
    by_cases h : t0 < τ
    · rw [ht0] at h
      obtain ⟨e, a, b, -, x, w, hx, hw, c1, c2, c3, c4, hs⟩ := start_slow (thr2 := thr2) hq h1 h
      rw [← ht0] at hx hw
      exact ⟨_, fun _ => ⟨e, a, b, x, w, hx, hw, c1, c2, c3, c4, rfl, hs⟩⟩
    · exact ⟨0, fun h' => absurd h' h⟩
  choose g hg using hex
  rw [← ht0] at ht
  have hd : Tendsto (fun τ : ℝ => τ - t0) atTop atTop := tendsto_atTop_add_const_right _ _ tendsto_id
  have la : Tendsto (fun τ : ℝ => -(τ - t0) / (τ - t0 + 2)) atTop (𝓝 (-1)) := by
    have h : Tendsto (fun τ : ℝ => 2 / (τ - t0 + 2) - 1) atTop (𝓝 (0 - 1)) :=
      (tendsto_const_nhds.div_atTop (tendsto_atTop_add_const_right _ _ hd)).sub_const 1
    rw [zero_sub] at h
    refine h.congr' ?_
    filter_upwards [eventually_gt_atTop t0] with τ hτ
    have : 0 < τ - t0 + 2 := by linarith
    rw [eq_div_iff this.ne', sub_mul, div_mul_cancel₀ _ this.ne']; ring
  have lb : Tendsto (fun τ : ℝ => Real.sqrt ((τ - t0) / (τ - t0 + 1.5 * t0))) atTop (𝓝 1) := by
    have h : Tendsto (fun τ : ℝ => 1 - 1.5 * t0 / (τ - t0 + 1.5 * t0)) atTop (𝓝 (1 - 0)) :=
      (tendsto_const_nhds.div_atTop (tendsto_atTop_add_const_right _ _ hd)).const_sub 1
    rw [sub_zero] at h
    have h' : Tendsto (fun τ : ℝ => (τ - t0) / (τ - t0 + 1.5 * t0)) atTop (𝓝 1) := by
      refine h.congr' ?_
      filter_upwards [eventually_gt_atTop t0] with τ hτ
      have : 0 < τ - t0 + 1.5 * t0 := by norm_num; linarith
      rw [eq_div_iff this.ne', sub_mul, div_mul_cancel₀ _ this.ne']; ring
    have h2 := (Real.continuous_sqrt.tendsto 1).comp h'
    rw [Real.sqrt_one] at h2
    exact h2
  have lw : Tendsto (fun τ : ℝ => 2 / (2 + (τ - t0))) atTop (𝓝 0) :=
    tendsto_const_nhds.div_atTop (tendsto_atTop_add_const_left _ _ hd)
  have lsw : Tendsto (fun τ : ℝ => Real.sqrt (2 / (2 + (τ - t0)))) atTop (𝓝 0) := by
    have h2 := (Real.continuous_sqrt.tendsto 0).comp lw
    rw [Real.sqrt_zero] at h2
    exact h2
  have key : ∀ τ, t0 < τ → 0 < g τ + 1 ∧
      g τ + 1 ≤ |-(τ - t0) / (τ - t0 + 2) + 1| + |1 - Real.sqrt ((τ - t0) / (τ - t0 + 1.5 * t0))| +
        (2 / (2 + (τ - t0)) + Real.sqrt (2 / (2 + (τ - t0)))) ∧
      (|-(τ - t0) / (τ - t0 + 2) + 1| < 1 / 10 → |1 - Real.sqrt ((τ - t0) / (τ - t0 + 1.5 * t0))| < 1 / 10 →
        0.02 * Real.sqrt (2 / (2 + (τ - t0))) ≤ g τ + 1) := by
    intro τ hτ
    obtain ⟨e, e0, e1, x, w, hx, hw, x1, x2, w0, w1, hgx, -⟩ := hg τ hτ
    have hc := correction_mem x1 x2 w0 w1
    rw [← hgx] at hc
    rw [← hw]
    have hs0 := Real.sqrt_nonneg w
    generalize Real.sqrt w = s at *
    generalize -(τ - t0) / (τ - t0 + 2) = a at *
    generalize Real.sqrt ((τ - t0) / (τ - t0 + 1.5 * t0)) = b at *
    have hx1 : x + 1 = (1 - e) * (a + 1) + e * (1 - b) := by rw [hx]; ring
    have hB : 0.5 * w - 0.03 * x * s ≤ w + s := by norm_num; nlinarith
    have hxx : x ^ 2 < 1 := by nlinarith
    have hg1 : g τ + 1 = x + 1 + x ^ 2 * (0.5 * w - 0.03 * x * s) := by rw [hgx]; ring
    refine ⟨by linarith [hc.2.2.1], ?_, fun ha hb => ?_⟩
    · have h1 : x ^ 2 * (0.5 * w - 0.03 * x * s) ≤ 1 * (w + s) := mul_le_mul hxx.le hB hc.1 (by norm_num)
      have h2 : (1 - e) * (a + 1) ≤ |a + 1| := by
        have := le_abs_self (a + 1)
        have := abs_nonneg (a + 1)
        nlinarith
      have h3 : e * (1 - b) ≤ |1 - b| := by
        have := le_abs_self (1 - b)
        have := abs_nonneg (1 - b)
        nlinarith
      rw [hg1, hx1]; linarith
    · have hxlt : x ≤ -9 / 10 := by
        have h1 := (abs_lt.1 ha).2
        have h2 := (abs_lt.1 hb).2
        have h3 : (1 - e) * (a + 1) + e * (1 - b) ≤ 1 / 10 := by nlinarith
        linarith
      have h5 : 0.02 * s ≤ x ^ 2 * (0.5 * w - 0.03 * x * s) := by
        have h6 : (81 / 100 : ℝ) ≤ x ^ 2 := by nlinarith
        have h7 : 0.027 * s ≤ 0.5 * w - 0.03 * x * s := by norm_num; nlinarith
        have h8 := mul_le_mul h6 h7 (by norm_num; positivity) (sq_nonneg x)
        norm_num at h8 ⊢
        linarith
      rw [hg1]; linarith
  have hla0 : Tendsto (fun τ : ℝ => |-(τ - t0) / (τ - t0 + 2) + 1|) atTop (𝓝 0) := by
    have h := (la.add_const 1).abs
    rwa [neg_add_cancel, abs_zero] at h
  have hlb0 : Tendsto (fun τ : ℝ => |1 - Real.sqrt ((τ - t0) / (τ - t0 + 1.5 * t0))|) atTop (𝓝 0) := by
    have h := (lb.const_sub 1).abs
    rwa [sub_self, abs_zero] at h
  refine ⟨fun τ => g τ + 1, ?_, ?_, ?_⟩
  · rw [tendsto_nhdsWithin_iff]
    constructor
    · have h := (hla0.add hlb0).add (lw.add lsw)
      simp only [add_zero] at h
      refine squeeze_zero' ?_ ?_ h
      · filter_upwards [eventually_gt_atTop t0] with τ hτ using (key τ hτ).1.le
      · filter_upwards [eventually_gt_atTop t0] with τ hτ using (key τ hτ).2.1
    · filter_upwards [eventually_gt_atTop t0] with τ hτ using (key τ hτ).1
  · filter_upwards [eventually_gt_atTop t0, eventually_gt_atTop 2, hla0.eventually (gt_mem_nhds (show (0 : ℝ) < 1 / 10 by norm_num)),
      hlb0.eventually (gt_mem_nhds (show (0 : ℝ) < 1 / 10 by norm_num))] with τ hτ h2 ha hb
    obtain ⟨k1, -, k3⟩ := key τ hτ
    have k := k3 ha hb
    have hw : 1 / τ ≤ 2 / (2 + (τ - t0)) := by
      rw [div_le_div_iff₀ (by linarith) (by linarith)]; linarith
    have hsq : Real.sqrt (2 / (2 + (τ - t0))) ^ 2 = 2 / (2 + (τ - t0)) := Real.sq_sqrt (div_nonneg (by norm_num) (by linarith))
    have hs0 := Real.sqrt_nonneg (2 / (2 + (τ - t0)))
    have h5 : 0.0004 * (1 / τ) ≤ (g τ + 1) ^ 2 := by
      have h6 := mul_self_le_mul_self (by norm_num; positivity) k
      norm_num at h6 ⊢
      norm_num at hw
      nlinarith
    have h7 := mul_le_mul_of_nonneg_right h5 (show 0 ≤ τ by linarith)
    have h8 : 0.0004 * (1 / τ) * τ = 0.0004 := by field_simp
    rw [h8] at h7
    norm_num at h7 ⊢
    linarith
  · filter_upwards [eventually_gt_atTop t0] with τ hτ
    obtain ⟨e, e0, e1, x, w, hx, hw, x1, x2, w0, w1, hgx, hs⟩ := hg τ hτ
    rw [add_sub_cancel_right]
    exact hs

/-- For long times one pass from that start moves a fifth of the way to the root of zero distance, whatever the
time requested. -/
theorem step_slow {q : ℝ} (hq : q ^ 2 < 1) {u : ℝ → ℝ} (hu : Tendsto u atTop (𝓝[>] 0))
    (hb : ∀ᶠ τ in atTop, 1 / 10000 ≤ u τ ^ 2 * τ) :
    Tendsto (fun τ => tm q (u τ - 1) / τ) atTop (𝓝 0) ∧
    ∃ Z : ℝ → ℝ, Tendsto Z atTop (𝓝 (1 / 5)) ∧ ∀ᶠ τ in atTop, nextX q τ (u τ - 1) = u τ * Z τ - 1 ∧
      tm1 q (u τ - 1) ≠ 0 ∧ tm1 q (u τ - 1) ^ 2 + (τ - tm q (u τ - 1)) * tm2 q (u τ - 1) / 2 ≠ 0 := by
  obtain ⟨hu0, hup⟩ := tendsto_nhdsWithin_iff.1 hu
  have hsu : Tendsto (fun τ => Real.sqrt (u τ)) atTop (𝓝 0) := by
    have h2 := (Real.continuous_sqrt.tendsto 0).comp hu0
    rw [Real.sqrt_zero] at h2
    exact h2
  have htm := (Izzo.tm_slow hq).comp hu
  have hratio : Tendsto (fun τ => tm q (u τ - 1) / τ) atTop (𝓝 0) := by
    have h := (htm.abs.mul (hsu.const_mul 10000))
    rw [mul_zero, mul_zero] at h
    refine squeeze_zero_norm' ?_ h
    filter_upwards [hb, hup, eventually_gt_atTop 0] with τ h1 h2 h3
    have h2' : 0 < u τ := h2
    have hs := Real.sqrt_pos.2 h2'
    have hss := Real.sq_sqrt h2'.le
    simp only [Function.comp]
    rw [Real.norm_eq_abs, abs_div, abs_of_pos h3, abs_mul, abs_of_pos (by positivity : 0 < u τ * Real.sqrt (u τ)),
      div_le_iff₀ h3]
    have e : |tm q (u τ - 1)| * (u τ * Real.sqrt (u τ)) * (10000 * Real.sqrt (u τ)) * τ =
        |tm q (u τ - 1)| * (10000 * (u τ ^ 2 * τ)) := by
      calc _ = |tm q (u τ - 1)| * (10000 * (u τ * Real.sqrt (u τ) ^ 2 * τ)) := by ring
        _ = _ := by rw [hss]; ring
    rw [e]
    nlinarith [abs_nonneg (tm q (u τ - 1))]
  refine ⟨hratio, ?_⟩
  obtain ⟨d1, d2, -⟩ := Izzo.tm_slow_deriv hq
  have p1 := d1.comp hu
  have p2 := d2.comp hu
  have hpos : ∀ᶠ τ in atTop, 0 < tm q (u τ - 1) := by
    filter_upwards [htm.eventually (lt_mem_nhds slowC_pos), hup] with τ h1 h2
    have h2' : 0 < u τ := h2
    have := Real.sqrt_pos.2 h2'
    simp only [Function.comp] at h1
    by_contra h
    nlinarith [mul_pos h2' this]
  obtain ⟨P, hP⟩ : ∃ P : ℝ → ℝ, P = fun τ => u τ * tm1 q (u τ - 1) / tm q (u τ - 1) := ⟨_, rfl⟩
  obtain ⟨R, hR⟩ : ∃ R : ℝ → ℝ, R = fun τ => u τ ^ 2 * tm2 q (u τ - 1) / tm q (u τ - 1) := ⟨_, rfl⟩
  obtain ⟨k, hk⟩ : ∃ k : ℝ → ℝ, k = fun τ => tm q (u τ - 1) / τ := ⟨_, rfl⟩
  have lP : Tendsto P atTop (𝓝 (-3 / 2)) := by rw [hP]; exact p1
  have lR : Tendsto R atTop (𝓝 (15 / 4)) := by rw [hR]; exact p2
  have lk : Tendsto k atTop (𝓝 0) := by rw [hk]; exact hratio
  have lD : Tendsto (fun τ => P τ ^ 2 * k τ + (1 - k τ) * R τ / 2) atTop (𝓝 (15 / 8)) := by
    have h := ((lP.pow 2).mul lk).add (((lk.const_sub 1).mul lR).div_const 2)
    rw [show (-3 / 2 : ℝ) ^ 2 * 0 + (1 - 0) * (15 / 4) / 2 = 15 / 8 by norm_num] at h
    exact h
  have lZ : Tendsto (fun τ => 1 + (1 - k τ) * P τ / (P τ ^ 2 * k τ + (1 - k τ) * R τ / 2)) atTop (𝓝 (1 / 5)) := by
    have h := (((lk.const_sub 1).mul lP).div lD (by norm_num)).const_add 1
    rw [show (1 : ℝ) + (1 - 0) * (-3 / 2) / (15 / 8) = 1 / 5 by norm_num] at h
    exact h
  refine ⟨_, lZ, ?_⟩
  filter_upwards [hpos, hup, eventually_gt_atTop 0, lD.eventually_ne (show (15 / 8 : ℝ) ≠ 0 by norm_num),
    lP.eventually_ne (show (-3 / 2 : ℝ) ≠ 0 by norm_num)] with τ ht h2 h3 hD hP0
  have h2' : 0 < u τ := h2
  have f1 : tm1 q (u τ - 1) = P τ * tm q (u τ - 1) / u τ := by rw [hP]; field_simp
  have f2 : tm2 q (u τ - 1) = R τ * tm q (u τ - 1) / u τ ^ 2 := by rw [hR]; field_simp
  have f3 : tm q (u τ - 1) = k τ * τ := by rw [hk]; field_simp
  have hk0 : 0 < k τ := by
    rw [f3] at ht
    by_contra h
    nlinarith
  have hden : tm1 q (u τ - 1) ^ 2 + (τ - tm q (u τ - 1)) * tm2 q (u τ - 1) / 2 =
      (P τ ^ 2 * k τ + (1 - k τ) * R τ / 2) * (k τ * τ ^ 2 / u τ ^ 2) := by
    rw [f1, f2, f3]; field_simp
  refine ⟨?_, ?_, ?_⟩
  · rw [nextX, hden, f1, f3]
    generalize hDd : P τ ^ 2 * k τ + (1 - k τ) * R τ / 2 = D at *
    field_simp
    ring
  · rw [f1, f3]
    exact div_ne_zero (mul_ne_zero hP0 (by positivity)) h2'.ne'
  · rw [hden]
    exact mul_ne_zero hD (by positivity)

end Gooding
end Lamberthub
