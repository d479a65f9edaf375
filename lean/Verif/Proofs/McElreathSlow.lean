import Verif.Proofs.McElreathRun
import Mathlib.Analysis.Calculus.ContDiff.Deriv
import Mathlib.Analysis.SpecialFunctions.Trigonometric.Bounds
import Mathlib.Analysis.SpecialFunctions.Trigonometric.Deriv

/-! # The first step of `mcelreath2025` for slow transfers -/

set_option autoImplicit false

namespace Lamberthub.McElreath
open Filter Topology
open scoped ContDiff

/-- The derivative of a function with a pole of order `n` at the end of the interval. -/
theorem pole_deriv {f f1 g h : ℝ → ℝ} {n : ℕ} (hg : Differentiable ℝ g) (hh : Differentiable ℝ h)
    (hf : ∀ x, 0 < x → x < 2 * Real.pi → f x = g x + h x / Real.sin (x / 2) ^ n)
    (hd : ∀ x, 0 < x → x < 2 * Real.pi → HasDerivAt f (f1 x) x) (x : ℝ) (h0 : 0 < x) (h1 : x < 2 * Real.pi) :
    f1 x = deriv g x + (deriv h x * Real.sin (x / 2) - n / 2 * h x * Real.cos (x / 2)) / Real.sin (x / 2) ^ (n + 1) := by
  have hs := sinh_pos_of h0 h1
  have ds : HasDerivAt (fun y : ℝ => Real.sin (y / 2)) (Real.cos (x / 2) * (1 / 2)) x :=
    ((hasDerivAt_id x).div_const 2).sin
  have d := (hg x).hasDerivAt.add ((hh x).hasDerivAt.div (ds.pow n) (pow_ne_zero n hs.ne'))
  have hev : f =ᶠ[𝓝 x] fun y => g y + h y / Real.sin (y / 2) ^ n := by
    filter_upwards [eventually_gt_nhds h0, eventually_lt_nhds h1] with y a b using hf y a b
  rw [(hd x h0 h1).unique (d.congr_of_eventuallyEq hev)]
  congr 1
  simp only [Pi.pow_apply]
  generalize Real.sin (x / 2) = s at *
  cases n with
  | zero => field_simp; simp
  | succ n => simp only [Nat.add_sub_cancel]; push_cast; field_simp; ring

theorem pole_lim {f g h : ℝ → ℝ} {n : ℕ} (hn : n ≠ 0) (hg : Continuous g) (hh : Continuous h)
    (hf : ∀ x, 0 < x → x < 2 * Real.pi → f x = g x + h x / Real.sin (x / 2) ^ n) :
    Tendsto (fun x => Real.sin (x / 2) ^ n * f x) (𝓝[<] (2 * Real.pi)) (𝓝 (h (2 * Real.pi))) := by
  have hc : Continuous (fun x => Real.sin (x / 2) ^ n * g x + h x) := by fun_prop
  have h2 : Tendsto (fun x => Real.sin (x / 2) ^ n * g x + h x) (𝓝[<] (2 * Real.pi)) (𝓝 (h (2 * Real.pi))) := by
    have := (hc.tendsto (2 * Real.pi)).mono_left (nhdsWithin_le_nhds (s := Set.Iio (2 * Real.pi)))
    rw [mul_div_cancel_left₀ _ (two_ne_zero' ℝ), Real.sin_pi, zero_pow hn, zero_mul, zero_add] at this
    exact this
  refine h2.congr' ?_
  have hpi := Real.pi_pos
  filter_upwards [self_mem_nhdsWithin, nhdsWithin_le_nhds (eventually_gt_nhds (by linarith : (0 : ℝ) < 2 * Real.pi))] with x a b
  have hs := sinh_pos_of b a
  rw [hf x b a]
  field_simp

/-- The time and its derivatives near the end of the interval. -/
theorem time_slow {P m : ℝ} (hP : |2 * m| < P) : ∃ h > 0,
    Tendsto (fun x => Real.sin (x / 2) ^ 3 * (rFull P m x).1) (𝓝[<] (2 * Real.pi)) (𝓝 h) ∧
    Tendsto (fun x => Real.sin (x / 2) ^ 4 * (rFull P m x).2.1) (𝓝[<] (2 * Real.pi)) (𝓝 (3 / 2 * h)) ∧
    Tendsto (fun x => Real.sin (x / 2) ^ 5 * (rFull P m x).2.2.1) (𝓝[<] (2 * Real.pi)) (𝓝 (3 * h)) ∧
    Tendsto (fun x => Real.sin (x / 2) ^ 6 * (rFull P m x).2.2.2) (𝓝[<] (2 * Real.pi)) (𝓝 (15 / 2 * h)) := by
  have hpi := Real.pi_pos
  have hV : ∀ x : ℝ, 0 < P - 2 * m * Real.cos (x / 2) := fun x => V_pos hP
  have hr2 : Real.sqrt 2 ^ 2 = 2 := Real.sq_sqrt (by norm_num)
  have hr2p : 0 < Real.sqrt 2 := by positivity
  have cV : ContDiff ℝ ∞ (fun x : ℝ => P - 2 * m * Real.cos (x / 2)) := by fun_prop
  have cq : ContDiff ℝ ∞ (fun x : ℝ => Real.sqrt (P - 2 * m * Real.cos (x / 2))) := cV.sqrt fun x => (hV x).ne'
  obtain ⟨g, hg⟩ : ∃ g : ℝ → ℝ, g = fun x => Real.sqrt 2 * m * Real.sqrt (P - 2 * m * Real.cos (x / 2)) := ⟨_, rfl⟩
  obtain ⟨h, hh⟩ : ∃ h : ℝ → ℝ, h = fun x => (x - Real.sin x) * (Real.sqrt (P - 2 * m * Real.cos (x / 2)) *
    (P - 2 * m * Real.cos (x / 2))) / (2 * Real.sqrt 2) := ⟨_, rfl⟩
  have cg : ContDiff ℝ ∞ g := by rw [hg]; fun_prop
  have ch : ContDiff ℝ ∞ h := by
    rw [hh]
    exact ((contDiff_id.sub Real.contDiff_sin).mul (cq.mul cV)).div_const _
  have cs : ContDiff ℝ ∞ (fun x : ℝ => Real.sin (x / 2)) := by fun_prop
  have cc : ContDiff ℝ ∞ (fun x : ℝ => Real.cos (x / 2)) := by fun_prop
  have hf0 : ∀ x, 0 < x → x < 2 * Real.pi → (rFull P m x).1 = g x + h x / Real.sin (x / 2) ^ 3 := by
    intro x a b
    have hs := sinh_pos_of a b
    have hv := hV x
    rw [hg, hh, rFull_eq hP (cos_ne_of a b), rW_eq a b]
    unfold tt u3
    simp only []
    generalize P - 2 * m * Real.cos (x / 2) = V at *
    generalize Real.sin (x / 2) = s at *
    have hq := Real.sq_sqrt hv.le
    have hqp := Real.sqrt_pos.2 hv
    generalize Real.sqrt V = q at *
    rw [← hq]
    generalize x - Real.sin x = d at *
    generalize Real.sqrt 2 = w at *
    have e1 : 2 * m * s / (w * s / q) = w * m * q := by
      field_simp
      linear_combination (-m) * hr2
    have e2 : d / (w * s / q) ^ 3 = d * q ^ 3 / (w ^ 3 * s ^ 3) := by field_simp
    have e3 : w ^ 3 = 2 * w := by rw [pow_succ, hr2]
    rw [e1, e2, e3]
    field_simp
  have up : ∀ k : ContDiff ℝ ∞ g, Differentiable ℝ g := fun k => k.differentiable (by simp)
  have dd : ∀ {k : ℝ → ℝ}, ContDiff ℝ ∞ k → Differentiable ℝ k := fun k => k.differentiable (by simp)
  have cd : ∀ {k : ℝ → ℝ}, ContDiff ℝ ∞ k → ContDiff ℝ ∞ (deriv k) := fun k => (contDiff_infty_iff_deriv.1 k).2
  obtain ⟨h1, e1⟩ : ∃ h1 : ℝ → ℝ, h1 = fun x => deriv h x * Real.sin (x / 2) - (3 : ℕ) / 2 * h x * Real.cos (x / 2) := ⟨_, rfl⟩
  have ch1 : ContDiff ℝ ∞ h1 := by rw [e1]; exact ((cd ch).mul cs).sub ((contDiff_const.mul ch).mul cc)
  obtain ⟨h2, e2⟩ : ∃ h2 : ℝ → ℝ, h2 = fun x => deriv h1 x * Real.sin (x / 2) - (4 : ℕ) / 2 * h1 x * Real.cos (x / 2) := ⟨_, rfl⟩
  have ch2 : ContDiff ℝ ∞ h2 := by rw [e2]; exact ((cd ch1).mul cs).sub ((contDiff_const.mul ch1).mul cc)
  obtain ⟨h3, e3⟩ : ∃ h3 : ℝ → ℝ, h3 = fun x => deriv h2 x * Real.sin (x / 2) - (5 : ℕ) / 2 * h2 x * Real.cos (x / 2) := ⟨_, rfl⟩
  have ch3 : ContDiff ℝ ∞ h3 := by rw [e3]; exact ((cd ch2).mul cs).sub ((contDiff_const.mul ch2).mul cc)
  have hf1 : ∀ x, 0 < x → x < 2 * Real.pi → (rFull P m x).2.1 = deriv g x + h1 x / Real.sin (x / 2) ^ 4 := by
    intro x a b
    rw [e1]
    exact pole_deriv (f := fun x => (rFull P m x).1) (f1 := fun x => (rFull P m x).2.1) (dd cg) (dd ch) hf0
      (fun x a b => rT_deriv hP (cos_ne_of a b)) x a b
  have hf2 : ∀ x, 0 < x → x < 2 * Real.pi → (rFull P m x).2.2.1 = deriv (deriv g) x + h2 x / Real.sin (x / 2) ^ 5 := by
    intro x a b
    rw [e2]
    exact pole_deriv (f := fun x => (rFull P m x).2.1) (f1 := fun x => (rFull P m x).2.2.1) (dd (cd cg)) (dd ch1) hf1
      (fun x a b => rT1_deriv hP (cos_ne_of a b)) x a b
  have hf3 : ∀ x, 0 < x → x < 2 * Real.pi → (rFull P m x).2.2.2 = deriv (deriv (deriv g)) x + h3 x / Real.sin (x / 2) ^ 6 := by
    intro x a b
    rw [e3]
    exact pole_deriv (f := fun x => (rFull P m x).2.2.1) (f1 := fun x => (rFull P m x).2.2.2) (dd (cd (cd cg))) (dd ch2) hf2
      (fun x a b => rT2_deriv hP (cos_ne_of a b)) x a b
  have x1 : h1 (2 * Real.pi) = 3 / 2 * h (2 * Real.pi) := by
    rw [e1]; simp only [mul_div_cancel_left₀ _ (two_ne_zero' ℝ), Real.sin_pi, Real.cos_pi]; push_cast; ring
  have x2 : h2 (2 * Real.pi) = 3 * h (2 * Real.pi) := by
    rw [e2]; simp only [mul_div_cancel_left₀ _ (two_ne_zero' ℝ), Real.sin_pi, Real.cos_pi, x1]; push_cast; ring
  have x3 : h3 (2 * Real.pi) = 15 / 2 * h (2 * Real.pi) := by
    rw [e3]; simp only [mul_div_cancel_left₀ _ (two_ne_zero' ℝ), Real.sin_pi, Real.cos_pi, x2]; push_cast; ring
  refine ⟨h (2 * Real.pi), ?_, pole_lim (by norm_num) cg.continuous ch.continuous hf0, ?_, ?_, ?_⟩
  · rw [hh]
    have := hV (2 * Real.pi)
    have h5 := Real.sqrt_pos.2 this
    simp only [Real.sin_two_pi, sub_zero]
    positivity
  · rw [← x1]; exact pole_lim (by norm_num) (cd cg).continuous ch1.continuous hf1
  · rw [← x2]; exact pole_lim (by norm_num) (cd (cd cg)).continuous ch2.continuous hf2
  · rw [← x3]; exact pole_lim (by norm_num) (cd (cd (cd cg))).continuous ch3.continuous hf3

/-- The first step for slow transfers: it goes from `2π - u` to about `2π - 4u`, where the time is still far longer. -/
theorem step_slow {P m : ℝ} (hP : |2 * m| < P) {X : ℝ → ℝ} (hX : Tendsto X atTop (𝓝[<] (2 * Real.pi)))
    (hX3 : Tendsto (fun τ => Real.sin (X τ / 2) ^ 3 * τ) atTop (𝓝 0)) :
    ∃ Y : ℝ → ℝ, Tendsto (fun τ => (rFull P m (Y τ)).1 / τ) atTop atTop ∧ ∀ tol : ℝ, 0 < tol → ∀ᶠ τ in atTop,
      0 < Y τ ∧ Y τ < 2 * Real.pi ∧ ∀ k n : ℕ,
        desiredLoop τ P m 0 0 (some (2 * Real.pi)) tol (k + 1) n (X τ : ℝ) = .ok ((Y τ : ℂ), n) := by
  have hpi := Real.pi_pos
  obtain ⟨h, hh, l0, l1, l2, l3⟩ := time_slow hP
  obtain ⟨hX0, hXlt⟩ := tendsto_nhdsWithin_iff.1 hX
  have hpos : ∀ᶠ τ in atTop, 0 < X τ := hX0.eventually (eventually_gt_nhds (by linarith))
  have k0 : Tendsto (fun τ => Real.sin (X τ / 2) ^ 3 * ((rFull P m (X τ)).1 - τ)) atTop (𝓝 h) := by
    have := (l0.comp hX).sub hX3
    rw [sub_zero] at this
    refine this.congr fun τ => ?_
    simp only [Function.comp]
    ring
  have k1 := l1.comp hX
  have k2 := l2.comp hX
  have k3 := l3.comp hX
  simp only [Function.comp_def] at k1 k2 k3
  have kn := ((k0.const_mul 6).mul (k1.pow 2)).sub (((k0.pow 2).const_mul 3).mul k2)
  have kd := (((k1.pow 3).const_mul 6).sub (((k0.const_mul 6).mul k1).mul k2)).add ((k0.pow 2).mul k3)
  have hd0 : 6 * (3 / 2 * h) ^ 3 - 6 * h * (3 / 2 * h) * (3 * h) + h ^ 2 * (15 / 2 * h) ≠ 0 := by
    have : 6 * (3 / 2 * h) ^ 3 - 6 * h * (3 / 2 * h) * (3 * h) + h ^ 2 * (15 / 2 * h) = 3 / 4 * h ^ 3 := by ring
    rw [this]; positivity
  have kz := kn.div kd hd0
  have hz6 : (6 * h * (3 / 2 * h) ^ 2 - 3 * h ^ 2 * (3 * h)) /
      (6 * (3 / 2 * h) ^ 3 - 6 * h * (3 / 2 * h) * (3 * h) + h ^ 2 * (15 / 2 * h)) = 6 := by
    rw [div_eq_iff hd0]; ring
  rw [hz6] at kz
  obtain ⟨Z, hZ⟩ : ∃ Z : ℝ → ℝ, Z = fun τ => (6 * (Real.sin (X τ / 2) ^ 3 * ((rFull P m (X τ)).1 - τ)) *
      (Real.sin (X τ / 2) ^ 4 * (rFull P m (X τ)).2.1) ^ 2 - 3 * (Real.sin (X τ / 2) ^ 3 * ((rFull P m (X τ)).1 - τ)) ^ 2 *
      (Real.sin (X τ / 2) ^ 5 * (rFull P m (X τ)).2.2.1)) / (6 * (Real.sin (X τ / 2) ^ 4 * (rFull P m (X τ)).2.1) ^ 3 -
      6 * (Real.sin (X τ / 2) ^ 3 * ((rFull P m (X τ)).1 - τ)) * (Real.sin (X τ / 2) ^ 4 * (rFull P m (X τ)).2.1) *
      (Real.sin (X τ / 2) ^ 5 * (rFull P m (X τ)).2.2.1) + (Real.sin (X τ / 2) ^ 3 * ((rFull P m (X τ)).1 - τ)) ^ 2 *
      (Real.sin (X τ / 2) ^ 6 * (rFull P m (X τ)).2.2.2)) := ⟨_, rfl⟩
  have kZ : Tendsto Z atTop (𝓝 6) := by rw [hZ]; exact kz
  have hden : ∀ᶠ τ in atTop, 6 * (Real.sin (X τ / 2) ^ 4 * (rFull P m (X τ)).2.1) ^ 3 -
      6 * (Real.sin (X τ / 2) ^ 3 * ((rFull P m (X τ)).1 - τ)) * (Real.sin (X τ / 2) ^ 4 * (rFull P m (X τ)).2.1) *
      (Real.sin (X τ / 2) ^ 5 * (rFull P m (X τ)).2.2.1) + (Real.sin (X τ / 2) ^ 3 * ((rFull P m (X τ)).1 - τ)) ^ 2 *
      (Real.sin (X τ / 2) ^ 6 * (rFull P m (X τ)).2.2.2) ≠ 0 := kd.eventually_ne hd0
  obtain ⟨Y, hY⟩ : ∃ Y : ℝ → ℝ, Y = fun τ => X τ - Real.sin (X τ / 2) * Z τ := ⟨_, rfl⟩
  have ks : Tendsto (fun τ => Real.sin (X τ / 2)) atTop (𝓝 0) := by
    have hc : Continuous fun x : ℝ => Real.sin (x / 2) := by fun_prop
    have := (hc.tendsto (2 * Real.pi)).comp hX0
    rw [mul_div_cancel_left₀ _ (two_ne_zero' ℝ), Real.sin_pi] at this
    exact this
  have ksz : Tendsto (fun τ => Real.sin (X τ / 2) * Z τ) atTop (𝓝 0) := by
    have := ks.mul kZ
    rwa [zero_mul] at this
  have kY : Tendsto Y atTop (𝓝 (2 * Real.pi)) := by
    have := hX0.sub ksz
    rw [sub_zero] at this
    rw [hY]; exact this
  have hsp : ∀ᶠ τ in atTop, 0 < Real.sin (X τ / 2) := by
    filter_upwards [hpos, hXlt] with τ a b using sinh_pos_of a b
  have hYlt : ∀ᶠ τ in atTop, Y τ < 2 * Real.pi := by
    filter_upwards [hsp, hXlt, kZ.eventually (eventually_gt_nhds (by norm_num : (0 : ℝ) < 6))] with τ a b c
    rw [hY]
    have := mul_pos a c
    simp only [Set.mem_Iio] at b ⊢
    linarith
  have hYpos : ∀ᶠ τ in atTop, 0 < Y τ := kY.eventually (eventually_gt_nhds (by linarith))
  have hYw : Tendsto Y atTop (𝓝[<] (2 * Real.pi)) := tendsto_nhdsWithin_iff.2 ⟨kY, hYlt⟩
  refine ⟨Y, ?_, fun tol htol => ?_⟩
  · -- the ratio
    have m0 := l0.comp hYw
    simp only [Function.comp_def] at m0
    have hYs : Tendsto (fun τ => Real.sin (Y τ / 2) ^ 3 * τ) atTop (𝓝[>] 0) := by
      refine tendsto_nhdsWithin_iff.2 ⟨?_, ?_⟩
      · have hb : Tendsto (fun τ => 216 * (Real.sin (X τ / 2) ^ 3 * τ)) atTop (𝓝 0) := by
          have := hX3.const_mul 216
          rwa [mul_zero] at this
        refine squeeze_zero' ?_ ?_ hb
        · filter_upwards [hYlt, hYpos, eventually_ge_atTop 0] with τ a b c
          have := sinh_pos_of b a
          positivity
        · filter_upwards [hYlt, hYpos, hXlt, hX0.eventually (eventually_gt_nhds (by linarith : Real.pi < 2 * Real.pi)), hsp,
            kZ.eventually (eventually_lt_nhds (by norm_num : (6 : ℝ) < 8)), eventually_ge_atTop 0] with τ a b c d e f g
          simp only [Set.mem_Iio] at c
          have s1 : Real.sin (Y τ / 2) ≤ 6 * Real.sin (X τ / 2) := by
            have e1 : Real.sin (Y τ / 2) = Real.sin (Real.pi - Y τ / 2) := (Real.sin_pi_sub _).symm
            have e2 : Real.sin (X τ / 2) = Real.sin (Real.pi - X τ / 2) := (Real.sin_pi_sub _).symm
            have e3 : Real.sin (Real.pi - Y τ / 2) ≤ Real.pi - Y τ / 2 := Real.sin_le (by linarith)
            have e4 := Real.mul_le_sin (x := Real.pi - X τ / 2) (by linarith) (by linarith)
            rw [← e2] at e4
            have e5 : Real.pi - X τ / 2 ≤ 2 * Real.sin (X τ / 2) := by
              have hp4 := Real.pi_le_four
              rw [div_mul_eq_mul_div, div_le_iff₀ hpi] at e4
              nlinarith
            have e6 : Y τ = X τ - Real.sin (X τ / 2) * Z τ := by rw [hY]
            have e7 : Real.sin (X τ / 2) * Z τ ≤ Real.sin (X τ / 2) * 8 := mul_le_mul_of_nonneg_left f.le e.le
            rw [e1]
            linarith
          have s2 := pow_le_pow_left₀ (sinh_pos_of b a).le s1 3
          have := mul_le_mul_of_nonneg_right s2 g
          linarith
      · filter_upwards [hYlt, hYpos, eventually_gt_atTop 0] with τ a b c
        have := sinh_pos_of b a
        simp only [Set.mem_Ioi]
        positivity
    have hinv := (tendsto_inv_nhdsGT_zero (𝕜 := ℝ)).comp hYs
    have := m0.pos_mul_atTop hh hinv
    refine this.congr' ?_
    filter_upwards [hYlt, hYpos, eventually_gt_atTop 0] with τ a b c
    have := sinh_pos_of b a
    simp only [Function.comp]
    field_simp
  · have t1 : ∀ᶠ τ in atTop, |Real.sin (X τ / 2) * Z τ| < tol * (2 * Real.pi) :=
      ksz.abs.eventually (eventually_lt_nhds (by rw [abs_zero]; positivity))
    filter_upwards [hYlt, hYpos, hXlt, hpos, hsp, hden, t1] with τ a b c d e f g
    refine ⟨b, a, fun k n => ?_⟩
    have hD : 6 * (rFull P m (X τ)).2.1 ^ 3 - 6 * ((rFull P m (X τ)).1 - τ) * (rFull P m (X τ)).2.1 * (rFull P m (X τ)).2.2.1 +
        ((rFull P m (X τ)).1 - τ) ^ 2 * (rFull P m (X τ)).2.2.2 ≠ 0 := by
      intro h'
      apply f
      linear_combination Real.sin (X τ / 2) ^ 12 * h'
    have hYe : Y τ = X τ - (6 * ((rFull P m (X τ)).1 - τ) * (rFull P m (X τ)).2.1 ^ 2 -
        3 * ((rFull P m (X τ)).1 - τ) ^ 2 * (rFull P m (X τ)).2.2.1) / (6 * (rFull P m (X τ)).2.1 ^ 3 -
        6 * ((rFull P m (X τ)).1 - τ) * (rFull P m (X τ)).2.1 * (rFull P m (X τ)).2.2.1 +
        ((rFull P m (X τ)).1 - τ) ^ 2 * (rFull P m (X τ)).2.2.2) := by
      rw [hY]
      simp only []
      rw [hZ]
      simp only []
      congr 1
      generalize Real.sin (X τ / 2) = s at *
      generalize (rFull P m (X τ)).1 - τ = F at *
      generalize (rFull P m (X τ)).2.1 = F1 at *
      generalize (rFull P m (X τ)).2.2.1 = F2 at *
      generalize (rFull P m (X τ)).2.2.2 = F3 at *
      rw [show 6 * (s ^ 4 * F1) ^ 3 - 6 * (s ^ 3 * F) * (s ^ 4 * F1) * (s ^ 5 * F2) + (s ^ 3 * F) ^ 2 * (s ^ 6 * F3) =
        s ^ 12 * (6 * F1 ^ 3 - 6 * F * F1 * F2 + F ^ 2 * F3) by ring]
      generalize 6 * F1 ^ 3 - 6 * F * F1 * F2 + F ^ 2 * F3 = D at *
      field_simp
    refine desiredLoop_stop hP (cos_ne_of d c) (householderStep_real hD hYe b.le a.le) (by linarith) ?_
    have : |Y τ - X τ| = |Real.sin (X τ / 2) * Z τ| := by rw [hY, sub_sub_cancel_left, abs_neg]
    rw [this]
    refine g.trans ?_
    exact mul_lt_mul_of_pos_left (by linarith) htol

end Lamberthub.McElreath
