import Verif.Proofs.AroraSeries

/-! # C42: the derivatives used by Arora's iteration are the true ones -/

set_option autoImplicit false

namespace Lamberthub
open Arora Topology

namespace Arora

/-- Differentiating `W' = (3 k W - 2) / (2 - k²)` once more. -/
theorem hasDerivAt_second {w : ℝ → ℝ} {k Wp : ℝ} (hw : HasDerivAt w Wp k) (hm : 2 - k ^ 2 ≠ 0)
    (hWp : Wp = (-2 + 3 * w k * k) / (2 - k ^ 2)) :
    HasDerivAt (fun x => (-2 + 3 * w x * x) / (2 - x ^ 2)) ((5 * Wp * k + 3 * w k) / (2 - k ^ 2)) k := by
  have d1 := ((hw.const_mul 3).mul (hasDerivAt_id k)).const_add (-2)
  have d2 := ((hasDerivAt_id k).pow 2).const_sub 2
  have d := d1.div d2 (by simpa using hm)
  refine (d.congr_deriv ?_).congr_of_eventuallyEq (Filter.Eventually.of_forall fun y => rfl)
  simp only [Pi.mul_apply, Pi.pow_apply, id]
  have e : 3 * w k * k = Wp * (2 - k ^ 2) + 2 := by rw [hWp]; field_simp; ring
  rw [e]
  field_simp
  push_cast
  ring

end Arora

/-- **C42 (Arora, `W`).** Away from the two switching points `k = √2 ± 2e-2`, the value returned by
`_get_Wprime` is the derivative of the function computed by `_get_W`, and the value returned by
`_get_W2prime` is the derivative of the function computed by `_get_Wprime`. -/
theorem arora_W_derivatives {k W Wp Wpp : ℝ} {M : ℕ} (hW : getW k M = .ok W) (hWp : getWprime k W M = .ok Wp)
    (hWpp : getW2prime k W Wp M = .ok Wpp) (h1 : k ≠ Real.sqrt 2 - 2e-2) (h2 : k ≠ Real.sqrt 2 + 2e-2) :
    ∃ w w' : ℝ → ℝ, (∀ᶠ x in 𝓝 k, getW x M = .ok (w x) ∧ getWprime x (w x) M = .ok (w' x)) ∧
      w k = W ∧ w' k = Wp ∧ HasDerivAt w Wp k ∧ HasDerivAt w' Wpp k := by
  have he : epsilon = 2e-2 := rfl
  have hep := eps_pos
  rw [← he] at h1 h2
  have hp := sqrt2_pos
  have hq := sqrt2_sq
  rcases getW_ok hW with ⟨a1, a2, a3, rfl⟩ | ⟨a1, rfl⟩ | ⟨rfl, a1, a2, rfl⟩
  · have key : ∀ x, -Real.sqrt 2 < x → x < Real.sqrt 2 → (x < Real.sqrt 2 - epsilon ∨ 0 < M) →
        2 - x ^ 2 ≠ 0 ∧ getWprime x (ellW x M) M = .ok ((-2 + 3 * ellW x M * x) / (2 - x ^ 2)) := by
      intro x x1 x2 x3
      have hm : 2 - x ^ 2 ≠ 0 := by nlinarith
      refine ⟨hm, ?_⟩
      unfold getWprime
      simp only []
      rw [if_pos (by rcases x3 with h | h <;> [exact .inl h; exact .inr ⟨by exact_mod_cast h, x2⟩]), pdiv_eq hm]
    obtain ⟨hm, hk⟩ := key k a1 a2 a3
    rw [hk] at hWp
    have hWp' := Except.ok.inj hWp
    have hd := hasDerivAt_ellW M a1 a2
    have hd2 := hasDerivAt_second hd hm rfl
    rw [hWp'] at hd hd2
    have : getW2prime k (ellW k M) Wp M = .ok ((5 * Wp * k + 3 * ellW k M) / (2 - k ^ 2)) := by
      unfold getW2prime
      simp only []
      rw [if_pos (by rcases a3 with h | h <;> [exact .inl h; exact .inr ⟨by exact_mod_cast h, a2⟩]), pdiv_eq hm]
    rw [this] at hWpp
    have hWpp' := Except.ok.inj hWpp
    rw [hWpp'] at hd2
    refine ⟨fun x => ellW x M, fun x => (-2 + 3 * ellW x M * x) / (2 - x ^ 2), ?_, rfl, hWp', hd, hd2⟩
    have hop : ∀ᶠ x in 𝓝 k, -Real.sqrt 2 < x ∧ x < Real.sqrt 2 ∧ (x < Real.sqrt 2 - epsilon ∨ 0 < M) := by
      refine (eventually_gt_nhds a1).and ((eventually_lt_nhds a2).and ?_)
      rcases a3 with h | h
      · exact (eventually_lt_nhds h).mono fun x hx => .inl hx
      · exact Filter.Eventually.of_forall fun _ => .inr h
    filter_upwards [hop] with x hx
    exact ⟨getW_ell hx.1 hx.2.1 hx.2.2, (key x hx.1 hx.2.1 hx.2.2).2⟩
  · have key : ∀ x, Real.sqrt 2 + epsilon < x → 2 - x ^ 2 ≠ 0 ∧
        getWprime x (hypW x) M = .ok ((-2 + 3 * hypW x * x) / (2 - x ^ 2)) := by
      intro x x1
      have hm : 2 - x ^ 2 ≠ 0 := by nlinarith
      refine ⟨hm, ?_⟩
      unfold getWprime
      simp only []
      rw [if_neg (by rintro (h | h) <;> [linarith; linarith [h.2]]), if_neg (fun h => by linarith [h.2.2]), pdiv_eq hm]
    obtain ⟨hm, hk⟩ := key k a1
    rw [hk] at hWp
    have hWp' := Except.ok.inj hWp
    have hd := hasDerivAt_hypW (k := k) (by linarith)
    have hd2 := hasDerivAt_second hd hm rfl
    rw [hWp'] at hd hd2
    have : getW2prime k (hypW k) Wp M = .ok ((5 * Wp * k + 3 * hypW k) / (2 - k ^ 2)) := by
      unfold getW2prime
      simp only []
      rw [if_neg (by rintro (h | h) <;> [linarith; linarith [h.2]]), if_neg (fun h => by linarith [h.2.2]), pdiv_eq hm]
    rw [this] at hWpp
    have hWpp' := Except.ok.inj hWpp
    rw [hWpp'] at hd2
    refine ⟨hypW, fun x => (-2 + 3 * hypW x * x) / (2 - x ^ 2), ?_, rfl, hWp', hd, hd2⟩
    filter_upwards [eventually_gt_nhds a1] with x hx
    exact ⟨getW_hyp hx, (key x hx).2⟩
  · have b1 : Real.sqrt 2 - epsilon < k := lt_of_le_of_ne a1 (Ne.symm h1)
    have b2 : k < Real.sqrt 2 + epsilon := lt_of_le_of_ne a2 h2
    have key : ∀ x, Real.sqrt 2 - epsilon < x → x < Real.sqrt 2 + epsilon →
        getW x (0 : ℕ) = .ok (seriesW x) ∧ ∀ W, getWprime x W (0 : ℕ) = .ok (getWsprime x) := by
      intro x x1 x2
      constructor
      · unfold getW
        simp only []
        rw [if_neg (by rintro (h | h) <;> [linarith [h.2]; simp at h]), if_neg (by linarith),
          if_pos ⟨rfl, x1.le, x2.le⟩]
      · intro W
        unfold getWprime
        simp only []
        rw [if_neg (by rintro (h | h) <;> [linarith; simp at h]), if_pos ⟨rfl, x1, x2⟩]
    have h3 : getW2prime k (seriesW k) Wp (0 : ℕ) = .ok (getWs2prime k) := by
      unfold getW2prime
      simp only []
      rw [if_neg (by rintro (h | h) <;> [linarith; simp at h]), if_pos ⟨rfl, b1, b2⟩]
    rw [(key k b1 b2).2] at hWp
    rw [h3] at hWpp
    have hWp' := Except.ok.inj hWp
    have hWpp' := Except.ok.inj hWpp
    refine ⟨seriesW, getWsprime, ?_, rfl, hWp', hWp' ▸ hasDerivAt_seriesW k, hWpp' ▸ hasDerivAt_getWsprime k⟩
    filter_upwards [eventually_gt_nhds b1, eventually_lt_nhds b2] with x x1 x2
    exact ⟨(key x x1 x2).1, (key x x1 x2).2 _⟩

/-- **C42 (Arora, time of flight).** For any function `w` with derivative `w'` near `k` and second
derivative `Wpp` at `k`, the two derivative formulas of the iteration (l.286-289) are the
derivatives of the time of flight `_get_TOF` along `w`. -/
theorem arora_tof_derivatives {w w' : ℝ → ℝ} {k tau S tofc c Wpp tp tpp : ℝ} (ht : tau ≠ 0)
    (hu : 0 < 1 - k * tau) (hw : ∀ᶠ x in 𝓝 k, HasDerivAt w (w' x) x) (hw' : HasDerivAt w' Wpp k)
    (hc : pdiv (1 - k * tau) tau = .ok c) (hT : getTOF k tau S (w k) = .ok tofc)
    (hp : tofPrime tofc c S tau (w k) (w' k) = .ok tp) (hpp : tofSecond tofc c S tau (w k) (w' k) Wpp = .ok tpp) :
    ∃ t t' : ℝ → ℝ, (∀ᶠ x in 𝓝 k, getTOF x tau S (w x) = .ok (t x) ∧ HasDerivAt t (t' x) x) ∧
      t k = tofc ∧ t' k = tp ∧ HasDerivAt t' tpp k := by
  have hq : ∀ {x : ℝ}, 0 < 1 - x * tau → HasDerivAt (fun x => Real.sqrt (1 - x * tau))
      (-tau / (2 * Real.sqrt (1 - x * tau))) x := by
    intro x hx
    have := (((hasDerivAt_id x).mul_const tau).const_sub 1).sqrt (by simpa using hx.ne')
    refine (this.congr_deriv ?_).congr_of_eventuallyEq (Filter.Eventually.of_forall fun y => rfl)
    simp
  have hlin : ∀ x : ℝ, HasDerivAt (fun x => 1 - x * tau) (-tau) x := by
    intro x
    have := ((hasDerivAt_id x).mul_const tau).const_sub 1
    refine (this.congr_deriv ?_).congr_of_eventuallyEq (Filter.Eventually.of_forall fun y => rfl)
    simp
  have hpos : ∀ᶠ x in 𝓝 k, 0 < 1 - x * tau :=
    (continuous_const.sub (continuous_id.mul continuous_const)).continuousAt.eventually_const_lt (by simpa using hu)
  rw [pdiv_eq ht] at hc
  have hc := (Except.ok.inj hc).symm
  have hc0 : c ≠ 0 := by rw [hc]; exact div_ne_zero hu.ne' ht
  have hct : c * tau = 1 - k * tau := by rw [hc]; field_simp
  unfold getTOF at hT
  rw [psqrt_eq hu.le, ok_bind] at hT
  have hT := (Except.ok.inj hT).symm
  unfold tofPrime at hp
  rw [pdiv_eq (by positivity), ok_bind, hct, psqrt_eq hu.le, ok_bind] at hp
  have hp := (Except.ok.inj hp).symm
  unfold tofSecond at hpp
  rw [pdiv_eq (by positivity), ok_bind, hct, psqrt_eq hu.le, ok_bind, pdiv_eq hc0, ok_bind] at hpp
  have hpp := (Except.ok.inj hpp).symm
  refine ⟨fun x => S * Real.sqrt (1 - x * tau) * (tau + (1 - x * tau) * w x),
    fun x => S * (-tau / (2 * Real.sqrt (1 - x * tau))) * (tau + (1 - x * tau) * w x) +
      S * Real.sqrt (1 - x * tau) * (-tau * w x + (1 - x * tau) * w' x), ?_, hT.symm, ?_, ?_⟩
  · filter_upwards [hpos, hw] with x hx hwx
    refine ⟨by unfold getTOF; rw [psqrt_eq hx.le, ok_bind], ?_⟩
    have d := ((hq hx).const_mul S).mul (((hlin x).mul hwx).const_add tau)
    exact d.congr_of_eventuallyEq (Filter.Eventually.of_forall fun y => rfl)
  · have hs : 0 < Real.sqrt (1 - k * tau) := by positivity
    have hs2 : Real.sqrt (1 - k * tau) ^ 2 = c * tau := by rw [hct, Real.sq_sqrt hu.le]
    simp only []
    rw [hp, hT, ← hct]
    rw [← hct] at hs hs2
    generalize Real.sqrt (c * tau) = q at *
    field_simp
    linear_combination (S * (1 + c * w k)) * hs2
  · have hwk := hw.self_of_nhds
    have hs : 0 < Real.sqrt (1 - k * tau) := by positivity
    have hs2 : Real.sqrt (1 - k * tau) ^ 2 = c * tau := by rw [hct, Real.sq_sqrt hu.le]
    have d0 := (hasDerivAt_const k (-tau)).div ((hq hu).const_mul 2) (by positivity)
    have d := ((d0.const_mul S).mul (((hlin k).mul hwk).const_add tau)).add
      (((hq hu).const_mul S).mul ((hwk.const_mul (-tau)).add ((hlin k).mul hw')))
    refine (d.congr_deriv ?_).congr_of_eventuallyEq (Filter.Eventually.of_forall fun y => rfl)
    simp only [Pi.mul_apply, Pi.add_apply, Pi.div_apply]
    rw [hpp, hT, ← hct]
    rw [← hct] at hs hs2
    generalize Real.sqrt (c * tau) = q at *
    have hq3 : q ^ 3 = c * tau * q := by rw [pow_succ, hs2]
    have hq4 : q ^ 4 = (c * tau) ^ 2 := by rw [← hs2]; ring
    field_simp
    ring_nf
    simp only [hq4, hs2]
    ring

/-- Non-vacuity: the functions are evaluated at `k = 0`. -/
example : ∃ W Wp Wpp, getW 0 (0 : ℕ) = .ok W ∧ getWprime 0 W (0 : ℕ) = .ok Wp ∧ getW2prime 0 W Wp (0 : ℕ) = .ok Wpp := by
  have hl := lt_sqrt2
  have he : epsilon = 2e-2 := rfl
  have h : (0 : ℝ) < Real.sqrt 2 - epsilon := by rw [he]; norm_num at hl ⊢; linarith
  have h1 := getW_ell (M := 0) (by linarith [sqrt2_pos] : -Real.sqrt 2 < 0) sqrt2_pos (.inl h)
  have h2 : ∃ Wp, getWprime 0 (ellW 0 0) (0 : ℕ) = .ok Wp :=
    ⟨_, by unfold getWprime; simp only []; rw [if_pos (.inl h), pdiv_eq (by norm_num)]⟩
  obtain ⟨Wp, h2⟩ := h2
  exact ⟨_, _, _, h1, h2, by unfold getW2prime; simp only []; rw [if_pos (.inl h), pdiv_eq (by norm_num)]⟩

end Lamberthub
