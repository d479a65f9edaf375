import Verif.Props.OrderArora
import Verif.Props.OrderMcElreath

/-! # C58: the loops of `arora2013` and `mcelreath2025` started near a root -/

set_option autoImplicit false

namespace Lamberthub
open Filter Topology Spec

/-- A loop whose body halves the error until it stops, and stops at the latest when the error is below `ε`. -/
theorem loop_descends {α σ : Type} {loop : ℕ → ℕ → ℝ → σ → Py α} {Inv : σ → Prop} {Fin : ℕ → ℝ → σ → α → Prop}
    {r δ ε : ℝ} (hε : 0 < ε)
    (body : ∀ x s, |x - r| < δ → Inv s → (∀ n, ∃ a, Fin n x s a ∧ ∀ k, loop (k + 1) n x s = .ok a) ∨
      (ε ≤ |x - r| ∧ ∃ x' s', |x' - r| ≤ |x - r| / 2 ∧ Inv s' ∧ ∀ k n, loop (k + 1) n x s = loop k (n + 1) x' s')) :
    ∃ N, ∀ k n x0 s0, N ≤ k → |x0 - r| < δ → Inv s0 →
      ∃ x s j a, j < N ∧ |x - r| ≤ |x0 - r| ∧ Inv s ∧ Fin (n + j) x s a ∧ loop k n x0 s0 = .ok a := by
  obtain ⟨m, hm⟩ := pow_unbounded_of_one_lt (δ / ε) (one_lt_two : (1 : ℝ) < 2)
  rw [div_lt_iff₀ hε] at hm
  have main : ∀ m : ℕ, ∀ k n x0 s0, m + 1 ≤ k → |x0 - r| < δ → |x0 - r| < 2 ^ m * ε → Inv s0 →
      ∃ x s j a, j < m + 1 ∧ |x - r| ≤ |x0 - r| ∧ Inv s ∧ Fin (n + j) x s a ∧ loop k n x0 s0 = .ok a := by
    intro m
    induction m with
    | zero =>
      intro k n x0 s0 hk h1 h2 hI
      obtain ⟨k, rfl⟩ : ∃ j, k = j + 1 := ⟨k - 1, by omega⟩
      rcases body x0 s0 h1 hI with h | ⟨h, -⟩
      · obtain ⟨a, ha, hl⟩ := h n
        exact ⟨x0, s0, 0, a, by omega, le_rfl, hI, ha, hl k⟩
      · simp at h2
        linarith
    | succ m ih =>
      intro k n x0 s0 hk h1 h2 hI
      obtain ⟨k, rfl⟩ : ∃ j, k = j + 1 := ⟨k - 1, by omega⟩
      rcases body x0 s0 h1 hI with h | ⟨-, x', s', h3, h4, h5⟩
      · obtain ⟨a, ha, hl⟩ := h n
        exact ⟨x0, s0, 0, a, by omega, le_rfl, hI, ha, hl k⟩
      · have h6 := abs_nonneg (x0 - r)
        obtain ⟨x, s, j, a, g1, g2, g3, g4, g5⟩ := ih k (n + 1) x' s' (by omega) (by linarith)
          (by rw [pow_succ] at h2; linarith) h4
        exact ⟨x, s, j + 1, a, by omega, by linarith, g3, by rwa [show n + (j + 1) = n + 1 + j by ring], by rw [h5, g5]⟩
  refine ⟨m + 1, fun k n x0 s0 hk h1 hI => main m k n x0 s0 hk h1 (by linarith) hI⟩

section arora
open Arora

/-- **C58, local convergence of the loop of `arora2013`.**  Near every simple root within the bounds the loop returns
within a number of passes that depends on the tolerance only, and the error of the value returned is at most a constant
times the tolerance. -/
theorem arora_converges {r tau S tof tofP d W Wp c tp : ℝ} {M : ℕ} (ht : tau ≠ 0) (hu : 0 < 1 - r * tau)
    (h1 : M = 0 → r ≠ Real.sqrt 2 - 2e-2) (h2 : M = 0 → r ≠ Real.sqrt 2 + 2e-2)
    (hW : getW r M = .ok W) (hWp : getWprime r W M = .ok Wp) (hc : pdiv (1 - r * tau) tau = .ok c)
    (hroot : getTOF r tau S W = .ok tof) (hp : tofPrime tof c S tau W Wp = .ok tp) (hsimple : tp ≠ 0)
    (hb1 : -Real.sqrt 2 < r) (hb2 : tof < tofP → Real.sqrt 2 < r ∧ (0 < d → 0 < 1 - tau * r))
    (hb3 : tofP < tof → r < Real.sqrt 2) :
    ∃ C δ : ℝ, 0 < δ ∧ ∀ atol : ℝ, 0 < atol → ∃ N : ℕ, ∀ k n x0, N ≤ k → |x0 - r| < δ →
      ∃ x' n', iterate tof tofP tau S d M atol k n x0 = .ok (x', n') ∧ n < n' ∧ n' ≤ n + N ∧
        |x' - r| ≤ |x0 - r| ∧ |x' - r| ≤ C * atol := by
  obtain ⟨C, δ0, hC0, hδ0, hδ1, hst⟩ :=
    (arora_halley_order ht hu h1 h2 hW hWp hc hroot hp hsimple hb1 hb2 hb3).contract (p := 1)
  -- the time is differentiable at the root, with a derivative that is not zero
  obtain ⟨w, w', w'', d3, hw, -⟩ := W_local hW h1 h2
  have hwr := hw.self_of_nhds
  have eW : w r = W := by have := hwr.1; rw [hW] at this; exact (Except.ok.inj this).symm
  have eWp : w' r = Wp := by have := hwr.2.1; rw [eW, hWp] at this; exact (Except.ok.inj this).symm
  obtain ⟨x', hx', -, -⟩ := hst r (by simpa using hδ0)
  simp only [bind_ok] at hx'
  obtain ⟨W0, g1, Wp0, g2, Wpp0, g3, c0, g4, tofc0, g5, tp0, g6, tpp0, g7, -⟩ := hx'
  have k1 : W0 = W := by rw [hW] at g1; exact (Except.ok.inj g1).symm
  subst k1
  have k2 : Wp0 = Wp := by rw [hWp] at g2; exact (Except.ok.inj g2).symm
  subst k2
  have k3 : c0 = c := by rw [hc] at g4; exact (Except.ok.inj g4).symm
  subst k3
  have k4 : tofc0 = tof := by rw [hroot] at g5; exact (Except.ok.inj g5).symm
  subst k4
  have k5 : Wpp0 = w'' r := by
    have := hwr.2.2.1
    rw [eW, eWp, g3] at this
    exact Except.ok.inj this
  obtain ⟨t, t', ht1, ht2, ht3, -⟩ := arora_tof_derivatives (w := w) (w' := w') (k := r) ht hu
    (hw.mono fun y hy => hy.2.2.2.1) hwr.2.2.2.2 hc (by rw [eW]; exact hroot) (by rw [eW, eWp]; exact hp)
    (by rw [eW, eWp, ← k5]; exact g7)
  have hder : HasDerivAt t tp r := by
    have := ht1.self_of_nhds.2
    rwa [ht3] at this
  have htp : 0 < |tp| := abs_pos.2 hsimple
  have hlow : ∀ᶠ x in 𝓝 r, |tp| / 2 * |x - r| ≤ |t x - tofc0| := by
    have := (hasDerivAt_iff_isLittleO.1 hder).def (half_pos htp)
    filter_upwards [this] with x hx
    rw [Real.norm_eq_abs, Real.norm_eq_abs, smul_eq_mul, ht2] at hx
    have e : |(x - r) * tp| ≤ |t x - tofc0| + |t x - tofc0 - (x - r) * tp| := by
      have := abs_sub (t x - tofc0) (t x - tofc0 - (x - r) * tp)
      rwa [sub_sub_cancel] at this
    rw [abs_mul] at e
    linarith
  have hget : ∀ᶠ x in 𝓝 r, ∀ W, getW x M = .ok W → getTOF x tau S W = .ok (t x) := by
    filter_upwards [hw, ht1] with x hx hx' W hW'
    rw [hx.1] at hW'
    rw [← Except.ok.inj hW']
    exact hx'.1
  obtain ⟨δ1, hδ1', hball⟩ := Metric.eventually_nhds_iff_ball.1 (hlow.and hget)
  refine ⟨2 / |tp|, min δ0 δ1, lt_min hδ0 hδ1', fun atol ha => ?_⟩
  -- below which error the test is passed
  obtain ⟨ε, hε, hball2⟩ := Metric.eventually_nhds_iff_ball.1
    (hder.continuousAt.eventually (Metric.ball_mem_nhds (t r) ha))
  obtain ⟨N, hN⟩ := loop_descends (α := ℝ × ℕ) (σ := Unit) (r := r) (δ := min δ0 δ1)
    (loop := fun k n x _ => iterate tofc0 tofP tau S d M atol k n x) (Inv := fun _ => True)
    (Fin := fun n x _ a => a = (x, n + 1) ∧ |x - r| ≤ 2 / |tp| * atol) hε (by
      intro x s hx _
      have hx0 : |x - r| < δ0 := hx.trans_le (min_le_left _ _)
      obtain ⟨hl, hg⟩ := hball x (by rw [Metric.mem_ball, Real.dist_eq]; exact hx.trans_le (min_le_right _ _))
      obtain ⟨x', hs, -, hh⟩ := hst x hx0
      simp only [bind_ok] at hs
      obtain ⟨W0, g1, Wp0, g2, Wpp0, g3, c0, g4, tofc, g5, tp0, g6, tpp0, g7, e, g8, dk, g9, g10⟩ := hs
      have k4 : tofc = t x := by rw [hg _ g1] at g5; exact (Except.ok.inj g5).symm
      subst k4
      by_cases hstop : |tofc0 - t x| ≤ atol
      · refine .inl fun n => ⟨_, ⟨rfl, ?_⟩, fun k => ?_⟩
        · rw [abs_sub_comm] at hstop
          rw [div_mul_eq_mul_div, le_div_iff₀ htp]
          linarith
        · simp only [iterate, g1, g2, g3, g4, g5, ok_bind, if_pos hstop]
      · refine .inr ⟨?_, x', (), hh, trivial, fun k n => ?_⟩
        · by_contra hlt
          apply hstop
          have := hball2 x (by rw [Metric.mem_ball, Real.dist_eq]; exact not_le.1 hlt)
          rw [Real.dist_eq, ht2, abs_sub_comm] at this
          exact this.le
        · simp only [iterate, g1, g2, g3, g4, g5, g6, g7, g8, g9, g10, ok_bind, if_neg hstop])
  refine ⟨N, fun k n x0 hk hx0 => ?_⟩
  obtain ⟨x, -, j, a, hj, hle, -, ⟨rfl, hb⟩, hres⟩ := hN k n x0 () hk hx0 trivial
  exact ⟨x, n + j + 1, hres, by omega, by omega, hle, hb⟩

/-- Non-vacuity: `k = 0`, `τ = 1/2`, zero revolutions. -/
example : ∃ tof C δ : ℝ, 0 < δ ∧ ∀ atol : ℝ, 0 < atol → ∃ N : ℕ, ∀ k n x0, N ≤ k → |x0 - 0| < δ →
    ∃ x' n', iterate tof 0 (1 / 2) 1 1 ((0 : ℕ) : ℤ) atol k n x0 = .ok (x', n') ∧ n < n' ∧ n' ≤ n + N ∧
      |x' - 0| ≤ |x0 - 0| ∧ |x' - 0| ≤ C * atol := by
  have hl := lt_sqrt2
  have he : epsilon = 2e-2 := rfl
  have h : (0 : ℝ) < Real.sqrt 2 - epsilon := by rw [he]; norm_num at hl ⊢; linarith
  have h1 := getW_ell (M := 0) (by linarith [sqrt2_pos] : -Real.sqrt 2 < 0) sqrt2_pos (.inl h)
  have hWpos : 0 < ellW 0 0 := by
    unfold ellW
    have hpi := Real.pi_pos
    have hs := sqrt2_pos
    rw [zero_div, Real.arccos_zero]
    norm_num
    positivity
  have h2 : getWprime 0 (ellW 0 0) ((0 : ℕ) : ℤ) = .ok (-1) := by
    unfold getWprime; simp only []; rw [if_pos (.inl h), pdiv_eq (by norm_num)]; norm_num
  have h3 : getTOF 0 (1 / 2) 1 (ellW 0 0) = .ok (1 / 2 + ellW 0 0) := by
    unfold getTOF; rw [psqrt_eq (by norm_num), ok_bind]; norm_num
  have h4 : tofPrime (1 / 2 + ellW 0 0) 2 1 (1 / 2) (ellW 0 0) (-1) =
      .ok (-(1 / 2 + ellW 0 0) / (2 * 2) + 1 * (1 / 2) * 1 * (-1 * 2 - ellW 0 0)) := by
    unfold tofPrime
    rw [pdiv_eq (by norm_num), ok_bind, psqrt_eq (by norm_num), ok_bind]
    norm_num
  refine ⟨_, arora_converges (by norm_num) (by norm_num) ?_ ?_ h1 h2 (c := 2) (by rw [pdiv_eq (by norm_num)]; norm_num) h3 h4
    (by intro h; linarith) (by linarith [sqrt2_pos]) (fun h => by linarith) (fun _ => sqrt2_pos)⟩
  · intro _; rw [← he]; exact h.ne
  · intro _; have := sqrt2_pos; rw [← he]; have := eps_pos; linarith

end arora

section mcelreath
open McElreath

/-- **C58, local convergence of `_solve_desired_x`.**  Near every real simple root within the bounds the loop returns
within a number of passes that depends on the tolerance only, and the value returned is real and accurate to the fourth
power of the tolerance. -/
theorem mcelreath_converges {P m r T : ℝ} {M : ℕ} {t1 t2 t3 : ℂ} {lo : ℝ} {hi : Option ℝ} (hP : |2 * m| < P)
    (hr : Real.cos r ≠ 1) (hroot : tofEquationFull r P m = .ok ((T : ℂ), t1, t2, t3)) (hsimple : t1 ≠ 0)
    (hlo : lo < r) (hhi : ∀ h ∈ hi, r < h) (hM : 2 * Real.pi * M < r + 2 * Real.pi) :
    ∃ C δ : ℝ, 0 < δ ∧ ∀ tol : ℝ, 0 < tol → ∃ N : ℕ, ∀ (k n : ℕ) (x0 : ℝ), N ≤ k → |x0 - r| < δ →
      ∃ (x' : ℝ) (n' : ℕ), desiredLoop T P m M lo hi tol k n x0 = .ok ((x' : ℂ), n') ∧ n ≤ n' ∧ n' < n + N ∧
        |x' - r| ≤ |x0 - r| ∧ |x' - r| ≤ C * tol ^ 4 := by
  obtain ⟨C, hC⟩ := mcelreath_householder_order (lo := lo) (hi := hi) hP hr hroot hsimple hlo hhi
  obtain ⟨step, hstep⟩ : ∃ step : ℝ → ℝ, ∀ᶠ x in 𝓝 r, (do
      let (t, t1, t2, t3) ← tofEquationFull (x : ℝ) P m
      householderStep (x : ℝ) T t t1 t2 t3 lo hi) = .ok ((step x : ℝ) : ℂ) ∧ |step x - r| ≤ C * |x - r| ^ 4 := by
    classical
    refine ⟨fun x => if h : ∃ x' : ℝ, (do
      let (t, t1, t2, t3) ← tofEquationFull (x : ℝ) P m
      householderStep (x : ℝ) T t t1 t2 t3 lo hi) = .ok (x' : ℂ) ∧ |x' - r| ≤ C * |x - r| ^ 4 then h.choose else 0, ?_⟩
    filter_upwards [hC] with x hx
    rw [dif_pos hx]
    exact hx.choose_spec
  obtain ⟨C, δ0, hC0, hδ0, hδ1, hst⟩ := (show ConvergesWithOrder (fun x => .ok (step x)) r 4 from
    ⟨C, hstep.mono fun x hx => ⟨_, rfl, hx.2⟩⟩).contract (p := 2)
  obtain ⟨δ1, hδ1', hball⟩ := Metric.eventually_nhds_iff_ball.1 hstep
  obtain ⟨D, hD⟩ : ∃ D, D = r - 2 * Real.pi * M + 2 * Real.pi := ⟨_, rfl⟩
  have hD0 : 0 < D := by rw [hD]; linarith
  refine ⟨C * (4 * D) ^ 4, min (min δ0 δ1) (D / 2), by positivity, fun tol htol => ?_⟩
  obtain ⟨N, hN⟩ := loop_descends (α := ℂ × ℕ) (σ := Unit) (r := r) (δ := min (min δ0 δ1) (D / 2)) (ε := D * tol / 4)
    (loop := fun k n x _ => desiredLoop T P m M lo hi tol k n x) (Inv := fun _ => True)
    (Fin := fun n x _ a => ∃ x' : ℝ, a = ((x' : ℂ), n) ∧ |x' - r| ≤ |x - r| ∧ |x' - r| ≤ C * (4 * D) ^ 4 * tol ^ 4)
    (by positivity) (by
      intro x s hx _
      have hx0 : |x - r| < δ0 := hx.trans_le ((min_le_left _ _).trans (min_le_left _ _))
      have hx1 : |x - r| < D / 2 := hx.trans_le (min_le_right _ _)
      obtain ⟨hs, -⟩ := hball x (by
        rw [Metric.mem_ball, Real.dist_eq]; exact hx.trans_le ((min_le_left _ _).trans (min_le_right _ _)))
      obtain ⟨x', hx', hb, hh⟩ := hst x hx0
      have hx' := Except.ok.inj hx'
      rw [hx'] at hs
      simp only [bind_ok] at hs
      obtain ⟨⟨t, t1', t2', t3'⟩, g1, g2⟩ := hs
      simp only [] at g2
      have hn := abs_nonneg (x - r)
      have hden : D / 2 < x' - 2 * Real.pi * M + 2 * Real.pi ∧ x' - 2 * Real.pi * M + 2 * Real.pi ≤ 2 * D := by
        have h5 := abs_le.1 (hh.trans (by linarith : |x - r| / 2 ≤ D / 4))
        rw [hD] at h5 ⊢
        constructor <;> linarith
      generalize hE : x' - 2 * Real.pi * M + 2 * Real.pi = E at hden
      have hE0 : 0 < E := by linarith
      have hcE : ((x' : ℂ) - (2 * Real.pi * M : ℝ) + (2 * Real.pi : ℝ)) = (E : ℂ) := by rw [← hE]; push_cast; ring
      have hEne : (E : ℂ) ≠ 0 := by exact_mod_cast hE0.ne'
      have hq : cdiv ((x' : ℂ) - x) ((x' : ℂ) - (2 * Real.pi * M : ℝ) + (2 * Real.pi : ℝ)) = .ok ((((x' - x) / E : ℝ)) : ℂ) := by
        rw [hcE, cdiv_eq hEne]
        push_cast
        rfl
      have hqn : ‖((((x' - x) / E : ℝ)) : ℂ)‖ = |x' - x| / E := by
        rw [Complex.norm_real, Real.norm_eq_abs, abs_div, abs_of_pos hE0]
      have d1 : |x' - x| ≤ 3 / 2 * |x - r| := by
        have := abs_sub (x' - r) (x - r)
        rw [sub_sub_sub_cancel_right] at this
        linarith
      have d2 : |x - r| ≤ 2 * |x' - x| := by
        have := abs_sub (x' - r) (x' - x)
        rw [sub_sub_sub_cancel_left] at this
        linarith
      by_cases hstop : |x' - x| / E < tol
      · refine .inl fun n => ⟨(((x' : ℝ) : ℂ), n), ⟨x', rfl, by linarith, hb.trans ?_⟩, fun k => ?_⟩
        · rw [div_lt_iff₀ hE0] at hstop
          rw [mul_assoc, ← mul_pow]
          refine mul_le_mul_of_nonneg_left (pow_le_pow_left₀ hn ?_ 4) hC0
          have := mul_le_mul_of_nonneg_left hden.2 htol.le
          linarith
        · simp only [desiredLoop, g1, g2, ok_bind]
          rw [hq, ok_bind, hqn, if_pos hstop]
          simp [cleanRoot]
      · refine .inr ⟨?_, x', (), hh, trivial, fun k n => ?_⟩
        · rw [div_lt_iff₀ hE0, not_lt] at hstop
          have := mul_le_mul_of_nonneg_left hden.1.le htol.le
          linarith
        · simp only [desiredLoop, g1, g2, ok_bind]
          rw [hq, ok_bind, hqn, if_neg hstop])
  refine ⟨N, fun k n x0 hk hx0 => ?_⟩
  obtain ⟨x, -, j, a, hj, hle, -, ⟨x', rfl, hb1, hb2⟩, hres⟩ := hN k n x0 () hk hx0 trivial
  exact ⟨x', n + j, hres, by omega, by omega, hb1.trans hle, hb2⟩

/-- **C58, local convergence of `_solve_minimum_x`.**  Near every nondegenerate minimum within the bounds the loop
returns within a bounded number of passes; the tolerance is the one given or, close to the time sought, `1e-8`, and
the error is at most a constant times its third power. -/
theorem mcelreath_minimum_converges {P m r T lo hi : ℝ} {M : ℕ} {t t2 t3 : ℂ} (hP : |2 * m| < P) (hT : T ≠ 0)
    (hr : Real.cos r ≠ 1) (hroot : tofEquationFull r P m = .ok (t, 0, t2, t3)) (hsimple : t2 ≠ 0)
    (hlo : lo < r) (hhi : r < hi) (hM : 2 * Real.pi * M < r + 2 * Real.pi) :
    ∃ C δ : ℝ, 0 < δ ∧ ∀ tol : ℝ, 0 < tol → ∃ N : ℕ, ∀ (k n : ℕ) (x0 : ℝ), N ≤ k → |x0 - r| < δ →
      ∃ (x' : ℝ) (n' : ℕ), minimumLoop T P m M lo hi k n x0 tol = .ok (x', n') ∧ n ≤ n' ∧ n' < n + N ∧
        |x' - r| ≤ |x0 - r| ∧ |x' - r| ≤ C * (max tol 1e-8) ^ 3 := by
  obtain ⟨C, hC⟩ := mcelreath_minimum_order (lo := lo) (hi := hi) hP hr hroot hsimple hlo hhi
  obtain ⟨step, hstep⟩ : ∃ step : ℝ → ℝ, ∀ᶠ x in 𝓝 r, (do
      let (_, t1, t2, t3) ← tofEquationFull (x : ℝ) P m
      minimumStep (x : ℝ) t1 t2 t3 lo hi) = .ok ((step x : ℝ) : ℂ) ∧ |step x - r| ≤ C * |x - r| ^ 3 := by
    classical
    refine ⟨fun x => if h : ∃ x' : ℝ, (do
      let (_, t1, t2, t3) ← tofEquationFull (x : ℝ) P m
      minimumStep (x : ℝ) t1 t2 t3 lo hi) = .ok (x' : ℂ) ∧ |x' - r| ≤ C * |x - r| ^ 3 then h.choose else 0, ?_⟩
    filter_upwards [hC] with x hx
    rw [dif_pos hx]
    exact hx.choose_spec
  obtain ⟨C, δ0, hC0, hδ0, hδ1, hst⟩ := (show ConvergesWithOrder (fun x => .ok (step x)) r 3 from
    ⟨C, hstep.mono fun x hx => ⟨_, rfl, hx.2⟩⟩).contract (p := 1)
  obtain ⟨δ1, hδ1', hball⟩ := Metric.eventually_nhds_iff_ball.1 hstep
  obtain ⟨D, hD⟩ : ∃ D, D = r - 2 * Real.pi * M + 2 * Real.pi := ⟨_, rfl⟩
  have hD0 : 0 < D := by rw [hD]; linarith
  refine ⟨C * (4 * D) ^ 3, min (min δ0 δ1) (D / 2), by positivity, fun tol htol => ?_⟩
  obtain ⟨N, hN⟩ := loop_descends (α := ℝ × ℕ) (σ := ℝ) (r := r) (δ := min (min δ0 δ1) (D / 2)) (ε := D * min tol 1e-8 / 4)
    (loop := fun k n x s => minimumLoop T P m M lo hi k n x s) (Inv := fun s => min tol 1e-8 ≤ s ∧ s ≤ max tol 1e-8)
    (Fin := fun n x _ a => ∃ x' : ℝ, a = (x', n) ∧ |x' - r| ≤ |x - r| ∧ |x' - r| ≤ C * (4 * D) ^ 3 * (max tol 1e-8) ^ 3)
    (by positivity) (by
      intro x s hx hs'
      have hx0 : |x - r| < δ0 := hx.trans_le ((min_le_left _ _).trans (min_le_left _ _))
      have hx1 : |x - r| < D / 2 := hx.trans_le (min_le_right _ _)
      obtain ⟨hs, -⟩ := hball x (by
        rw [Metric.mem_ball, Real.dist_eq]; exact hx.trans_le ((min_le_left _ _).trans (min_le_right _ _)))
      obtain ⟨x', hx', hb, hh⟩ := hst x hx0
      have hx' := Except.ok.inj hx'
      rw [hx'] at hs
      simp only [bind_ok] at hs
      obtain ⟨⟨t, t1', t2', t3'⟩, g1, g2⟩ := hs
      simp only [] at g2
      have hn := abs_nonneg (x - r)
      have hden : D / 2 < x' - 2 * Real.pi * M + 2 * Real.pi ∧ x' - 2 * Real.pi * M + 2 * Real.pi ≤ 2 * D := by
        have h5 := abs_le.1 (hh.trans (by linarith : |x - r| / 2 ≤ D / 4))
        rw [hD] at h5 ⊢
        constructor <;> linarith
      generalize hE : x' - 2 * Real.pi * M + 2 * Real.pi = E at hden
      have hE0 : 0 < E := by linarith
      have hcE : ((x' : ℂ) - (2 * Real.pi * M : ℝ) + (2 * Real.pi : ℝ)) = (E : ℂ) := by rw [← hE]; push_cast; ring
      have hEne : (E : ℂ) ≠ 0 := by exact_mod_cast hE0.ne'
      have hq : cdiv ((x' : ℂ) - x) ((x' : ℂ) - (2 * Real.pi * M : ℝ) + (2 * Real.pi : ℝ)) = .ok ((((x' - x) / E : ℝ)) : ℂ) := by
        rw [hcE, cdiv_eq hEne]
        push_cast
        rfl
      have hqn : ‖((((x' - x) / E : ℝ)) : ℂ)‖ = |x' - x| / E := by
        rw [Complex.norm_real, Real.norm_eq_abs, abs_div, abs_of_pos hE0]
      have d1 : |x' - x| ≤ 3 / 2 * |x - r| := by
        have := abs_sub (x' - r) (x - r)
        rw [sub_sub_sub_cancel_right] at this
        linarith
      have d2 : |x - r| ≤ 2 * |x' - x| := by
        have := abs_sub (x' - r) (x' - x)
        rw [sub_sub_sub_cancel_left] at this
        linarith
      obtain ⟨rg, hrg⟩ : ∃ rg, pdiv (T - t.re) T = .ok rg := ⟨_, pdiv_eq hT⟩
      obtain ⟨s', hs2⟩ : ∃ s' : ℝ, s' = if rg < 1e-4 then 1e-8 else s := ⟨_, rfl⟩
      have hs3 : min tol 1e-8 ≤ s' ∧ s' ≤ max tol 1e-8 := by
        rw [hs2]
        split
        · exact ⟨min_le_right _ _, le_max_right _ _⟩
        · exact hs'
      have hm0 : 0 < min tol (1e-8 : ℝ) := lt_min htol (by norm_num)
      by_cases hstop : |x' - x| / E < s'
      · refine .inl fun n => ⟨(x', n), ⟨x', rfl, by linarith, hb.trans ?_⟩, fun k => ?_⟩
        · rw [div_lt_iff₀ hE0] at hstop
          rw [mul_assoc, ← mul_pow]
          refine mul_le_mul_of_nonneg_left (pow_le_pow_left₀ hn ?_ 3) hC0
          have := mul_le_mul hs3.2 hden.2 hE0.le (hs3.2.trans' (hm0.le.trans hs3.1))
          linarith
        · simp only [minimumLoop, g1, g2, ok_bind]
          rw [hq, ok_bind, hrg, ok_bind, hqn, ← hs2, if_pos hstop]
          simp
      · refine .inr ⟨?_, x', s', hh, hs3, fun k n => ?_⟩
        · rw [div_lt_iff₀ hE0, not_lt] at hstop
          have := mul_le_mul hs3.1 hden.1.le (by positivity) (hm0.le.trans hs3.1)
          linarith
        · simp only [minimumLoop, g1, g2, ok_bind]
          rw [hq, ok_bind, hrg, ok_bind, hqn, ← hs2, if_neg hstop])
  refine ⟨N, fun k n x0 hk hx0 => ?_⟩
  obtain ⟨x, -, j, a, hj, hle, -, ⟨x', rfl, hb1, hb2⟩, hres⟩ := hN k n x0 tol hk hx0 ⟨min_le_left _ _, le_max_left _ _⟩
  exact ⟨x', n + j, hres, by omega, by omega, hb1.trans hle, hb2⟩

/-- Non-vacuity: `x = π`, distances with sum 2, `m = 1/2`.  (The hypotheses of `mcelreath_minimum_converges` are those of
`mcelreath_minimum_order`, for which an example is given there.) -/
example : ∃ T C δ : ℝ, 0 < δ ∧ ∀ tol : ℝ, 0 < tol → ∃ N : ℕ, ∀ (k n : ℕ) (x0 : ℝ), N ≤ k → |x0 - Real.pi| < δ →
    ∃ (x' : ℝ) (n' : ℕ), desiredLoop T 2 (1 / 2) 0 0 (some (2 * Real.pi)) tol k n x0 = .ok ((x' : ℂ), n') ∧ n ≤ n' ∧
      n' < n + N ∧ |x' - Real.pi| ≤ |x0 - Real.pi| ∧ |x' - Real.pi| ≤ C * tol ^ 4 := by
  have hP : |2 * (1 / 2 : ℝ)| < 2 := by norm_num
  have hr : Real.cos Real.pi ≠ 1 := by rw [Real.cos_pi]; norm_num
  have hpi := Real.pi_pos
  have h := tofEquationFull_real hP hr
  have hw : rW 2 (1 / 2) Real.pi = 1 := by
    unfold rW rAlpha
    rw [Real.cos_pi, Real.cos_pi_div_two]; norm_num
  refine ⟨_, mcelreath_converges hP hr h ?_ hpi (by intro h hh; simp at hh; rw [← hh]; linarith) (by push_cast; linarith)⟩
  rw [rFull_eq hP hr, hw]
  simp only [t1, tt, u3, a1, Real.sin_pi_div_two, Real.cos_pi_div_two, Real.sin_pi, Real.cos_pi]
  norm_num
  intro h
  have : (Real.pi * 3 + 17 : ℝ) = 0 := by
    have h' : ((Real.pi * 3 + 17 : ℝ) : ℂ) = 0 := by
      push_cast
      linear_combination 8 * h
    exact_mod_cast h'
  linarith

end mcelreath
end Lamberthub
