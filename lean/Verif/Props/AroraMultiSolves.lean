import Verif.Props.OrderLoops
import Verif.Props.LowPathMore
import Verif.Props.MultiRevStable
import Verif.Proofs.SimpleRoot

/-! # C86: `arora2013` solves problems with complete revolutions on the requested path -/

set_option autoImplicit false

namespace Lamberthub
open Filter Topology Spec LC Set Arora

/-- The velocities are continuous in the variable of the path. -/
theorem fgV_near {mu A V0 ε : ℝ} (hmu : 0 < mu) (hA : A ≠ 0) (hV0 : 0 < V0) (r1 r2 : V3) (hε : 0 < ε) :
    ∃ η > 0, ∀ V, |V - V0| < η → 0 < V ∧ len (fgV1 mu r1 r2 A V - fgV1 mu r1 r2 A V0) < ε ∧
      len (fgV2 mu r1 r2 A V - fgV2 mu r1 r2 A V0) < ε := by
  have hg : Real.sqrt (V0 / mu) ≠ 0 := by positivity
  have hne : A * Real.sqrt (V0 / mu) ≠ 0 := mul_ne_zero hA hg
  have c1 : ContinuousAt (fun y => len (fgV1 mu r1 r2 A y - fgV1 mu r1 r2 A V0)) V0 := by
    unfold len fgV1
    simp only [V3.sub_x, V3.sub_y, V3.sub_z, V3.smul_x, V3.smul_y, V3.smul_z]
    fun_prop (disch := assumption)
  have c2 : ContinuousAt (fun y => len (fgV2 mu r1 r2 A y - fgV2 mu r1 r2 A V0)) V0 := by
    unfold len fgV2
    simp only [V3.sub_x, V3.sub_y, V3.sub_z, V3.smul_x, V3.smul_y, V3.smul_z]
    fun_prop (disch := assumption)
  have z : ∀ v : V3, len (v - v) = 0 := fun v => by simp [len]
  have k1 : ∀ᶠ y in nhds V0, len (fgV1 mu r1 r2 A y - fgV1 mu r1 r2 A V0) < ε :=
    c1.eventually (gt_mem_nhds (by simp only [z]; exact hε))
  have k2 : ∀ᶠ y in nhds V0, len (fgV2 mu r1 r2 A y - fgV2 mu r1 r2 A V0) < ε :=
    c2.eventually (gt_mem_nhds (by simp only [z]; exact hε))
  obtain ⟨η, hη, hd⟩ := Metric.eventually_nhds_iff.1 ((eventually_gt_nhds hV0).and (k1.and k2))
  exact ⟨η, hη, fun y hy => hd (y := y) (by rw [Real.dist_eq]; exact hy)⟩

/-- The variable `k` of the transfer of parameter `x`. -/
noncomputable def Arora.kOf (lam x : ℝ) : ℝ := Real.sqrt 2 * (x * lancY lam x + lam * (1 - x ^ 2))

theorem Arora.kOf_eq {s lam : ℝ} (hs : 0 < s) (hl : lam ^ 2 < 1) (hl0 : lam ≠ 0) (x : ℝ) :
    (s * (1 + lam ^ 2) - s * (lancY lam x - lam * x) ^ 2) / (Real.sqrt 2 * s * lam) = kOf lam x := by
  have hL := (lanc_lancY hl x).y_sq
  have h2 := sqrt2_sq
  have hp := sqrt2_pos
  unfold kOf
  rw [div_eq_iff (mul_ne_zero (by positivity) hl0)]
  generalize lancY lam x = y at *
  linear_combination (-s) * hL - (x * y + lam * (1 - x ^ 2)) * s * lam * h2

theorem Arora.kOf_mem {lam : ℝ} (hl : lam ^ 2 < 1) {x : ℝ} (h1 : -1 < x) (h2 : x < 1) :
    kOf lam x ∈ Ioo (-Real.sqrt 2) (Real.sqrt 2) := by
  have hL := (lanc_lancY hl x).y_sq
  have he := (lanc_lancY hl x).eta_pos
  have hp := sqrt2_pos
  have hsq : (x * lancY lam x + lam * (1 - x ^ 2)) ^ 2 = 1 - (1 - x ^ 2) * (lancY lam x - lam * x) ^ 2 := by
    generalize lancY lam x = y at *
    linear_combination hL
  have hlt : |x * lancY lam x + lam * (1 - x ^ 2)| < 1 := by
    rw [← sq_lt_one_iff_abs_lt_one, hsq]
    have : 0 < (1 - x ^ 2) * (lancY lam x - lam * x) ^ 2 := mul_pos (by nlinarith) (by positivity)
    linarith
  obtain ⟨a, b⟩ := abs_lt.1 hlt
  unfold kOf
  constructor <;> nlinarith

/-- What the loop computes at a point strictly inside the elliptic range. -/
theorem Arora.inner_values {k tau S : ℝ} {M : ℕ} (hM : 1 ≤ M) (hk : k ∈ Ioo (-Real.sqrt 2) (Real.sqrt 2)) (ht : tau ≠ 0)
    (hu : 0 < 1 - k * tau) :
    ∃ W Wp Wpp c tofc tp tpp : ℝ, getW k M = .ok W ∧ getWprime k W M = .ok Wp ∧ getW2prime k W Wp M = .ok Wpp ∧
      pdiv (1 - k * tau) tau = .ok c ∧ getTOF k tau S W = .ok tofc ∧ tofPrime tofc c S tau W Wp = .ok tp ∧
      tofSecond tofc c S tau W Wp Wpp = .ok tpp ∧
      ∃ t : ℝ → ℝ, t k = tofc ∧ HasDerivAt t tp k ∧ ∀ᶠ y in 𝓝 k, tofAt tau S M y = .ok (t y) := by
  have hW := getW_ell (M := M) hk.1 hk.2 (.inr hM)
  obtain ⟨w, w', w'', d3, hw, -⟩ := W_local hW (fun h => by omega) (fun h => by omega)
  obtain ⟨g1, g2, g3, g4, g5⟩ := hw.self_of_nhds
  have hc0 : (1 - k * tau) / tau ≠ 0 := div_ne_zero hu.ne' ht
  have hct : (1 - k * tau) / tau * tau = 1 - k * tau := by field_simp
  have hT : getTOF k tau S (w k) = .ok (S * Real.sqrt (1 - k * tau) * (tau + (1 - k * tau) * w k)) := by
    unfold getTOF; rw [psqrt_eq hu.le, ok_bind]
  obtain ⟨tofc, htofc⟩ : ∃ a, a = S * Real.sqrt (1 - k * tau) * (tau + (1 - k * tau) * w k) := ⟨_, rfl⟩
  rw [← htofc] at hT
  have hP : ∃ tp, tofPrime tofc ((1 - k * tau) / tau) S tau (w k) (w' k) = .ok tp := by
    unfold tofPrime
    rw [pdiv_eq (by simpa using hc0), ok_bind, psqrt_eq (by rw [hct]; exact hu.le), ok_bind]
    exact ⟨_, rfl⟩
  have hPP : ∃ tpp, tofSecond tofc ((1 - k * tau) / tau) S tau (w k) (w' k) (w'' k) = .ok tpp := by
    unfold tofSecond
    rw [pdiv_eq (by simpa using hc0), ok_bind, psqrt_eq (by rw [hct]; exact hu.le), ok_bind, pdiv_eq hc0, ok_bind]
    exact ⟨_, rfl⟩
  obtain ⟨tp, hP⟩ := hP
  obtain ⟨tpp, hPP⟩ := hPP
  obtain ⟨t, t', a1, a2, a3, -⟩ := arora_tof_derivatives (w := w) (w' := w') (k := k) ht hu
    (hw.mono fun y hy => hy.2.2.2.1) g5 (pdiv_eq ht) hT hP hPP
  refine ⟨w k, w' k, w'' k, _, tofc, tp, tpp, g1, g2, g3, pdiv_eq ht, hT, hP, hPP, t, a2, ?_, ?_⟩
  · rw [← a3]; exact a1.self_of_nhds.2
  · filter_upwards [a1, hw] with y h1 h2
    unfold tofAt
    rw [h2.1, ok_bind, h1.1]

theorem Arora.tau_pos {s lam tau k : ℝ} (hs : 0 < s) (hl : lam ^ 2 < 1)
    (htau : tau = Real.sqrt 2 * s * lam / (s * (1 + lam ^ 2))) (hk : k ∈ Ioo (-Real.sqrt 2) (Real.sqrt 2)) :
    0 < 1 - k * tau := by
  have hP : 0 < s * (1 + lam ^ 2) := by positivity
  have h1 : |k| < Real.sqrt 2 := abs_lt.2 hk
  have hb := Delatorre.lam_bound hs hl
  have h2 : |k * (Real.sqrt 2 * s * lam)| ≤ |Real.sqrt 2 * (Real.sqrt 2 * s * lam)| := by
    rw [abs_mul k, abs_mul (Real.sqrt 2) (Real.sqrt 2 * s * lam), abs_of_pos sqrt2_pos]
    gcongr
  have := le_abs_self (k * (Real.sqrt 2 * s * lam))
  have : 1 - k * tau = (s * (1 + lam ^ 2) - k * (Real.sqrt 2 * s * lam)) / (s * (1 + lam ^ 2)) := by
    rw [htau]; field_simp
  rw [this]
  exact div_pos (by linarith) hP

/-- The loop near the root that belongs to a transfer which is not the fastest one. -/
theorem Arora.multi_local {mu s lam tau S tof tofP d x : ℝ} {M : ℕ} (hmu : 0 < mu) (hs : 0 < s) (hl : lam ^ 2 < 1)
    (hl0 : lam ≠ 0) (hM : 1 ≤ M) (htau : tau = Real.sqrt 2 * s * lam / (s * (1 + lam ^ 2)))
    (hS : S = Real.sqrt ((s * (1 + lam ^ 2)) ^ 3 / mu)) (h1 : -1 < x) (h2 : x < 1) (hnf : ¬ Fastest lam M x)
    (htof : tof = Real.sqrt (s ^ 3 / (2 * mu)) * revT lam M x) (hpar : tofP < tof) :
    ∃ C δ : ℝ, 0 < δ ∧ ∀ atol : ℝ, 0 < atol → ∃ N : ℕ, ∀ k n x0, N ≤ k → |x0 - kOf lam x| < δ →
      ∃ x' n', iterate tof tofP tau S d M atol k n x0 = .ok (x', n') ∧ n < n' ∧ n' ≤ n + N ∧
        |x' - kOf lam x| ≤ |x0 - kOf lam x| ∧ |x' - kOf lam x| ≤ C * atol := by
  have hk := kOf_mem hl h1 h2
  have ht : tau ≠ 0 := by
    rw [htau]; exact div_ne_zero (mul_ne_zero (by positivity) hl0) (by positivity)
  have hu := tau_pos hs hl htau hk
  obtain ⟨X, hX, -⟩ := param (M := M) hmu hs hl hl0 hM htau hS
  have hinv : ∀ y, -1 < y → y < 1 → X (kOf lam y) = y := by
    intro y y1 y2
    have e := (hX _ (kOf_mem hl y1 y2)).2.1
    generalize X (kOf lam y) = z at *
    rw [← kOf_eq hs hl hl0 y] at e
    have hA : Real.sqrt 2 * s * lam ≠ 0 := mul_ne_zero (by positivity) hl0
    rw [div_left_inj' hA] at e
    exact (rev_inj hl hl0 hs (by linarith)).symm
  have hval : ∀ y, -1 < y → y < 1 → tofAt tau S M (kOf lam y) = .ok (Real.sqrt (s ^ 3 / (2 * mu)) * revT lam M y) := by
    intro y y1 y2
    have := (hX _ (kOf_mem hl y1 y2)).2.2.1
    rwa [hinv y y1 y2] at this
  obtain ⟨W, Wp, Wpp, c, tofc, tp, tpp, g1, g2, g3, g4, g5, g6, g7, t, t1, t2, t3⟩ := inner_values (S := S) hM hk ht hu
  have e1 : tofc = tof := by
    have := hval x h1 h2
    rw [tofAt, g1, ok_bind, g5] at this
    rw [htof]
    exact Except.ok.inj this
  subst e1
  have hsimple : tp ≠ 0 := by
    intro h0
    rw [h0] at t2
    have dy := lancY_hasDerivAt hl x
    have hK : DifferentiableAt ℝ (kOf lam) x := by
      have := dy.differentiableAt
      unfold kOf
      fun_prop
    have hcomp : HasDerivAt (fun y => t (kOf lam y)) (0 * deriv (kOf lam) x) x := t2.comp x hK.hasDerivAt
    rw [zero_mul] at hcomp
    have heq : (fun y => t (kOf lam y)) =ᶠ[𝓝 x] fun y => Real.sqrt (s ^ 3 / (2 * mu)) * revT lam M y := by
      filter_upwards [hK.continuousAt.eventually t3, eventually_gt_nhds h1, eventually_lt_nhds h2] with y hy y1 y2
      rw [hval y y1 y2] at hy
      exact (Except.ok.inj hy).symm
    have d1 := hcomp.congr_of_eventuallyEq heq.symm
    have d2 := (revT_hasDerivAt hl h1 h2 M).const_mul (Real.sqrt (s ^ 3 / (2 * mu)))
    have := d2.unique d1
    have hκ : Real.sqrt (s ^ 3 / (2 * mu)) ≠ 0 := by positivity
    exact lancT1_ne_zero hl hl0 h1 h2.ne (.inr ⟨h2, hnf⟩) ((mul_eq_zero.1 this).resolve_left hκ)
  exact arora_converges ht hu (fun h => by omega) (fun h => by omega) g1 g2 g4 g5 g6 hsimple hk.1
    (fun h => absurd h (not_lt.2 hpar.le)) (fun _ => hk.2)

/-- The transfers on the low path are beyond the fastest one, those on the high path before it. -/
theorem onPath_side {mu : ℝ} (hmu : 0 < mu) {r1 r2 : V3} {s lam : ℝ}
    (hS : Semi (V3.norm r1) (V3.norm r2) (V3.norm (r2 - r1)) s lam) (hl0 : lam ≠ 0) (hG : Geo r1 r2 (Real.sqrt 2 * s * lam))
    {pro low : Bool} {M : ℕ} (hM : 1 ≤ M) {T m x : ℝ} (hm : Fastest lam M m)
    (harc : ∀ (T : ℝ) (v : V3 × V3), (LambertArc mu r1 r2 v.1 v.2 T M ∧ Sense pro r1 v.1) ↔
        ∃ x, -1 < x ∧ x < 1 ∧ T = Real.sqrt (s ^ 3 / (2 * mu)) * revT lam M x ∧ v = revV mu r1 r2 s lam x)
    (h1 : -1 < x) (h2 : x < 1) (hT : T = Real.sqrt (s ^ 3 / (2 * mu)) * revT lam M x) (hx : revT lam M m < revT lam M x)
    (ho : OnPath low mu r1 r2 pro M T (revV mu r1 r2 s lam x).1) : if low then m < x else x < m := by
  have hl := hS.lam_lt
  have hs := hS.spos
  obtain ⟨hm0, hm1, hanti, hmono⟩ := hm.valley hl hM
  obtain ⟨a, b, a1, a2, b1, b2, ea, eb, hab⟩ := revT_between hl hM hm hx
  have hsq := rev_sq_lt hl hm0 hmono a1 a2 b1 b2 (ea.trans eb.symm)
  have hen : energy mu r1 (revV mu r1 r2 s lam a).1 < energy mu r1 (revV mu r1 r2 s lam b).1 := by
    unfold revV
    rw [rev_energy hmu hl0 hG hS, rev_energy hmu hl0 hG hS]
    have : 0 < mu / s := by positivity
    nlinarith
  obtain ⟨qa1, qa2⟩ := (harc T (revV mu r1 r2 s lam a)).2 ⟨a, a1, by linarith, by rw [ea, hT], rfl⟩
  obtain ⟨qb1, qb2⟩ := (harc T (revV mu r1 r2 s lam b)).2 ⟨b, by linarith, b2, by rw [eb, hT], rfl⟩
  have hxab := hab x h1 h2 rfl
  cases low
  · rw [if_neg (by simp)]
    rcases hxab with rfl | rfl
    · exact a2
    · have := ho _ _ qa1 qa2
      rw [if_neg (by simp)] at this
      exact absurd this (not_le.2 hen)
  · rw [if_pos rfl]
    rcases hxab with rfl | rfl
    · have := ho _ _ qb1 qb2
      rw [if_pos rfl] at this
      exact absurd this (not_le.2 hen)
    · exact b1

/-- What `arora2013` returns when its two phases have succeeded. -/
theorem Arora.run {minimize : Minimizer} {brentq : Brent} {mu : ℝ} (hmu : 0 < mu) {r1 r2 : V3} (hna : NotAligned r1 r2)
    {tof : ℝ} (htof : 0 < tof) {M : ℕ} {pro low : Bool} {maxiter : ℕ} {atol rtol : ℝ} (fo : Bool) (clock : ℝ) {k0 k : ℝ} {n : ℕ}
    (hg : initialGuess minimize brentq (tof / Tref mu r1) (tofPOf pro r1 r2) (tauOf pro r1 r2) (Shat r1 r2)
        (dsign pro r1 r2) M low atol rtol = .ok k0)
    (hi : iterate (tof / Tref mu r1) (tofPOf pro r1 r2) (tauOf pro r1 r2) (Shat r1 r2) (dsign pro r1 r2) M atol maxiter 0 k0 =
      .ok (k, n)) (hn : 1 ≤ n) (hV : 0 < V3.norm r1 + V3.norm r2 - k * signedA pro r1 r2) :
    ∃ out, arora2013 minimize brentq mu r1 r2 tof M pro low maxiter atol rtol fo clock = .ok out ∧
      out.v1 = fgV1 mu r1 r2 (signedA pro r1 r2) (V3.norm r1 + V3.norm r2 - k * signedA pro r1 r2) ∧
      out.v2 = fgV2 mu r1 r2 (signedA pro r1 r2) (V3.norm r1 + V3.norm r2 - k * signedA pro r1 r2) := by
  obtain ⟨tpi, ht⟩ := timePerIter_pos fo clock hn
  rw [arora_eq hmu hna htof (by positivity), hg, ok_bind, hi, ok_bind]
  simp only []
  rw [ht, ok_bind, reconstruct_eq hmu hna rfl hV, ok_bind]
  exact ⟨_, rfl, mkOutput_v1 .., mkOutput_v2 ..⟩

/-- The geometry in the units of the code. -/
theorem Arora.scaled {mu : ℝ} (hmu : 0 < mu) {r1 r2 : V3} (hna : NotAligned r1 r2) {pro : Bool} {s lam : ℝ}
    (hS : Semi (V3.norm r1) (V3.norm r2) (V3.norm (r2 - r1)) s lam) (hl0 : lam ≠ 0) (hG : Geo r1 r2 (Real.sqrt 2 * s * lam))
    (hsg : 0 < lam ↔ ShortWay pro r1 r2) :
    0 < s / V3.norm r1 ∧ signedA pro r1 r2 = Real.sqrt 2 * s * lam ∧
    tauOf pro r1 r2 = Real.sqrt 2 * (s / V3.norm r1) * lam / (s / V3.norm r1 * (1 + lam ^ 2)) ∧
    Shat r1 r2 = Real.sqrt ((s / V3.norm r1 * (1 + lam ^ 2)) ^ 3 / 1) ∧
    Real.sqrt (s ^ 3 / (2 * mu)) = Tref mu r1 * Real.sqrt ((s / V3.norm r1) ^ 3 / (2 * 1)) := by
  have hR1 := hG.R1
  have hs := hS.spos
  have hAe : signedA pro r1 r2 = Real.sqrt 2 * s * lam := by
    have e : Real.sqrt (V3.norm r1 * V3.norm r2 + V3.dot r1 r2) = Real.sqrt 2 * s * |lam| := by
      rw [← hG.hA2, Real.sqrt_sq_eq_abs, abs_mul, abs_of_pos (by positivity)]
    unfold signedA
    rw [e]
    simp only [← hsg]
    split
    · rename_i h; rw [abs_of_pos h]; ring
    · rename_i h; rw [abs_of_neg (lt_of_le_of_ne (not_lt.1 h) hl0)]; ring
  refine ⟨by positivity, hAe, ?_, ?_, ?_⟩
  · unfold tauOf; rw [hAe, hS.sum]; field_simp
  · unfold Shat
    rw [div_one]
    congr 2
    have := hS.sum
    field_simp
    exact this
  · unfold Tref
    rw [← Real.sqrt_mul (by positivity)]
    congr 1
    field_simp

set_option maxHeartbeats 400000 in
/-- **C86.**  Above the parabolic time, and above the least time of the revolutions, `arora2013` with tight enough
tolerances and enough passes returns whenever its search for a first guess does, and the velocities are within `ε` of
those of the transfer that takes exactly the requested time on the requested path, unless the search has found a
time within `atol` of the requested one. -/
theorem arora_multi_solves {minimize : Minimizer} (hmin : MinimizerSpec minimize)
    (hval : ∀ {f : ℝ → Py ℝ} {lo hi xatol x fx : ℝ} {ok : Bool}, minimize f lo hi xatol = .ok (x, fx, ok) → f x = .ok fx)
    {brentq : Brent} (hb : BrentSpec brentq) {mu : ℝ} (hmu : 0 < mu) {r1 r2 : V3} (hnp : NotPolar r1 r2) {pro : Bool} {M : ℕ}
    (hM : 1 ≤ M) {tof : ℝ} (hpar : parabolicTime mu r1 r2 pro < tof) {low : Bool} {v1 v2 : V3}
    (hv : LambertArc mu r1 r2 v1 v2 tof M) (hse : Sense pro r1 v1) (ho : OnPath low mu r1 r2 pro M tof v1)
    (hslow : ∃ T u1 u2, T < tof ∧ LambertArc mu r1 r2 u1 u2 T M ∧ Sense pro r1 u1) {ε : ℝ} (hε : 0 < ε) :
    ∃ δ > 0, ∀ atol rtol : ℝ, 0 < atol → atol < δ → rtol < δ → ∃ N : ℕ, ∀ (maxiter : ℕ) (fo : Bool) (clock k0 : ℝ), N ≤ maxiter →
      getMultirevKGuess minimize brentq (tof / Tref mu r1) (tauOf pro r1 r2) (Shat r1 r2) M low atol rtol = .ok k0 →
      ∃ out, arora2013 minimize brentq mu r1 r2 tof M pro low maxiter atol rtol fo clock = .ok out ∧
        ∀ kMin tofMin, minimize (tofAt (tauOf pro r1 r2) (Shat r1 r2) M) (-Real.sqrt 2 + 1e-8) (Real.sqrt 2 - 1e-8)
            (max atol 1e-13) = .ok (kMin, tofMin, true) → atol < |tof / Tref mu r1 - tofMin| →
          len (out.v1 - v1) < ε ∧ len (out.v2 - v2) < ε := by
  have hna : NotAligned r1 r2 := fun h => hnp h.2.2
  obtain ⟨s, lam, hS, hl0, hsg, hG, harc⟩ := rev_arcs hmu hnp pro
  have harc := @harc M hM
  have hl := hS.lam_lt
  have hs := hS.spos
  have htof : 0 < tof := hv.1.trans_le' le_rfl
  obtain ⟨m, hm⟩ := exists_fastest hl hM
  obtain ⟨hs', hAe, htau, hSh, hκ⟩ := scaled hmu hna hS hl0 hG hsg
  have hT : 0 < Tref mu r1 := by have := hG.R1; unfold Tref; positivity
  obtain ⟨x, h1, h2, hTx, hvx⟩ := (harc tof (v1, v2)).1 ⟨hv, hse⟩
  have hx : revT lam M m < revT lam M x := by
    obtain ⟨T, u1, u2, hlt, hu, hus⟩ := hslow
    obtain ⟨y, y1, y2, hy, -⟩ := (harc T (u1, u2)).1 ⟨hu, hus⟩
    have := hm.least y ⟨y1, y2⟩
    rw [hy, hTx] at hlt
    exact lt_of_le_of_lt this (lt_of_mul_lt_mul_left hlt (Real.sqrt_nonneg _))
  have hv1 : v1 = (revV mu r1 r2 s lam x).1 := (Prod.mk.inj hvx).1
  have hv2 : v2 = (revV mu r1 r2 s lam x).2 := (Prod.mk.inj hvx).2
  have hside := onPath_side hmu hS hl0 hG hM hm harc h1 h2 hTx hx (by rw [← hv1]; exact ho)
  have hnf : ¬ Fastest lam M x := fun h => absurd (h.least m hm.mem) (not_le.2 hx)
  have htofs : tof / Tref mu r1 = Real.sqrt ((s / V3.norm r1) ^ 3 / (2 * 1)) * revT lam M x := by
    rw [hTx, hκ]; field_simp
  have htp : tofPOf pro r1 r2 < tof / Tref mu r1 := by
    rw [lt_div_iff₀ hT, mul_comm, tofP_eq hmu hna]; exact hpar
  have hguess : ∀ {atol rtol k0 : ℝ}, getMultirevKGuess minimize brentq (tof / Tref mu r1) (tauOf pro r1 r2) (Shat r1 r2) M low
      atol rtol = .ok k0 → initialGuess minimize brentq (tof / Tref mu r1) (tofPOf pro r1 r2) (tauOf pro r1 r2) (Shat r1 r2)
        (dsign pro r1 r2) M low atol rtol = .ok k0 := by
    intro atol rtol k0 h
    unfold initialGuess
    rw [if_neg (not_le.2 htp), if_neg (by exact_mod_cast (by omega : M ≠ 0)), h]
  obtain ⟨C, δ1, hδ1, hloc⟩ := multi_local (d := dsign pro r1 r2) one_pos hs' hl hl0 hM htau hSh h1 h2 hnf htofs htp
  -- the velocities near the root
  have hVx : V3.norm r1 + V3.norm r2 - kOf lam x * signedA pro r1 r2 = s * (lancY lam x - lam * x) ^ 2 := by
    have hA : Real.sqrt 2 * s * lam ≠ 0 := hG.hA
    rw [← kOf_eq hs hl hl0, hAe, hS.sum]
    field_simp
    ring
  have hη := (lanc_lancY hl x).eta_pos
  obtain ⟨η, hη0, hnear⟩ := fgV_near (V0 := s * (lancY lam x - lam * x) ^ 2) hmu hG.hA (by positivity) r1 r2 hε
  have hA0 : 0 < |signedA pro r1 r2| := abs_pos.2 (by rw [hAe]; exact hG.hA)
  have hVpos : ∀ k ∈ Ioo (-Real.sqrt 2) (Real.sqrt 2), 0 < V3.norm r1 + V3.norm r2 - k * signedA pro r1 r2 := by
    intro k hk
    have := tau_pos hs' hl htau hk
    have hP : 0 < V3.norm r1 + V3.norm r2 := add_pos hG.R1 hG.R2
    have e : V3.norm r1 + V3.norm r2 - k * signedA pro r1 r2 = (V3.norm r1 + V3.norm r2) * (1 - k * tauOf pro r1 r2) := by
      unfold tauOf; field_simp
    rw [e]; positivity
  obtain ⟨δ2, hδ2⟩ : ∃ δ2, δ2 = min δ1 (η / |signedA pro r1 r2|) := ⟨_, rfl⟩
  have hδ2p : 0 < δ2 := by rw [hδ2]; exact lt_min hδ1 (by positivity)
  have hrp := sqrt2_pos
  refine ⟨δ2 / (1 + Real.sqrt 2), by positivity, fun atol rtol ha0 ha1 hr => ?_⟩
  obtain ⟨N, hN⟩ := hloc atol ha0
  refine ⟨N + 1, fun maxiter fo clock k0 hmax hk0 => ?_⟩
  have hk0' := arora_low_path hmin hval hb one_pos hs' hl hl0 hM hm htau hSh hk0 ha0.le
  rcases hk0' with ⟨kMin, tofMin, hmi, hle, rfl⟩ | ⟨kr, y, hkr, hy, hkry, hyT, hyside⟩
  · have hl2 := lt_sqrt2
    have hmem := hmin (by norm_num at hl2 ⊢; linarith) hmi
    have hki : k0 ∈ Ioo (-Real.sqrt 2) (Real.sqrt 2) := by
      have a := hmem.1
      have b := hmem.2
      norm_num at a b
      exact ⟨by linarith, by linarith⟩
    have hτ0 : tauOf pro r1 r2 ≠ 0 := by
      rw [htau]; exact div_ne_zero (mul_ne_zero (by positivity) hl0) (by positivity)
    obtain ⟨W, Wp, Wpp, c, tofc, tp, tpp, g1, g2, g3, g4, g5, -⟩ :=
      inner_values (S := Shat r1 r2) hM hki hτ0 (tau_pos hs' hl htau hki)
    have e1 : tofc = tofMin := by
      have := hval hmi
      rw [tofAt, g1, ok_bind, g5] at this
      exact Except.ok.inj this
    subst e1
    obtain ⟨j, rfl⟩ : ∃ j, maxiter = j + 1 := ⟨maxiter - 1, by omega⟩
    obtain ⟨out, hout, -, -⟩ := run (maxiter := j + 1) hmu hna htof fo clock (hguess hk0) (k := k0) (n := 1) (by
      simp only [iterate, g1, g2, g3, g4, g5, ok_bind, if_pos hle]) le_rfl (hVpos _ hki)
    refine ⟨out, hout, fun kMin' tofMin' hmi' hlt => ?_⟩
    rw [hmi] at hmi'
    obtain ⟨-, rfl, -⟩ := by simpa using Except.ok.inj hmi'
    exact absurd hle (not_le.2 hlt)
  · have hyx : y = x := by
      have e : revT lam M y = revT lam M x := by
        rw [htofs] at hyT
        exact (mul_left_cancel₀ (by positivity) hyT).symm
      obtain ⟨a, b, a1, a2, b1, b2, ea, eb, hab⟩ := revT_between hl hM hm hx
      rcases hab x h1 h2 rfl with h | h <;> rcases hab y hy.1 hy.2 e with h' | h'
      · rw [h, h']
      · cases low
        · rw [if_neg (by simp)] at hyside; linarith
        · rw [if_pos rfl] at hside; linarith
      · cases low
        · rw [if_neg (by simp)] at hside; linarith
        · rw [if_pos rfl] at hyside; linarith
      · rw [h, h']
    subst hyx
    rw [kOf_eq hs' hl hl0] at hkry
    subst hkry
    have hki := kOf_mem hl h1 h2
    have hkabs : |kOf lam y| < Real.sqrt 2 := abs_lt.2 hki
    have hd : |k0 - kOf lam y| < δ2 := by
      have e : rtol * |kOf lam y| ≤ δ2 / (1 + Real.sqrt 2) * Real.sqrt 2 := by
        calc rtol * |kOf lam y| ≤ δ2 / (1 + Real.sqrt 2) * |kOf lam y| := mul_le_mul_of_nonneg_right hr.le (abs_nonneg _)
          _ ≤ _ := mul_le_mul_of_nonneg_left hkabs.le (by positivity)
      have e2 : δ2 / (1 + Real.sqrt 2) + δ2 / (1 + Real.sqrt 2) * Real.sqrt 2 = δ2 := by field_simp
      linarith
    obtain ⟨k', n', hit, hn1, -, hle, -⟩ := hN maxiter 0 k0 (by omega) (hd.trans_le (by rw [hδ2]; exact min_le_left _ _))
    have hdV : |V3.norm r1 + V3.norm r2 - k' * signedA pro r1 r2 - s * (lancY lam y - lam * y) ^ 2| < η := by
      rw [← hVx, show V3.norm r1 + V3.norm r2 - k' * signedA pro r1 r2 -
        (V3.norm r1 + V3.norm r2 - kOf lam y * signedA pro r1 r2) = (kOf lam y - k') * signedA pro r1 r2 by ring,
        abs_mul, abs_sub_comm, ← lt_div_iff₀ hA0]
      exact (hle.trans_lt hd).trans_le (by rw [hδ2]; exact min_le_right _ _)
    obtain ⟨q1, q2, q3⟩ := hnear _ hdV
    obtain ⟨out, hout, o1, o2⟩ := run (maxiter := maxiter) hmu hna htof fo clock (hguess hk0) hit (by omega) q1
    refine ⟨out, hout, fun _ _ _ _ => ?_⟩
    rw [o1, o2, hAe, hv1, hv2]
    rw [hAe] at q2 q3
    exact ⟨q2, q3⟩

/-- A minimiser within the contract: it evaluates the function at the point of the interval closest to zero. -/
noncomputable def midMinimizer : Minimizer := fun f lo hi _ =>
  (f (max lo (min 0 hi))).map fun v => (max lo (min 0 hi), v, true)

theorem midMinimizer_spec : MinimizerSpec midMinimizer := by
  intro f lo hi xatol x fx ok hle h
  unfold midMinimizer at h
  cases hf : f (max lo (min 0 hi)) with
  | error e => rw [hf] at h; cases h
  | ok v =>
    rw [hf] at h
    obtain ⟨rfl, -⟩ := Prod.mk.inj (Except.ok.inj h)
    exact ⟨le_max_left _ _, max_le hle (min_le_right _ _)⟩

theorem midMinimizer_val {f : ℝ → Py ℝ} {lo hi xatol x fx : ℝ} {ok : Bool} (h : midMinimizer f lo hi xatol = .ok (x, fx, ok)) :
    f x = .ok fx := by
  unfold midMinimizer at h
  cases hf : f (max lo (min 0 hi)) with
  | error e => rw [hf] at h; cases h
  | ok v =>
    rw [hf] at h
    obtain ⟨rfl, h'⟩ := Prod.mk.inj (Except.ok.inj h)
    obtain ⟨rfl, -⟩ := Prod.mk.inj h'
    exact hf

set_option maxHeartbeats 1000000 in
/-- The hypotheses of `arora_multi_solves` are met: the quarter turn of the unit circle with one revolution, a time of
flight for which the search for a first guess succeeds with every tolerance up to one. -/
example : ∃ (tof : ℝ) (v1 v2 : V3), parabolicTime 1 ⟨1, 0, 0⟩ ⟨0, 1, 0⟩ true < tof ∧
    LambertArc 1 ⟨1, 0, 0⟩ ⟨0, 1, 0⟩ v1 v2 tof 1 ∧ Sense true ⟨1, 0, 0⟩ v1 ∧ OnPath true 1 ⟨1, 0, 0⟩ ⟨0, 1, 0⟩ true 1 tof v1 ∧
    (∃ T u1 u2, T < tof ∧ LambertArc 1 ⟨1, 0, 0⟩ ⟨0, 1, 0⟩ u1 u2 T 1 ∧ Sense true ⟨1, 0, 0⟩ u1) ∧
    ∀ atol rtol : ℝ, 0 < atol → atol ≤ 1 → 0 ≤ rtol →
      (∃ k0, getMultirevKGuess midMinimizer exactBrent (tof / Tref 1 ⟨1, 0, 0⟩) (tauOf true ⟨1, 0, 0⟩ ⟨0, 1, 0⟩)
        (Shat ⟨1, 0, 0⟩ ⟨0, 1, 0⟩) ((1 : ℕ) : ℤ) true atol rtol = .ok k0) ∧
      ∃ kMin tofMin, midMinimizer (tofAt (tauOf true ⟨1, 0, 0⟩ ⟨0, 1, 0⟩) (Shat ⟨1, 0, 0⟩ ⟨0, 1, 0⟩) ((1 : ℕ) : ℤ))
        (-Real.sqrt 2 + 1e-8) (Real.sqrt 2 - 1e-8) (max atol 1e-13) = .ok (kMin, tofMin, true) ∧
        atol < |tof / Tref 1 ⟨1, 0, 0⟩ - tofMin| := by
  have hna : NotAligned ⟨1, 0, 0⟩ ⟨0, 1, 0⟩ := by simp [NotAligned, V3.cross]
  have hnp : NotPolar ⟨1, 0, 0⟩ ⟨0, 1, 0⟩ := by simp [NotPolar]
  have hG := (getA_signedA (angle_of_eq hna (transferAngle_eq hna true)) hna).2
  have n1 : V3.norm ⟨1, 0, 0⟩ = 1 := by simp [V3.norm, V3.dot]
  have n2 : V3.norm ⟨0, 1, 0⟩ = 1 := by simp [V3.norm, V3.dot]
  have hsw : ShortWay true ⟨1, 0, 0⟩ ⟨0, 1, 0⟩ := by simp [ShortWay, crossZ]
  have hA : signedA true ⟨1, 0, 0⟩ ⟨0, 1, 0⟩ = 1 := by
    unfold signedA; rw [if_pos hsw, n1, n2]; simp [V3.dot]
  have hτ : tauOf true ⟨1, 0, 0⟩ ⟨0, 1, 0⟩ = 1 / 2 := by unfold tauOf; rw [hA, n1, n2]; norm_num
  have hSh : Shat ⟨1, 0, 0⟩ ⟨0, 1, 0⟩ = Real.sqrt 8 := by unfold Shat; rw [n1, n2]; norm_num
  have hTr : Tref 1 ⟨1, 0, 0⟩ = 1 := by unfold Tref; rw [n1]; norm_num
  have hp := sqrt2_pos
  have hq := sqrt2_sq
  have hl1 : (1.41 : ℝ) < Real.sqrt 2 := Real.lt_sqrt_of_sq_lt (by norm_num)
  have hl2 : Real.sqrt 2 < 1.42 := by rw [Real.sqrt_lt' (by norm_num)]; norm_num
  norm_num at hl1 hl2
  have h8 : Real.sqrt 8 = 2 * Real.sqrt 2 := by
    rw [show (8 : ℝ) = 2 ^ 2 * 2 by norm_num, Real.sqrt_mul (by norm_num), Real.sqrt_sq (by norm_num)]
  obtain ⟨kr, hkr⟩ : ∃ kr, kr = Real.sqrt 2 - 1e-8 := ⟨_, rfl⟩
  have hkr' : kr = Real.sqrt 2 - 1 / 100000000 := by rw [hkr]; norm_num
  have hk1 : -Real.sqrt 2 < kr := by linarith
  have hk2 : kr < Real.sqrt 2 := by linarith
  have hF : ∀ k, -Real.sqrt 2 < k → k < Real.sqrt 2 → tofAt (1 / 2) (Real.sqrt 8) ((1 : ℕ) : ℤ) k =
      .ok (Real.sqrt 8 * Real.sqrt (1 - k * (1 / 2)) * (1 / 2 + (1 - k * (1 / 2)) * ellW k 1)) := by
    intro k a b
    unfold tofAt getTOF
    rw [getW_ell a b (.inr (by norm_num)), ok_bind, psqrt_eq (by linarith), ok_bind]
  obtain ⟨t0, ht0⟩ : ∃ t0, t0 = Real.sqrt 8 * Real.sqrt (1 - 0 * (1 / 2)) * (1 / 2 + (1 - 0 * (1 / 2)) * ellW 0 1) := ⟨_, rfl⟩
  obtain ⟨t1, ht1⟩ : ∃ t1, t1 = Real.sqrt 8 * Real.sqrt (1 - kr * (1 / 2)) * (1 / 2 + (1 - kr * (1 / 2)) * ellW kr 1) := ⟨_, rfl⟩
  have hF0 := hF 0 (by linarith) hp
  have hF1 := hF kr hk1 hk2
  rw [← ht0] at hF0
  rw [← ht1] at hF1
  have hpi1 := Real.pi_gt_three
  have hpi2 := Real.pi_lt_four
  have b0 : t0 < 14 := by
    rw [ht0]
    have : ellW 0 1 = 3 * Real.pi / (2 * Real.sqrt 2) := by
      unfold ellW
      rw [zero_div, Real.arccos_zero]
      norm_num
      rw [show Real.sqrt 2 ^ 3 = Real.sqrt 2 ^ 2 * Real.sqrt 2 by ring, hq]
      congr 1
      ring
    rw [this, h8]
    norm_num
    rw [mul_add, mul_div_cancel₀ _ (by positivity)]
    linarith
  have b1 : 100 < t1 := by
    have hm : 2 - kr ^ 2 ≤ (1 / 100) ^ 2 := by rw [hkr']; nlinarith
    have hm0 : 0 < 2 - kr ^ 2 := by nlinarith
    have hr : Real.sqrt (2 - kr ^ 2) ≤ 1 / 100 := Real.sqrt_le_iff.2 ⟨by norm_num, hm⟩
    have hr0 : 0 < Real.sqrt (2 - kr ^ 2) := Real.sqrt_pos.2 hm0
    have hr2 : Real.sqrt (2 - kr ^ 2) ^ 2 = 2 - kr ^ 2 := Real.sq_sqrt hm0.le
    have hW : 1000000 ≤ ellW kr 1 := by
      unfold ellW
      obtain ⟨q, hqd⟩ : ∃ q, q = Real.sqrt (2 - kr ^ 2) := ⟨_, rfl⟩
      rw [← hqd] at hr hr0 hr2 ⊢
      rw [← hr2]
      have ha := Real.arccos_nonneg (kr / Real.sqrt 2)
      have e : (2 * Real.arccos (kr / Real.sqrt 2) + 2 * Real.pi * (1 : ℕ)) / q ^ 3 - kr / q ^ 2 =
          (2 * Real.arccos (kr / Real.sqrt 2) + 2 * Real.pi - kr * q) / q ^ 3 := by
        push_cast; field_simp
      rw [e, le_div_iff₀ (by positivity)]
      have h3 : q ^ 3 ≤ (1 / 100) ^ 3 := pow_le_pow_left₀ hr0.le hr 3
      have : kr * q ≤ 2 * (1 / 100) := mul_le_mul (by linarith) hr hr0.le (by norm_num)
      norm_num at h3 this
      linarith
    have hu : 1 / 4 ≤ 1 - kr * (1 / 2) := by linarith
    have hsu : 1 / 2 ≤ Real.sqrt (1 - kr * (1 / 2)) := Real.le_sqrt_of_sq_le (by norm_num; linarith)
    rw [ht1, h8]
    have c1 : 250000 ≤ 1 / 2 + (1 - kr * (1 / 2)) * ellW kr 1 := by nlinarith
    have c2 : 1 ≤ 2 * Real.sqrt 2 * Real.sqrt (1 - kr * (1 / 2)) := by nlinarith
    nlinarith
  have hsg : 0 < signedA true ⟨1, 0, 0⟩ ⟨0, 1, 0⟩ ↔ ShortWay true ⟨1, 0, 0⟩ ⟨0, 1, 0⟩ := by rw [hA]; simp [hsw]
  have harc : ∀ k, -Real.sqrt 2 < k → k < Real.sqrt 2 → ∃ u1 u2, LambertArc 1 ⟨1, 0, 0⟩ ⟨0, 1, 0⟩ u1 u2
      (Real.sqrt 8 * Real.sqrt (1 - k * (1 / 2)) * (1 / 2 + (1 - k * (1 / 2)) * ellW k 1)) 1 ∧ Sense true ⟨1, 0, 0⟩ u1 := by
    intro k a b
    have hV0 : 0 < V3.norm ⟨1, 0, 0⟩ + V3.norm ⟨0, 1, 0⟩ - k * signedA true ⟨1, 0, 0⟩ ⟨0, 1, 0⟩ := by
      rw [n1, n2, hA]; linarith
    have hpa := path_ell (M := 1) one_pos (add_pos hG.R1 hG.R2) a b rfl hV0
    have e := time_scaled (pro := true) one_pos hna k (ellW k 1)
    rw [hTr, hSh, hτ, one_mul] at e
    rw [← e] at hpa
    exact ⟨_, _, hpa.arc one_pos hG, sense_of_sign one_pos hV0 hG.hA hnp hsg⟩
  obtain ⟨u1, u2, hu, hus⟩ := harc 0 (by linarith) hp
  obtain ⟨w1, w2, hw, hws⟩ := harc kr hk1 hk2
  rw [← ht0] at hu
  rw [← ht1] at hw
  obtain ⟨Tm, -, hTm, -, htwo⟩ := multi_rev_count one_pos hnp true (le_refl 1)
  obtain ⟨a, b, hab, hall⟩ := htwo t1 (by have := hTm _ _ _ hu hus; linarith)
  obtain ⟨ha, has⟩ := (hall a).2 (.inl rfl)
  refine ⟨t1, a.1, a.2, ?_, ha, has, ?_, ⟨t0, u1, u2, by linarith, hu, hus⟩, fun atol rtol h0 h1 h2 => ?_⟩
  · rw [← tofP_eq one_pos hna, hTr, one_mul]
    unfold tofPOf
    rw [hτ, hSh, h8]
    have : Real.sqrt (1 - Real.sqrt 2 * (1 / 2)) ≤ 1 := Real.sqrt_le_one.2 (by linarith)
    have h0 := Real.sqrt_nonneg (1 - Real.sqrt 2 * (1 / 2))
    nlinarith
  · intro y1 y2 hy hys
    rw [if_pos rfl]
    rcases (hall (y1, y2)).1 ⟨hy, hys⟩ with h | h
    · rw [← h]
    · rw [← h] at hab; exact hab.le
  · rw [hTr, div_one, hτ, hSh]
    have hmi : midMinimizer (tofAt (1 / 2) (Real.sqrt 8) ((1 : ℕ) : ℤ)) (-Real.sqrt 2 + 1e-8) (Real.sqrt 2 - 1e-8) (max atol 1e-13) =
        .ok (0, t0, true) := by
      unfold midMinimizer
      have e : max (-Real.sqrt 2 + 1e-8) (min 0 (Real.sqrt 2 - 1e-8)) = 0 := by
        rw [min_eq_left (by norm_num; linarith), max_eq_right (by norm_num; linarith)]
      rw [e, hF0]
      rfl
    have habs : atol < |t1 - t0| := by rw [abs_of_pos (by linarith)]; linarith
    refine ⟨?_, 0, t0, hmi, habs⟩
    unfold getMultirevKGuess
    simp only []
    rw [hmi, ok_bind]
    simp only []
    rw [raiseIf_neg _ (by simp), ok_bind, raiseIf_neg _ (by push Not; linarith), ok_bind, if_neg (not_le.2 habs)]
    have hbr : ∃ k n, exactBrent (fun k => do
        let t ← tofAt (1 / 2) (Real.sqrt 8) ((1 : ℕ) : ℤ) k
        .ok (t - t1)) 0 kr atol rtol 100 = .ok (k, n) := by
      unfold exactBrent
      have hend : (do
        let t ← tofAt (1 / 2) (Real.sqrt 8) ((1 : ℕ) : ℤ) kr
        .ok (t - t1) : Py ℝ) = .ok 0 := by rw [hF1, ok_bind, sub_self]
      rw [if_neg, dif_pos ⟨⟨kr, ⟨by linarith, le_rfl⟩, hend⟩, by norm_num, h0.le, h2⟩]
      · exact ⟨_, _, rfl⟩
      · rintro ⟨flo, fhi, -, hf, hpos⟩
        rw [← Except.ok.inj (hend.symm.trans hf)] at hpos
        simp at hpos
    obtain ⟨k, n, hbr⟩ := hbr
    rw [if_pos trivial, if_pos trivial, ← hkr, hbr, ok_bind]
    exact ⟨_, rfl⟩

end Lamberthub
