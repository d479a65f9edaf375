import Verif.Proofs.JiangLemmas
import Verif.Proofs.AssertLemmas
import Verif.Proofs.IzzoDeriv

/-! # C23: what `jiang2016` returns is a true Kepler transfer -/

set_option autoImplicit false

namespace Lamberthub
open Spec LC

namespace Jiang

/-- The geometry, seen from the transfer angle. -/
theorem setup {r1 r2 : V3} {pro : Bool} {θ : ℝ} (hna : NotAligned r1 r2) (hA : Angle pro r1 r2 θ) :
    ∃ ll, Geo r1 r2 (Real.sqrt 2 * ((V3.norm r1 + V3.norm r2 + V3.norm (r2 - r1)) / 2) * ll) ∧
      Semi (V3.norm r1) (V3.norm r2) (V3.norm (r2 - r1))
        ((V3.norm r1 + V3.norm r2 + V3.norm (r2 - r1)) / 2) ll ∧
      (0 < Real.sqrt 2 * ((V3.norm r1 + V3.norm r2 + V3.norm (r2 - r1)) / 2) * ll ↔ ShortWay pro r1 r2) ∧
      betaSign θ = (if 0 < ll then 1 else -1) ∧
      halfA (V3.norm r1) (V3.norm r2) θ =
        Real.sqrt 2 * ((V3.norm r1 + V3.norm r2 + V3.norm (r2 - r1)) / 2) * ll := by
  obtain ⟨hG, hsh⟩ := hA.halfGeo hna
  obtain ⟨s, ll, hS, hs⟩ := hG.semi
  have hsp := hS.spos
  have e := hS.hs
  refine ⟨ll, ?_⟩
  rw [← e, ← hs]
  refine ⟨hG, hS, hsh, betaSign_ll ?_, rfl⟩
  rw [hs] at hsh
  have hk : 0 < Real.sqrt 2 * s := by positivity
  rw [mul_pos_iff_of_pos_left hk, ← hA.short] at hsh
  rw [hsh]
  exact ⟨fun h => lt_of_le_of_ne h hA.ne_pi, fun h => h.le⟩

/-- Reconstruction from the semi-latus rectum. -/
theorem reconstruct_eq {mu θ V p : ℝ} {r1 r2 : V3} {pro : Bool} (hmu : 0 < mu) (hna : NotAligned r1 r2)
    (hA : Angle pro r1 r2 θ) (hV : 0 < V)
    (hp : p = V3.norm r1 * V3.norm r2 * (1 - Real.cos θ) / V) :
    reconstructVelocities mu r1 r2 (V3.norm r1) (V3.norm r2) θ p =
      .ok (fgV1 mu r1 r2 (halfA (V3.norm r1) (V3.norm r2) θ) V,
        fgV2 mu r1 r2 (halfA (V3.norm r1) (V3.norm r2) θ) V) := by
  have hR1 := norm_pos_of_notAligned_left hna
  have hR2 := norm_pos_of_notAligned_right hna
  have hc := hA.cos_lt_one
  have hp0 : 0 < p := by rw [hp]; positivity
  have hg := g_pform hA hna hmu hV hp
  have hf := f_pform hR1 hR2 hc.ne' hV hp
  have hgd := gdot_pform hR1 hR2 hc.ne' hV hp
  have hhalf := hA.half_cos
  have hsin : Real.sin θ ≠ 0 := by
    have : Real.sin θ = 2 * Real.sin (θ / 2) * Real.cos (θ / 2) := by
      rw [← Real.sin_two_mul]; congr 1; ring
    rw [this]
    exact mul_ne_zero (mul_ne_zero two_ne_zero hhalf.2.2.ne') hhalf.1
  have hden : V3.norm r1 * V3.norm r2 * Real.sin θ ≠ 0 := mul_ne_zero (by positivity) hsin
  have hsc : Real.sqrt (mu * p) / (V3.norm r1 * V3.norm r2 * Real.sin θ) =
      (halfA (V3.norm r1) (V3.norm r2) θ * Real.sqrt (V / mu))⁻¹ := by
    rw [← hg, inv_div]
  unfold reconstructVelocities
  rw [psqrt_eq (by positivity), ok_bind, pdiv_eq hden, ok_bind]
  simp only []
  rw [pdiv_eq hp0.ne', ok_bind, pdiv_eq hp0.ne', ok_bind, hsc]
  have e1 : V3.norm r2 / p * (1 - Real.cos θ) = V / V3.norm r1 := by rw [← hf]; ring
  have e2 : V3.norm r1 / p * (1 - Real.cos θ) = V / V3.norm r2 := by rw [← hgd]; ring
  rw [e1, e2]
  unfold fgV1 fgV2
  generalize (halfA (V3.norm r1) (V3.norm r2) θ * Real.sqrt (V / mu))⁻¹ = g
  congr 2 <;> ext <;> simp only [V3.smul_x, V3.smul_y, V3.smul_z, V3.sub_x, V3.sub_y, V3.sub_z, V3.add_x,
    V3.add_y, V3.add_z] <;> ring

theorem seg_mid {S : Set ℝ} (h : Delatorre.Seg S) {a b : ℝ} (ha : a ∈ S) (hb : b ∈ S) : (a + b) / 2 ∈ S := by
  have := h.mid ha hb
  rwa [show 0.5 * (a + b) = (a + b) / 2 by norm_num; ring] at this

theorem nextX_mem {S : Set ℝ} (hS : Delatorre.Seg S) {F : ℝ → Py ℝ} {x fx lo hi x' : ℝ} (hl : lo ∈ S)
    (hh : hi ∈ S) (h : nextX F x fx lo hi = .ok x') : x' ∈ S := by
  unfold nextX at h
  rw [bind_ok] at h
  obtain ⟨d, -, h⟩ := h
  split at h
  · rw [← Except.ok.inj h]; exact seg_mid hS hl hh
  split at h
  · rename_i hb
    rw [← Except.ok.inj h]; exact hS.between hl hh hb.1 hb.2
  · rw [← Except.ok.inj h]; exact seg_mid hS hl hh

/-- What the safeguarded iteration returns. -/
theorem solveLoop_ok {S : Set ℝ} (hS : Delatorre.Seg S) {F : ℝ → Py ℝ} {atol rtol : ℝ} :
    ∀ {n k : ℕ} {x lo hi fl : ℝ} {xr : ℝ} {kr : ℕ}, x ∈ S → lo ∈ S → hi ∈ S →
      solveLoop F atol rtol n k x lo hi fl = .ok (xr, kr) →
      xr ∈ S ∧ k ≤ kr ∧ kr < k + n ∧ ∃ f, F xr = .ok f ∧ (|f| ≤ atol ∨
        ∃ x' ∈ S, ∃ f', F x' = .ok f' ∧ |xr - x'| ≤ atol + rtol * |xr| ∧ |f| ≤ |f'|) := by
  intro n
  induction n with
  | zero => intro k x lo hi fl xr kr _ _ _ h; simp [solveLoop] at h
  | succ n ih =>
    intro k x lo hi fl xr kr hx hl hh h
    rw [solveLoop, bind_ok] at h
    obtain ⟨fx, hfx, h⟩ := h
    split at h
    · rename_i hc
      simp only [Except.ok.injEq, Prod.mk.injEq] at h
      obtain ⟨rfl, rfl⟩ := h
      exact ⟨hx, le_rfl, by omega, fx, hfx, .inl hc⟩
    simp only [bind_ok] at h
    obtain ⟨xn, hxn, fn, hfn, h⟩ := h
    have hl' : (if fl * fx ≤ 0 then lo else x) ∈ S := by split <;> assumption
    have hh' : (if fl * fx ≤ 0 then x else hi) ∈ S := by split <;> assumption
    have hxnS := nextX_mem hS hl' hh' hxn
    split at h
    · rename_i hc
      simp only [Except.ok.injEq, Prod.mk.injEq] at h
      obtain ⟨rfl, rfl⟩ := h
      refine ⟨hxnS, le_rfl, by omega, fn, hfn, ?_⟩
      rcases hc with hc | ⟨hc1, hc2⟩
      · exact .inl hc
      · exact .inr ⟨x, hx, fx, hfx, hc1, hc2⟩
    · obtain ⟨h1, h2, h3, h4⟩ := ih hxnS hl' hh' h
      exact ⟨h1, by omega, by omega, h4⟩

theorem solveSemimajorAxis_ok {S : Set ℝ} (hS : Delatorre.Seg S) {F : ℝ → Py ℝ} {atol rtol lo hi : ℝ} {n : ℕ}
    {xr : ℝ} {kr : ℕ} (hl : lo ∈ S) (hh : hi ∈ S)
    (h : solveSemimajorAxis F lo hi n atol rtol = .ok (xr, kr)) :
    xr ∈ S ∧ 1 ≤ kr ∧ kr ≤ n ∧ ∃ f, F xr = .ok f ∧ (|f| ≤ atol ∨
        ∃ x' ∈ S, ∃ f', F x' = .ok f' ∧ |xr - x'| ≤ atol + rtol * |xr| ∧ |f| ≤ |f'|) := by
  unfold solveSemimajorAxis at h
  rw [bind_ok] at h
  obtain ⟨fl, -, h⟩ := h
  obtain ⟨h1, h2, h3, h4⟩ := solveLoop_ok hS (seg_mid hS hl hh) hl hh h
  exact ⟨h1, h2, by omega, h4⟩

theorem eps_pos : 0 < eps := by unfold eps; positivity

theorem seg_Ioi (a : ℝ) : Delatorre.Seg (Set.Ioi a) :=
  fun _ h1 _ h2 _ h5 h6 => Delatorre.lt_comb h5 h6 h1 h2

theorem ellipticBracket_mem {F : ℝ → Py ℝ} {aMin lo hi : ℝ} (ha : 0 < aMin)
    (h : ellipticBracket F aMin = .ok (lo, hi)) : aMin < lo ∧ lo < hi := by
  have he := eps_pos
  unfold ellipticBracket at h
  simp only [bind_ok] at h
  obtain ⟨fl, -, fu, -, ⟨u, fu'⟩, hw, h⟩ := h
  simp only [Except.ok.injEq, Prod.mk.injEq] at h
  obtain ⟨rfl, rfl⟩ := h
  have hlo : aMin < aMin * (1 + eps) := by nlinarith
  refine ⟨hlo, ?_⟩
  have := whileLoop_inv (fun st : ℝ × ℝ => aMin * (1 + eps) < st.1) hw
    (by have := le_max_left (2 * (aMin * (1 + eps))) 1; simp only; linarith) (by
      rintro ⟨x, d⟩ ⟨x', d'⟩ h0 - hb
      simp only [bind_ok, Except.ok.injEq, Prod.mk.injEq] at hb
      obtain ⟨_, -, rfl, -⟩ := hb
      simp only at h0 ⊢
      linarith)
  exact this.1

theorem hyperbolicBracket_mem {F : ℝ → Py ℝ} {s c lo hi : ℝ}
    (h : hyperbolicBracket F s c = .ok (lo, hi)) : lo < hi ∧ hi < 0 := by
  have he := eps_pos
  have he1 : eps < 1 := by unfold eps; norm_num
  have hm : 1 ≤ max (max s c) 1 := le_max_right _ _
  unfold hyperbolicBracket at h
  simp only [bind_ok] at h
  obtain ⟨fl, -, ⟨l, fl'⟩, hw, h⟩ := h
  simp only [Except.ok.injEq, Prod.mk.injEq] at h
  obtain ⟨rfl, rfl⟩ := h
  have := whileLoop_inv (fun st : ℝ × ℝ => st.1 < -eps * max (max s c) 1) hw
    (by simp only; nlinarith) (by
      rintro ⟨x, d⟩ ⟨x', d'⟩ h0 - hb
      simp only [bind_ok, Except.ok.injEq, Prod.mk.injEq] at hb
      obtain ⟨_, -, rfl, -⟩ := hb
      simp only at h0 ⊢
      nlinarith)
  exact ⟨this.1, by nlinarith⟩

variable {mu s c ll θ R1 R2 : ℝ}

/-- The parabolic case. -/
theorem parabolicP_eq (hS : Semi R1 R2 c s ll) (hcos : c ^ 2 = R1 ^ 2 + R2 ^ 2 - 2 * (R1 * R2 * Real.cos θ))
    (hb : betaSign θ = if 0 < ll then 1 else -1) :
    parabolicP R1 R2 c s θ = .ok (R1 * R2 * (1 - Real.cos θ) / (s * (1 - ll * 1) ^ 2)) := by
  have hs := hS.spos
  have hc := hS.cpos
  have hl := hS.lam_lt
  have hL : Lanc ll 1 1 := ⟨hl, by ring, one_pos⟩
  have hsc : s - c = s * |ll| ^ 2 := by rw [hS.chord, sq_abs]; ring
  unfold parabolicP
  rw [pdiv_eq (by positivity), ok_bind, psqrt_eq hs.le, ok_bind, psqrt_eq (by rw [hsc]; positivity), ok_bind, hsc,
    Real.sqrt_mul hs.le, Real.sqrt_sq (abs_nonneg _)]
  congr 1
  rw [mul_one_sub, ← p_common hS hcos hL]
  have e : Real.sqrt s + betaSign θ * (Real.sqrt s * |ll|) = Real.sqrt s * (1 + ll * 1) := by
    linear_combination Real.sqrt s * betaSign_abs hb
  rw [e, mul_pow, Real.sq_sqrt hs.le]
  ring

theorem tofParabolic_eq (hmu : 0 < mu) (hS : Semi R1 R2 c s ll) (hll : ll ≠ 0)
    (hb : betaSign θ = if 0 < ll then 1 else -1) :
    tofParabolic mu s c θ = .ok (Real.sqrt (s ^ 3 / (2 * mu)) * lancT ll 1 1 0) := by
  have hs := hS.spos
  have hsc : s - c = s * |ll| ^ 2 := by rw [hS.chord, sq_abs]; ring
  have hl0 : 0 < |ll| := abs_pos.2 hll
  have hp : ∀ t : ℝ, 0 < t → t ^ (3 / 2 : ℝ) = Real.sqrt t ^ 3 := by
    intro t ht
    rw [Real.sqrt_eq_rpow, ← Real.rpow_natCast, ← Real.rpow_mul ht.le]; norm_num
  unfold tofParabolic
  rw [pdiv_eq hmu.ne', ok_bind, psqrt_eq (by positivity), ok_bind, hsc, prpow_ok.2 ⟨.inl hs, rfl⟩, ok_bind,
    prpow_ok.2 ⟨.inl (by positivity), rfl⟩, ok_bind, hp _ hs, hp _ (by positivity), Real.sqrt_mul hs.le,
    Real.sqrt_sq hl0.le]
  congr 1
  have e1 : lancT ll 1 1 0 = 2 / 3 * (1 - ll ^ 3) := by
    simp only [lancT, lt_irrefl, if_false, if_true]; ring
  have e2 : Real.sqrt (s ^ 3 / (2 * mu)) = Real.sqrt s ^ 3 * Real.sqrt (2 / mu) / 2 := by
    rw [show s ^ 3 / (2 * mu) = (Real.sqrt s ^ 3 / 2) ^ 2 * (2 / mu) by
      rw [div_pow, ← pow_mul, mul_comm 3 2, pow_mul, Real.sq_sqrt hs.le]; field_simp,
      Real.sqrt_mul (by positivity), Real.sqrt_sq (by positivity)]
    ring
  have e3 : betaSign θ * |ll| ^ 3 = ll ^ 3 := by
    have h1 := betaSign_abs hb
    have h2 : betaSign θ ^ 2 = 1 := by rcases betaSign_cases θ with h | h <;> rw [h] <;> norm_num
    calc betaSign θ * |ll| ^ 3 = betaSign θ ^ 2 * (betaSign θ * |ll| ^ 3) := by rw [h2, one_mul]
      _ = (betaSign θ * |ll|) ^ 3 := by ring
      _ = ll ^ 3 := by rw [h1]
  rw [e1, e2, ← e3]
  ring

theorem ellipticP_eq (hS : Semi R1 R2 c s ll) (hcos : c ^ 2 = R1 ^ 2 + R2 ^ 2 - 2 * (R1 * R2 * Real.cos θ))
    (hb : betaSign θ = if 0 < ll then 1 else -1) {a : ℝ} (ha : s / 2 ≤ a) (long : Bool) {y : ℝ}
    (hL : Lanc ll (Thorne.xOf s a (br long)) y) :
    ellipticP a R1 R2 c s θ long =
      .ok (R1 * R2 * (1 - Real.cos θ) / (s * (y - ll * Thorne.xOf s a (br long)) ^ 2)) := by
  have hs := hS.spos
  have hc := hS.cpos
  have hcs : c ≤ s := by rw [hS.chord]; nlinarith [sq_nonneg ll]
  unfold ellipticP
  rw [ellipticAlphaBeta_eq hs hc.le hcs ha, ok_bind]
  simp only []
  rw [pdiv_eq (by positivity), ok_bind, mul_one_sub, ← p_common hS hcos hL]
  congr 1
  have := ell_half hs hS.lam_lt hS.chord ha hb long hL
  linear_combination ((s - R1) * (s - R2) / c ^ 2) * this

theorem hyperbolicP_eq (hS : Semi R1 R2 c s ll) (hcos : c ^ 2 = R1 ^ 2 + R2 ^ 2 - 2 * (R1 * R2 * Real.cos θ))
    (hb : betaSign θ = if 0 < ll then 1 else -1) {a : ℝ} (ha : a < 0) {y : ℝ}
    (hL : Lanc ll (Thorne.xOf s a .H) y) :
    hyperbolicP a R1 R2 c s θ =
      .ok (R1 * R2 * (1 - Real.cos θ) / (s * (y - ll * Thorne.xOf s a .H) ^ 2)) := by
  have hs := hS.spos
  have hc := hS.cpos
  have hcs : c ≤ s := by rw [hS.chord]; nlinarith [sq_nonneg ll]
  unfold hyperbolicP
  rw [hyperbolicAlphaBeta_eq hs hcs ha, ok_bind]
  simp only []
  rw [pdiv_eq (by positivity), ok_bind, mul_one_sub, ← p_common hS hcos hL]
  congr 1
  have := hyp_half hs hS.chord ha hb hL
  linear_combination ((s - R1) * (s - R2) / c ^ 2) * this

/-- What the dispatch on the parabolic time produces. -/
theorem semiLatusRectum_ok (hmu : 0 < mu) (hS : Semi R1 R2 c s ll) (hll : ll ≠ 0)
    (hcos : c ^ 2 = R1 ^ 2 + R2 ^ 2 - 2 * (R1 * R2 * Real.cos θ))
    (hb : betaSign θ = if 0 < ll then 1 else -1) {tof tPar p atol rtol : ℝ} {maxiter n : ℕ}
    (htP : tofParabolic mu s c θ = .ok tPar)
    (h : semiLatusRectum mu tof tPar R1 R2 c s θ maxiter atol rtol = .ok (p, n)) :
    n ≤ maxiter ∧
    ((p = R1 * R2 * (1 - Real.cos θ) / (s * (1 - ll * 1) ^ 2) ∧ n = 0 ∧ Lanc ll 1 1 ∧
      |tof - Real.sqrt (s ^ 3 / (2 * mu)) * lancT ll 1 1 0| ≤
        atol + rtol * |Real.sqrt (s ^ 3 / (2 * mu)) * lancT ll 1 1 0|) ∨
    ∃ br, ∃ a ∈ Thorne.Dom s br, 1 ≤ n ∧
      p = R1 * R2 * (1 - Real.cos θ) /
        (s * (lancY ll (Thorne.xOf s a br) - ll * Thorne.xOf s a br) ^ 2) ∧
      (|Thorne.lagF mu s c (-betaSign θ) br a - tof| ≤ atol ∨ ∃ a' ∈ Thorne.Dom s br,
        |a - a'| ≤ atol + rtol * |a| ∧ |Thorne.lagF mu s c (-betaSign θ) br a - tof| ≤
          |Thorne.lagF mu s c (-betaSign θ) br a' - tof|)) := by
  have hs := hS.spos
  have hc := hS.cpos
  have hl := hS.lam_lt
  have hcs : c ≤ s := by rw [hS.chord]; nlinarith [sq_nonneg ll]
  unfold semiLatusRectum at h
  split at h
  · rename_i hcl
    unfold solveParabolic at h
    rw [parabolicP_eq hS hcos hb, ok_bind] at h
    simp only [Except.ok.injEq, Prod.mk.injEq] at h
    obtain ⟨rfl, rfl⟩ := h
    rw [tofParabolic_eq hmu hS hll hb] at htP
    rw [Except.ok.inj htP]
    exact ⟨Nat.zero_le _, .inl ⟨rfl, rfl, ⟨hl, by ring, one_pos⟩, hcl⟩⟩
  split at h
  · unfold solveElliptic at h
    simp only [bind_ok] at h
    obtain ⟨tMin, -, ⟨a, n'⟩, hf, p', hp, h⟩ := h
    simp only [Except.ok.injEq, Prod.mk.injEq] at h
    obtain ⟨rfl, rfl⟩ := h
    obtain ⟨long, hlong⟩ : ∃ long, long = decide (tof > tMin) := ⟨_, rfl⟩
    simp only [← hlong] at hf hp
    unfold findAndSolveElliptic at hf
    simp only [bind_ok] at hf
    obtain ⟨⟨lo, hi⟩, hbr, hsol⟩ := hf
    obtain ⟨hlo, hhi⟩ := ellipticBracket_mem (by linarith) hbr
    obtain ⟨hm, hn1, hn2, f, hfa, hconv⟩ := solveSemimajorAxis_ok (seg_Ioi (s / 2)) hlo (hlo.trans hhi) hsol
    have hres : ∀ t, s / 2 < t → residualElliptic mu tof s c θ long t =
        .ok (Thorne.lagF mu s c (-betaSign θ) (br long) t - tof) := by
      intro t ht
      unfold residualElliptic
      rw [tofElliptic_eq hmu hs hc.le hcs ht.le, ok_bind]
    have hdom : Thorne.Dom s (br long) = Set.Ioi (s / 2) := by cases long <;> rfl
    refine ⟨hn2, .inr ⟨br long, a, by rw [hdom]; exact hm, hn1, ?_, ?_⟩⟩
    · rw [ellipticP_eq hS hcos hb (le_of_lt hm) long (lanc_lancY hl _)] at hp
      exact (Except.ok.inj hp).symm
    · rw [hres a hm] at hfa
      rw [Except.ok.inj hfa]
      refine hconv.imp_right ?_
      rintro ⟨a', ha', f', hf', h1, h2⟩
      rw [hres a' ha'] at hf'
      rw [← Except.ok.inj hf'] at h2
      exact ⟨a', by rw [hdom]; exact ha', h1, h2⟩
  · unfold solveHyperbolic at h
    simp only [bind_ok] at h
    obtain ⟨⟨a, n'⟩, hf, p', hp, h⟩ := h
    simp only [Except.ok.injEq, Prod.mk.injEq] at h
    obtain ⟨rfl, rfl⟩ := h
    unfold findAndSolveHyperbolic at hf
    simp only [bind_ok] at hf
    obtain ⟨⟨lo, hi⟩, hbr, hsol⟩ := hf
    obtain ⟨hlo, hhi⟩ := hyperbolicBracket_mem hbr
    obtain ⟨hm, hn1, hn2, f, hfa, hconv⟩ :=
      solveSemimajorAxis_ok (Delatorre.seg_Iio 0) (hlo.trans hhi : lo < 0) hhi hsol
    have hres : ∀ t, t < 0 → residualHyperbolic mu tof s c θ t =
        .ok (Thorne.lagF mu s c (-betaSign θ) .H t - tof) := by
      intro t ht
      unfold residualHyperbolic
      rw [tofHyperbolic_eq hmu hs hcs ht, ok_bind]
    refine ⟨hn2, .inr ⟨.H, a, hm, hn1, ?_, ?_⟩⟩
    · rw [hyperbolicP_eq hS hcos hb hm (lanc_lancY hl _)] at hp
      exact (Except.ok.inj hp).symm
    · rw [hres a hm] at hfa
      rw [Except.ok.inj hfa]
      refine hconv.imp_right ?_
      rintro ⟨a', ha', f', hf', h1, h2⟩
      rw [hres a' ha'] at hf'
      rw [← Except.ok.inj hf'] at h2
      exact ⟨a', ha', h1, h2⟩

end Jiang

open Jiang

theorem jiang_ok_split {mu : ℝ} {r1 r2 : V3} {tof : ℝ} {M : ℤ} {pro low : Bool} {maxiter : ℕ} {atol rtol : ℝ}
    {full : Bool} {clock : ℝ} {out : Output}
    (h : jiang2016 mu r1 r2 tof M pro low maxiter atol rtol full clock = .ok out) :
    M = 0 ∧ 0 < mu ∧ 0 < tof ∧ NotAligned r1 r2 ∧ ∃ θ tPar p n tpi v1 v2,
      getTransferAngle r1 r2 pro = .ok θ ∧
      tofParabolic mu ((V3.norm r1 + V3.norm r2 + V3.norm (r2 - r1)) / 2) (V3.norm (r2 - r1)) θ = .ok tPar ∧
      semiLatusRectum mu tof tPar (V3.norm r1) (V3.norm r2) (V3.norm (r2 - r1))
        ((V3.norm r1 + V3.norm r2 + V3.norm (r2 - r1)) / 2) θ maxiter atol rtol = .ok (p, n) ∧
      reconstructVelocities mu r1 r2 (V3.norm r1) (V3.norm r2) θ p = .ok (v1, v2) ∧
      out = mkOutput full v1 v2 n tpi := by
  unfold jiang2016 at h
  simp only [bind_ok, raiseIf_ok, assertTransferAngleNotZero, assertTransferAngleNotPi] at h
  obtain ⟨_, hM, _, hv, θ, hθ, _, h0, _, hpi, tPar, htP, ⟨p, n⟩, hp, ⟨v1, v2⟩, hrec, h⟩ := h
  obtain ⟨h1, -, -, h3, h4⟩ := assertParameters_iff.1 hv
  exact ⟨by omega, h1, h3, notAligned_of_angle hθ h0 hpi, θ, tPar, p, n, _, v1, v2, hθ, htP, hp, hrec,
    (Except.ok.inj h).symm⟩

theorem Jiang.chord_sq {pro : Bool} {r1 r2 : V3} {θ : ℝ} (hA : Angle pro r1 r2 θ) :
    V3.norm (r2 - r1) ^ 2 = V3.norm r1 ^ 2 + V3.norm r2 ^ 2 - 2 * (V3.norm r1 * V3.norm r2 * Real.cos θ) := by
  rw [sub_norm_sq, hA.cos_eq]

/-- **C23 (partial).** Whenever `jiang2016` returns, the number of revolutions is zero and
the returned velocities belong to one and the same Kepler orbit, which goes from `r1` to
`r2` in a positive time `T` without completing a revolution, in the requested sense.  Either
`T` is within the tolerance of `tof`, or the last correction of the semi-major axis, from
another transfer between the same positions, was below the tolerance and brought `T` no
farther from `tof`.  The reported number of iterations does not exceed `maxiter`.

Missing: the sense of motion in planes through the polar axis, where both senses have zero
angular momentum along `z`. -/
theorem jiang_kepler_transfer_partial {mu : ℝ} {r1 r2 : V3} {tof : ℝ} {M : ℤ} {pro low : Bool} {maxiter : ℕ}
    {atol rtol : ℝ} {full : Bool} {clock : ℝ} {out : Output}
    (h : jiang2016 mu r1 r2 tof M pro low maxiter atol rtol full clock = .ok out) :
    M = 0 ∧ ∃ T, LambertArc mu r1 r2 out.v1 out.v2 T 0 ∧ (NotPolar r1 r2 → Sense pro r1 out.v1) ∧
      (|tof - T| ≤ atol + rtol * |T| ∨ |tof - T| ≤ atol ∨
        ∃ a a' w1 w2 T', HasSemiMajor mu r1 out.v1 a ∧ LambertArc mu r1 r2 w1 w2 T' 0 ∧
          (NotPolar r1 r2 → Sense pro r1 w1) ∧ HasSemiMajor mu r1 w1 a' ∧
          |a - a'| ≤ atol + rtol * |a| ∧ |T - tof| ≤ |T' - tof|) := by
  obtain ⟨hM, hmu, htof, hna, θ, tPar, p, n, tpi, v1, v2, hθ, htP, hp, hrec, rfl⟩ := jiang_ok_split h
  refine ⟨hM, ?_⟩
  have hA := angle_of_eq hna hθ
  obtain ⟨ll, hG, hS, hsh, hb, hhalf⟩ := setup hna hA
  set s := (V3.norm r1 + V3.norm r2 + V3.norm (r2 - r1)) / 2 with hsdef
  have hs := hS.spos
  have hll : ll ≠ 0 := by rintro rfl; exact hG.hA (by ring)
  have hmp : -betaSign θ = if 0 < ll then -1 else 1 := by rw [hb]; split <;> ring
  have hmain : ∀ {x y : ℝ}, Lanc ll x y → -1 < x →
      LambertArc mu r1 r2 (fgV1 mu r1 r2 (Real.sqrt 2 * s * ll) (s * (y - ll * x) ^ 2))
        (fgV2 mu r1 r2 (Real.sqrt 2 * s * ll) (s * (y - ll * x) ^ 2))
        (Real.sqrt (s ^ 3 / (2 * mu)) * lancT ll x y 0) 0 ∧
      (NotPolar r1 r2 → Sense pro r1 (fgV1 mu r1 r2 (Real.sqrt 2 * s * ll) (s * (y - ll * x) ^ 2))) := by
    intro x y hL hx
    have := hL.eta_pos
    exact ⟨Thorne.arc hmu hG hS hL hx, fun hnp => sense_of_sign hmu (by positivity) hG.hA hnp hsh⟩
  have hvel : ∀ {x y : ℝ}, Lanc ll x y →
      p = V3.norm r1 * V3.norm r2 * (1 - Real.cos θ) / (s * (y - ll * x) ^ 2) →
      v1 = fgV1 mu r1 r2 (Real.sqrt 2 * s * ll) (s * (y - ll * x) ^ 2) ∧
      v2 = fgV2 mu r1 r2 (Real.sqrt 2 * s * ll) (s * (y - ll * x) ^ 2) := by
    intro x y hL hp
    have := hL.eta_pos
    rw [reconstruct_eq hmu hna hA (by positivity) hp, hhalf] at hrec
    simp only [Except.ok.injEq, Prod.mk.injEq] at hrec
    exact ⟨hrec.1.symm, hrec.2.symm⟩
  have hmajor : ∀ {a : ℝ} {br : Thorne.Branch} {y : ℝ}, a ∈ Thorne.Dom s br → Lanc ll (Thorne.xOf s a br) y →
      HasSemiMajor mu r1 (fgV1 mu r1 r2 (Real.sqrt 2 * s * ll) (s * (y - ll * Thorne.xOf s a br) ^ 2)) a := by
    intro a br y ha hL
    refine ⟨Thorne.dom_ne hs ha, ?_⟩
    rw [hL.energy hmu hs hG hS.sum, Thorne.xOf_sq hs ha]
    have := Thorne.dom_ne hs ha
    field_simp
    ring
  rw [mkOutput_v1, mkOutput_v2]
  obtain ⟨-, ⟨hp, -, hL, hcl⟩ | ⟨br, a, ha, -, hp, hconv⟩⟩ :=
    semiLatusRectum_ok hmu hS hll (chord_sq hA) hb htP hp
  · obtain ⟨rfl, rfl⟩ := hvel hL hp
    obtain ⟨h1, h2⟩ := hmain hL (by norm_num)
    exact ⟨_, h1, h2, .inl hcl⟩
  · have hL := lanc_lancY hS.lam_lt (Thorne.xOf s a br)
    obtain ⟨rfl, rfl⟩ := hvel hL hp
    obtain ⟨h1, h2⟩ := hmain hL (Thorne.xOf_gt s a br hs (.inr ha))
    rw [← Thorne.lagF_eq hmu hs hS.lam_lt hS.chord hmp ha hL] at h1
    refine ⟨_, h1, h2, .inr ?_⟩
    rcases hconv with hconv | ⟨a', ha', h3, h4⟩
    · left; rwa [abs_sub_comm]
    · right
      have hL' := lanc_lancY hS.lam_lt (Thorne.xOf s a' br)
      obtain ⟨h1', h2'⟩ := hmain hL' (Thorne.xOf_gt s a' br hs (.inr ha'))
      rw [← Thorne.lagF_eq hmu hs hS.lam_lt hS.chord hmp ha' hL'] at h1'
      exact ⟨a, a', _, _, _, hmajor ha hL, h1', h2', hmajor ha' hL', h3, h4⟩

end Lamberthub
