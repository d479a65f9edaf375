import Verif.Props.JiangMore
import Verif.Props.ThorneSolves

/-! # C67: fast transfers with `jiang2016`

The hyperbolic search of `jiang2016` looks for the semi-major axis below `-2^-26 * max(s, c, 1)`.  A transfer with a
semi-major axis closer to zero is out of its reach; the solver does not notice, and returns a slower transfer. -/

set_option autoImplicit false

namespace Lamberthub

open Spec LC

/-- Without complete revolutions the parameter `V` determines the time. -/
theorem LC.Path.time_unique_zero {μ P A V T T' : ℝ} (hA : A ≠ 0) (h : Path μ P A 0 V T) (h' : Path μ P A 0 V T') :
    T = T' := by
  have hr : Real.sqrt 2 * A ≠ 0 := mul_ne_zero (by positivity) hA
  have key : ∀ {q q' : ℝ}, V = P - Real.sqrt 2 * A * q → V = P - Real.sqrt 2 * A * q' → q = q' := fun h h' =>
    mul_left_cancel₀ hr (by linarith)
  have hcos : ∀ φ : ℝ, (0 : ℕ) * Real.pi < φ → φ < ((0 : ℕ) + 1) * Real.pi → Real.cos φ < 1 := by
    intro φ h1 h2
    rw [← Real.cos_zero]
    exact Real.cos_lt_cos_of_nonneg_of_le_pi le_rfl (by push_cast at h2; linarith) (by push_cast at h1; linarith)
  have hcosh : ∀ φ : ℝ, 0 < φ → 1 < Real.cosh φ := fun φ h => Real.one_lt_cosh.2 h.ne'
  have e0 : ∀ q : ℝ, P - (-1) ^ 0 * (Real.sqrt 2 * A) * q = P - Real.sqrt 2 * A * q := fun q => by ring
  have e1 : P - Real.sqrt 2 * A = P - Real.sqrt 2 * A * 1 := by ring
  cases h with
  | ell h1 h2 hV0 hV =>
    rename_i φ
    rw [e0] at hV
    cases h' with
    | ell h1' h2' hV0' hV' =>
      rename_i φ'
      rw [e0] at hV'
      push_cast at h1 h2 h1' h2'
      rw [Real.injOn_cos ⟨by linarith, by linarith⟩ ⟨by linarith, by linarith⟩ (key hV hV')]
    | par hV0' hV' => exact absurd (key hV (hV'.trans e1)) (hcos _ h1 h2).ne
    | hyp hφ hV0' hV' => exact absurd (key hV hV') ((hcos _ h1 h2).trans (hcosh _ hφ)).ne
  | par hV0 hV =>
    cases h' with
    | ell h1' h2' hV0' hV' => rw [e0] at hV'; exact absurd (key hV' (hV.trans e1)) (hcos _ h1' h2').ne
    | par hV0' hV' => rfl
    | hyp hφ hV0' hV' => exact absurd (key (hV.trans e1) hV') (hcosh _ hφ).ne
  | hyp hφ hV0 hV =>
    rename_i φ
    cases h' with
    | ell h1' h2' hV0' hV' =>
      rw [e0] at hV'; exact absurd (key hV' hV) ((hcos _ h1' h2').trans (hcosh _ hφ)).ne
    | par hV0' hV' => exact absurd (key (hV'.trans e1) hV) (hcosh _ hφ).ne
    | hyp hφ' hV0' hV' => rw [Real.cosh_strictMonoOn.injOn hφ.le hφ'.le (key hV hV')]

/-- The initial velocity determines when the motion first reaches the final position: two transfers with the same
initial velocity and without complete revolutions take the same time. -/
theorem arc_time_unique {mu : ℝ} (hmu : 0 < mu) {r1 r2 v1 v2 w2 : V3} {T T' : ℝ} (hna : NotAligned r1 r2)
    (h : LambertArc mu r1 r2 v1 v2 T 0) (h' : LambertArc mu r1 r2 v1 w2 T' 0) : T = T' := by
  obtain ⟨A, V, hG, hP, rfl, rfl⟩ := path_of_arc hmu hna h
  obtain ⟨A', V', hG', hP', e, -⟩ := path_of_arc hmu hna h'
  have hV := hP.V_pos
  have hV' := hP'.V_pos
  have hsq := outer_sq_pos hna
  have hT : SameTurn r1 (fgV1 mu r1 r2 A V) (fgV1 mu r1 r2 A V) := by
    unfold SameTurn
    rw [outer_fgV1]
    have : Spec.inner ((A * Real.sqrt (V / mu))⁻¹ • outer r1 r2) ((A * Real.sqrt (V / mu))⁻¹ • outer r1 r2) =
        (A * Real.sqrt (V / mu))⁻¹ ^ 2 * Spec.inner (outer r1 r2) (outer r1 r2) := by
      unfold Spec.inner; simp; ring
    rw [this]
    have hA := hG.hA
    have : Real.sqrt (V / mu) ≠ 0 := by positivity
    positivity
  obtain rfl := geo_eq_of_sameTurn hmu hG hG' hV hV' (by rw [← e]; exact hT)
  have e2 := congrArg (fun v => Spec.inner (outer r1 v) (outer r1 r2)) e
  simp only [outer_fgV1] at e2
  have e3 : ∀ k : ℝ, Spec.inner (k • outer r1 r2) (outer r1 r2) = k * Spec.inner (outer r1 r2) (outer r1 r2) := by
    intro k; unfold Spec.inner; simp; ring
  rw [e3, e3] at e2
  have e4 := inv_injective (mul_right_cancel₀ hsq.ne' e2)
  have e5 := mul_left_cancel₀ hG.hA e4
  rw [Real.sqrt_inj (by positivity) (by positivity)] at e5
  have e6 : V = V' := by
    field_simp at e5
    exact e5
  rw [← e6] at hP'
  exact hP.time_unique_zero hG.hA hP'

namespace Jiang

/-- The next iterate when the residual is positive on the whole bracket. -/
theorem nextX_between {F : ℝ → Py ℝ} {f : ℝ → ℝ} {x fx up : ℝ} (hx : x < up)
    (hF : ∀ a, x ≤ a → a ≤ up → F a = .ok (f a)) :
    ∃ x', nextX F x fx x up = .ok x' ∧ x < x' ∧ x' < up := by
  have hst : 0 < eps * max 1 |x| := mul_pos eps_pos (lt_of_lt_of_le one_pos (le_max_left _ _))
  have h1 : max x (x - eps * max 1 |x|) = x := max_eq_left (by linarith)
  have h2 : x < min up (x + eps * max 1 |x|) := lt_min hx (by linarith)
  obtain ⟨d, hd⟩ : ∃ d, derivative F x x up = .ok d := by
    unfold derivative
    simp only [h1]
    rw [if_neg h2.ne', hF _ h2.le (min_le_left _ _), ok_bind, hF x le_rfl hx.le, ok_bind]
    exact ⟨_, rfl⟩
  unfold nextX
  rw [hd, ok_bind]
  split
  · exact ⟨_, rfl, by linarith, by linarith⟩
  split
  · rename_i h
    exact ⟨_, rfl, h.1, h.2⟩
  · exact ⟨_, rfl, by linarith, by linarith⟩

/-- A residual that is positive and strictly decreasing up to the upper end: the loop climbs towards the upper end and
returns a point below it, or runs out of passes. -/
theorem solveLoop_climbs {F : ℝ → Py ℝ} {f : ℝ → ℝ} {lo up atol rtol : ℝ}
    (hF : ∀ a, lo ≤ a → a ≤ up → F a = .ok (f a)) (hf : ∀ a b, lo ≤ a → a < b → b ≤ up → f b < f a)
    (ha0 : 0 ≤ atol) (hr : 0 ≤ rtol) (hup : atol < f up) :
    ∀ (n k : ℕ) (x lower fl : ℝ), lo ≤ x → x < up → 0 < fl →
      ((∃ xr kr, solveLoop F atol rtol n k x lower up fl = .ok (xr, kr) ∧ lo ≤ xr ∧ xr < up) ∨
        (∃ msg, solveLoop F atol rtol n k x lower up fl = .error (.valueError msg)) ∧ n * atol < up - x) := by
  intro n
  induction n with
  | zero =>
    intro k x lower fl _ hx _
    exact .inr ⟨⟨_, rfl⟩, by push_cast; linarith⟩
  | succ n ih =>
    intro k x lower fl hlo hx hfl
    have hfx : atol < f x := hup.trans (hf x up hlo hx le_rfl)
    have hfx0 : 0 < f x := ha0.trans_lt hfx
    have hp : ¬ fl * f x ≤ 0 := not_le.2 (mul_pos hfl hfx0)
    obtain ⟨x', e, h1, h2⟩ := nextX_between (fx := f x) hx (fun a h h' => hF a (hlo.trans h) h')
    have hfx' : atol < f x' := hup.trans (hf x' up (by linarith) h2 le_rfl)
    have hlt := hf x x' hlo h1 h2.le
    rw [solveLoop, hF x hlo hx.le, ok_bind, if_neg (by rw [abs_of_pos hfx0]; exact not_le.2 hfx)]
    simp only [if_neg hp]
    rw [e, ok_bind, hF x' (by linarith) h2.le, ok_bind]
    split
    · exact .inl ⟨x', k, rfl, by linarith, h2⟩
    · rename_i hc
      rcases ih (k + 1) x' x (f x) (by linarith) h2 hfx0 with h | ⟨h, hn⟩
      · exact .inl h
      · refine .inr ⟨h, ?_⟩
        rw [not_or, not_and] at hc
        have h3 : ¬ |x' - x| ≤ atol + rtol * |x'| := fun h =>
          hc.2 h (by rw [abs_of_pos hfx0, abs_of_pos (ha0.trans_lt hfx')]; exact hlt.le)
        rw [not_le, abs_of_pos (show 0 < x' - x by linarith)] at h3
        have : 0 ≤ rtol * |x'| := mul_nonneg hr (abs_nonneg _)
        push_cast
        linarith

variable {mu s c ll θ R1 R2 tof atol rtol : ℝ}

/-- The semi-major axis at the upper end of the hyperbolic search. -/
noncomputable def top (s c : ℝ) : ℝ := -eps * max (max s c) 1

theorem top_neg (s c : ℝ) : top s c < 0 := by
  have : 0 < max (max s c) 1 := lt_of_lt_of_le one_pos (le_max_right _ _)
  have := mul_pos eps_pos this
  unfold top
  linarith

/-- The hyperbolic search when the requested time is below the one at the upper end. -/
theorem findAndSolveHyperbolic_fast (hmu : 0 < mu) (hS : Semi R1 R2 c s ll) (h0 : ll ≠ 0)
    (hb : betaSign θ = if 0 < ll then 1 else -1) (ha0 : 0 ≤ atol) (hr : 0 ≤ rtol)
    (ht : tof + atol < Thorne.lagF mu s c (-betaSign θ) .H (top s c)) (N : ℕ) :
    (∃ a n, findAndSolveHyperbolic mu tof s c θ N atol rtol = .ok (a, n) ∧ a < top s c) ∨
      (∃ msg, findAndSolveHyperbolic mu tof s c θ N atol rtol = .error (.valueError msg)) ∧
        N * atol < max (max s c) 1 := by
  have hs := hS.spos
  have hl := hS.lam_lt
  have he := eps_pos
  have he1 : eps < 1 := by unfold eps; norm_num
  have hcs : c ≤ s := by rw [hS.chord]; nlinarith [sq_nonneg ll]
  have hmp : -betaSign θ = if 0 < ll then -1 else 1 := by rw [hb]; split <;> ring
  have hm : 1 ≤ max (max s c) 1 := le_max_right _ _
  have htn := top_neg s c
  have hlt : -max (max s c) 1 < top s c := by unfold top; nlinarith
  have hres : ∀ t, t < 0 → residualHyperbolic mu tof s c θ t = .ok (Thorne.lagF mu s c (-betaSign θ) .H t - tof) := by
    intro t ht
    unfold residualHyperbolic
    rw [tofHyperbolic_eq hmu hs hcs ht, ok_bind]
  have hdec : ∀ a b, a < b → b < 0 → Thorne.lagF mu s c (-betaSign θ) .H b - tof <
      Thorne.lagF mu s c (-betaSign θ) .H a - tof := by
    intro a b hab hb
    have := lagF_lt_H hmu hs hl h0 hS.chord hmp hb hab
    linarith
  have hlo0 : 0 < Thorne.lagF mu s c (-betaSign θ) .H (-max (max s c) 1) - tof := by
    have := hdec _ _ hlt htn
    linarith
  have hbr : hyperbolicBracket (residualHyperbolic mu tof s c θ) s c = .ok (-max (max s c) 1, top s c) := by
    unfold hyperbolicBracket
    simp only []
    rw [hres _ (by linarith), ok_bind, whileLoop_false (by simpa using hlo0.le)]
    rfl
  unfold findAndSolveHyperbolic
  simp only []
  rw [hbr, ok_bind]
  simp only []
  unfold solveSemimajorAxis
  rw [hres _ (by linarith), ok_bind]
  rcases solveLoop_climbs (F := residualHyperbolic mu tof s c θ) (lo := -max (max s c) 1) (up := top s c)
    (f := fun a => Thorne.lagF mu s c (-betaSign θ) .H a - tof) (fun a _ h => hres a (by linarith))
    (fun a b _ h h' => hdec a b h (by linarith)) ha0 hr (by linarith) N 1
    ((-max (max s c) 1 + top s c) / 2) (-max (max s c) 1) _ (by linarith) (by linarith) hlo0 with
    ⟨a, n, e, -, h⟩ | ⟨⟨msg, e⟩, h⟩
  · exact .inl ⟨a, n, e, h⟩
  · exact .inr ⟨⟨msg, e⟩, by linarith⟩

theorem lam_unique {s l l' : ℝ} (hs : s ≠ 0) (h : s * (1 - l' ^ 2) = s * (1 - l ^ 2)) (hsg : 0 < l' ↔ 0 < l)
    (hl : l ≠ 0) : l' = l := by
  have h4 : l' ^ 2 = l ^ 2 := by
    have := mul_left_cancel₀ hs h; linarith
  rcases sq_eq_sq_iff_eq_or_eq_neg.1 h4 with h5 | h5
  · exact h5
  · exfalso
    rw [h5] at hsg
    rcases lt_or_gt_of_ne hl with h7 | h7
    · have := hsg.1 (by linarith); linarith
    · have := hsg.2 h7; linarith

theorem one_lt_xOf (hs : 0 < s) {a : ℝ} (ha : a < 0) : 1 < Thorne.xOf s a .H := by
  have h : (Thorne.xOf s a .H) ^ 2 = 1 - s / (2 * a) := Thorne.xOf_sq hs (show a ∈ Thorne.Dom s .H from ha)
  have h0 : 0 ≤ Thorne.xOf s a .H := Real.sqrt_nonneg _
  have h2 : s / (2 * a) < 0 := div_neg_of_pos_of_neg hs (by linarith)
  nlinarith

end Jiang

open Jiang Thorne

/-- The geometry of `jiang2016` with its answer to problems out of the reach of the hyperbolic search. -/
theorem Jiang.fast {mu : ℝ} {r1 r2 : V3} {pro : Bool} (hmu : 0 < mu) (hna : NotAligned r1 r2) :
    ∃ ll, ll ≠ 0 ∧ (0 < ll ↔ ShortWay pro r1 r2) ∧ Geo r1 r2 (Real.sqrt 2 * semiPerimeter r1 r2 * ll) ∧
      Semi (V3.norm r1) (V3.norm r2) (V3.norm (r2 - r1)) (semiPerimeter r1 r2) ll ∧
      parabolicTime mu r1 r2 pro = timeOf mu (semiPerimeter r1 r2) ll 1 ∧
      ∀ tof atol rtol, 0 < tof → 0 ≤ atol → 0 ≤ rtol →
        tof + atol < timeOf mu (semiPerimeter r1 r2) ll
          (xOf (semiPerimeter r1 r2) (top (semiPerimeter r1 r2) (V3.norm (r2 - r1))) .H) →
        ¬ |tof - parabolicTime mu r1 r2 pro| ≤ atol + rtol * |parabolicTime mu r1 r2 pro| →
        ∀ (low : Bool) (N : ℕ) (full : Bool) (clock : ℝ),
          (∃ out x, jiang2016 mu r1 r2 tof 0 pro low N atol rtol full clock = .ok out ∧
            -1 < x ∧ x < xOf (semiPerimeter r1 r2) (top (semiPerimeter r1 r2) (V3.norm (r2 - r1))) .H ∧
            LambertArc mu r1 r2 out.v1 out.v2 (timeOf mu (semiPerimeter r1 r2) ll x) 0) ∨
          (∃ msg, jiang2016 mu r1 r2 tof 0 pro low N atol rtol full clock = .error (.valueError msg)) ∧
            N * atol < max (max (semiPerimeter r1 r2) (V3.norm (r2 - r1))) 1 := by
  obtain ⟨s, ll, θ, hsd, hll, hA, hG, hS, hsg, hb, hhalf, hp, -⟩ := jiang_eq (pro := pro) hmu one_pos hna
  have hss : semiPerimeter r1 r2 = s := by rw [semiPerimeter_eq, hsd]
  rw [hss]
  have hs := hS.spos
  have hl := hS.lam_lt
  have hL1 : lancY ll 1 = 1 := by unfold lancY; norm_num
  have hp' : parabolicTime mu r1 r2 pro = timeOf mu s ll 1 := by rw [hp, timeOf, hL1]
  refine ⟨ll, hll, hsg, hG, hS, hp', fun tof atol rtol htof ha hr ht hncl low N full clock => ?_⟩
  obtain ⟨s', ll', θ', hsd', hll', hA', hG', hS', hsg', hb', hhalf', -, hj⟩ := jiang_eq (pro := pro) hmu htof hna
  obtain rfl : s' = s := by rw [hsd, hsd']
  obtain rfl : ll' = ll :=
    lam_unique hs.ne' (by rw [← hS.chord, ← hS'.chord]) (hsg'.trans hsg.symm) hll
  have hmp : -betaSign θ' = if 0 < ll' then -1 else 1 := by rw [hb']; split <;> ring
  have htn := top_neg s' (V3.norm (r2 - r1))
  have hlag : ∀ a, a < 0 → lagF mu s' (V3.norm (r2 - r1)) (-betaSign θ') .H a = timeOf mu s' ll' (xOf s' a .H) :=
    fun a ha => lagF_eq hmu hs hl hS.chord hmp (br := .H) ha (lanc_lancY hl _)
  have hlt : tof < parabolicTime mu r1 r2 pro := by
    have := timeOf_anti hmu hs hl hll (a := 1) (b := xOf s' (top s' (V3.norm (r2 - r1))) .H) (by norm_num)
      ((by norm_num : (-1 : ℝ) < 1).trans (one_lt_xOf hs htn)) (one_lt_xOf hs htn)
    rw [hp']
    linarith
  obtain ⟨j1, j2⟩ := hj low N atol rtol full clock
  have hdis : semiLatusRectum mu tof (parabolicTime mu r1 r2 pro) (V3.norm r1) (V3.norm r2) (V3.norm (r2 - r1)) s' θ' N
      atol rtol = solveHyperbolic mu tof (V3.norm r1) (V3.norm r2) (V3.norm (r2 - r1)) s' θ' N atol rtol := by
    unfold semiLatusRectum
    rw [if_neg hncl, if_neg (not_lt.2 hlt.le)]
  rw [hdis] at j1 j2
  rcases findAndSolveHyperbolic_fast hmu hS' hll' hb' ha hr (by rw [hlag _ htn]; exact ht) N with
    ⟨a, n, e, hat⟩ | ⟨⟨msg, e⟩, hN⟩
  · left
    have ha0 : a < 0 := hat.trans htn
    have hL := lanc_lancY hl (xOf s' a .H)
    have hη := hL.eta_pos
    have hx := xOf_gt s' a .H hs (.inr (ha0 : a < 0))
    obtain ⟨tpi, ho⟩ := j1 _ n (s' * (lancY ll' (xOf s' a .H) - ll' * xOf s' a .H) ^ 2) (by
      unfold solveHyperbolic
      rw [e, ok_bind]
      simp only []
      rw [hyperbolicP_eq hS' (chord_sq hA') hb' ha0 hL, ok_bind]) (by positivity) rfl
    refine ⟨_, xOf s' a .H, ho, hx, xOf_lt_H hs htn hat, ?_⟩
    rw [mkOutput_v1, mkOutput_v2]
    exact Thorne.arc hmu hG hS hL hx
  · exact .inr ⟨⟨msg, j2 _ (by
      unfold solveHyperbolic
      rw [e]
      rfl)⟩, hN⟩

/-- **C67.** For all positions and both senses let `tU` be the time of the transfer with semi-major axis
`-2^-26 max(s, 1)`.  When a time is requested that is shorter by more than `atol` (and not taken for the parabolic
time), every answer of `jiang2016` is wrong: the motion it returns takes longer than `tU`.  With enough iterations
there is such an answer: no error is raised. -/
theorem jiang_fast_wrong {mu : ℝ} (hmu : 0 < mu) {r1 r2 : V3} (hna : NotAligned r1 r2) (pro : Bool) :
    ∃ tU w1 w2, LambertArc mu r1 r2 w1 w2 tU 0 ∧ (NotPolar r1 r2 → Sense pro r1 w1) ∧
      HasSemiMajor mu r1 w1 (-(1 / 2 ^ 26) * max (semiPerimeter r1 r2) 1) ∧
      ∀ tof atol rtol, 0 < tof → 0 ≤ atol → 0 ≤ rtol → tof + atol < tU →
        ¬ |tof - parabolicTime mu r1 r2 pro| ≤ atol + rtol * |parabolicTime mu r1 r2 pro| →
        ∀ (low full : Bool) (clock : ℝ) (N : ℕ),
          (∀ out, jiang2016 mu r1 r2 tof 0 pro low N atol rtol full clock = .ok out →
            (∃ T, LambertArc mu r1 r2 out.v1 out.v2 T 0) ∧
            ∀ T w, LambertArc mu r1 r2 out.v1 w T 0 → tU < T) ∧
          (max (semiPerimeter r1 r2) 1 ≤ N * atol →
            ∃ out, jiang2016 mu r1 r2 tof 0 pro low N atol rtol full clock = .ok out) := by
  obtain ⟨ll, hll, hsg, hG, hS, hp, hj⟩ := Jiang.fast (pro := pro) hmu hna
  have hs := hS.spos
  have hl := hS.lam_lt
  have htn := top_neg (semiPerimeter r1 r2) (V3.norm (r2 - r1))
  have hcs : V3.norm (r2 - r1) ≤ semiPerimeter r1 r2 := by rw [hS.chord]; nlinarith [sq_nonneg ll]
  obtain ⟨a, ha⟩ : ∃ a, a = top (semiPerimeter r1 r2) (V3.norm (r2 - r1)) := ⟨_, rfl⟩
  have hae : a = -(1 / 2 ^ 26) * max (semiPerimeter r1 r2) 1 := by
    rw [ha, top, max_eq_left hcs]
    rfl
  rw [← ha] at hj htn
  have hL := lanc_lancY hl (xOf (semiPerimeter r1 r2) a .H)
  have hx := one_lt_xOf hs htn
  refine ⟨timeOf mu (semiPerimeter r1 r2) ll (xOf (semiPerimeter r1 r2) a .H), _, _,
    Thorne.arc hmu hG hS hL (by linarith), fun hnp => Der.sense hmu hG hs hL hsg hnp, ?_, ?_⟩
  · rw [← hae]
    refine ⟨htn.ne, ?_⟩
    rw [hL.energy hmu hs hG hS.sum, xOf_sq hs (show a ∈ Dom _ .H from htn)]
    have := htn.ne
    field_simp
    ring
  · intro tof atol rtol htof hat hrt ht hncl low full clock N
    have h := hj tof atol rtol htof hat hrt ht hncl low N full clock
    rw [max_eq_left hcs] at h
    constructor
    · intro out ho
      rcases h with ⟨out', x, e, hx1, hx2, harc⟩ | ⟨⟨msg, e⟩, -⟩
      · obtain rfl : out' = out := by rw [e] at ho; exact Except.ok.inj ho
        refine ⟨⟨_, harc⟩, fun T w hw => ?_⟩
        rw [← arc_time_unique hmu hna harc hw]
        exact timeOf_anti hmu hs hl hll hx1 (hx1.trans hx2) hx2
      · rw [e] at ho; cases ho
    · intro hN
      rcases h with ⟨out', x, e, -⟩ | ⟨-, h⟩
      · exact ⟨out', e⟩
      · exact absurd hN (not_le.2 h)

/-- **C67, dependence on the unit of length.** Every hyperbolic problem (the requested time is below the parabolic
time by more than the tolerance) is answered wrongly when its lengths are expressed in a large enough unit: from some
unit on, every motion returned takes longer than `tof + atol`, and with `1 / atol` iterations a motion is
returned. -/
theorem jiang_large_unit_wrong {mu : ℝ} (hmu : 0 < mu) {r1 r2 : V3} (hna : NotAligned r1 r2) (pro : Bool) {tof atol rtol : ℝ}
    (htof : 0 < tof) (hat : 0 ≤ atol) (hrt : 0 ≤ rtol) (hlt : tof < parabolicTime mu r1 r2 pro)
    (hncl : ¬ |tof - parabolicTime mu r1 r2 pro| ≤ atol + rtol * |parabolicTime mu r1 r2 pro|) :
    ∃ K > 0, ∀ k, 0 < k → k < K → ∀ (low full : Bool) (clock : ℝ) (N : ℕ),
      (∀ out, jiang2016 (k ^ 3 * mu) (k • r1) (k • r2) tof 0 pro low N atol rtol full clock = .ok out →
        (∃ T, LambertArc (k ^ 3 * mu) (k • r1) (k • r2) out.v1 out.v2 T 0) ∧
        ∀ T w, LambertArc (k ^ 3 * mu) (k • r1) (k • r2) out.v1 w T 0 → tof + atol < T) ∧
      (1 ≤ N * atol →
        ∃ out, jiang2016 (k ^ 3 * mu) (k • r1) (k • r2) tof 0 pro low N atol rtol full clock = .ok out) := by
  obtain ⟨ll, hll, hsg, hG, hS, hp, -⟩ := Jiang.fast (pro := pro) hmu hna
  have hs := hS.spos
  have hl := hS.lam_lt
  have hanti := timeOf_anti hmu hs hl hll
  have heps := Jiang.eps_pos
  have hgap : tof + atol < parabolicTime mu r1 r2 pro := by
    rw [not_le, abs_sub_comm, abs_of_pos (sub_pos.2 hlt)] at hncl
    have : 0 ≤ rtol * |parabolicTime mu r1 r2 pro| := mul_nonneg hrt (abs_nonneg _)
    linarith
  obtain ⟨x, hx, hxT⟩ := timeOf_surj hmu hs hl hll (tof := (tof + atol + parabolicTime mu r1 r2 pro) / 2) (by linarith)
  have hx1 : 1 < x := (hanti.lt_iff_gt (a := x) (b := 1) hx (by norm_num)).1 (by rw [hxT, ← hp]; linarith)
  have hX : 0 < (x ^ 2 - 1) * (2 * Jiang.eps) := mul_pos (by nlinarith) (by linarith)
  refine ⟨min (1 / semiPerimeter r1 r2) ((x ^ 2 - 1) * (2 * Jiang.eps) / semiPerimeter r1 r2), lt_min (by positivity)
    (by positivity), fun k hk hkK low full clock N => ?_⟩
  have hk1 : k * semiPerimeter r1 r2 < 1 := (lt_div_iff₀ hs).1 (hkK.trans_le (min_le_left _ _))
  have hk2 : k * semiPerimeter r1 r2 < (x ^ 2 - 1) * (2 * Jiang.eps) := (lt_div_iff₀ hs).1 (hkK.trans_le (min_le_right _ _))
  have hna' : NotAligned (k • r1) (k • r2) := by
    intro h
    have hk0 : k * k ≠ 0 := by positivity
    simp only [V3.smul_x, V3.smul_y, V3.smul_z] at h
    exact hna ⟨(mul_eq_zero.1 (by linear_combination h.1 : k * k * _ = 0)).resolve_left hk0,
      (mul_eq_zero.1 (by linear_combination h.2.1 : k * k * _ = 0)).resolve_left hk0,
      (mul_eq_zero.1 (by linear_combination h.2.2 : k * k * _ = 0)).resolve_left hk0⟩
  have hsub : k • r2 - k • r1 = k • (r2 - r1) := by ext <;> simp <;> ring
  have hn : ∀ v : V3, V3.norm (k • v) = k * V3.norm v := fun v => by rw [norm_smul, abs_of_pos hk]
  have hss : semiPerimeter (k • r1) (k • r2) = k * semiPerimeter r1 r2 := by
    rw [semiPerimeter_eq, semiPerimeter_eq, hsub, hn, hn, hn]; ring
  obtain ⟨ll', hll', hsg', hG', hS', hp', hj⟩ := Jiang.fast (pro := pro) (by positivity : 0 < k ^ 3 * mu) hna'
  have hsw : ShortWay pro (k • r1) (k • r2) ↔ ShortWay pro r1 r2 := by
    have e : crossZ (k • r1) (k • r2) = (k * k) * crossZ r1 r2 := by unfold crossZ; simp; ring
    have hkk : 0 < k * k := by positivity
    unfold ShortWay
    rw [e]
    cases pro
    · simp only [Bool.false_eq_true, if_false]
      constructor <;> intro h <;> nlinarith
    · simp only [if_true]
      exact mul_pos_iff_of_pos_left hkk
  have hc' := hS'.chord
  rw [hsub, hn, hS.chord, hss] at hc'
  obtain rfl : ll' = ll := lam_unique (by positivity : k * semiPerimeter r1 r2 ≠ 0) (by linarith)
    (hsg'.trans (hsw.trans hsg.symm)) hll
  have htime : ∀ y, timeOf (k ^ 3 * mu) (semiPerimeter (k • r1) (k • r2)) ll' y = timeOf mu (semiPerimeter r1 r2) ll' y := by
    intro y
    unfold timeOf
    rw [hss, show (k * semiPerimeter r1 r2) ^ 3 / (2 * (k ^ 3 * mu)) = semiPerimeter r1 r2 ^ 3 / (2 * mu) by
      field_simp]
  have hcs : V3.norm (k • r2 - k • r1) ≤ semiPerimeter (k • r1) (k • r2) := by
    rw [hS'.chord]; nlinarith [sq_nonneg ll', hS'.spos]
  have hmax : max (max (semiPerimeter (k • r1) (k • r2)) (V3.norm (k • r2 - k • r1))) 1 = 1 := by
    rw [max_eq_left hcs, hss, max_eq_right hk1.le]
  have htop : top (semiPerimeter (k • r1) (k • r2)) (V3.norm (k • r2 - k • r1)) = -Jiang.eps := by
    rw [top, hmax, mul_one]
  have hxx : xOf (semiPerimeter (k • r1) (k • r2)) (-Jiang.eps) .H ≤ x := by
    rw [xOf_H_le hS'.spos (by linarith) (by linarith), hss]
    linarith
  have hlo := one_lt_xOf hS'.spos (by linarith : -Jiang.eps < 0)
  rw [hmax, htop] at hj
  have htU : tof + atol < timeOf mu (semiPerimeter r1 r2) ll' (xOf (semiPerimeter (k • r1) (k • r2)) (-Jiang.eps) .H) := by
    have := hanti.antitoneOn (a := xOf (semiPerimeter (k • r1) (k • r2)) (-Jiang.eps) .H) (b := x) (by simp only [Set.mem_Ioi]; linarith) hx hxx
    rw [hxT] at this
    linarith
  have hpp : parabolicTime (k ^ 3 * mu) (k • r1) (k • r2) pro = parabolicTime mu r1 r2 pro := by
    rw [hp', htime, hp]
  have h := hj tof atol rtol htof hat hrt (by rw [htime]; exact htU) (by rw [hpp]; exact hncl) low N full clock
  constructor
  · intro out ho
    rcases h with ⟨out', y, e, hy1, hy2, harc⟩ | ⟨⟨msg, e⟩, -⟩
    · obtain rfl : out' = out := by rw [e] at ho; exact Except.ok.inj ho
      refine ⟨⟨_, harc⟩, fun T w hw => ?_⟩
      rw [← arc_time_unique (by positivity) hna' harc hw, htime]
      exact htU.trans (hanti hy1 (hy1.trans hy2) hy2)
    · rw [e] at ho; cases ho
  · intro hN
    rcases h with ⟨out', y, e, -⟩ | ⟨-, h⟩
    · exact ⟨out', e⟩
    · exact absurd hN (not_le.2 h)

/-- The theorem at a quarter turn, half the parabolic time: there is a unit in which the answer is wrong. -/
example : ∃ k tof atol : ℝ, 0 < k ∧ 0 < tof ∧ 0 < atol ∧ ∃ N out,
    jiang2016 (k ^ 3 * 1) (k • ⟨1, 0, 0⟩) (k • ⟨0, 1, 0⟩) tof 0 true true N atol 0 true 1 = .ok out ∧
    ∀ T w, LambertArc (k ^ 3 * 1) (k • ⟨1, 0, 0⟩) (k • ⟨0, 1, 0⟩) out.v1 w T 0 → tof + atol < T := by
  have hna : NotAligned ⟨1, 0, 0⟩ ⟨0, 1, 0⟩ := by simp [NotAligned]
  obtain ⟨p, hp⟩ : ∃ p, p = parabolicTime 1 ⟨1, 0, 0⟩ ⟨0, 1, 0⟩ true := ⟨_, rfl⟩
  have hp0 : 0 < p := by
    obtain ⟨s, ll, θ, -, -, -, -, hS, -, -, -, hp', -⟩ := jiang_eq (pro := true) one_pos one_pos hna
    have hs := hS.spos
    have := jiang_parabolic_pos hS.lam_lt
    rw [hp, hp']; positivity
  obtain ⟨K, hK, h⟩ := jiang_large_unit_wrong (tof := p / 2) (atol := p / 4) (rtol := 0) one_pos hna true (by linarith)
    (by linarith) le_rfl (by rw [← hp]; linarith) (by
      rw [← hp, not_le, abs_of_neg (by linarith : p / 2 - p < 0)]; linarith)
  obtain ⟨N, hN⟩ := exists_nat_ge (1 / (p / 4))
  obtain ⟨h1, h2⟩ := h (K / 2) (by linarith) (by linarith) true true 1 N
  obtain ⟨out, ho⟩ := h2 (by rwa [div_le_iff₀ (by linarith)] at hN)
  exact ⟨K / 2, p / 2, p / 4, by linarith, by linarith, by linarith, N, out, ho, (h1 out ho).2⟩

end Lamberthub
