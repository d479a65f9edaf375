import Verif.Props.Jiang
import Verif.Props.Der
import Verif.Proofs.PathTime

/-! # C23: when `jiang2016` returns and when it never stops -/

set_option autoImplicit false

namespace Lamberthub
open Spec LC

namespace Jiang

variable {mu s c ll θ : ℝ}

theorem xOf_lt_A {s a b : ℝ} (hs : 0 < s) (ha : s / 2 < a) (hab : a < b) :
    Thorne.xOf s a .A < Thorne.xOf s b .A := by
  have h0 : 0 < a := by linarith
  have : s / (2 * b) < s / (2 * a) := div_lt_div_of_pos_left hs (by linarith) (by linarith)
  have h1 : s / (2 * a) < 1 := by rw [div_lt_one (by positivity)]; linarith
  exact Real.sqrt_lt_sqrt (by linarith) (by linarith)

theorem xOf_lt_H {s a b : ℝ} (hs : 0 < s) (hb : b < 0) (hab : a < b) :
    Thorne.xOf s a .H < Thorne.xOf s b .H := by
  have e : ∀ t : ℝ, 1 - s / (2 * t) = 1 + s / (2 * -t) := by intro t; rw [mul_neg, div_neg]; ring
  have : s / (2 * -a) < s / (2 * -b) := div_lt_div_of_pos_left hs (by linarith) (by linarith)
  have h1 : 0 < s / (2 * -a) := div_pos hs (by linarith)
  simp only [Thorne.xOf]
  rw [e, e]
  exact Real.sqrt_lt_sqrt (by linarith) (by linarith)

/-- Time of the transfer of Lancaster parameter `x`. -/
theorem time_lt (hmu : 0 < mu) (hs : 0 < s) (hl : ll ^ 2 < 1) (h0 : ll ≠ 0) {x x' : ℝ} (hx : -1 < x) (h : x < x') :
    Real.sqrt (s ^ 3 / (2 * mu)) * lancT ll x' (lancY ll x') 0 <
      Real.sqrt (s ^ 3 / (2 * mu)) * lancT ll x (lancY ll x) 0 :=
  mul_lt_mul_of_pos_left (lancT_strictAnti hl h0 hx (Set.mem_Ioi.2 (hx.trans h)) h) (by positivity)

section
variable (hmu : 0 < mu) (hs : 0 < s) (hl : ll ^ 2 < 1) (h0 : ll ≠ 0) (hc : c = s * (1 - ll ^ 2))
  {mp : ℝ} (hmp : mp = if 0 < ll then -1 else 1)
include hmu hs hl h0 hc hmp

theorem lagF_lt_A {a b : ℝ} (ha : s / 2 < a) (hab : a < b) :
    Thorne.lagF mu s c mp .A b < Thorne.lagF mu s c mp .A a := by
  rw [Thorne.lagF_eq hmu hs hl hc hmp (br := .A) (ha.trans hab : s / 2 < b) (lanc_lancY hl _),
    Thorne.lagF_eq hmu hs hl hc hmp (br := .A) (ha : s / 2 < a) (lanc_lancY hl _)]
  exact time_lt hmu hs hl h0 (Thorne.xOf_gt s a .A hs (.inr ha)) (xOf_lt_A hs ha hab)

theorem lagF_lt_B {a b : ℝ} (ha : s / 2 < a) (hab : a < b) :
    Thorne.lagF mu s c mp .B a < Thorne.lagF mu s c mp .B b := by
  rw [Thorne.lagF_eq hmu hs hl hc hmp (br := .B) (ha.trans hab : s / 2 < b) (lanc_lancY hl _),
    Thorne.lagF_eq hmu hs hl hc hmp (br := .B) (ha : s / 2 < a) (lanc_lancY hl _)]
  exact time_lt hmu hs hl h0 (Thorne.xOf_gt s b .B hs (.inr (ha.trans hab)))
    (neg_lt_neg (xOf_lt_A hs ha hab))

theorem lagF_lt_H {a b : ℝ} (hb : b < 0) (hab : a < b) :
    Thorne.lagF mu s c mp .H b < Thorne.lagF mu s c mp .H a := by
  rw [Thorne.lagF_eq hmu hs hl hc hmp (br := .H) hb (lanc_lancY hl _),
    Thorne.lagF_eq hmu hs hl hc hmp (br := .H) (hab.trans hb : a < 0) (lanc_lancY hl _)]
  exact time_lt hmu hs hl h0 (Thorne.xOf_gt s a .H hs (.inr (hab.trans hb : a < 0))) (xOf_lt_H hs hb hab)

end

/-- A residual that keeps its sign beyond the lower end never gets bracketed. -/
theorem ellipticBracket_diverges {F : ℝ → Py ℝ} {aMin : ℝ} {f : ℝ → ℝ} (ha : 0 < aMin)
    (hF : ∀ a, aMin < a → F a = .ok (f a))
    (hsg : ∀ a, aMin * (1 + eps) < a → 0 < f (aMin * (1 + eps)) * f a) :
    ellipticBracket F aMin = .error .diverges := by
  have he := eps_pos
  have hlo : aMin < aMin * (1 + eps) := by nlinarith
  have hup : aMin * (1 + eps) < max (2 * (aMin * (1 + eps))) 1 :=
    lt_of_lt_of_le (by linarith) (le_max_left _ _)
  unfold ellipticBracket
  simp only [hF _ hlo, hF _ (hlo.trans hup), ok_bind]
  rw [whileLoop_diverges (fun st : ℝ × ℝ => aMin * (1 + eps) < st.1 ∧ st.2 = f st.1) ⟨hup, rfl⟩]
  · rfl
  · rintro ⟨a, fa⟩ ⟨h1, h2⟩
    simp only at h1 h2
    subst h2
    refine ⟨hsg a h1, (a * 2, f (a * 2)), ?_, ?_, rfl⟩
    · simp only [hF (a * 2) (by linarith), ok_bind]
    · simp only; linarith

theorem findAndSolveElliptic_diverges {tof atol rtol R1 R2 : ℝ} {maxiter : ℕ} (hmu : 0 < mu)
    (hS : Semi R1 R2 c s ll) (h0 : ll ≠ 0) (hb : betaSign θ = if 0 < ll then 1 else -1)
    (h1 : Thorne.lagF mu s c (-betaSign θ) .A (s / 2 * (1 + eps)) < tof)
    (h2 : tof < Thorne.lagF mu s c (-betaSign θ) .B (s / 2 * (1 + eps))) (long : Bool) :
    findAndSolveElliptic mu tof (s / 2) s c θ long maxiter atol rtol = .error .diverges := by
  have hs := hS.spos
  have hl := hS.lam_lt
  have he := eps_pos
  have hcs : c ≤ s := by rw [hS.chord]; nlinarith [sq_nonneg ll]
  have hmp : -betaSign θ = if 0 < ll then -1 else 1 := by rw [hb]; split <;> ring
  have hlo : s / 2 < s / 2 * (1 + eps) := by nlinarith
  unfold findAndSolveElliptic
  have := ellipticBracket_diverges (F := residualElliptic mu tof s c θ long) (aMin := s / 2)
    (f := fun a => Thorne.lagF mu s c (-betaSign θ) (br long) a - tof) (by linarith) (by
      intro a ha
      unfold residualElliptic
      rw [tofElliptic_eq hmu hs hS.cpos.le hcs ha.le, ok_bind]) (by
      intro a ha
      cases long with
      | true =>
        have := lagF_lt_B hmu hs hl h0 hS.chord hmp hlo ha
        exact mul_pos (by simp only [br, if_true]; linarith) (by simp only [br, if_true]; linarith)
      | false =>
        have := lagF_lt_A hmu hs hl h0 hS.chord hmp hlo ha
        exact mul_pos_of_neg_of_neg (by simp only [br, Bool.false_eq_true, if_false]; linarith)
          (by simp only [br, Bool.false_eq_true, if_false]; linarith))
  simp only [this]
  rfl

end Jiang

open Jiang

/-- `jiang2016` on valid input. -/
theorem jiang_eq {mu : ℝ} {r1 r2 : V3} {tof : ℝ} {pro : Bool} (hmu : 0 < mu) (htof : 0 < tof) (hna : NotAligned r1 r2) :
    ∃ s ll θ, s = (V3.norm r1 + V3.norm r2 + V3.norm (r2 - r1)) / 2 ∧ ll ≠ 0 ∧ Angle pro r1 r2 θ ∧
      Geo r1 r2 (Real.sqrt 2 * s * ll) ∧
      Semi (V3.norm r1) (V3.norm r2) (V3.norm (r2 - r1)) s ll ∧
      (0 < ll ↔ ShortWay pro r1 r2) ∧ betaSign θ = (if 0 < ll then 1 else -1) ∧
      halfA (V3.norm r1) (V3.norm r2) θ = Real.sqrt 2 * s * ll ∧
      parabolicTime mu r1 r2 pro = Real.sqrt (s ^ 3 / (2 * mu)) * lancT ll 1 1 0 ∧
      ∀ (low : Bool) (maxiter : ℕ) (atol rtol : ℝ) (full : Bool) (clock : ℝ),
        (∀ p n V, semiLatusRectum mu tof (parabolicTime mu r1 r2 pro) (V3.norm r1) (V3.norm r2) (V3.norm (r2 - r1))
            s θ maxiter atol rtol = .ok (p, n) → 0 < V → p = V3.norm r1 * V3.norm r2 * (1 - Real.cos θ) / V →
          ∃ tpi, jiang2016 mu r1 r2 tof 0 pro low maxiter atol rtol full clock =
            .ok (mkOutput full (fgV1 mu r1 r2 (Real.sqrt 2 * s * ll) V) (fgV2 mu r1 r2 (Real.sqrt 2 * s * ll) V)
              n tpi)) ∧
        (∀ e, semiLatusRectum mu tof (parabolicTime mu r1 r2 pro) (V3.norm r1) (V3.norm r2) (V3.norm (r2 - r1))
            s θ maxiter atol rtol = .error e →
          jiang2016 mu r1 r2 tof 0 pro low maxiter atol rtol full clock = .error e) := by
  have hθ := transferAngle_eq hna pro
  have hA := angle_of_eq hna hθ
  obtain ⟨ll, hG, hS, hsh, hb, hhalf⟩ := setup hna hA
  have hs := hS.spos
  have hll : ll ≠ 0 := by rintro rfl; exact hG.hA (by ring)
  have hsg : 0 < ll ↔ ShortWay pro r1 r2 := by
    rw [← hsh, mul_pos_iff_of_pos_left (by positivity)]
  have h1 : r1 ≠ 0 := by rintro rfl; simp [NotAligned] at hna
  have h2 : r1 ≠ r2 := by rintro rfl; simp [NotAligned, mul_comm] at hna
  have hp : parabolicTime mu r1 r2 pro = Real.sqrt (((V3.norm r1 + V3.norm r2 + V3.norm (r2 - r1)) / 2) ^ 3 / (2 * mu)) *
      lancT ll 1 1 0 := by
    rw [Der.parabolicTime_eq hS hll hsg, ← Der.parabolic_time]
    have h1 : lancY ll 1 = 1 := by unfold lancY; norm_num
    rw [h1]
  refine ⟨_, ll, _, rfl, hll, hA, hG, hS, hsg, hb, hhalf, hp, ?_⟩
  intro low maxiter atol rtol full clock
  have hr : ∀ (e : PyErr) {P : Prop} [Decidable P], ¬ P → raiseIf P e = .ok () := by
    intro e P _ h; exact raiseIf_ok.2 h
  have ht := tofParabolic_eq hmu hS hll hb
  rw [← hp] at ht
  constructor
  · intro p n V h hV hpV
    refine ⟨if full = true then (if n = 0 then 0 else clock / n) else 0, ?_⟩
    unfold jiang2016
    rw [hr _ (by omega), ok_bind, assertParameters_eq hmu h1 h2 htof le_rfl, ok_bind, hθ, ok_bind,
      assertTransferAngleNotZero, hr _ hA.pos.ne', ok_bind, assertTransferAngleNotPi, hr _ hA.ne_pi, ok_bind]
    simp only []
    rw [ht, ok_bind, h, ok_bind]
    simp only []
    rw [reconstruct_eq hmu hna hA hV hpV, ok_bind, hhalf]
  · intro e h
    unfold jiang2016
    rw [hr _ (by omega), ok_bind, assertParameters_eq hmu h1 h2 htof le_rfl, ok_bind, hθ, ok_bind,
      assertTransferAngleNotZero, hr _ hA.pos.ne', ok_bind, assertTransferAngleNotPi, hr _ hA.ne_pi, ok_bind]
    simp only []
    rw [ht, ok_bind, h]
    rfl

theorem jiang_parabolic_pos {ll : ℝ} (hl : ll ^ 2 < 1) : 0 < lancT ll 1 1 0 := by
  have := Der.parabolic_pos hl
  rw [← Der.parabolic_time] at this
  have h1 : lancY ll 1 = 1 := by unfold lancY; norm_num
  rwa [h1] at this

/-- Beside C23: whenever the requested time is within the tolerance of the parabolic time
the answer is the parabolic transfer. -/
theorem jiang_near_parabolic {mu : ℝ} {r1 r2 : V3} {tof : ℝ} {pro : Bool} {atol rtol : ℝ} (hmu : 0 < mu)
    (htof : 0 < tof) (hna : NotAligned r1 r2)
    (hcl : |tof - parabolicTime mu r1 r2 pro| ≤ atol + rtol * |parabolicTime mu r1 r2 pro|) (low : Bool) (maxiter : ℕ)
    (full : Bool) (clock : ℝ) :
    ∃ out, jiang2016 mu r1 r2 tof 0 pro low maxiter atol rtol full clock = .ok out ∧
      LambertArc mu r1 r2 out.v1 out.v2 (parabolicTime mu r1 r2 pro) 0 ∧ HasPathParameter mu r1 r2 out.v1 1 := by
  obtain ⟨s, ll, θ, -, hll, hA, hG, hS, hsg, hb, hhalf, hp, hj⟩ := jiang_eq (pro := pro) hmu htof hna
  have hs := hS.spos
  have hL : Lanc ll 1 1 := ⟨hS.lam_lt, by ring, one_pos⟩
  have hη := hL.eta_pos
  obtain ⟨tpi, ho⟩ := (hj low maxiter atol rtol full clock).1 _ 0 (s * (1 - ll * 1) ^ 2) (by
    unfold semiLatusRectum
    rw [if_pos hcl, solveParabolic, parabolicP_eq hS (chord_sq hA) hb, ok_bind]) (by positivity) rfl
  refine ⟨_, ho, ?_, ?_⟩
  · rw [mkOutput_v1, mkOutput_v2, hp]
    exact Thorne.arc hmu hG hS hL (by norm_num)
  · rw [mkOutput_v1]
    exact Der.pathParameter hmu hG hS hL

/-- Non-vacuity of `jiang_kepler_transfer_partial`. -/
example : ∃ tof out, 0 < tof ∧ jiang2016 1 ⟨1, 0, 0⟩ ⟨0, 1, 0⟩ tof 0 true true 35 1e-5 1e-7 true 1 = .ok out := by
  have hna : NotAligned ⟨1, 0, 0⟩ ⟨0, 1, 0⟩ := by simp [NotAligned]
  have hp : 0 < parabolicTime 1 ⟨1, 0, 0⟩ ⟨0, 1, 0⟩ true := by
    obtain ⟨s, ll, θ, -, -, -, -, hS, -, -, -, hp, -⟩ := jiang_eq (pro := true) one_pos one_pos hna
    have hs := hS.spos
    have := jiang_parabolic_pos hS.lam_lt
    rw [hp]; positivity
  obtain ⟨out, h, -⟩ := jiang_near_parabolic (atol := 1e-5) (rtol := 1e-7) one_pos hp hna
    (by rw [sub_self, abs_zero]; positivity) true 35 true 1
  exact ⟨_, out, hp, h⟩

/-- **C23, non-termination.** For every pair of non-aligned positions there is an open
interval of times of flight, around that of the minimum-energy ellipse, for which the problem
has a solution in the requested sense and yet `jiang2016` never stops, unless the tolerances
are so large that the time is taken for the parabolic one.  The bracket starts at
`a_min * (1 + 2^-26)`; when the solution lies below that, the residual has the same sign for
all larger semi-major axes and `while f_lower * f_upper > 0` doubles the upper end for ever. -/
theorem jiang_minimum_energy_diverges {mu : ℝ} (hmu : 0 < mu) {r1 r2 : V3} (hna : NotAligned r1 r2) (pro : Bool) :
    ∃ t1 tm t2, parabolicTime mu r1 r2 pro < t1 ∧ t1 < tm ∧ tm < t2 ∧
      (∃ w1 w2, LambertArc mu r1 r2 w1 w2 tm 0 ∧ HasSemiMajor mu r1 w1 ((len r1 + len r2 + len (r2 - r1)) / 4) ∧
        (NotPolar r1 r2 → Sense pro r1 w1)) ∧
      ∀ tof, t1 < tof → tof < t2 →
        (∃ w1 w2, LambertArc mu r1 r2 w1 w2 tof 0 ∧ (NotPolar r1 r2 → Sense pro r1 w1)) ∧
        ∀ (low : Bool) (maxiter : ℕ) (atol rtol : ℝ) (full : Bool) (clock : ℝ),
          ¬ |tof - parabolicTime mu r1 r2 pro| ≤ atol + rtol * |parabolicTime mu r1 r2 pro| →
          jiang2016 mu r1 r2 tof 0 pro low maxiter atol rtol full clock = .error .diverges := by
  obtain ⟨s, ll, θ, hsd, hll, hA, hG, hS, hsg, hb, hhalf, hp, -⟩ := jiang_eq (pro := pro) hmu one_pos hna
  have hs := hS.spos
  have hl := hS.lam_lt
  have he := eps_pos
  have hmp : -betaSign θ = if 0 < ll then -1 else 1 := by rw [hb]; split <;> ring
  have hlo : s / 2 < s / 2 * (1 + eps) := by nlinarith
  obtain ⟨x, hxd⟩ : ∃ x, x = Thorne.xOf s (s / 2 * (1 + eps)) .A := ⟨_, rfl⟩
  have hx0 : 0 < x := by
    have h2 : s / (2 * (s / 2 * (1 + eps))) < 1 := by rw [div_lt_one (by positivity)]; linarith
    rw [hxd]; exact Real.sqrt_pos.2 (by linarith)
  have hx1 : x < 1 := by
    have := Thorne.xOf_gt s (s / 2 * (1 + eps)) .B hs (.inr hlo)
    change -1 < -Thorne.xOf s (s / 2 * (1 + eps)) .A at this
    rw [← hxd] at this; linarith
  have hA1 := Thorne.lagF_eq hmu hs hl hS.chord hmp (br := .A) hlo (lanc_lancY hl _)
  have hB1 := Thorne.lagF_eq hmu hs hl hS.chord hmp (br := .B) hlo (lanc_lancY hl _)
  change _ = _ * lancT ll (-Thorne.xOf s (s / 2 * (1 + eps)) .A) (lancY ll (-Thorne.xOf s (s / 2 * (1 + eps)) .A)) 0 at hB1
  rw [← hxd] at hA1 hB1
  have hL1 : lancY ll 1 = 1 := by unfold lancY; norm_num
  have harc0 := Thorne.arc hmu hG hS (lanc_lancY hl 0) (by norm_num)
  have hη0 := (lanc_lancY hl 0).eta_pos
  refine ⟨_, _, _, ?_, time_lt hmu hs hl hll (by norm_num : (-1 : ℝ) < 0) hx0,
    time_lt hmu hs hl hll (by linarith : -1 < -x) (by linarith), ⟨_, _, harc0, ⟨?_, ?_⟩, fun hnp =>
      Der.sense hmu hG hs (lanc_lancY hl 0) hsg hnp⟩, ?_⟩
  · rw [hp, ← hL1]
    have := time_lt hmu hs hl hll (by linarith : -1 < x) hx1
    rwa [hL1] at this ⊢
  · rw [len_eq_norm, len_eq_norm, len_eq_norm]
    intro h; linarith
  · rw [(lanc_lancY hl 0).energy hmu hs hG hS.sum, len_eq_norm, len_eq_norm, len_eq_norm,
      show (V3.norm r1 + V3.norm r2 + V3.norm (r2 - r1)) / 4 = s / 2 by rw [hsd]; ring]
    field_simp
    ring
  · intro tof h1 h2
    have htof : 0 < tof := by
      have hpos : 0 < Real.sqrt (s ^ 3 / (2 * mu)) * lancT ll x (lancY ll x) 0 :=
        (Thorne.arc hmu hG hS (lanc_lancY hl x) (by linarith)).1
      linarith
    constructor
    · obtain ⟨hr0, hP⟩ : 0 < s ∧ |Real.sqrt 2 * (Real.sqrt 2 * s * ll)| < s * (1 + ll ^ 2) := ⟨hs, lanc_geo hl hs⟩
      obtain ⟨V, hV⟩ := LC.Path.exists hmu hG.hA hP htof
      have hV0 := hV.V_pos
      rw [← hS.sum] at hV
      refine ⟨_, _, hV.arc hmu hG, fun hnp => sense_of_sign hmu hV0 hG.hA hnp ?_⟩
      rw [mul_pos_iff_of_pos_left (by positivity), hsg]
    · intro low maxiter atol rtol full clock hncl
      obtain ⟨s', ll', θ', hsd', hll', hA', hG', hS', hsg', hb', hhalf', hp', hj⟩ := jiang_eq (pro := pro) hmu htof hna
      obtain rfl : s' = s := by rw [hsd, hsd']
      obtain rfl : ll' = ll := by
        have h3 : s' * (1 - ll' ^ 2) = s' * (1 - ll ^ 2) := by rw [← hS.chord, ← hS'.chord]
        have h4 : ll' ^ 2 = ll ^ 2 := by
          have := mul_left_cancel₀ hs.ne' h3; linarith
        rcases sq_eq_sq_iff_eq_or_eq_neg.1 h4 with h5 | h5
        · exact h5
        · exfalso
          have h6 : 0 < ll' ↔ 0 < ll := hsg'.trans hsg.symm
          rw [h5] at h6
          rcases lt_or_gt_of_ne hll with h7 | h7
          · have := h6.1 (by linarith); linarith
          · have := h6.2 h7; linarith
      have hbb : betaSign θ' = betaSign θ := by rw [hb, hb']
      refine (hj low maxiter atol rtol full clock).2 _ ?_
      have hcs : V3.norm (r2 - r1) ≤ s' := by rw [hS.chord]; nlinarith [sq_nonneg ll']
      have htp : tof > parabolicTime mu r1 r2 pro := by
        have := time_lt hmu hs hl hll (by linarith : -1 < x) hx1
        rw [hp]; rw [hL1] at this; linarith
      unfold semiLatusRectum
      rw [if_neg hncl, if_pos htp]
      unfold solveElliptic
      simp only []
      rw [tofElliptic_eq hmu hs hS.cpos.le hcs le_rfl, ok_bind]
      rw [findAndSolveElliptic_diverges hmu hS hll hb' (by rw [hbb, hA1]; exact h1)
        (by rw [hbb, hB1]; exact h2)]
      rfl

/-- A case with positive tolerances. -/
example : ∃ tof atol rtol, 0 < tof ∧ 0 < atol ∧ 0 < rtol ∧
    (∃ w1 w2, LambertArc 1 ⟨1, 0, 0⟩ ⟨0, 1, 0⟩ w1 w2 tof 0) ∧
    jiang2016 1 ⟨1, 0, 0⟩ ⟨0, 1, 0⟩ tof 0 true true 35 atol rtol true 1 = .error .diverges := by
  have hna : NotAligned ⟨1, 0, 0⟩ ⟨0, 1, 0⟩ := by simp [NotAligned]
  obtain ⟨t1, tm, t2, h1, h2, h3, ⟨w1, w2, harc, -, -⟩, h⟩ := jiang_minimum_energy_diverges one_pos hna true
  obtain ⟨p, hp⟩ : ∃ p, p = parabolicTime 1 ⟨1, 0, 0⟩ ⟨0, 1, 0⟩ true := ⟨_, rfl⟩
  rw [← hp] at h1
  have hd : 0 < (tm - p) / (2 * (1 + |p|)) := div_pos (by linarith) (by positivity)
  refine ⟨tm, _, _, harc.1, hd, hd, ⟨w1, w2, harc⟩, (h tm h2 h3).2 true 35 _ _ true 1 ?_⟩
  rw [← hp, abs_of_pos (by linarith), not_le,
    show (tm - p) / (2 * (1 + |p|)) + (tm - p) / (2 * (1 + |p|)) * |p| = (tm - p) / 2 by
      have : 0 < 1 + |p| := by positivity
      field_simp]
  linarith

end Lamberthub
