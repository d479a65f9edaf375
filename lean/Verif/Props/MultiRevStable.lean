import Verif.Props.DelatorreMulti
import Verif.Props.Arora

/-!
# C85: transfers with complete revolutions depend continuously on the time of flight, and
`delatorre2018` converges to the low and to the high one
-/

set_option autoImplicit false

namespace Lamberthub
open Spec LC Set

/-- Close values of a strictly increasing function have close arguments. -/
theorem strictMono_near {f : ℝ → ℝ} {m b c η : ℝ} (hf : StrictMonoOn f (Ico m b)) (hc : c ∈ Ico m b) (hη : 0 < η) :
    ∃ δ > 0, ∀ x ∈ Ico m b, |f x - f c| < δ → |x - c| < η := by
  obtain ⟨hc1, hc2⟩ := hc
  obtain ⟨u, hu⟩ : ∃ u, u = min (c + η / 2) ((c + b) / 2) := ⟨_, rfl⟩
  have u1 : u ≤ c + η / 2 := by rw [hu]; exact min_le_left _ _
  have u2 : u ≤ (c + b) / 2 := by rw [hu]; exact min_le_right _ _
  have u3 : c < u := by rw [hu]; exact lt_min (by linarith) (by linarith)
  have hum : u ∈ Ico m b := ⟨by linarith, by linarith⟩
  have hfu := hf ⟨hc1, hc2⟩ hum u3
  by_cases hl : m ≤ c - η / 2
  · have hlm : c - η / 2 ∈ Ico m b := ⟨hl, by linarith⟩
    have hfl := hf hlm ⟨hc1, hc2⟩ (by linarith)
    refine ⟨min (f u - f c) (f c - f (c - η / 2)), lt_min (by linarith) (by linarith), fun x hx h => ?_⟩
    obtain ⟨h1, h2⟩ := abs_lt.1 h
    have k1 := min_le_left (f u - f c) (f c - f (c - η / 2))
    have k2 := min_le_right (f u - f c) (f c - f (c - η / 2))
    have b1 : x < u := (hf.lt_iff_lt hx hum).1 (by linarith)
    have b2 : c - η / 2 < x := (hf.lt_iff_lt hlm hx).1 (by linarith)
    rw [abs_lt]; constructor <;> linarith
  · refine ⟨f u - f c, by linarith, fun x hx h => ?_⟩
    obtain ⟨h1, h2⟩ := abs_lt.1 h
    have b1 : x < u := (hf.lt_iff_lt hx hum).1 (by linarith)
    have b2 := hx.1
    rw [abs_lt]; constructor <;> linarith

/-- The same for a strictly decreasing function. -/
theorem strictAnti_near {f : ℝ → ℝ} {m b c η : ℝ} (hf : StrictAntiOn f (Ioc b m)) (hc : c ∈ Ioc b m) (hη : 0 < η) :
    ∃ δ > 0, ∀ x ∈ Ioc b m, |f x - f c| < δ → |x - c| < η := by
  have hg : StrictMonoOn (fun x => f (-x)) (Ico (-m) (-b)) := fun x hx y hy h =>
    hf ⟨by linarith [hy.2], by linarith [hy.1]⟩ ⟨by linarith [hx.2], by linarith [hx.1]⟩ (by linarith)
  obtain ⟨δ, hδ, h⟩ := strictMono_near hg (c := -c) ⟨by linarith [hc.2], by linarith [hc.1]⟩ hη
  refine ⟨δ, hδ, fun x hx hd => ?_⟩
  have := h (-x) ⟨by linarith [hx.2], by linarith [hx.1]⟩ (by simpa using hd)
  rwa [show -x - -c = -(x - c) by ring, abs_neg] at this

/-- Of two parameters with the same time the larger has the larger square. -/
theorem rev_sq_lt {lam m a b : ℝ} (hl : lam ^ 2 < 1) {M : ℕ} (hm0 : 0 < m) (hmono : StrictMonoOn (revT lam M) (Ico m 1))
    (ha1 : -1 < a) (ham : a < m) (hmb : m < b) (hb1 : b < 1) (hab : revT lam M a = revT lam M b) : a ^ 2 < b ^ 2 := by
  rcases le_or_gt 0 a with h0 | h0
  · nlinarith
  · by_contra hge
    push Not at hge
    have hba : b ≤ -a := by nlinarith
    have h3 := revT_neg hl (by linarith : 0 < -a) (by linarith) M
    rw [neg_neg, hab] at h3
    have h4 := hmono.monotoneOn ⟨hmb.le, hb1⟩ ⟨by linarith, by linarith⟩ hba
    linarith

/-- The velocities of the transfer of parameter `x` are continuous in `x`. -/
theorem revV_near {mu s lam x ε : ℝ} (hmu : 0 < mu) (hs : 0 < s) (hl : lam ^ 2 < 1) (hl0 : lam ≠ 0) (r1 r2 : V3) (hε : 0 < ε) :
    ∃ η > 0, ∀ y, |y - x| < η → len ((revV mu r1 r2 s lam y).1 - (revV mu r1 r2 s lam x).1) < ε ∧
      len ((revV mu r1 r2 s lam y).2 - (revV mu r1 r2 s lam x).2) < ε := by
  have hη := (lanc_lancY hl x).eta_pos
  obtain ⟨A, hA⟩ : ∃ A, A = Real.sqrt 2 * s * lam := ⟨_, rfl⟩
  have hA0 : A ≠ 0 := by rw [hA]; positivity
  obtain ⟨V, hV⟩ : ∃ V : ℝ → ℝ, V = fun y => s * (lancY lam y - lam * y) ^ 2 := ⟨_, rfl⟩
  have hV0 : 0 < V x := by rw [hV]; positivity
  have hVc : ContinuousAt V x := by
    rw [hV]; unfold lancY; fun_prop
  have hg : Real.sqrt (V x / mu) ≠ 0 := by positivity
  have hne : A * Real.sqrt (V x / mu) ≠ 0 := mul_ne_zero hA0 hg
  have c1 : ContinuousAt (fun y => len (fgV1 mu r1 r2 A (V y) - fgV1 mu r1 r2 A (V x))) x := by
    unfold len fgV1
    simp only [V3.sub_x, V3.sub_y, V3.sub_z, V3.smul_x, V3.smul_y, V3.smul_z]
    fun_prop (disch := assumption)
  have c2 : ContinuousAt (fun y => len (fgV2 mu r1 r2 A (V y) - fgV2 mu r1 r2 A (V x))) x := by
    unfold len fgV2
    simp only [V3.sub_x, V3.sub_y, V3.sub_z, V3.smul_x, V3.smul_y, V3.smul_z]
    fun_prop (disch := assumption)
  have z : ∀ v : V3, len (v - v) = 0 := fun v => by simp [len]
  have k1 : ∀ᶠ y in nhds x, len (fgV1 mu r1 r2 A (V y) - fgV1 mu r1 r2 A (V x)) < ε :=
    c1.eventually (gt_mem_nhds (by simp only [z]; exact hε))
  have k2 : ∀ᶠ y in nhds x, len (fgV2 mu r1 r2 A (V y) - fgV2 mu r1 r2 A (V x)) < ε :=
    c2.eventually (gt_mem_nhds (by simp only [z]; exact hε))
  obtain ⟨η, hη, hd⟩ := Metric.eventually_nhds_iff.1 (k1.and k2)
  refine ⟨η, hη, fun y hy => ?_⟩
  have := hd (y := y) (by rw [Real.dist_eq]; exact hy)
  rw [hV, hA] at this
  exact this

/-- The transfer is the one of largest (`low`) or smallest (`¬ low`) energy among those that take
the same time with the same number of revolutions in the same sense. -/
def Spec.OnPath (low : Bool) (mu : ℝ) (r1 r2 : V3) (pro : Bool) (M : ℕ) (T : ℝ) (v1 : V3) : Prop :=
  ∀ u1 u2, LambertArc mu r1 r2 u1 u2 T M → Sense pro r1 u1 →
    if low then energy mu r1 u1 ≤ energy mu r1 v1 else energy mu r1 v1 ≤ energy mu r1 u1

/-- **C85.**  For every number of revolutions and every time of flight `T`: a transfer whose duration is close to `T`
is close to a transfer of duration exactly `T`, on the same one of the two paths.  (In particular there are none
close to an infeasible time.) -/
theorem multi_rev_stable {mu : ℝ} (hmu : 0 < mu) {r1 r2 : V3} (hnp : NotPolar r1 r2) (pro : Bool) {M : ℕ} (hM : 1 ≤ M)
    (T : ℝ) {ε : ℝ} (hε : 0 < ε) :
    ∃ δ > 0, ∀ (T' : ℝ) (w1 w2 : V3), LambertArc mu r1 r2 w1 w2 T' M → Sense pro r1 w1 → |T' - T| < δ →
      ∃ v1 v2, LambertArc mu r1 r2 v1 v2 T M ∧ Sense pro r1 v1 ∧ len (w1 - v1) < ε ∧ len (w2 - v2) < ε ∧
        ∀ low, OnPath low mu r1 r2 pro M T' w1 → OnPath low mu r1 r2 pro M T v1 := by
  obtain ⟨s, lam, hS, hl0, -, hG, harc⟩ := rev_arcs hmu hnp pro
  have harc := harc hM
  have hl := hS.lam_lt
  obtain ⟨m, hm0, hm1, hanti, hmono, hmin, huniq, htwo⟩ := revT_solutions hl hM
  have hs := hS.spos
  obtain ⟨κ, hκ⟩ : ∃ κ, κ = Real.sqrt (s ^ 3 / (2 * mu)) := ⟨_, rfl⟩
  have hκ0 : 0 < κ := by rw [hκ]; positivity
  rw [← hκ] at harc
  have hm : -1 < m := by linarith
  have hm' : m < 1 := by linarith
  have hen : ∀ x y : ℝ, x ^ 2 < y ^ 2 → energy mu r1 (revV mu r1 r2 s lam x).1 < energy mu r1 (revV mu r1 r2 s lam y).1 := by
    intro x y h
    unfold revV
    rw [rev_energy hmu hl0 hG hS, rev_energy hmu hl0 hG hS]
    have : 0 < mu / s := by positivity
    nlinarith
  have hdist : ∀ x y : ℝ, κ * |x - y| = |κ * x - κ * y| := fun x y => by
    rw [← mul_sub, abs_mul, abs_of_pos hκ0]
  rcases lt_trichotomy T (κ * revT lam M m) with hT | hT | hT
  · refine ⟨κ * revT lam M m - T, by linarith, fun T' w1 w2 hw hse hd => ?_⟩
    obtain ⟨x, h1, h2, rfl, -⟩ := (harc T' (w1, w2)).1 ⟨hw, hse⟩
    have := mul_le_mul_of_nonneg_left (hmin x h1 h2) hκ0.le
    have := (abs_lt.1 hd).2
    linarith
  · obtain ⟨η, hη, hnear⟩ := revV_near (x := m) hmu hs hl hl0 r1 r2 hε
    obtain ⟨d1, hd1, k1⟩ := strictAnti_near hanti ⟨hm, le_rfl⟩ hη
    obtain ⟨d2, hd2, k2⟩ := strictMono_near hmono ⟨le_rfl, hm'⟩ hη
    refine ⟨κ * min d1 d2, by positivity, fun T' w1 w2 hw hse hd => ?_⟩
    obtain ⟨x, h1, h2, rfl, hx⟩ := (harc T' (w1, w2)).1 ⟨hw, hse⟩
    obtain ⟨rfl, rfl⟩ := Prod.mk.inj hx
    rw [hT, ← hdist] at hd
    have hd := lt_of_mul_lt_mul_left hd hκ0.le
    have hxm : |x - m| < η := by
      rcases le_total x m with h | h
      · exact k1 x ⟨h1, h⟩ (hd.trans_le (min_le_left _ _))
      · exact k2 x ⟨h, h2⟩ (hd.trans_le (min_le_right _ _))
    obtain ⟨n1, n2⟩ := hnear x hxm
    obtain ⟨a1, a2⟩ := (harc T (revV mu r1 r2 s lam m)).2 ⟨m, hm, hm', hT, rfl⟩
    refine ⟨_, _, a1, a2, n1, n2, fun low _ u1 u2 hu hus => ?_⟩
    obtain ⟨y, y1, y2, hy, hyv⟩ := (harc T (u1, u2)).1 ⟨hu, hus⟩
    have hym := huniq y y1 y2 (mul_left_cancel₀ hκ0.ne' (hy.symm.trans hT))
    obtain ⟨rfl, -⟩ := Prod.mk.inj hyv
    rw [hym]
    cases low
    · rw [if_neg (by simp)]; exact le_rfl
    · rw [if_pos rfl]; exact le_rfl
  · obtain ⟨a, b, ha1, ham, hmb, hb1, ha, hb, hab⟩ := htwo (T / κ) (by rw [lt_div_iff₀ hκ0, mul_comm]; exact hT)
    have hTκ : κ * (T / κ) = T := by field_simp
    have hTa : T = κ * revT lam M a := by rw [ha, hTκ]
    have hTb : T = κ * revT lam M b := by rw [hb, hTκ]
    have hsq := rev_sq_lt hl hm0 hmono ha1 ham hmb hb1 (ha.trans hb.symm)
    have hAB := hen _ _ hsq
    obtain ⟨η1, hη1, near1⟩ := revV_near (x := a) hmu hs hl hl0 r1 r2 hε
    obtain ⟨η2, hη2, near2⟩ := revV_near (x := b) hmu hs hl hl0 r1 r2 hε
    obtain ⟨d1, hd1, k1⟩ := strictAnti_near hanti ⟨ha1, ham.le⟩ hη1
    obtain ⟨d2, hd2, k2⟩ := strictMono_near hmono ⟨hmb.le, hb1⟩ hη2
    refine ⟨min (κ * min d1 d2) (T - κ * revT lam M m), lt_min (by positivity) (by linarith),
      fun T' w1 w2 hw hse hd => ?_⟩
    obtain ⟨x, h1, h2, hTx, hx⟩ := (harc T' (w1, w2)).1 ⟨hw, hse⟩
    obtain ⟨rfl, rfl⟩ := Prod.mk.inj hx
    have hdl := hd.trans_le (min_le_left _ _)
    have hdr := hd.trans_le (min_le_right _ _)
    have hgt : revT lam M m < revT lam M x := by
      have := (abs_lt.1 hdr).1
      rw [hTx] at this
      exact lt_of_mul_lt_mul_left (by linarith : κ * revT lam M m < κ * revT lam M x) hκ0.le
    obtain ⟨a', b', ha1', ham', hmb', hb1', ha', hb', hab'⟩ := htwo _ hgt
    have hsq' := hen _ _ (rev_sq_lt hl hm0 hmono ha1' ham' hmb' hb1' (ha'.trans hb'.symm))
    have all : ∀ {u1 u2 : V3}, LambertArc mu r1 r2 u1 u2 T M → Sense pro r1 u1 →
        u1 = (revV mu r1 r2 s lam a).1 ∨ u1 = (revV mu r1 r2 s lam b).1 := by
      intro u1 u2 hu hus
      obtain ⟨y, y1, y2, hy, hyv⟩ := (harc T (u1, u2)).1 ⟨hu, hus⟩
      obtain ⟨rfl, -⟩ := Prod.mk.inj hyv
      rcases hab y y1 y2 (by rw [hy]; field_simp) with rfl | rfl
      · left; rfl
      · right; rfl
    rcases hab' x h1 h2 rfl with rfl | rfl
    · have hxa : |x - a| < η1 := by
        rw [hTx, hTa, ← hdist] at hdl
        exact k1 x ⟨h1, ham'.le⟩ ((lt_of_mul_lt_mul_left hdl hκ0.le).trans_le (min_le_left _ _))
      obtain ⟨n1, n2⟩ := near1 x hxa
      obtain ⟨p1, p2⟩ := (harc T (revV mu r1 r2 s lam a)).2 ⟨a, ha1, by linarith, hTa, rfl⟩
      refine ⟨_, _, p1, p2, n1, n2, fun low hon u1 u2 hu hus => ?_⟩
      cases low
      · rw [if_neg (by simp)]
        rcases all hu hus with rfl | rfl
        · exact le_rfl
        · exact hAB.le
      · exfalso
        obtain ⟨q1, q2⟩ := (harc T' (revV mu r1 r2 s lam b')).2 ⟨b', by linarith, hb1', by rw [hb', hTx], rfl⟩
        have := hon _ _ q1 q2
        rw [if_pos rfl] at this
        exact absurd this (not_le.2 hsq')
    · have hxb : |x - b| < η2 := by
        rw [hTx, hTb, ← hdist] at hdl
        exact k2 x ⟨hmb'.le, h2⟩ ((lt_of_mul_lt_mul_left hdl hκ0.le).trans_le (min_le_right _ _))
      obtain ⟨n1, n2⟩ := near2 x hxb
      obtain ⟨p1, p2⟩ := (harc T (revV mu r1 r2 s lam b)).2 ⟨b, by linarith, hb1, hTb, rfl⟩
      refine ⟨_, _, p1, p2, n1, n2, fun low hon u1 u2 hu hus => ?_⟩
      cases low
      · exfalso
        obtain ⟨q1, q2⟩ := (harc T' (revV mu r1 r2 s lam a')).2 ⟨a', ha1', by linarith, by rw [ha', hTx], rfl⟩
        have := hon _ _ q1 q2
        rw [if_neg (by simp)] at this
        exact absurd this (not_le.2 hsq')
      · rw [if_pos rfl]
        rcases all hu hus with rfl | rfl
        · exact hAB.le
        · exact le_rfl

/-- A transfer on a path is determined by its time. -/
theorem onPath_unique {mu : ℝ} (hmu : 0 < mu) {r1 r2 : V3} (hnp : NotPolar r1 r2) {pro low : Bool} {M : ℕ} (hM : 1 ≤ M)
    {T : ℝ} {v1 v2 w1 w2 : V3} (hv : LambertArc mu r1 r2 v1 v2 T M) (hsv : Sense pro r1 v1)
    (hov : OnPath low mu r1 r2 pro M T v1) (hw : LambertArc mu r1 r2 w1 w2 T M) (hsw : Sense pro r1 w1)
    (how : OnPath low mu r1 r2 pro M T w1) : v1 = w1 ∧ v2 = w2 := by
  obtain ⟨Tm, -, hle, ⟨u, -, hu⟩, htwo⟩ := multi_rev_count hmu hnp pro hM
  have hee : energy mu r1 v1 = energy mu r1 w1 := by
    have h1 := hov w1 w2 hw hsw
    have h2 := how v1 v2 hv hsv
    cases low
    · rw [if_neg (by simp)] at h1 h2; exact le_antisymm h1 h2
    · rw [if_pos rfl] at h1 h2; exact le_antisymm h2 h1
  suffices h : (v1, v2) = (w1, w2) from Prod.mk.inj h
  rcases (hle T v1 v2 hv hsv).eq_or_lt with rfl | hT
  · rw [hu (v1, v2) ⟨hv, hsv⟩, hu (w1, w2) ⟨hw, hsw⟩]
  · obtain ⟨a, b, hab, h⟩ := htwo T hT
    rcases (h (v1, v2)).1 ⟨hv, hsv⟩ with e | e <;> rcases (h (w1, w2)).1 ⟨hw, hsw⟩ with e' | e'
    · rw [e, e']
    · rw [← e, ← e'] at hab; simp only [] at hab; rw [hee] at hab; exact absurd hab (lt_irrefl _)
    · rw [← e, ← e'] at hab; simp only [] at hab; rw [hee] at hab; exact absurd hab (lt_irrefl _)
    · rw [e, e']

theorem len_triangle (a b c : V3) : len (a - b) ≤ len (a - c) + len (b - c) := by
  have e1 := len_sq (a - b)
  have e2 := len_sq (a - c)
  have e3 := len_sq (b - c)
  simp only [V3.sub_x, V3.sub_y, V3.sub_z] at e1 e2 e3
  have p1 : 0 ≤ len (a - c) := Real.sqrt_nonneg _
  have p2 : 0 ≤ len (b - c) := Real.sqrt_nonneg _
  have cs : |(a.x - c.x) * (b.x - c.x) + (a.y - c.y) * (b.y - c.y) + (a.z - c.z) * (b.z - c.z)| ≤
      len (a - c) * len (b - c) := by
    apply abs_le_of_sq_le_sq _ (by positivity)
    rw [mul_pow, e2, e3]
    nlinarith [sq_nonneg ((a.x - c.x) * (b.y - c.y) - (a.y - c.y) * (b.x - c.x)),
      sq_nonneg ((a.x - c.x) * (b.z - c.z) - (a.z - c.z) * (b.x - c.x)),
      sq_nonneg ((a.y - c.y) * (b.z - c.z) - (a.z - c.z) * (b.y - c.y))]
  have := (abs_le.1 cs).1
  apply le_of_sq_le_sq _ (by positivity)
  nlinarith

/-- **C85, two programs.**  The velocities of any two transfers with the same number of revolutions, on the same path and
with durations within `δ` of `T`, differ by less than `ε`, when `δ` is small enough. -/
theorem multi_rev_agree {mu : ℝ} (hmu : 0 < mu) {r1 r2 : V3} (hnp : NotPolar r1 r2) (pro low : Bool) {M : ℕ} (hM : 1 ≤ M)
    (T : ℝ) {ε : ℝ} (hε : 0 < ε) :
    ∃ δ > 0, ∀ (T1 T2 : ℝ) (v1 v2 w1 w2 : V3),
      LambertArc mu r1 r2 v1 v2 T1 M → Sense pro r1 v1 → OnPath low mu r1 r2 pro M T1 v1 → |T1 - T| < δ →
      LambertArc mu r1 r2 w1 w2 T2 M → Sense pro r1 w1 → OnPath low mu r1 r2 pro M T2 w1 → |T2 - T| < δ →
      len (v1 - w1) < ε ∧ len (v2 - w2) < ε := by
  obtain ⟨δ, hδ, h⟩ := multi_rev_stable hmu hnp pro hM T (half_pos hε)
  refine ⟨δ, hδ, fun T1 T2 v1 v2 w1 w2 hv hsv hov hv1 hw hsw how hw1 => ?_⟩
  obtain ⟨a1, a2, ha, has, n1, n2, hoa⟩ := h T1 v1 v2 hv hsv hv1
  obtain ⟨b1, b2, hb, hbs, m1, m2, hob⟩ := h T2 w1 w2 hw hsw hw1
  obtain ⟨rfl, rfl⟩ := onPath_unique hmu hnp hM ha has (hoa low hov) hb hbs (hob low how)
  have t1 := len_triangle v1 w1 a1
  have t2 := len_triangle v2 w2 a2
  constructor <;> linarith

/-- **C85, `delatorre2018`.**  With tight enough tolerances the velocities it returns for `M ≥ 1` revolutions are within
`ε` of those of a transfer that takes exactly the requested time; and of the one on the requested path, whenever the
time of flight exceeds the least time found by the search by more than the tolerance. -/
theorem delatorre_multi_accurate {mu : ℝ} (hmu : 0 < mu) {r1 r2 : V3} (hnp : NotPolar r1 r2) (pro : Bool) {M : ℕ}
    (hM : 1 ≤ M) {tof : ℝ} (htof : 0 < tof) {ε : ℝ} (hε : 0 < ε) :
    ∃ δ > 0, ∀ (low : Bool) (N : ℕ) (atol rtol : ℝ) (fo : Bool) (clock : ℝ) (out : Output),
      0 ≤ atol + rtol * tof → atol + rtol * tof < δ →
      delatorre2018 mu r1 r2 tof M pro low N atol rtol fo clock = .ok out →
      (∃ v1 v2, LambertArc mu r1 r2 v1 v2 tof M ∧ Sense pro r1 v1 ∧ len (out.v1 - v1) < ε ∧ len (out.v2 - v2) < ε) ∧
      ∀ θ zMin tMin, getTransferAngle r1 r2 pro = .ok θ →
        Delatorre.findMinimumTime (fun z => Delatorre.tofEquation (V3.norm r1 + V3.norm r2)
          (2 * Real.sqrt (V3.norm r1 * V3.norm r2) * Real.cos (θ / 2)) mu z M) atol rtol = .ok (zMin, tMin) →
        tMin + (atol + rtol * tof) < tof →
        ∀ v1 v2, LambertArc mu r1 r2 v1 v2 tof M → Sense pro r1 v1 → OnPath low mu r1 r2 pro M tof v1 →
          len (out.v1 - v1) < ε ∧ len (out.v2 - v2) < ε := by
  obtain ⟨δ, hδ, hd⟩ := multi_rev_stable hmu hnp pro hM tof hε
  refine ⟨min δ tof, lt_min hδ htof, fun low N atol rtol fo clock out h0 h1 h => ?_⟩
  have hlt := h1.trans_le (min_le_left _ _)
  have hlt' := h1.trans_le (min_le_right _ _)
  constructor
  · obtain ⟨-, ⟨T, hT, hTd⟩, hse⟩ := delatorre_kepler_transfer h hlt'
    rw [Int.toNat_natCast] at hT
    obtain ⟨v1, v2, a, b, c, d, -⟩ := hd T _ _ hT (hse hnp) (by
      rcases hTd with rfl | hTd
      · simpa using hδ
      · linarith)
    exact ⟨v1, v2, a, b, c, d⟩
  · intro θ zMin tMin hθ hmin hsep v1 v2 hv hsv hov
    obtain ⟨T, hT, hse, hTd, hpath⟩ := delatorre_low_path hnp hM h h0 hθ hmin hsep
    obtain ⟨a1, a2, ha, has, n1, n2, ho⟩ := hd T _ _ hT hse (by linarith)
    obtain ⟨rfl, rfl⟩ := onPath_unique hmu hnp hM ha has (ho low hpath) hv hsv hov
    exact ⟨n1, n2⟩

/-- **C85, `arora2013`.**  Above the parabolic time and with a small enough tolerance the velocities it returns for
`M ≥ 1` revolutions are within `ε` of those of a transfer that takes exactly the requested time. -/
theorem arora_multi_accurate {minimize : Minimizer} (hmin : MinimizerSpec minimize) {brentq : Brent} (hb : BrentSpec brentq)
    {mu : ℝ} (hmu : 0 < mu) {r1 r2 : V3} (hnp : NotPolar r1 r2) (pro : Bool) {M : ℕ} (hM : 1 ≤ M) {tof : ℝ}
    (hpar : parabolicTime mu r1 r2 pro < tof) {ε : ℝ} (hε : 0 < ε) :
    ∃ δ > 0, ∀ (low : Bool) (N : ℕ) (atol rtol : ℝ) (fo : Bool) (clock : ℝ) (out : Output),
      atol < δ → arora2013 minimize brentq mu r1 r2 tof M pro low N atol rtol fo clock = .ok out →
      ∃ v1 v2, LambertArc mu r1 r2 v1 v2 tof M ∧ Sense pro r1 v1 ∧ len (out.v1 - v1) < ε ∧ len (out.v2 - v2) < ε := by
  obtain ⟨δ, hδ, hd⟩ := multi_rev_stable hmu hnp pro hM tof hε
  obtain ⟨S, hS⟩ : ∃ S, S = Real.sqrt (len r1 ^ 3 / mu) := ⟨_, rfl⟩
  have hS0 : 0 ≤ S := by rw [hS]; positivity
  refine ⟨δ / (S + 1), by positivity, fun low N atol rtol fo clock out h1 h => ?_⟩
  obtain ⟨⟨T, hT, hTd⟩, hse⟩ := arora_kepler_transfer_partial hmin hb h (.inr hpar)
  rw [Int.toNat_natCast] at hT
  rw [if_neg (by omega), add_zero, ← hS] at hTd
  rw [lt_div_iff₀ (by linarith)] at h1
  have h2 : atol * S < δ := by
    rcases le_or_gt 0 atol with h0 | h0
    · linarith
    · exact lt_of_le_of_lt (mul_nonpos_of_nonpos_of_nonneg h0.le hS0) hδ
  obtain ⟨v1, v2, a, b, c, d, -⟩ := hd T _ _ hT (hse hnp) (by linarith)
  exact ⟨v1, v2, a, b, c, d⟩

/-- The theorem meets problems: at a quarter turn of the unit circle there are times with two transfers of three
revolutions, one on each path. -/
example : ∃ T, ∀ low, ∃ v1 v2, LambertArc 1 ⟨1, 0, 0⟩ ⟨0, 1, 0⟩ v1 v2 T 3 ∧ Sense true ⟨1, 0, 0⟩ v1 ∧
    OnPath low 1 ⟨1, 0, 0⟩ ⟨0, 1, 0⟩ true 3 T v1 := by
  obtain ⟨Tm, -, -, -, h⟩ := multi_rev_count one_pos (r1 := ⟨1, 0, 0⟩) (r2 := ⟨0, 1, 0⟩) (by simp [NotPolar]) true
    (by norm_num : 1 ≤ 3)
  obtain ⟨a, b, hab, hv⟩ := h (Tm + 1) (by linarith)
  refine ⟨Tm + 1, fun low => ?_⟩
  cases low
  · refine ⟨b.1, b.2, ((hv b).2 (.inr rfl)).1, ((hv b).2 (.inr rfl)).2, fun u1 u2 hu hs => ?_⟩
    rw [if_neg (by simp)]
    rcases (hv (u1, u2)).1 ⟨hu, hs⟩ with h | h
    · rw [← h] at hab; exact hab.le
    · rw [← h]
  · refine ⟨a.1, a.2, ((hv a).2 (.inl rfl)).1, ((hv a).2 (.inl rfl)).2, fun u1 u2 hu hs => ?_⟩
    rw [if_pos rfl]
    rcases (hv (u1, u2)).1 ⟨hu, hs⟩ with h | h
    · rw [← h]
    · rw [← h] at hab; exact hab.le

open Delatorre

/-- A lower value between two points locates the minimum. -/
theorem Spec.Unimodal.between {F : ℝ → Py ℝ} {g : ℝ → ℝ} {lo hi m p q r : ℝ} (hF : Unimodal F g lo hi m) (hp : lo ≤ p)
    (hpq : p < q) (hqr : q < r) (hr : r ≤ hi) (h1 : g q < g p) (h2 : g q < g r) : p ≤ m ∧ m ≤ r := by
  constructor
  · by_contra h
    push Not at h
    exact absurd (hF.mono ⟨h.le, by linarith⟩ ⟨by linarith, by linarith⟩ hpq) (not_lt.2 h1.le)
  · by_contra h
    push Not at h
    exact absurd (hF.anti ⟨by linarith, by linarith⟩ ⟨by linarith, h.le⟩ hqr) (not_lt.2 h2.le)

/-- The time of the revolutions in closed form. -/
theorem Delatorre.T1_closed {P Q z : ℝ} (hz0 : 0 < z) (hz1 : z < Real.pi ^ 2) (M : ℕ) :
    T1 P Q 1 z M = M * Real.pi * (Real.sqrt ((P - Q * Real.cos (Real.sqrt z)) ^ 3 / 2) / Real.sin (Real.sqrt z) ^ 3) := by
  have hsz := Real.sqrt_pos.2 hz0
  have hsin : 0 < Real.sin (Real.sqrt z) := Real.sin_pos_of_pos_of_lt_pi hsz ((Real.sqrt_lt' Real.pi_pos).2 hz1)
  have e : z = Real.sqrt z ^ 2 := (Real.sq_sqrt hz0.le).symm
  have e1 : VofZ P Q z = P - Q * Real.cos (Real.sqrt z) := by conv_lhs => rw [e, VofZ_sq]
  have e2 : stumpffSeries 1 z = Real.sin (Real.sqrt z) / Real.sqrt z := by conv_lhs => rw [e, series1_sq hsz.ne']
  unfold T1
  have e4 : ∀ V : ℝ, Real.sqrt (V ^ 3 / (2 * 1 * z ^ 3)) = Real.sqrt (V ^ 3 / 2) / Real.sqrt z ^ 3 := by
    intro V
    rw [mul_one, ← div_div, Real.sqrt_div' _ (by positivity)]
    congr 1
    conv_lhs => rw [e, ← pow_mul, mul_comm, pow_mul, Real.sqrt_sq (by positivity)]
  rw [e1, e2, e4, Int.cast_natCast]
  field_simp

set_option maxHeartbeats 1000000 in
/-- The hypotheses of `delatorre_multi_accurate`: the quarter turn of the unit circle with many revolutions.  For every
tolerance below `1/200` the time of flight exceeds the least time of the search by more than the tolerance, and both paths are solved. -/
example : ∃ (M : ℕ) (tof θ : ℝ), 1 ≤ M ∧ 0 < tof ∧ getTransferAngle ⟨1, 0, 0⟩ ⟨0, 1, 0⟩ true = .ok θ ∧
    ∀ atol : ℝ, 0 < atol → atol < 1 / 200 → ∃ zMin tMin : ℝ,
      findMinimumTime (fun z => tofEquation (V3.norm ⟨1, 0, 0⟩ + V3.norm ⟨0, 1, 0⟩)
        (2 * Real.sqrt (V3.norm ⟨1, 0, 0⟩ * V3.norm ⟨0, 1, 0⟩) * Real.cos (θ / 2)) 1 z M) atol 0 = .ok (zMin, tMin) ∧
      tMin + (atol + 0 * tof) < tof ∧
      ∃ N, ∀ low, ∃ out, delatorre2018 1 ⟨1, 0, 0⟩ ⟨0, 1, 0⟩ tof M true low N atol 0 false 0 = .ok out := by
  have hna : NotAligned ⟨1, 0, 0⟩ ⟨0, 1, 0⟩ := by simp [NotAligned, V3.cross]
  have hθ := transferAngle_eq hna true
  obtain ⟨θ, hθd⟩ : ∃ θ, getTransferAngle ⟨1, 0, 0⟩ ⟨0, 1, 0⟩ true = .ok θ := ⟨_, hθ⟩
  clear hθ
  have n1 : V3.norm ⟨1, 0, 0⟩ = 1 := by simp [V3.norm, V3.dot]
  have n2 : V3.norm ⟨0, 1, 0⟩ = 1 := by simp [V3.norm, V3.dot]
  obtain ⟨hG, -⟩ := (angle_of_eq hna hθd).halfGeo hna
  have hr2 : Real.sqrt 2 ^ 2 = 2 := Real.sq_sqrt (by norm_num)
  have hu2 : Real.sqrt 2 < 3 / 2 := by rw [Real.sqrt_lt' (by norm_num)]; norm_num
  have hQe : 2 * Real.sqrt (V3.norm ⟨1, 0, 0⟩ * V3.norm ⟨0, 1, 0⟩) * Real.cos (θ / 2) =
      Real.sqrt 2 * halfA (V3.norm ⟨1, 0, 0⟩) (V3.norm ⟨0, 1, 0⟩) θ := by
    unfold halfA
    linear_combination (-(Real.sqrt (V3.norm ⟨1, 0, 0⟩ * V3.norm ⟨0, 1, 0⟩) * Real.cos (θ / 2))) * hr2
  obtain ⟨A, hA⟩ : ∃ A, A = halfA (V3.norm ⟨1, 0, 0⟩) (V3.norm ⟨0, 1, 0⟩) θ := ⟨_, rfl⟩
  rw [← hA] at hG hQe
  have hA1 : A ^ 2 = 1 := by rw [hG.hA2, n1, n2]; simp [V3.dot]
  have hQ : |Real.sqrt 2 * A| = Real.sqrt 2 := by
    rw [← Real.sqrt_sq_eq_abs, mul_pow, hr2, hA1, mul_one]
  have hPQ : |Real.sqrt 2 * A| < 2 := by rw [hQ]; linarith
  have hpi1 := Real.pi_gt_d2
  have hpi2 := Real.pi_lt_d2
  norm_num at hpi1 hpi2
  have hpp1 : 49 / 5 < Real.pi ^ 2 := by nlinarith
  have hpp2 : Real.pi ^ 2 < 10 := by nlinarith
  -- the time of the revolutions, in units of half periods
  obtain ⟨e, he⟩ : ∃ e : ℝ → ℝ, e = fun z => Real.sqrt ((2 - Real.sqrt 2 * A * Real.cos (Real.sqrt z)) ^ 3 / 2) /
    Real.sin (Real.sqrt z) ^ 3 := ⟨_, rfl⟩
  have hT1 : ∀ (M : ℕ) z, 0 < z → z < Real.pi ^ 2 → T1 2 (Real.sqrt 2 * A) 1 z M = M * Real.pi * e z := fun M z h0 h1 => by
    rw [T1_closed h0 h1, he]
  have hab : ∀ z, |Real.sqrt 2 * A * Real.cos (Real.sqrt z)| ≤ 3 / 2 := fun z => by
    rw [abs_mul, hQ]
    exact (mul_le_of_le_one_right (by positivity) (Real.abs_cos_le_one _)).trans hu2.le
  have hup : ∀ z, Real.sqrt ((2 - Real.sqrt 2 * A * Real.cos (Real.sqrt z)) ^ 3 / 2) ≤ 5 := fun z => by
    obtain ⟨h1, h2⟩ := abs_le.1 (hab z)
    rw [Real.sqrt_le_left (by norm_num)]
    have := pow_le_pow_left₀ (by linarith) (by linarith : 2 - Real.sqrt 2 * A * Real.cos (Real.sqrt z) ≤ 7 / 2) 3
    linarith
  have hdn : ∀ z, 1 / 4 ≤ Real.sqrt ((2 - Real.sqrt 2 * A * Real.cos (Real.sqrt z)) ^ 3 / 2) := fun z => by
    obtain ⟨h1, h2⟩ := abs_le.1 (hab z)
    apply Real.le_sqrt_of_sq_le
    have := pow_le_pow_left₀ (by norm_num) (by linarith : 1 / 2 ≤ 2 - Real.sqrt 2 * A * Real.cos (Real.sqrt z)) 3
    linarith
  have eup : ∀ z c : ℝ, 0 < c → c ≤ Real.sin (Real.sqrt z) → e z ≤ 5 / c ^ 3 := fun z c hc h => by
    rw [he]
    have := hup z
    have h3 := pow_le_pow_left₀ hc.le h 3
    simp only []
    gcongr
  have edn : ∀ z c : ℝ, 0 < Real.sin (Real.sqrt z) → Real.sin (Real.sqrt z) ≤ c → 1 / 4 / c ^ 3 ≤ e z := fun z c hc h => by
    rw [he]
    have := hdn z
    have h3 := pow_le_pow_left₀ hc.le h 3
    simp only []
    have h4 : 0 < Real.sin (Real.sqrt z) ^ 3 := by positivity
    gcongr
  have s1 : Real.sqrt (1 / 25) = 1 / 5 := by rw [show (1 / 25 : ℝ) = (1 / 5) ^ 2 by norm_num, Real.sqrt_sq (by norm_num)]
  have s2 : Real.sqrt 4 = 2 := by rw [show (4 : ℝ) = 2 ^ 2 by norm_num, Real.sqrt_sq (by norm_num)]
  have s3 : Real.sqrt 9 = 3 := by rw [show (9 : ℝ) = 3 ^ 2 by norm_num, Real.sqrt_sq (by norm_num)]
  have h2pi : 3 / 5 ≤ 2 / Real.pi := by rw [le_div_iff₀ Real.pi_pos]; linarith
  have ep : 31 ≤ e (1 / 25) := by
    refine le_trans (by norm_num) (edn (1 / 25) (1 / 5) ?_ ?_)
    · rw [s1]; exact Real.sin_pos_of_pos_of_lt_pi (by norm_num) (by linarith)
    · rw [s1]; exact (Real.sin_lt (by norm_num)).le
  have er : 31 ≤ e 9 := by
    refine le_trans (by norm_num) (edn 9 (1 / 5) ?_ ?_)
    · rw [s3]; exact Real.sin_pos_of_pos_of_lt_pi (by norm_num) (by linarith)
    · rw [s3, ← Real.sin_pi_sub]
      exact (Real.sin_le (by linarith)).trans (by linarith)
  have eq : e 4 ≤ 20 := by
    refine le_trans (eup 4 (13 / 20) (by norm_num) ?_) (by norm_num)
    rw [s2, ← Real.sin_pi_sub]
    have h1 := Real.mul_le_sin (x := Real.pi - 2) (by linarith) (by linarith)
    have h2 : 3 / 5 * (57 / 50) ≤ 2 / Real.pi * (Real.pi - 2) := mul_le_mul h2pi (by linarith) (by norm_num) (by positivity)
    norm_num at h2
    linarith
  have em : ∀ z, 1 / 36 ≤ z → z ≤ 9.01 → e z ≤ 40000 := fun z h1 h2 => by
    have q1 : 1 / 6 ≤ Real.sqrt z := Real.le_sqrt_of_sq_le (by linarith)
    have q2 : Real.sqrt z ≤ 301 / 100 := by rw [Real.sqrt_le_left (by norm_num)]; norm_num at h2 ⊢; linarith
    refine le_trans (eup z (1 / 20) (by norm_num) ?_) (by norm_num)
    rcases le_total (Real.sqrt z) (Real.pi / 2) with h | h
    · have h1 := Real.mul_le_sin (by linarith) h
      have h2 : 3 / 5 * (1 / 6) ≤ 2 / Real.pi * Real.sqrt z := mul_le_mul h2pi q1 (by norm_num) (by positivity)
      linarith
    · rw [← Real.sin_pi_sub]
      have h1 := Real.mul_le_sin (x := Real.pi - Real.sqrt z) (by linarith) (by linarith)
      have h2 : 3 / 5 * (13 / 100) ≤ 2 / Real.pi * (Real.pi - Real.sqrt z) :=
        mul_le_mul h2pi (by linarith) (by norm_num) (by positivity)
      linarith
  -- the remaining part of the time is bounded
  obtain ⟨B, hB⟩ : ∃ B, ∀ z ∈ Icc (1 / 36 : ℝ) 9.01, |T0 2 (Real.sqrt 2 * A) 1 z| ≤ B := by
    have hc : ContinuousOn (fun z => uvT 1 2 A (4 * z)) (Icc (1 / 36 : ℝ) 9.01) := by
      intro z hz
      have hz2 := hz.2
      norm_num at hz2
      have h1 : ContinuousAt (uvT 1 2 A) (4 * z) := uvT_continuousAt (by linarith)
      exact (ContinuousAt.comp (f := fun z : ℝ => 4 * z) h1 (by fun_prop)).continuousWithinAt
    obtain ⟨B, hB⟩ := isCompact_Icc.exists_bound_of_continuousOn hc
    refine ⟨B, fun z hz => ?_⟩
    have hz2 := hz.2
    norm_num at hz2
    have hz0 : 0 < z := lt_of_lt_of_le (by norm_num) hz.1
    rw [(T0_uvT one_pos (by linarith) (VofZ_pos hPQ hz0).le).2]
    exact hB z hz
  have hB0 : 0 ≤ B := (abs_nonneg _).trans (hB 4 ⟨by norm_num, by norm_num⟩)
  obtain ⟨D, hD⟩ : ∃ D : ℝ, D = 2 - Real.sqrt 2 := ⟨_, rfl⟩
  have hD0 : 1 / 2 < D := by rw [hD]; linarith
  obtain ⟨M, hM⟩ := exists_nat_ge (B + 10)
  have hMr : (10 : ℝ) ≤ M := le_trans (by linarith) hM
  have hM1 : 1 ≤ M := by
    have : (1 : ℝ) ≤ M := by linarith
    exact_mod_cast this
  have hMpi : 3 * (M : ℝ) ≤ M * Real.pi := by nlinarith
  obtain ⟨K, hK⟩ : ∃ K : ℝ, K = Real.sqrt (D ^ 3 / (2 * 1)) := ⟨_, rfl⟩
  have hK0 : 1 / 4 ≤ K := by
    rw [hK]
    apply Real.le_sqrt_of_sq_le
    have : (1 / 2 : ℝ) ^ 3 ≤ D ^ 3 := pow_le_pow_left₀ (by norm_num) hD0.le 3
    linarith
  obtain ⟨tof, htof⟩ : ∃ t : ℝ, t = 1e18 * M * Real.pi * K := ⟨_, rfl⟩
  have hb : 100000 * (M * Real.pi) ≤ tof := by
    have a : (0 : ℝ) ≤ M * Real.pi := by positivity
    have b := mul_le_mul_of_nonneg_left hK0 a
    rw [htof]; norm_num at b ⊢; linarith
  have htof0 : 0 < tof := by linarith
  refine ⟨M, tof, θ, hM1, htof0, hθd, fun atol ha0 ha1 => ?_⟩
  obtain ⟨zMin, tMin, hs, -, -, hret⟩ := delatorre_multi_returns one_pos hna hM1 htof0 (atol := atol) (rtol := 0) (by simpa using ha0) hθd
    (Q := Real.sqrt 2) (D := D) (by rw [n1, n2]; simp [V3.dot]) (by rw [n1, n2, hD]; norm_num)
  have hs0 := hs
  rw [hQe, n1, n2, show (1 : ℝ) + 1 = 2 by norm_num] at hs
  have hlo : (1e-12 : ℝ) ∈ Ioo 0 (Real.pi ^ 2) := ⟨by norm_num, by norm_num; linarith⟩
  have hhi : Real.pi ^ 2 - 1e-12 ∈ Ioo 0 (Real.pi ^ 2) := ⟨by norm_num; linarith, by norm_num⟩
  have hlh : (1e-12 : ℝ) ≤ Real.pi ^ 2 - 1e-12 := by norm_num; linarith
  obtain ⟨g, m, hu⟩ : ∃ g m, Unimodal (fun z => tofEquation 2 (Real.sqrt 2 * A) 1 z M) g 1e-12 (Real.pi ^ 2 - 1e-12) m := by
    obtain ⟨s, lam, hS, hAe⟩ := hG.semi
    have hl0 : lam ≠ 0 := fun h => hG.hA (by rw [hAe, h, mul_zero])
    have hsum := hS.sum
    rw [n1, n2, show (1 : ℝ) + 1 = 2 by norm_num] at hsum
    have hun := unimodal one_pos hS.spos hS.lam_lt hl0 hM1 hlo.1 hlh hhi.2
    rw [← hsum, ← hAe] at hun
    exact hun
  have hg : ∀ z, 1 / 36 ≤ z → z ≤ 9.01 → |g z - M * Real.pi * e z| ≤ B := fun z h1 h2 => by
    have h2' := h2
    norm_num at h2'
    have hz0 : 0 < z := by linarith
    have h := (tofEquation_ok one_pos (hu.defined z ⟨by norm_num; linarith, by norm_num; linarith⟩)).2.2
    rw [if_neg (by omega), hT1 M z hz0 (by linarith)] at h
    rw [h, add_sub_cancel_right]
    exact hB z ⟨h1, h2⟩
  have gp := (abs_le.1 (hg (1 / 25) (by norm_num) (by norm_num))).1
  have gq := (abs_le.1 (hg 4 (by norm_num) (by norm_num))).2
  have gr' := (abs_le.1 (hg 9 (by norm_num) (by norm_num))).1
  have hMp0 : (0 : ℝ) ≤ M * Real.pi := by linarith
  have k1 := mul_le_mul_of_nonneg_left ep hMp0
  have k2 := mul_le_mul_of_nonneg_left eq hMp0
  have k3 := mul_le_mul_of_nonneg_left er hMp0
  obtain ⟨hm1, hm2⟩ := hu.between (p := 1 / 25) (q := 4) (r := 9) (by norm_num) (by norm_num) (by norm_num)
    (by norm_num; linarith) (by linarith) (by linarith)
  obtain ⟨z, t, k, hzt, hz, rfl, hk, hzm, hst⟩ := golden_section hu atol 0 100
  obtain ⟨rfl, rfl⟩ := Prod.mk.inj (Except.ok.inj (hs.symm.trans hzt))
  have hw : Real.pi ^ 2 - 1e-12 - 1e-12 ≤ 10 := by norm_num; linarith
  have hw0 : 0 ≤ Real.pi ^ 2 - 1e-12 - 1e-12 := by norm_num; linarith
  have hzm' : |zMin - m| ≤ 1 / 100 := by
    rcases hst with rfl | ⟨-, z1, -, h⟩
    · refine hzm.trans ?_
      have hgr : (Real.sqrt 5 - 1) / 2 ≤ 7 / 10 := by
        have : Real.sqrt 5 ≤ 12 / 5 := by rw [Real.sqrt_le_left (by norm_num)]; norm_num
        linarith
      have hgr0 : 0 ≤ (Real.sqrt 5 - 1) / 2 := by
        have : 1 ≤ Real.sqrt 5 := Real.le_sqrt_of_sq_le (by norm_num)
        linarith
      have h1 := pow_le_pow_left₀ hgr0 hgr 100
      have h2 : (7 / 10 : ℝ) ^ 100 ≤ 1 / 1000 := by norm_num
      have h3 := mul_le_mul (h1.trans h2) hw hw0 (by norm_num)
      linarith
    · rw [zero_mul, add_zero] at h
      linarith
  obtain ⟨z1, z2⟩ := abs_le.1 hzm'
  have hz1 : 1 / 36 ≤ zMin := by linarith
  have hz2 : zMin ≤ 9.01 := by norm_num; linarith
  have gm := (abs_le.1 (hg zMin hz1 hz2)).2
  have k4 := mul_le_mul_of_nonneg_left (em zMin hz1 hz2) hMp0
  have hlt : g zMin + (atol + 0 * tof) < tof := by linarith
  obtain ⟨N, hN⟩ := hret (by linarith) (by rw [htof, hK])
  exact ⟨zMin, g zMin, hs0, hlt, N, fun low => hN N le_rfl low false 0⟩

end Lamberthub
