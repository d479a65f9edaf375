import Verif.Props.MultiRev
import Verif.Props.DelatorreSearch
import Verif.Props.Der
import Verif.Props.Izzo

/-!
# C41: `is_low_path` starts on the documented side of the minimum-time solution

`Spec.Fastest lam M m` says that `m` is the Lancaster variable of the fastest transfer with `M`
revolutions.  The "low path" is the transfer with the larger variable, which is the one with the
larger energy (`rev_energy`, `multi_rev_count`).
-/

set_option autoImplicit false

namespace Lamberthub
open Spec LC Set

/-- `m` is the Lancaster variable of the fastest transfer with `M` complete revolutions. -/
structure Spec.Fastest (lam : ℝ) (M : ℕ) (m : ℝ) : Prop where
  mem : m ∈ Ioo (-1) 1
  least : ∀ x ∈ Ioo (-1) 1, lancT lam m (lancY lam m) M ≤ lancT lam x (lancY lam x) M

theorem Spec.Fastest.valley {lam m : ℝ} {M : ℕ} (hl : lam ^ 2 < 1) (hM : 1 ≤ M) (h : Fastest lam M m) :
    0 < m ∧ m < 1 / 2 ∧ StrictAntiOn (revT lam M) (Ioc (-1) m) ∧ StrictMonoOn (revT lam M) (Ico m 1) := by
  obtain ⟨m', h0, h1, ha, hm, hmin, hu, -⟩ := revT_solutions hl hM
  have hme : m = m' := hu m h.mem.1 h.mem.2 (le_antisymm (h.least m' ⟨by linarith, by linarith⟩) (hmin m h.mem.1 h.mem.2))
  rw [hme]
  exact ⟨h0, h1, ha, hm⟩

/-- The fastest transfer exists. -/
theorem exists_fastest {lam : ℝ} {M : ℕ} (hl : lam ^ 2 < 1) (hM : 1 ≤ M) : ∃ m, Fastest lam M m := by
  obtain ⟨m, h0, h1, -, -, hmin, -, -⟩ := revT_solutions hl hM
  exact ⟨m, ⟨by linarith, by linarith⟩, fun x hx => hmin x hx.1 hx.2⟩

/-- A point of a valley that is higher than `c` lies beyond the bottom, seen from `c`. -/
theorem valley_right {g : ℝ → ℝ} {D : Set ℝ} {m c z : ℝ} (ha : StrictAntiOn g {x ∈ D | x ≤ m})
    (hc : c ∈ D) (hz : z ∈ D) (hcz : c ≤ z) (h : g c < g z) : m < z := by
  by_contra hn
  push Not at hn
  have := ha.antitoneOn ⟨hc, hcz.trans hn⟩ ⟨hz, hn⟩ hcz
  linarith

theorem valley_left {g : ℝ → ℝ} {D : Set ℝ} {m c z : ℝ} (ha : StrictMonoOn g {x ∈ D | m ≤ x})
    (hc : c ∈ D) (hz : z ∈ D) (hcz : z ≤ c) (h : g c < g z) : z < m := by
  by_contra hn
  push Not at hn
  have := ha.monotoneOn ⟨hz, hn⟩ ⟨hc, hn.trans hcz⟩ hcz
  linarith

/-! ## Izzo -/

namespace Izzo

theorem guessRatio_eq {a b : ℝ} (ha : 0 < a) (hb : 0 < b) :
    guessRatio a b = .ok (((a / b) ^ ((2 : ℝ) / 3) - 1) / ((a / b) ^ ((2 : ℝ) / 3) + 1)) := by
  have h : 0 < a / b := by positivity
  have h2 : 0 < (a / b) ^ ((2 : ℝ) / 3) := Real.rpow_pos_of_pos h _
  unfold guessRatio
  rw [pdiv_eq hb.ne', ok_bind, prpow_ok.2 ⟨.inl h, rfl⟩, ok_bind, pdiv_eq (by positivity)]

end Izzo

/-- **C41, `izzo2015`.**  For every feasible time of flight with `M ≥ 1` revolutions
`_initial_guess` starts to the right of the fastest transfer on the low path and to the left of it
on the high path. -/
theorem izzo_low_path {lam m T : ℝ} {M : ℕ} (hl : lam ^ 2 < 1) (hM : 1 ≤ M) (hm : Fastest lam M m)
    (hT : lancT lam m (lancY lam m) M ≤ T) :
    ∃ xLow xHigh, Izzo.initialGuess T lam M true = .ok xLow ∧ Izzo.initialGuess T lam M false = .ok xHigh ∧
      -1 < xHigh ∧ xHigh < m ∧ m < xLow ∧ xLow < 1 := by
  obtain ⟨hm0, hm1, -, -⟩ := hm.valley hl hM
  have hpi := Real.pi_pos
  have hgt : M * Real.pi < T := (revT_gt hl hm.mem.1 hm.mem.2 M).trans_le hT
  have hM' : (1 : ℝ) ≤ M := by exact_mod_cast hM
  have hMp : 0 < M * Real.pi := by positivity
  have hT0 : 0 < T := hMp.trans hgt
  obtain ⟨a, ha⟩ : ∃ a, a = ((M * Real.pi + Real.pi) / (8 * T)) ^ ((2 : ℝ) / 3) := ⟨_, rfl⟩
  obtain ⟨b, hb⟩ : ∃ b, b = (8 * T / (M * Real.pi)) ^ ((2 : ℝ) / 3) := ⟨_, rfl⟩
  have ha0 : 0 < a := by rw [ha]; positivity
  have ha1 : a < 1 := by
    rw [ha]
    apply Real.rpow_lt_one (by positivity) _ (by norm_num)
    rw [div_lt_one (by positivity)]
    nlinarith
  have hb4 : 4 < b := by
    have e : (4 : ℝ) = 8 ^ ((2 : ℝ) / 3) := by
      rw [show (8 : ℝ) = 2 ^ (3 : ℝ) by norm_num, ← Real.rpow_mul (by norm_num)]
      norm_num
    rw [hb, e]
    apply Real.rpow_lt_rpow (by norm_num) _ (by norm_num)
    rw [lt_div_iff₀ hMp]
    nlinarith
  have hl : (a - 1) / (a + 1) < 0 := div_neg_of_neg_of_pos (by linarith) (by linarith)
  have hr : 1 / 2 < (b - 1) / (b + 1) := by rw [lt_div_iff₀ (by linarith)]; linarith
  have hr1 : (b - 1) / (b + 1) < 1 := by rw [div_lt_one (by linarith)]; linarith
  have hl1 : -1 < (a - 1) / (a + 1) := by rw [lt_div_iff₀ (by linarith)]; linarith
  have hM0 : ¬ ((M : ℤ) = 0) := by omega
  refine ⟨(b - 1) / (b + 1), (a - 1) / (a + 1), ?_, ?_, hl1, by linarith, by linarith, hr1⟩
  · unfold Izzo.initialGuess
    rw [if_neg hM0, Int.cast_natCast, Izzo.guessRatio_eq (by positivity) (by positivity), ok_bind,
      Izzo.guessRatio_eq (by positivity) (by positivity), ok_bind, if_pos rfl, ← ha, ← hb, max_eq_right (by linarith)]
  · unfold Izzo.initialGuess
    rw [if_neg hM0, Int.cast_natCast, Izzo.guessRatio_eq (by positivity) (by positivity), ok_bind,
      Izzo.guessRatio_eq (by positivity) (by positivity), ok_bind, if_neg (by simp), ← ha, ← hb, min_eq_left (by linarith)]

/-- The theorem at `λ = 1/2`, two revolutions. -/
example : ∃ m, Fastest (1 / 2) 2 m ∧ ∃ xLow xHigh, Izzo.initialGuess 20 (1 / 2) 2 true = .ok xLow ∧
    Izzo.initialGuess 20 (1 / 2) 2 false = .ok xHigh ∧ xHigh < m ∧ m < xLow := by
  have hl : (1 / 2 : ℝ) ^ 2 < 1 := by norm_num
  obtain ⟨m, hm⟩ := exists_fastest hl (by norm_num : 1 ≤ 2)
  have h0 : lancT (1 / 2) m (lancY (1 / 2) m) (2 : ℕ) ≤ 20 := by
    refine (hm.least 0 (by norm_num)).trans ?_
    have := Real.arccos_le_pi ((0 : ℝ) * lancY (1 / 2) 0 + 1 / 2 * (1 - 0 ^ 2))
    have hpi := Real.pi_lt_d2
    have hy : lancY (1 / 2) 0 ≤ 1 := by
      unfold lancY
      rw [Real.sqrt_le_one]; norm_num
    unfold lancT
    rw [if_pos (by norm_num)]
    norm_num at this ⊢
    linarith
  obtain ⟨xL, xH, a, b, -, c, d, -⟩ := izzo_low_path hl (by norm_num : 1 ≤ 2) hm h0
  exact ⟨m, hm, xL, xH, a, b, c, d⟩

/-! ## Der -/

/-- **C41, `der2011`.**  The starting points of the low and the high path lie on the two sides of
the fastest transfer. -/
theorem der_low_path {sigma m tau tauP : ℝ} {M : ℕ} (hl : sigma ^ 2 < 1) (hM : 1 ≤ M) (hm : Fastest sigma M m) :
    ∃ xLow xHigh, Der.startX sigma tau tauP M true = .ok xLow ∧ Der.startX sigma tau tauP M false = .ok xHigh ∧
      -1 < xHigh ∧ xHigh < m ∧ m < xLow ∧ xLow < 1 := by
  obtain ⟨hm0, hm1, -, -⟩ := hm.valley hl hM
  have hM0 : ¬ ((M : ℤ) = 0) := by omega
  have ha := abs_lt.1 ((sq_lt_one_iff_abs_lt_one _).1 hl)
  have ht : ∃ t, Der.computeMinimumEnergyTime sigma M = .ok t := by
    unfold Der.computeMinimumEnergyTime
    rw [Der.clamp1_eq ha.1.le ha.2.le, pacos_eq ha.1.le ha.2.le, ok_bind,
      psqrt_eq (by norm_num), ok_bind]
    exact ⟨_, rfl⟩
  obtain ⟨t, ht⟩ := ht
  refine ⟨1 / 2, -(1 / 2), ?_, ?_, by norm_num, by linarith, hm1, by norm_num⟩
  · unfold Der.startX
    rw [if_neg hM0, ht, ok_bind, if_pos rfl]; norm_num
  · unfold Der.startX
    rw [if_neg hM0, ht, ok_bind, if_neg (by simp)]; norm_num

/-- The theorem at `σ = -1/2`, three revolutions; the two starting points are `1/2` and `-1/2`. -/
example : ∃ m xLow xHigh, Fastest (-1 / 2) 3 m ∧ Der.startX (-1 / 2) 40 1 3 true = .ok xLow ∧
    Der.startX (-1 / 2) 40 1 3 false = .ok xHigh ∧ xHigh < m ∧ m < xLow := by
  have hl : (-1 / 2 : ℝ) ^ 2 < 1 := by norm_num
  obtain ⟨m, hm⟩ := exists_fastest hl (by norm_num : 1 ≤ 3)
  obtain ⟨xL, xH, a, b, -, c, d, -⟩ := der_low_path (tau := 40) (tauP := 1) hl (by norm_num : 1 ≤ 3) hm
  exact ⟨m, xL, xH, hm, a, b, c, d⟩

/-! ## De La Torre -/

/-- Of two transfers that take the same time the one beyond the fastest has the larger square. -/
theorem revT_sq_lt {lam m a b : ℝ} {M : ℕ} (hl : lam ^ 2 < 1) (hM : 1 ≤ M) (hm : Fastest lam M m) (ha : -1 < a) (ham : a < m)
    (hmb : m < b) (hb : b < 1) (h : revT lam M a = revT lam M b) : a ^ 2 < b ^ 2 := by
  obtain ⟨hm0, hm1, -, hmono⟩ := hm.valley hl hM
  rcases le_or_gt 0 a with h0 | h0
  · nlinarith
  · by_contra hge
    push Not at hge
    have hba : b ≤ -a := by nlinarith
    have h3 := revT_neg hl (by linarith : 0 < -a) (by linarith) M
    rw [neg_neg, h] at h3
    have h4 := hmono.monotoneOn ⟨hmb.le, hb⟩ ⟨by linarith, by linarith⟩ hba
    linarith

/-- The low path is the transfer with more energy: among all Kepler transfers with the same
positions, sense, time and number of revolutions, the one whose Lancaster variable is beyond the
fastest has the largest energy, the one before it the smallest. -/
theorem side_energy {mu : ℝ} (hmu : 0 < mu) {r1 r2 : V3} (hnp : NotPolar r1 r2) {pro : Bool} {M : ℕ} (hM : 1 ≤ M)
    {s lam m x T : ℝ} (hS : Semi (V3.norm r1) (V3.norm r2) (V3.norm (r2 - r1)) s lam)
    (hG : Geo r1 r2 (Real.sqrt 2 * s * lam)) (hsh : 0 < lam ↔ ShortWay pro r1 r2) (hm : Fastest lam M m)
    (h1 : -1 < x) (h2 : x < 1) (hT : T = Real.sqrt (s ^ 3 / (2 * mu)) * revT lam M x) {w1 w2 : V3}
    (hw : LambertArc mu r1 r2 w1 w2 T M) (hsw : Sense pro r1 w1) :
    (m ≤ x → energy mu r1 w1 ≤ energy mu r1 (revV mu r1 r2 s lam x).1) ∧
      (x ≤ m → energy mu r1 (revV mu r1 r2 s lam x).1 ≤ energy mu r1 w1) := by
  have hs := hS.spos
  have hl0 : lam ≠ 0 := fun h => hG.hA (by rw [h, mul_zero])
  obtain ⟨s', lam', hS', hl0', hsh', hG', harc⟩ := rev_arcs hmu hnp pro
  -- the same geometry
  obtain ⟨rfl, rfl⟩ : s' = s ∧ lam' = lam := by
    have e1 : s' = s := by
      have := hS.sum
      have := hS.chord
      have := hS'.sum
      have := hS'.chord
      linarith
    refine ⟨e1, ?_⟩
    have e2 : lam' ^ 2 = lam ^ 2 := by
      have h3 := hS.sum
      have h4 := hS'.sum
      rw [e1, h3] at h4
      have := mul_left_cancel₀ hs.ne' h4
      linarith
    rcases sq_eq_sq_iff_eq_or_eq_neg.1 e2 with h | h
    · exact h
    · exfalso
      rcases lt_or_gt_of_ne hl0 with h3 | h3
      · have := hsh.2 (hsh'.1 (by linarith)); linarith
      · have := hsh'.2 (hsh.1 h3); linarith
  obtain ⟨x', h1', h2', hT', hv⟩ := (harc hM T (w1, w2)).1 ⟨hw, hsw⟩
  have hκ0 : 0 < Real.sqrt (s' ^ 3 / (2 * mu)) := by positivity
  have he : revT lam' M x' = revT lam' M x := mul_left_cancel₀ hκ0.ne' (hT'.symm.trans hT)
  have hw1 : w1 = (revV mu r1 r2 s' lam' x').1 := congrArg Prod.fst hv
  obtain ⟨hm0, hm1, hanti, hmono⟩ := hm.valley hS'.lam_lt hM
  rw [hw1]
  unfold revV
  simp only
  rw [rev_energy hmu hl0 hG' hS', rev_energy hmu hl0 hG' hS']
  have hq : 0 < mu / s' := by positivity
  constructor
  · intro hx
    rcases lt_or_ge x' m with h | h
    · rcases hx.eq_or_lt with h3 | h3
      · exfalso
        have := hanti ⟨h1', h.le⟩ ⟨by linarith, le_rfl⟩ h
        rw [he, ← h3] at this
        exact lt_irrefl _ this
      · have := revT_sq_lt hS'.lam_lt hM hm h1' h h3 h2 he
        nlinarith
    · rw [hmono.injOn ⟨h, h2'⟩ ⟨hx, h2⟩ he]
  · intro hx
    rcases lt_or_ge m x' with h | h
    · rcases hx.eq_or_lt with h3 | h3
      · exfalso
        have := hmono ⟨le_rfl, by linarith⟩ ⟨h.le, h2'⟩ h
        rw [he, h3] at this
        exact lt_irrefl _ this
      · have := revT_sq_lt hS'.lam_lt hM hm h1 h3 h h2' he.symm
        nlinarith
    · rw [hanti.injOn ⟨h1', h⟩ ⟨h1, hx⟩ he]

namespace Delatorre

theorem lam_bound {s lam : ℝ} (hs : 0 < s) (hl : lam ^ 2 < 1) :
    |Real.sqrt 2 * (Real.sqrt 2 * s * lam)| < s * (1 + lam ^ 2) := by
  have hr2 : Real.sqrt 2 ^ 2 = 2 := Real.sq_sqrt (by norm_num)
  rw [show Real.sqrt 2 * (Real.sqrt 2 * s * lam) = s * (2 * lam) by linear_combination (s * lam) * hr2, abs_mul,
    abs_of_pos hs]
  apply mul_lt_mul_of_pos_left _ hs
  have := abs_lt.1 ((sq_lt_one_iff_abs_lt_one _).1 hl)
  rw [abs_lt]
  constructor <;> nlinarith

/-- `z` as a parametrisation of the transfers with `M` revolutions: it decreases when the
Lancaster variable increases, and the code's time is the time of that transfer. -/
theorem param {mu s lam : ℝ} {M : ℕ} (hmu : 0 < mu) (hs : 0 < s) (hl : lam ^ 2 < 1) (hl0 : lam ≠ 0) (hM : 1 ≤ M) :
    ∃ X : ℝ → ℝ, (∀ z ∈ Ioo 0 (Real.pi ^ 2), X z ∈ Ioo (-1) 1 ∧
        VofZ (s * (1 + lam ^ 2)) (Real.sqrt 2 * (Real.sqrt 2 * s * lam)) z = s * (lancY lam (X z) - lam * X z) ^ 2 ∧
        tofEquation (s * (1 + lam ^ 2)) (Real.sqrt 2 * (Real.sqrt 2 * s * lam)) mu z M =
          .ok (Real.sqrt (s ^ 3 / (2 * mu)) * revT lam M (X z))) ∧
      StrictAntiOn X (Ioo 0 (Real.pi ^ 2)) ∧ ∀ x ∈ Ioo (-1) 1, ∃ z ∈ Ioo 0 (Real.pi ^ 2), X z = x := by
  have hb := lam_bound hs hl
  have hr2 : Real.sqrt 2 ^ 2 = 2 := Real.sq_sqrt (by norm_num)
  have hrp : 0 < Real.sqrt 2 := by positivity
  have hpi := Real.pi_pos
  have hM0 : ¬ ((M : ℤ) = 0) := by omega
  have hA : Real.sqrt 2 * s * lam ≠ 0 := mul_ne_zero (by positivity) hl0
  have key : ∀ z, ∃ x, z ∈ Ioo 0 (Real.pi ^ 2) → x ∈ Ioo (-1) 1 ∧
        VofZ (s * (1 + lam ^ 2)) (Real.sqrt 2 * (Real.sqrt 2 * s * lam)) z = s * (lancY lam x - lam * x) ^ 2 ∧
        tofEquation (s * (1 + lam ^ 2)) (Real.sqrt 2 * (Real.sqrt 2 * s * lam)) mu z M =
          .ok (Real.sqrt (s ^ 3 / (2 * mu)) * revT lam M x) := by
    intro z
    by_cases hz : z ∈ Ioo 0 (Real.pi ^ 2)
    · have hV := VofZ_pos hb hz.1
      obtain ⟨x, h1, h2, h3, h4⟩ := (path_multi (M := M) hmu hz.1 hz.2 hV).rev hM hmu hs hl hl0
      obtain ⟨t, ht⟩ := tofEquation_exists hmu hV.le (series1_ne hz.1 hz.2) M (.inr hz.1)
      have e := (tofEquation_ok hmu ht).2.2
      rw [if_neg hM0] at e
      exact ⟨x, fun _ => ⟨⟨h1, h2⟩, h3, by rw [ht, e, h4]⟩⟩
    · exact ⟨0, fun h => absurd h hz⟩
  choose X hX using key
  have hcos : ∀ z ∈ Ioo 0 (Real.pi ^ 2),
      (s * (1 + lam ^ 2) - s * (lancY lam (X z) - lam * X z) ^ 2) / (Real.sqrt 2 * s * lam) =
        Real.sqrt 2 * Real.cos (Real.sqrt z) := by
    intro z hz
    rw [← (hX z hz).2.1, ← Real.sq_sqrt hz.1.le, VofZ_sq, Real.sqrt_sq (Real.sqrt_nonneg z), div_eq_iff hA]
    ring
  refine ⟨X, hX, ?_, ?_⟩
  · intro z hz z' hz' hlt
    rw [← (lanc_lancY hl (X z')).k_lt_iff hl0 (lanc_lancY hl (X z)) hs, hcos z hz, hcos z' hz']
    apply mul_lt_mul_of_pos_left _ hrp
    apply Real.cos_lt_cos_of_nonneg_of_le_pi (Real.sqrt_nonneg _)
    · exact Real.sqrt_le_iff.2 ⟨hpi.le, hz'.2.le⟩
    · exact Real.sqrt_lt_sqrt hz.1.le hlt
  · intro x hx
    have hL := lanc_lancY hl x
    have hLp : Lanc lam 1 1 := ⟨hl, by ring, one_pos⟩
    have hLm : Lanc lam (-1) 1 := ⟨hl, by ring, one_pos⟩
    obtain ⟨k, hk⟩ : ∃ k, k = (s * (1 + lam ^ 2) - s * (lancY lam x - lam * x) ^ 2) / (Real.sqrt 2 * s * lam) := ⟨_, rfl⟩
    have k1 := (hL.k_lt_iff hl0 hLp hs).2 hx.2
    have k2 := (hLm.k_lt_iff hl0 hL hs).2 hx.1
    have e1 : (s * (1 + lam ^ 2) - s * (1 - lam * -1) ^ 2) / (Real.sqrt 2 * s * lam) = Real.sqrt 2 * -1 := by
      rw [div_eq_iff hA]; linear_combination (s * lam) * hr2
    have e2 : (s * (1 + lam ^ 2) - s * (1 - lam * 1) ^ 2) / (Real.sqrt 2 * s * lam) = Real.sqrt 2 * 1 := by
      rw [div_eq_iff hA]; linear_combination (-(s * lam)) * hr2
    rw [← hk, e2] at k1
    rw [← hk, e1] at k2
    have c1 : k / Real.sqrt 2 < 1 := by rw [div_lt_iff₀ hrp]; linarith
    have c2 : -1 < k / Real.sqrt 2 := by rw [lt_div_iff₀ hrp]; linarith
    have p1 : 0 < Real.arccos (k / Real.sqrt 2) := Real.arccos_pos.2 c1
    have p2 : Real.arccos (k / Real.sqrt 2) < Real.pi := by
      rcases (Real.arccos_le_pi (k / Real.sqrt 2)).eq_or_lt with h | h
      · have := Real.arccos_eq_pi.1 h; linarith
      · exact h
    have hz : Real.arccos (k / Real.sqrt 2) ^ 2 ∈ Ioo 0 (Real.pi ^ 2) :=
      ⟨by positivity, pow_lt_pow_left₀ p2 p1.le (by norm_num)⟩
    refine ⟨_, hz, rev_inj hl hl0 hs ?_⟩
    have h3 := hcos _ hz
    rw [Real.sqrt_sq p1.le, Real.cos_arccos c2.le c1.le, mul_div_cancel₀ _ hrp.ne'] at h3
    have h4 := h3.trans hk
    rw [div_left_inj' hA] at h4
    linarith

/-- What a run with complete revolutions returns. -/
theorem ok_split {mu : ℝ} {r1 r2 : V3} {tof : ℝ} {M : ℤ} {pro low : Bool} {maxiter : ℕ} {atol rtol : ℝ} {fo : Bool}
    {clock : ℝ} {out : Output} (h : delatorre2018 mu r1 r2 tof M pro low maxiter atol rtol fo clock = .ok out)
    (hM1 : 1 ≤ M) :
    0 < mu ∧ NotAligned r1 r2 ∧ ∃ θ z k V, getTransferAngle r1 r2 pro = .ok θ ∧
      findZ (V3.norm r1 + V3.norm r2) (Real.sqrt 2 * halfA (V3.norm r1) (V3.norm r2) θ) mu tof M low maxiter atol rtol =
        .ok (z, k) ∧
      V = VofZ (V3.norm r1 + V3.norm r2) (Real.sqrt 2 * halfA (V3.norm r1) (V3.norm r2) θ) z ∧
      (0 < z → out.v1 = fgV1 mu r1 r2 (halfA (V3.norm r1) (V3.norm r2) θ) V ∧
        out.v2 = fgV2 mu r1 r2 (halfA (V3.norm r1) (V3.norm r2) θ) V) := by
  unfold delatorre2018 at h
  simp only [bind_ok, psqrt_ok, stumpff0_eq, pdiv_ok, vdiv_ok] at h
  obtain ⟨_, ha, θ, hθ, _, ⟨_, rfl⟩, ⟨z, k⟩, hz, _, hc0, p, ⟨hV0, hp⟩, _, ⟨hp0, rfl⟩, _, ⟨_, rfl⟩,
    g, ⟨_, hg⟩, _, ⟨_, rfl⟩, v1, ⟨hg0, rfl⟩, v2, ⟨_, rfl⟩, _, _, h⟩ := h
  have hc0 := (Except.ok.inj hc0).symm
  subst hc0
  obtain ⟨hmu, -, -, htof, hM⟩ := assertParameters_ok ha
  have hsin : Real.sin θ ≠ 0 := by
    intro h0; apply hg0; rw [hg, h0]; simp
  have hna := notAligned_of_sin hθ hsin
  have hang := angle_of_eq hna hθ
  have hR1 := norm_pos_of_notAligned_left hna
  have hR2 := norm_pos_of_notAligned_right hna
  have hr2 : Real.sqrt 2 ^ 2 = 2 := Real.sq_sqrt (by norm_num)
  have hQ : 2 * Real.sqrt (V3.norm r1 * V3.norm r2) * Real.cos (θ / 2) =
      Real.sqrt 2 * halfA (V3.norm r1) (V3.norm r2) θ := by
    unfold halfA
    linear_combination (-(Real.sqrt (V3.norm r1 * V3.norm r2) * Real.cos (θ / 2))) * hr2
  rw [hQ] at hz
  simp only at hV0 hp h
  rw [hQ] at hV0 hp
  refine ⟨hmu, hna, θ, z, k, _, hθ, hz, rfl, fun hz0 => ?_⟩
  obtain ⟨V, hVd⟩ : ∃ V, V = VofZ (V3.norm r1 + V3.norm r2)
      (Real.sqrt 2 * halfA (V3.norm r1) (V3.norm r2) θ) z := ⟨_, rfl⟩
  have hV : 0 < V := by rw [hVd]; exact VofZ_pos (geo_lt hna hθ) hz0
  have hp' : p = V3.norm r1 * V3.norm r2 * (1 - Real.cos θ) / V := by rw [hVd]; exact hp
  have hgA := g_pform hang hna hmu hV hp'
  rw [← hg] at hgA
  have hout := (Except.ok.inj h).symm
  subst hout
  simp only [mkOutput_v1, mkOutput_v2]
  rw [← hVd]
  constructor
  · rw [f_pform hR1 hR2 hang.cos_lt_one.ne' hV hp', hgA]; rfl
  · rw [gdot_pform hR1 hR2 hang.cos_lt_one.ne' hV hp', hgA]; rfl

end Delatorre
open Delatorre

/-- **C41, `delatorre2018`.**  Whenever it returns for `M ≥ 1` revolutions and the time of flight
exceeds the least time found by `_find_minimum_time` by more than the tolerance, the transfer
returned for the low path has the largest energy of all Kepler transfers that take the same time
with the same number of revolutions in the same sense, and the one of the high path the
smallest. -/
theorem delatorre_low_path {mu : ℝ} {r1 r2 : V3} (hnp : NotPolar r1 r2) {tof : ℝ} {M : ℕ} (hM : 1 ≤ M) {pro low : Bool}
    {maxiter : ℕ} {atol rtol : ℝ} {fo : Bool} {clock : ℝ} {out : Output}
    (h : delatorre2018 mu r1 r2 tof M pro low maxiter atol rtol fo clock = .ok out) (htol : 0 ≤ atol + rtol * tof)
    {θ : ℝ} (hθ : getTransferAngle r1 r2 pro = .ok θ) {zMin tMin : ℝ}
    (hmin : findMinimumTime (fun z => tofEquation (V3.norm r1 + V3.norm r2)
      (2 * Real.sqrt (V3.norm r1 * V3.norm r2) * Real.cos (θ / 2)) mu z M) atol rtol = .ok (zMin, tMin))
    (hsep : tMin + (atol + rtol * tof) < tof) :
    ∃ T, LambertArc mu r1 r2 out.v1 out.v2 T M ∧ Sense pro r1 out.v1 ∧ |T - tof| ≤ atol + rtol * tof ∧
      ∀ w1 w2, LambertArc mu r1 r2 w1 w2 T M → Sense pro r1 w1 →
        if low then energy mu r1 w1 ≤ energy mu r1 out.v1 else energy mu r1 out.v1 ≤ energy mu r1 w1 := by
  obtain ⟨hmu, hna, θ', z, k, V, hθ', hz, hVd, hout⟩ := ok_split h (by exact_mod_cast hM)
  obtain rfl : θ' = θ := Except.ok.inj (hθ'.symm.trans hθ)
  obtain ⟨hG, hsh⟩ := (angle_of_eq hna hθ).halfGeo hna
  have hr2 : Real.sqrt 2 ^ 2 = 2 := Real.sq_sqrt (by norm_num)
  have hQ : 2 * Real.sqrt (V3.norm r1 * V3.norm r2) * Real.cos (θ' / 2) =
      Real.sqrt 2 * halfA (V3.norm r1) (V3.norm r2) θ' := by
    unfold halfA
    linear_combination (-(Real.sqrt (V3.norm r1 * V3.norm r2) * Real.cos (θ' / 2))) * hr2
  rw [hQ] at hmin
  generalize halfA (V3.norm r1) (V3.norm r2) θ' = A at *
  obtain ⟨s, lam, hS, rfl⟩ := hG.semi
  have hs := hS.spos
  have hl := hS.lam_lt
  have hl0 : lam ≠ 0 := fun h => hG.hA (by rw [h, mul_zero])
  have hsh' : 0 < lam ↔ ShortWay pro r1 r2 := by
    rw [← hsh, mul_pos_iff_of_pos_left (by positivity : 0 < Real.sqrt 2 * s)]
  rw [hS.sum] at hz hVd hmin
  obtain ⟨m, hm⟩ := exists_fastest hl hM
  obtain ⟨hm0, hm1, hanti, hmono⟩ := hm.valley hl hM
  obtain ⟨X, hX, hXa, hXs⟩ := param (M := M) hmu hs hl hl0 hM
  have hpi := Real.pi_gt_three
  have hpi2 : 9 < Real.pi ^ 2 := by nlinarith
  have hlo : (1e-12 : ℝ) ∈ Ioo 0 (Real.pi ^ 2) := ⟨by norm_num, by norm_num; linarith⟩
  have hhi : Real.pi ^ 2 - 1e-12 ∈ Ioo 0 (Real.pi ^ 2) := ⟨by norm_num; linarith, by norm_num⟩
  have hlh : (1e-12 : ℝ) ≤ Real.pi ^ 2 - 1e-12 := by norm_num; linarith
  have hcc : ∀ {a b : ℝ}, Seg (Icc a b) := fun {a b} u hu v hv t h0 h1 => by
    constructor <;> nlinarith [hu.1, hu.2, hv.1, hv.2]
  obtain ⟨hzm, htm⟩ := goldenSearch_mem (hcc (a := 1e-12) (b := Real.pi ^ 2 - 1e-12)) hmin ⟨le_rfl, hlh⟩ ⟨hlh, le_rfl⟩
  have hin : ∀ {z : ℝ}, z ∈ Icc (1e-12) (Real.pi ^ 2 - 1e-12) → z ∈ Ioo 0 (Real.pi ^ 2) := fun hz =>
    ⟨hlo.1.trans_le hz.1, hz.2.trans_lt hhi.2⟩
  have htm' : tMin = Real.sqrt (s ^ 3 / (2 * mu)) * revT lam M (X zMin) :=
    Except.ok.inj (htm.symm.trans (hX _ (hin hzm)).2.2)
  have hκ0 : 0 < Real.sqrt (s ^ 3 / (2 * mu)) := by positivity
  -- the bracket
  unfold findZ chooseBracket at hz
  rw [if_neg (by omega), hmin, ok_bind] at hz
  simp only [] at hz
  rw [raiseIf_neg _ (by linarith), ok_bind] at hz
  obtain ⟨hz1, hz2, t, ht, htt⟩ : z ∈ Icc (1e-12) (Real.pi ^ 2 - 1e-12) ∧ (if low then z ≤ zMin else zMin ≤ z) ∧
      ∃ t, tofEquation (s * (1 + lam ^ 2)) (Real.sqrt 2 * (Real.sqrt 2 * s * lam)) mu z M = .ok t ∧
        (t = tof ∨ |t - tof| ≤ atol + rtol * tof) := by
    cases low
    · rw [if_neg (by simp), ok_bind] at hz
      obtain ⟨h1, h2, -⟩ := solveBracketed_ok (hcc (a := zMin) (b := Real.pi ^ 2 - 1e-12)) ⟨le_rfl, hzm.2⟩
        ⟨hzm.2, le_rfl⟩ hz
      exact ⟨⟨hzm.1.trans h1.1, h1.2⟩, by simpa using h1.1, h2⟩
    · rw [if_pos rfl, ok_bind] at hz
      obtain ⟨h1, h2, -⟩ := solveBracketed_ok (hcc (a := 1e-12) (b := zMin)) ⟨le_rfl, hzm.1⟩ ⟨hzm.1, le_rfl⟩ hz
      exact ⟨⟨h1.1, h1.2.trans hzm.2⟩, by simpa using h1.2, h2⟩
  have htt' : |t - tof| ≤ atol + rtol * tof := by
    rcases htt with rfl | htt
    · rw [sub_self, abs_zero]; exact htol
    · exact htt
  obtain ⟨hXz, hV, ht'⟩ := hX z (hin hz1)
  have ht2 : t = Real.sqrt (s ^ 3 / (2 * mu)) * revT lam M (X z) := Except.ok.inj (ht.symm.trans ht')
  have hXm := (hX _ (hin hzm)).1
  have hlt : revT lam M (X zMin) < revT lam M (X z) := by
    have : tMin < t := by have := (abs_le.1 htt').1; linarith
    rw [htm', ht2] at this
    exact lt_of_mul_lt_mul_left this hκ0.le
  obtain ⟨o1, o2⟩ := hout (hin hz1).1
  rw [hVd, hV] at o1 o2
  have hP := path_multi (M := M) hmu (hin hz1).1 (hin hz1).2 (VofZ_pos (lam_bound hs hl) (hin hz1).1)
  have hP0 := hP
  have hte := (tofEquation_ok hmu ht).2.2
  rw [if_neg (by omega)] at hte
  rw [← hte, ← hS.sum, hS.sum, hV, ← hS.sum] at hP
  have harc := hP.arc hmu hG
  have hse : Sense pro r1 out.v1 := by rw [o1]; exact sense_of_sign hmu hP.V_pos hG.hA hnp hsh
  refine ⟨t, by rw [o1, o2]; exact harc, hse, htt', fun w1 w2 hw hsw => ?_⟩
  obtain ⟨e1, e2⟩ := side_energy hmu hnp hM hS hG hsh' hm hXz.1 hXz.2 ht2 hw hsw
  rw [show (revV mu r1 r2 s lam (X z)).1 = out.v1 from o1.symm] at e1 e2
  cases low
  · rw [if_neg (by simp)] at hz2 ⊢
    refine e2 (valley_left (g := revT lam M) (D := Ioo (-1) 1) (m := m) (c := X zMin) ?_ hXm hXz ?_ hlt).le
    · intro a ha b hb hab; exact hmono ⟨ha.2, ha.1.2⟩ ⟨hb.2, hb.1.2⟩ hab
    · exact hXa.antitoneOn (hin hzm) (hin hz1) hz2
  · rw [if_pos rfl] at hz2 ⊢
    refine e1 (valley_right (g := revT lam M) (D := Ioo (-1) 1) (m := m) (c := X zMin) ?_ hXm hXz ?_ hlt).le
    · intro a ha b hb hab; exact hanti ⟨ha.1.1, ha.2⟩ ⟨hb.1.1, hb.2⟩ hab
    · exact hXa.antitoneOn (hin hz1) (hin hzm) hz2

end Lamberthub
