import Verif.Props.LowPath
import Verif.Props.Negrete
import Verif.Props.McElreath
import Verif.Props.Gooding
import Verif.Props.Arora
import Verif.Props.Der

/-!
# C41: the remaining multi-revolution solvers

Gooding and Negrete compute both transfers and pick one; McElreath starts on one side of the
computed minimum; Arora and Der's fallback give one side to `brentq`.
-/

set_option autoImplicit false

namespace Lamberthub
open Spec LC Set

/-- Two transfers of one valley that take the same time lie on its two sides. -/
theorem Spec.Fastest.between {lam m a b : ℝ} {M : ℕ} (hl : lam ^ 2 < 1) (hM : 1 ≤ M) (hm : Fastest lam M m) (ha : -1 < a)
    (hab : a < b) (hb : b < 1) (h : lancT lam a (lancY lam a) M = lancT lam b (lancY lam b) M) : a < m ∧ m < b := by
  obtain ⟨hm0, hm1, hanti, hmono⟩ := hm.valley hl hM
  have h : revT lam M a = revT lam M b := h
  constructor
  · by_contra hn
    push Not at hn
    have := hmono ⟨hn, hab.trans hb⟩ ⟨hn.trans hab.le, hb⟩ hab
    linarith
  · by_contra hn
    push Not at hn
    have := hanti ⟨ha, hab.le.trans hn⟩ ⟨ha.trans hab, hn⟩ hab
    linarith

/-- Above the least time there is one transfer on each side of the fastest. -/
theorem revT_between {lam m T : ℝ} {M : ℕ} (hl : lam ^ 2 < 1) (hM : 1 ≤ M) (hm : Fastest lam M m)
    (hT : lancT lam m (lancY lam m) M < T) :
    ∃ a b, -1 < a ∧ a < m ∧ m < b ∧ b < 1 ∧ revT lam M a = T ∧ revT lam M b = T ∧
      ∀ x, -1 < x → x < 1 → revT lam M x = T → x = a ∨ x = b := by
  obtain ⟨m', h0, h1, -, -, hmin, hu, h2⟩ := revT_solutions hl hM
  have hme : m = m' := hu m hm.mem.1 hm.mem.2 (le_antisymm (hm.least m' ⟨by linarith, by linarith⟩) (hmin m hm.mem.1 hm.mem.2))
  rw [hme] at hT ⊢
  exact h2 T hT

/-! ## Gooding -/

/-- **C41, `gooding1990`.**  When the two roots found for `M ≥ 1` revolutions are two transfers
that take the same time, the root used for the low path is beyond the fastest transfer and the
one of the high path before it. -/
theorem gooding_low_path {lam m x xpl : ℝ} {M : ℕ} {n : ℤ} (hl : lam ^ 2 < 1) (hM : 1 ≤ M) (hm : Fastest lam M m)
    (hn : 1 < n) (hx : x ∈ Ioo (-1) 1) (hp : xpl ∈ Ioo (-1) 1) (hne : x ≠ xpl)
    (h : lancT lam x (lancY lam x) M = lancT lam xpl (lancY lam xpl) M) :
    Gooding.selectRoot false n x xpl < m ∧ m < Gooding.selectRoot true n x xpl := by
  unfold Gooding.selectRoot
  rw [if_pos hn, if_pos hn, if_neg (by simp), if_pos rfl]
  rcases lt_or_gt_of_ne hne with h1 | h1
  · rw [min_eq_left h1.le, max_eq_right h1.le]
    exact hm.between hl hM hx.1 h1 hp.2 h
  · rw [min_eq_right h1.le, max_eq_left h1.le]
    exact hm.between hl hM hp.1 h1 hx.2 h.symm

/-- The hypotheses of `gooding_low_path` are met above every least time. -/
example : ∃ m a b : ℝ, Fastest (1 / 3) 2 m ∧ Gooding.selectRoot false 2 b a < m ∧ m < Gooding.selectRoot true 2 b a := by
  have hl : (1 / 3 : ℝ) ^ 2 < 1 := by norm_num
  obtain ⟨m, hm⟩ := exists_fastest hl (by norm_num : 1 ≤ 2)
  obtain ⟨m', h0, h1, -, -, -, -, h2⟩ := revT_solutions hl (by norm_num : 1 ≤ 2)
  obtain ⟨a, b, a1, a2, b1, b2, ea, eb, -⟩ := h2 (revT (1 / 3) 2 m' + 1) (by linarith)
  exact ⟨m, a, b, hm, gooding_low_path hl (by norm_num : 1 ≤ 2) hm (by norm_num) ⟨by linarith, b2⟩ ⟨a1, by linarith⟩ (by linarith)
    (show revT (1 / 3) 2 b = revT (1 / 3) 2 a by rw [ea, eb])⟩

/-! ## Negrete -/

/-- Of two transfers with `M ≥ 1` revolutions, the same sense and the same time, the one with the
larger `(P - V) / A` has more energy. -/
theorem energy_of_cos {mu A V V' T : ℝ} {r1 r2 : V3} {M : ℕ} (hmu : 0 < mu) (hM : 1 ≤ M) (hG : Geo r1 r2 A)
    (h : Path mu (V3.norm r1 + V3.norm r2) A M V T) (h' : Path mu (V3.norm r1 + V3.norm r2) A M V' T)
    (hlt : (V3.norm r1 + V3.norm r2 - V') / A < (V3.norm r1 + V3.norm r2 - V) / A) :
    energy mu r1 (fgV1 mu r1 r2 A V') < energy mu r1 (fgV1 mu r1 r2 A V) := by
  obtain ⟨s, lam, hS, rfl⟩ := hG.semi
  have hs := hS.spos
  have hl := hS.lam_lt
  have hl0 : lam ≠ 0 := fun h => hG.hA (by rw [h, mul_zero])
  rw [hS.sum] at h h' hlt
  obtain ⟨x, x1, x2, rfl, hT⟩ := h.rev hM hmu hs hl hl0
  obtain ⟨x', x1', x2', rfl, hT'⟩ := h'.rev hM hmu hs hl hl0
  rw [(lanc_lancY hl x').k_lt_iff hl0 (lanc_lancY hl x) hs] at hlt
  have hκ0 : 0 < Real.sqrt (s ^ 3 / (2 * mu)) := by positivity
  have he : revT lam M x' = revT lam M x := mul_left_cancel₀ hκ0.ne' (hT'.symm.trans hT)
  obtain ⟨m, hm⟩ := exists_fastest hl hM
  obtain ⟨b1, b2⟩ := hm.between hl hM x1' hlt x2 he
  have := revT_sq_lt hl hM hm x1' b1 b2 x2 he
  rw [rev_energy hmu hl0 hG hS, rev_energy hmu hl0 hG hS]
  have hq : 0 < mu / s := by positivity
  nlinarith

namespace Negrete

/-- In the window of `M` revolutions `(P - y) / A` decreases with `z`. -/
theorem window_cos {P A z : ℝ} {M : ℕ} (hA : A ≠ 0) (h1 : (2 * M * Real.pi) ^ 2 < z) (h2 : z < (2 * (M + 1) * Real.pi) ^ 2) :
    (P - uvY P A z) / A = Real.sqrt 2 * Real.cos (Real.sqrt z / 2 - M * Real.pi) := by
  have hpi := Real.pi_pos
  have hz : 0 < z := lt_of_le_of_lt (sq_nonneg _) h1
  obtain ⟨φ, hφ, rfl⟩ := half_sqrt hz
  have e1 : M * Real.pi < φ := by
    have := lt_of_pow_lt_pow_left₀ 2 (by positivity) h1; linarith
  have e2 : φ < (M + 1) * Real.pi := by
    have := lt_of_pow_lt_pow_left₀ 2 (by positivity) h2; linarith
  rw [uvY_sq hφ e1 e2, Real.sqrt_sq (by positivity), mul_div_cancel_left₀ _ (by norm_num : (2 : ℝ) ≠ 0),
    Real.cos_sub_nat_mul_pi]
  field_simp
  ring

theorem window_anti {P A z z' : ℝ} {M : ℕ} (hA : A ≠ 0) (h1 : (2 * M * Real.pi) ^ 2 < z) (hzz : z < z')
    (h2 : z' < (2 * (M + 1) * Real.pi) ^ 2) : (P - uvY P A z') / A < (P - uvY P A z) / A := by
  have hpi := Real.pi_pos
  rw [window_cos hA h1 (hzz.trans h2), window_cos hA (h1.trans hzz) h2]
  apply mul_lt_mul_of_pos_left _ (by positivity)
  have a : 2 * M * Real.pi < Real.sqrt z := Real.lt_sqrt_of_sq_lt h1
  have b : Real.sqrt z' < 2 * (M + 1) * Real.pi := (Real.sqrt_lt' (by positivity)).2 h2
  have c : Real.sqrt z < Real.sqrt z' := Real.sqrt_lt_sqrt ((sq_nonneg _).trans h1.le) hzz
  apply Real.cos_lt_cos_of_nonneg_of_le_pi <;> linarith

/-- The two paths come from the same pair of refined roots. -/
theorem findZMulti_order {f : ℂ → Py ℂ} {M numiter : ℕ} {atol rtol zl zh : ℝ}
    (hl : findZMulti f M true numiter atol rtol = .ok zl) (hh : findZMulti f M false numiter atol rtol = .ok zh) :
    zl ≤ zh := by
  unfold findZMulti at hl hh
  simp only [bind_ok, raiseIf_ok] at hl hh
  obtain ⟨I, hI, ⟨p, q⟩, hp, _, _, lo, hlo, hi, hhi, hl⟩ := hl
  obtain ⟨I', hI', ⟨p', q'⟩, hp', _, _, lo', hlo', hi', hhi', hh⟩ := hh
  obtain rfl := Except.ok.inj (hI.symm.trans hI')
  obtain ⟨rfl, rfl⟩ := Prod.mk.inj (Except.ok.inj (hp.symm.trans hp'))
  obtain rfl := Except.ok.inj (hlo.symm.trans hlo')
  obtain rfl := Except.ok.inj (hhi.symm.trans hhi')
  rw [if_pos trivial] at hl
  rw [if_neg (by simp)] at hh
  rw [← Except.ok.inj hl, ← Except.ok.inj hh]
  exact min_le_max

end Negrete
open Negrete

/-- **C41, `negrete2024`.**  When both paths return and their roots lie in the window of `M`
revolutions, the low path is the transfer with the larger Lancaster variable; if the two
transfers differ and take the same time, it is the one beyond the fastest transfer and the high
path the one before it. -/
theorem negrete_low_path {mu : ℝ} {r1 r2 : V3} {tof : ℝ} {M : ℕ} (hM : 1 ≤ M) {pro : Bool} {maxiter : ℕ}
    {atol rtol : ℝ} {full : Bool} {clock : ℝ} {outL outH : Output}
    (hL : negrete2024 mu r1 r2 tof M pro true maxiter atol rtol full clock = .ok outL)
    (hH : negrete2024 mu r1 r2 tof M pro false maxiter atol rtol full clock = .ok outH) {zL zH : ℝ}
    (hzL : findZ mu (V3.norm r1) (V3.norm r2) (signedA pro r1 r2) tof M true (max 4 maxiter) atol rtol = .ok zL)
    (hzH : findZ mu (V3.norm r1) (V3.norm r2) (signedA pro r1 r2) tof M false (max 4 maxiter) atol rtol = .ok zH)
    (hw1 : (2 * M * Real.pi) ^ 2 < zL) (hw2 : zH < (2 * (M + 1) * Real.pi) ^ 2) :
    ∃ s lam xL xH m TL TH, Semi (V3.norm r1) (V3.norm r2) (V3.norm (r2 - r1)) s lam ∧ Fastest lam M m ∧
      xL ∈ Ioo (-1) 1 ∧ xH ∈ Ioo (-1) 1 ∧
      (outL.v1, outL.v2) = revV mu r1 r2 s lam xL ∧ (outH.v1, outH.v2) = revV mu r1 r2 s lam xH ∧
      LambertArc mu r1 r2 outL.v1 outL.v2 TL M ∧ LambertArc mu r1 r2 outH.v1 outH.v2 TH M ∧
      xH ≤ xL ∧ (TL = TH → outL.v1 ≠ outH.v1 → xH < m ∧ m < xL ∧ energy mu r1 outH.v1 < energy mu r1 outL.v1) := by
  have hpi := Real.pi_gt_three
  obtain ⟨-, hmu, -, -, z, _, v1, v2, hG, hz, -, hr, rfl⟩ := negrete_ok_split hL
  obtain ⟨-, -, -, -, z', _, v1', v2', -, hz', -, hr', rfl⟩ := negrete_ok_split hH
  rw [Int.toNat_natCast] at hz hz'
  obtain rfl := Except.ok.inj (hz.symm.trans hzL)
  obtain rfl := Except.ok.inj (hz'.symm.trans hzH)
  have hle : z ≤ z' := by
    unfold Negrete.findZ at hz hz'
    rw [if_neg (by omega)] at hz hz'
    exact findZMulti_order hz hz'
  have hM1 : (1 : ℝ) ≤ M := by exact_mod_cast hM
  have hbig : 36 ≤ (2 * M * Real.pi) ^ 2 := by
    have : 6 ≤ 2 * M * Real.pi := by nlinarith
    nlinarith
  have hl1 : (1e-8 : ℝ) ≤ |z| := by rw [abs_of_pos (by linarith)]; norm_num; linarith
  have hl2 : (1e-8 : ℝ) ≤ |z'| := by rw [abs_of_pos (by linarith)]; norm_num; linarith
  obtain ⟨y, hy, hy0, rfl, rfl⟩ := reconstruct_ok hmu hr
  obtain ⟨y', hy', hy0', rfl, rfl⟩ := reconstruct_ok hmu hr'
  obtain ⟨c, rfl⟩ := yAtZ_large hl1 hy
  obtain ⟨c', rfl⟩ := yAtZ_large hl2 hy'
  rw [Complex.ofReal_re] at hy0 hy0'
  simp only [Complex.ofReal_re, mkOutput_v1, mkOutput_v2]
  have p1 := uv_ell hmu (by linarith) hw1 (hle.trans_lt hw2) hy0
  have p2 := uv_ell hmu (by linarith) (hw1.trans_le hle) hw2 hy0'
  have hant : z < z' → (V3.norm r1 + V3.norm r2 - uvY (V3.norm r1 + V3.norm r2) (signedA pro r1 r2) z') / signedA pro r1 r2 <
      (V3.norm r1 + V3.norm r2 - uvY (V3.norm r1 + V3.norm r2) (signedA pro r1 r2) z) / signedA pro r1 r2 := fun h =>
    window_anti hG.hA hw1 h hw2
  have a1 := p1.arc hmu hG
  have a2 := p2.arc hmu hG
  clear hr hr' hz hz' hzL hzH hy hy' hL hH
  generalize signedA pro r1 r2 = A at *
  generalize uvT mu (V3.norm r1 + V3.norm r2) A z = TL at *
  generalize uvT mu (V3.norm r1 + V3.norm r2) A z' = TH at *
  generalize hV : uvY (V3.norm r1 + V3.norm r2) A z = V at *
  generalize hV' : uvY (V3.norm r1 + V3.norm r2) A z' = V' at *
  obtain ⟨s, lam, hS, rfl⟩ := hG.semi
  have hs := hS.spos
  have hl := hS.lam_lt
  have hl0 : lam ≠ 0 := fun h => hG.hA (by rw [h, mul_zero])
  obtain ⟨m, hm⟩ := exists_fastest hl hM
  have q1 := p1
  have q2 := p2
  rw [hS.sum] at q1 q2
  obtain ⟨x, x1, x2, e1, hT⟩ := q1.rev hM hmu hs hl hl0
  obtain ⟨x', x1', x2', e2, hT'⟩ := q2.rev hM hmu hs hl hl0
  have hxx : z < z' → x' < x := by
    intro h
    have := hant h
    rwa [hS.sum, e1, e2, (lanc_lancY hl x').k_lt_iff hl0 (lanc_lancY hl x) hs] at this
  have hVx : z = z' → V = V' := fun h => by rw [← hV, ← hV', h]
  refine ⟨s, lam, x, x', m, TL, TH, hS, hm, ⟨x1, x2⟩, ⟨x1', x2'⟩, ?_, ?_, a1, a2, ?_, fun hTT hne => ?_⟩
  · unfold revV; rw [e1]
  · unfold revV; rw [e2]
  · rcases hle.eq_or_lt with h | h
    · exact (rev_inj hl hl0 hs (e1.symm.trans ((hVx h).trans e2))).ge
    · exact (hxx h).le
  · have hlt : z < z' := lt_of_le_of_ne hle (fun h => hne (by rw [hVx h]))
    have hκ0 : 0 < Real.sqrt (s ^ 3 / (2 * mu)) := by positivity
    have he : revT lam M x' = revT lam M x := mul_left_cancel₀ hκ0.ne' (hT'.symm.trans (hTT.symm.trans hT))
    obtain ⟨b1, b2⟩ := hm.between hl hM x1' (hxx hlt) x2 he
    exact ⟨b1, b2, energy_of_cos hmu hM hG p1 (by rw [hTT]; exact p2) (hant hlt)⟩

/-! ## McElreath -/

/-- The smaller root of a concave and the larger root of a convex parabola. -/
theorem parabola_roots {g lo hi xm : ℝ} (hg : 0 < g) (h1 : lo < xm) (h2 : xm < hi) {d d' : ℝ}
    (hd : d = Real.sqrt ((g * (lo + hi) + 1) ^ 2 - 4 * (-g) * (-(g * (lo * hi)) - xm)))
    (hd' : d' = Real.sqrt ((-(g * (lo + hi)) + 1) ^ 2 + 4 * (-g) * (g * (lo * hi) - xm))) :
    lo < (-(g * (lo + hi) + 1) + d) / (2 * -g) ∧ (-(g * (lo + hi) + 1) + d) / (2 * -g) < xm ∧
      xm < (-(-(g * (lo + hi)) + 1) + d') / (-2 * -g) ∧ (-(-(g * (lo + hi)) + 1) + d') / (-2 * -g) < hi := by
  have hp : 0 < (xm - lo) * (hi - xm) := mul_pos (by linarith) (by linarith)
  have e : ∀ a : ℝ, a / (2 * -g) = -a / (2 * g) := fun a => by rw [mul_neg, div_neg, neg_div]
  have e' : ∀ a : ℝ, a / (-2 * -g) = a / (2 * g) := fun a => by rw [neg_mul_neg]
  rw [e, e']
  -- discriminants as squares at the bracket ends and at the minimum
  have q1 : ∀ t : ℝ, (g * (lo + hi) + 1) ^ 2 - 4 * (-g) * (-(g * (lo * hi)) - xm) =
      (g * (lo + hi) + 1 - 2 * g * t) ^ 2 + 4 * g * (g * (t - lo) * (hi - t) + t - xm) := fun t => by ring
  have q2 : ∀ t : ℝ, (-(g * (lo + hi)) + 1) ^ 2 + 4 * (-g) * (g * (lo * hi) - xm) =
      (2 * g * t - g * (lo + hi) + 1) ^ 2 - 4 * g * (g * (t - lo) * (t - hi) + t - xm) := fun t => by ring
  have g2 : 0 < 2 * g := by linarith
  have g4 : 0 < 4 * g := by linarith
  refine ⟨?_, ?_, ?_, ?_⟩
  · rw [lt_div_iff₀ g2, hd]
    have : Real.sqrt ((g * (lo + hi) + 1) ^ 2 - 4 * (-g) * (-(g * (lo * hi)) - xm)) < g * (lo + hi) + 1 - 2 * g * lo := by
      rw [Real.sqrt_lt' (by nlinarith), q1 lo]
      nlinarith
    linarith
  · rw [div_lt_iff₀ g2, hd]
    have : g * (lo + hi) + 1 - 2 * g * xm < Real.sqrt ((g * (lo + hi) + 1) ^ 2 - 4 * (-g) * (-(g * (lo * hi)) - xm)) := by
      apply Real.lt_sqrt_of_sq_lt
      rw [q1 xm]
      have : 0 < 4 * g * (g * ((xm - lo) * (hi - xm))) := by positivity
      linarith
    linarith
  · rw [lt_div_iff₀ g2, hd']
    have : 2 * g * xm - g * (lo + hi) + 1 < Real.sqrt ((-(g * (lo + hi)) + 1) ^ 2 + 4 * (-g) * (g * (lo * hi) - xm)) := by
      apply Real.lt_sqrt_of_sq_lt
      rw [q2 xm]
      have : 0 < 4 * g * (g * ((xm - lo) * (hi - xm))) := by positivity
      linarith
    linarith
  · rw [div_lt_iff₀ g2, hd']
    have : Real.sqrt ((-(g * (lo + hi)) + 1) ^ 2 + 4 * (-g) * (g * (lo * hi) - xm)) < 2 * g * hi - g * (lo + hi) + 1 := by
      rw [Real.sqrt_lt' (by nlinarith), q2 hi]
      nlinarith
    linarith

/-- **C41, `mcelreath2025`.**  Whenever `_multi_revolution_initial_guesses` returns for a minimum
inside the window of `M` revolutions, the guess of the low path lies in the window before the
minimum and the one of the high path in the window beyond it. -/
theorem mcelreath_low_path {tof tofMin xMin S m dtheta xShort xLong : ℝ} {M : ℕ}
    (h : McElreath.multiRevolutionInitialGuesses tof tofMin xMin S m dtheta M = .ok (xShort, xLong))
    (h1 : 2 * Real.pi * M < xMin) (h2 : xMin < 2 * Real.pi * (M + 1)) :
    2 * Real.pi * M < xShort ∧ xShort < xMin ∧ xMin < xLong ∧ xLong < 2 * Real.pi * (M + 1) := by
  unfold McElreath.multiRevolutionInitialGuesses at h
  simp only [bind_ok, pdiv_ok, psqrt_ok] at h
  obtain ⟨tt, htt, sc, ⟨_, rfl⟩, g, ⟨hg0, rfl⟩, d, ⟨hd0, hd⟩, _, ⟨hγ, rfl⟩, d', ⟨hd0', hd'⟩, _, ⟨hγ', rfl⟩, h⟩ := h
  obtain ⟨rfl, rfl⟩ := Prod.mk.inj (Except.ok.inj h)
  generalize hgd : Real.sqrt ((tof - tofMin) * _) = g at *
  have hg : 0 < g := by
    refine lt_of_le_of_ne (by rw [← hgd]; exact Real.sqrt_nonneg _) (fun h => hγ (by rw [← h]; simp))
  have e1 : -(2 * Real.pi) * (M + (M + 1)) * -g + 1 = g * (2 * Real.pi * M + 2 * Real.pi * (M + 1)) + 1 := by ring
  have e2 : 2 * Real.pi * (M + (M + 1)) * -g + 1 = -(g * (2 * Real.pi * M + 2 * Real.pi * (M + 1))) + 1 := by ring
  rw [e1] at hd ⊢
  rw [e2] at hd' ⊢
  refine parabola_roots hg h1 h2 ?_ ?_
  · rw [hd]; congr 1; ring
  · rw [hd']; congr 1; ring

/-! ## Arora -/

namespace Arora

/-- `k` as a parametrisation of the transfers with `M` revolutions: it increases with the
Lancaster variable, and the code's time is the time of that transfer. -/
theorem param {mu s lam : ℝ} {M : ℕ} (hmu : 0 < mu) (hs : 0 < s) (hl : lam ^ 2 < 1) (hl0 : lam ≠ 0) (hM : 1 ≤ M) {tau S : ℝ}
    (htau : tau = Real.sqrt 2 * s * lam / (s * (1 + lam ^ 2))) (hS : S = Real.sqrt ((s * (1 + lam ^ 2)) ^ 3 / mu)) :
    ∃ X : ℝ → ℝ, (∀ k ∈ Ioo (-Real.sqrt 2) (Real.sqrt 2), X k ∈ Ioo (-1) 1 ∧
        k = (s * (1 + lam ^ 2) - s * (lancY lam (X k) - lam * X k) ^ 2) / (Real.sqrt 2 * s * lam) ∧
        tofAt tau S M k = .ok (Real.sqrt (s ^ 3 / (2 * mu)) * revT lam M (X k)) ∧
        Real.sqrt (s ^ 3 / (2 * mu)) * revT lam M (X k) =
          timeW mu (s * (1 + lam ^ 2)) (Real.sqrt 2 * s * lam) k (ellW k M)) ∧
      StrictMonoOn X (Ioo (-Real.sqrt 2) (Real.sqrt 2)) := by
  have hr2 : Real.sqrt 2 ^ 2 = 2 := Real.sq_sqrt (by norm_num)
  have hrp : 0 < Real.sqrt 2 := by positivity
  have hA : Real.sqrt 2 * s * lam ≠ 0 := mul_ne_zero (by positivity) hl0
  have hP : 0 < s * (1 + lam ^ 2) := by positivity
  have hb := Delatorre.lam_bound hs hl
  have key : ∀ k, ∃ x, k ∈ Ioo (-Real.sqrt 2) (Real.sqrt 2) → x ∈ Ioo (-1) 1 ∧
        k = (s * (1 + lam ^ 2) - s * (lancY lam x - lam * x) ^ 2) / (Real.sqrt 2 * s * lam) ∧
        tofAt tau S M k = .ok (Real.sqrt (s ^ 3 / (2 * mu)) * revT lam M x) ∧
        Real.sqrt (s ^ 3 / (2 * mu)) * revT lam M x =
          timeW mu (s * (1 + lam ^ 2)) (Real.sqrt 2 * s * lam) k (ellW k M) := by
    intro k
    by_cases hk : k ∈ Ioo (-Real.sqrt 2) (Real.sqrt 2)
    · have hV0 : 0 < s * (1 + lam ^ 2) - k * (Real.sqrt 2 * s * lam) := by
        have h1 : |k| < Real.sqrt 2 := abs_lt.2 hk
        have h2 : |k * (Real.sqrt 2 * s * lam)| ≤ |Real.sqrt 2 * (Real.sqrt 2 * s * lam)| := by
          rw [abs_mul k, abs_mul (Real.sqrt 2) (Real.sqrt 2 * s * lam), abs_of_pos hrp]
          gcongr
        have := le_abs_self (k * (Real.sqrt 2 * s * lam))
        linarith
      have hp := path_ell (M := M) hmu hP hk.1 hk.2 rfl hV0
      obtain ⟨x, h1, h2, h3, h4⟩ := hp.rev hM hmu hs hl hl0
      refine ⟨x, fun _ => ⟨⟨h1, h2⟩, ?_, ?_, h4.symm⟩⟩
      · rw [← h3]; field_simp; ring
      · have hq : 0 ≤ 1 - k * tau := by
          have : 1 - k * tau = (s * (1 + lam ^ 2) - k * (Real.sqrt 2 * s * lam)) / (s * (1 + lam ^ 2)) := by
            rw [htau]; field_simp
          rw [this]; positivity
        unfold tofAt getTOF
        rw [getW_ell hk.1 hk.2 (.inr hM), ok_bind, psqrt_eq hq, ok_bind, ← h4, hS, htau]
        rfl
    · exact ⟨0, fun h => absurd h hk⟩
  choose X hX using key
  refine ⟨X, hX, fun k hk k' hk' hlt => ?_⟩
  rw [← (lanc_lancY hl (X k)).k_lt_iff hl0 (lanc_lancY hl (X k')) hs, ← (hX k hk).2.1, ← (hX k' hk').2.1]
  exact hlt

end Arora
open Arora

/-- **C41, `arora2013`.**  When `_get_multirev_k_guess` returns a guess that is not the minimum
itself, the exact root next to it (within `brentq`'s tolerances) is the transfer beyond the
fastest one on the low path and the transfer before it on the high path.  The scipy routines are
only assumed to keep their documented contract; the minimiser need not have found the minimum. -/
theorem arora_low_path {minimize : Minimizer} (hmin : MinimizerSpec minimize)
    (hval : ∀ {f : ℝ → Py ℝ} {lo hi xatol x fx : ℝ} {ok : Bool}, minimize f lo hi xatol = .ok (x, fx, ok) → f x = .ok fx)
    {brentq : Brent} (hb : BrentSpec brentq) {mu s lam tau S tof m : ℝ} {M : ℕ} (hmu : 0 < mu) (hs : 0 < s)
    (hl : lam ^ 2 < 1) (hl0 : lam ≠ 0) (hM : 1 ≤ M) (hm : Fastest lam M m)
    (htau : tau = Real.sqrt 2 * s * lam / (s * (1 + lam ^ 2))) (hS : S = Real.sqrt ((s * (1 + lam ^ 2)) ^ 3 / mu))
    {low : Bool} {atol rtol k : ℝ} (h : getMultirevKGuess minimize brentq tof tau S M low atol rtol = .ok k)
    (hat : 0 ≤ atol) :
    (∃ kMin tofMin, minimize (tofAt tau S M) (-Real.sqrt 2 + 1e-8) (Real.sqrt 2 - 1e-8) (max atol 1e-13) = .ok (kMin, tofMin, true) ∧
      |tof - tofMin| ≤ atol ∧ k = kMin) ∨
    ∃ k0 x, |k - k0| ≤ atol + rtol * |k0| ∧ x ∈ Ioo (-1) 1 ∧
      k0 = (s * (1 + lam ^ 2) - s * (lancY lam x - lam * x) ^ 2) / (Real.sqrt 2 * s * lam) ∧
      tof = Real.sqrt (s ^ 3 / (2 * mu)) * lancT lam x (lancY lam x) M ∧ (if low then m < x else x < m) := by
  obtain ⟨X, hX, hXm⟩ := param hmu hs hl hl0 hM htau hS
  obtain ⟨hm0, hm1, hanti, hmono⟩ := hm.valley hl hM
  have hκ0 : 0 < Real.sqrt (s ^ 3 / (2 * mu)) := by positivity
  unfold getMultirevKGuess at h
  simp only [bind_ok, raiseIf_ok] at h
  obtain ⟨⟨kMin, tofMin, ok⟩, hmi, _, hok, _, hge, h⟩ := h
  have hl2 : (1.4 : ℝ) < Real.sqrt 2 := Real.lt_sqrt_of_sq_lt (by norm_num)
  norm_num at hl2
  have hmem := hmin (by norm_num; linarith) hmi
  have hle : kMin ≤ Real.sqrt 2 - 1e-8 := hmem.2
  have hgek : -Real.sqrt 2 + 1e-8 ≤ kMin := hmem.1
  have hin : ∀ {t : ℝ}, -Real.sqrt 2 + 1e-8 ≤ t → t ≤ Real.sqrt 2 - 1e-8 → t ∈ Ioo (-Real.sqrt 2) (Real.sqrt 2) := by
    intro t a b
    norm_num at a b
    exact ⟨by linarith, by linarith⟩
  have hkm := hin hgek hle
  have hv : tofMin = Real.sqrt (s ^ 3 / (2 * mu)) * revT lam M (X kMin) :=
    Except.ok.inj ((hval hmi).symm.trans (hX _ hkm).2.2.1)
  have hok' : ok = true := by
    simpa using hok
  subst hok'
  split at h
  · rename_i hc
    exact .inl ⟨kMin, tofMin, hmi, hc, (Except.ok.inj h).symm⟩
  · rename_i hc
    right
    have hgt : tofMin < tof := by
      have h1 := hge
      push Not at hc h1
      rcases abs_cases (tof - tofMin) with ⟨e, -⟩ | ⟨e, -⟩
      · simp only at h1 hc; linarith
      · simp only at h1 hc; linarith
    have hcont : ContinuousOn (fun k => Real.sqrt (s ^ 3 / (2 * mu)) * revT lam M (X k) - tof)
        (Ioo (-Real.sqrt 2) (Real.sqrt 2)) := by
      have hc : ContinuousOn (fun k => timeW mu (s * (1 + lam ^ 2)) (Real.sqrt 2 * s * lam) k (ellW k M) - tof)
          (Ioo (-Real.sqrt 2) (Real.sqrt 2)) := by
        intro t ht
        obtain ⟨φ, hφ, h0, hpi, hk, hs, hm, hq⟩ := ell_angle ht.1 ht.2
        have n1 : 2 - t ^ 2 ≠ 0 := by rw [hm]; positivity
        have n2 : Real.sqrt (2 - t ^ 2) ≠ 0 := by rw [hq]; positivity
        apply ContinuousAt.continuousWithinAt
        unfold timeW ellW
        have c1 : ContinuousAt (fun k : ℝ => Real.arccos (k / Real.sqrt 2)) t :=
          (Real.continuous_arccos.comp (continuous_id.div_const _)).continuousAt
        have c2 : ContinuousAt (fun k : ℝ => Real.sqrt (2 - k ^ 2)) t := by fun_prop
        have c3 : ContinuousAt (fun k : ℝ => 2 - k ^ 2) t := by fun_prop
        have c4 : ContinuousAt (fun k : ℝ => (2 * Real.arccos (k / Real.sqrt 2) + 2 * Real.pi * M) / Real.sqrt (2 - k ^ 2) ^ 3 -
            k / (2 - k ^ 2)) t :=
          (((continuousAt_const.mul c1).add continuousAt_const).div (c2.pow 3) (pow_ne_zero _ n2)).sub
            (continuousAt_id.div c3 n1)
        fun_prop
      exact hc.congr (fun t ht => by simp only; rw [(hX t ht).2.2.2])
    simp only [bind_ok] at h
    obtain ⟨⟨k', n⟩, hbr, h⟩ := h
    obtain rfl := Except.ok.inj h
    have hf : ∀ t ∈ Ioo (-Real.sqrt 2) (Real.sqrt 2), (do
      let r ← tofAt tau S M t
      .ok (r - tof) : Py ℝ) = .ok (Real.sqrt (s ^ 3 / (2 * mu)) * revT lam M (X t) - tof) := by
      intro t ht
      rw [(hX t ht).2.2.1, ok_bind]
    have hfin : ∀ {k0 : ℝ}, k0 ∈ Ioo (-Real.sqrt 2) (Real.sqrt 2) → Real.sqrt (s ^ 3 / (2 * mu)) * revT lam M (X k0) - tof = 0 →
        revT lam M (X kMin) < revT lam M (X k0) := by
      intro k0 _ h0
      rw [hv] at hgt
      exact lt_of_mul_lt_mul_left (by linarith) hκ0.le
    cases low
    · rw [if_neg (by simp), if_neg (by simp)] at hbr
      have hsub : Icc (-Real.sqrt 2 + 1e-8) kMin ⊆ Ioo (-Real.sqrt 2) (Real.sqrt 2) := fun t ht => hin ht.1 (ht.2.trans hle)
      obtain ⟨k0, hk0, h0, hd⟩ := hb.root hgek (hcont.mono hsub) (fun t ht => hf t (hsub ht)) hbr
      have hi := hsub hk0
      refine ⟨k0, X k0, hd, (hX _ hi).1, (hX _ hi).2.1, by rw [← revT]; linarith, ?_⟩
      rw [if_neg (by simp)]
      exact valley_left (g := revT lam M) (D := Ioo (-1) 1) (c := X kMin)
        (fun a ha b hb hab => hmono ⟨ha.2, ha.1.2⟩ ⟨hb.2, hb.1.2⟩ hab) (hX _ hkm).1 (hX _ hi).1
        (hXm.monotoneOn hi hkm hk0.2) (hfin hi h0)
    · rw [if_pos rfl, if_pos rfl] at hbr
      have hsub : Icc kMin (Real.sqrt 2 - 1e-8) ⊆ Ioo (-Real.sqrt 2) (Real.sqrt 2) := fun t ht => hin (hgek.trans ht.1) ht.2
      obtain ⟨k0, hk0, h0, hd⟩ := hb.root hle (hcont.mono hsub) (fun t ht => hf t (hsub ht)) hbr
      have hi := hsub hk0
      refine ⟨k0, X k0, hd, (hX _ hi).1, (hX _ hi).2.1, by rw [← revT]; linarith, ?_⟩
      rw [if_pos rfl]
      exact valley_right (g := revT lam M) (D := Ioo (-1) 1) (c := X kMin)
        (fun a ha b hb hab => hanti ⟨ha.1.1, ha.2⟩ ⟨hb.1.1, hb.2⟩ hab) (hX _ hkm).1 (hX _ hi).1
        (hXm.monotoneOn hkm hi hk0.1) (hfin hi h0)

/-! ## Der's fallback -/

/-- **C41, `der2011`, fallback.**  The exact root next to the one returned by
`_solve_elliptic_bracketed` is before the fastest transfer on the high path (`x0 < 0`); on the
low path it is beyond it when the requested time exceeds the one at `x = 0`. -/
theorem der_fallback_low_path {b : Brent} (hb : BrentSpec b) {sigma m tau x0 : ℝ} {M : ℕ} (hl : sigma ^ 2 < 1) (h0 : sigma ≠ 0)
    (hM : 1 ≤ M) (hm : Fastest sigma M m) {maxiter : ℕ} {atol rtol x y : ℝ} {n : ℕ}
    (h : Der.solveEllipticBracketed b sigma tau M x0 maxiter atol rtol = .ok (x, y, n)) :
    ∃ t ∈ Ioo (-1) 1, |x - t| ≤ atol + rtol * |t| ∧ lancT sigma t (lancY sigma t) M = tau ∧
      (x0 < 0 → t < m) ∧ (0 ≤ x0 → lancT sigma 0 (lancY sigma 0) M < tau → m < t) := by
  obtain ⟨hm0, hm1, hanti, hmono⟩ := hm.valley hl hM
  have e0 := Der.eps_pos
  have e1 := Der.eps_lt
  unfold Der.solveEllipticBracketed at h
  simp only [bind_ok] at h
  obtain ⟨⟨x', k⟩, hbr, h⟩ := h
  obtain ⟨rfl, -⟩ := Prod.mk.inj (Except.ok.inj h)
  have hbr := Der.reraise_ok hbr
  have hcont := Der.lancT_cont_ell hl h0 M
  norm_num at hbr
  by_cases hx : x0 < 0
  · rw [if_pos hx, if_pos hx] at hbr
    have hsub : Icc (-1 + Der.eps) 0 ⊆ Ioo (-1) 1 := fun t ht => ⟨by linarith [ht.1], by linarith [ht.2]⟩
    obtain ⟨t, ht, hz, hd⟩ := hb.root (by linarith) ((hcont.mono hsub).sub continuousOn_const)
      (fun t ht => Der.ellipticEquation_eq hl h0 (hsub ht).1 (hsub ht).2) hbr
    exact ⟨t, hsub ht, hd, sub_eq_zero.1 hz, fun _ => ht.2.trans_lt hm0, fun h => absurd h (not_le.2 hx)⟩
  · rw [if_neg hx, if_neg hx] at hbr
    have hsub : Icc 0 (1 - Der.eps) ⊆ Ioo (-1) 1 := fun t ht => ⟨by linarith [ht.1], by linarith [ht.2]⟩
    obtain ⟨t, ht, hz, hd⟩ := hb.root (by linarith) ((hcont.mono hsub).sub continuousOn_const)
      (fun t ht => Der.ellipticEquation_eq hl h0 (hsub ht).1 (hsub ht).2) hbr
    refine ⟨t, hsub ht, hd, sub_eq_zero.1 hz, fun h => absurd h hx, fun _ hlt => ?_⟩
    refine valley_right (g := revT sigma M) (D := Ioo (-1) 1) (c := 0)
        (fun a ha b hb hab => hanti ⟨ha.1.1, ha.2⟩ ⟨hb.1.1, hb.2⟩ hab) (by norm_num) (hsub ht) ht.1 ?_
    show lancT sigma 0 (lancY sigma 0) M < lancT sigma t (lancY sigma t) M
    have := sub_eq_zero.1 hz
    linarith

/-- The fallback refuses both paths for every feasible time below the one at `x = 0`, although
both transfers exist: the code's bracket splits at `x = 0` instead of at the fastest transfer. -/
theorem der_fallback_refuses {b : Brent} (hb : BrentSpec b) {sigma m tau : ℝ} {M : ℕ} (hl : sigma ^ 2 < 1) (h0 : sigma ≠ 0)
    (hM : 1 ≤ M) (hm : Fastest sigma M m) (h1 : lancT sigma m (lancY sigma m) M < tau)
    (h2 : tau < lancT sigma 0 (lancY sigma 0) M) :
    (∃ x ∈ Ioo (-1) m, lancT sigma x (lancY sigma x) M = tau) ∧ (∃ x ∈ Ioo m 1, lancT sigma x (lancY sigma x) M = tau) ∧
    ∀ x0 maxiter atol rtol, Der.solveEllipticBracketed b sigma tau M x0 maxiter atol rtol =
      .error (.valueError "Exceeded maximum number of iterations.") := by
  obtain ⟨hm0, hm1, hanti, hmono⟩ := hm.valley hl hM
  have e0 := Der.eps_pos
  have e1 := Der.eps_lt
  have hpi := Real.pi_gt_three
  have hM1 : (1 : ℝ) ≤ M := by exact_mod_cast hM
  -- the time at the middle and at the ends
  have hT0 : lancT sigma 0 (lancY sigma 0) M ≤ (M + 1) * Real.pi + 1 := by
    have := Real.arccos_le_pi ((0 : ℝ) * lancY sigma 0 + sigma * (1 - 0 ^ 2))
    have hy : lancY sigma 0 ≤ 1 := by
      unfold lancY
      rw [Real.sqrt_le_one]; nlinarith [sq_nonneg sigma]
    have hy0 : 0 ≤ lancY sigma 0 := Real.sqrt_nonneg _
    have hsy : sigma * lancY sigma 0 ≤ 1 := by
      have := abs_lt.1 ((sq_lt_one_iff_abs_lt_one _).1 hl)
      nlinarith
    unfold lancT
    rw [if_pos (by norm_num)]
    norm_num at this ⊢
    linarith
  have hend : ∀ x : ℝ, -1 < x → x < 1 → x ^ 2 = (1 - Der.eps) ^ 2 → tau < lancT sigma x (lancY sigma x) M := by
    intro x a b hx
    have hlow := revT_lower hl a b M
    have hw2 : 1 - x ^ 2 ≤ (1 / 10) ^ 2 := by
      rw [hx]; unfold Der.eps; norm_num
    have hw : Real.sqrt (1 - x ^ 2) ≤ 1 / 10 := Real.sqrt_le_iff.2 ⟨by norm_num, hw2⟩
    have hc : Real.sqrt (1 - x ^ 2) ^ 3 ≤ (1 / 10) ^ 3 := pow_le_pow_left₀ (Real.sqrt_nonneg _) hw 3
    have hp := revT_pos hl a b M
    have : M * Real.pi < revT sigma M x * (1 / 10) ^ 3 := hlow.trans_le (mul_le_mul_of_nonneg_left hc hp.le)
    have h4 : lancT sigma x (lancY sigma x) M = revT sigma M x := rfl
    rw [h4]
    nlinarith
  have hcont := Der.lancT_cont_ell hl h0 M
  refine ⟨?_, ?_, fun x0 maxiter atol rtol => ?_⟩
  · obtain ⟨a, _, a1, a2, -, -, ea, -⟩ := (revT_between hl hM hm h1)
    exact ⟨a, ⟨a1, a2⟩, ea⟩
  · obtain ⟨_, a, -, -, a1, a2, -, ea, -⟩ := (revT_between hl hM hm h1)
    exact ⟨a, ⟨a1, a2⟩, ea⟩
  · have hlo : Der.ellipticEquation sigma tau M 0 = .ok (lancT sigma 0 (lancY sigma 0) M - tau) :=
      Der.ellipticEquation_eq hl h0 (by norm_num) (by norm_num)
    unfold Der.solveEllipticBracketed
    norm_num
    by_cases hx : x0 < 0
    · rw [if_pos hx, if_pos hx]
      have a := hend (-1 + Der.eps) (by linarith) (by linarith) (by ring)
      obtain ⟨msg, e⟩ := hb.refuses (xtol := atol) (rtol := rtol) (maxiter := maxiter)
        (Der.ellipticEquation_eq (tau := tau) (M := M) hl h0 (by linarith : -1 < -1 + Der.eps) (by linarith)) hlo
        (mul_pos (by linarith) (by linarith))
      rw [e]; rfl
    · rw [if_neg hx, if_neg hx]
      have a := hend (1 - Der.eps) (by linarith) (by linarith) rfl
      obtain ⟨msg, e⟩ := hb.refuses (xtol := atol) (rtol := rtol) (maxiter := maxiter) hlo
        (Der.ellipticEquation_eq (tau := tau) (M := M) hl h0 (by linarith : -1 < 1 - Der.eps) (by linarith))
        (mul_pos (by linarith) (by linarith))
      rw [e]; rfl

/-- The gap is not empty: the fastest transfer is strictly faster than the one at `x = 0`. -/
example : ∃ m tau, Fastest (1 / 2) 1 m ∧ lancT (1 / 2) m (lancY (1 / 2) m) 1 < tau ∧
    tau < lancT (1 / 2) 0 (lancY (1 / 2) 0) 1 := by
  have hl : (1 / 2 : ℝ) ^ 2 < 1 := by norm_num
  obtain ⟨m, hm⟩ := exists_fastest hl le_rfl
  obtain ⟨hm0, hm1, hanti, hmono⟩ := hm.valley hl le_rfl
  have h : revT (1 / 2) 1 m < revT (1 / 2) 1 0 := hanti ⟨by norm_num, hm0.le⟩ ⟨by linarith, le_rfl⟩ hm0
  exact ⟨m, _, hm, left_lt_add_div_two.2 h, add_div_two_lt_right.2 h⟩

end Lamberthub
