import Verif.Props.Brackets
import Verif.Props.DelatorreMore
import Verif.Proofs.PathTime
import Mathlib.Topology.UniformSpace.HeineCantor
import Mathlib.Topology.Order.IntermediateValue

/-! # C36 and C52: the searches of `delatorre2018` -/

set_option autoImplicit false

namespace Lamberthub
open Spec LC Delatorre

/-! ## C36: golden section -/

/-- The function is defined on `[lo, hi]`, decreases up to `m` and increases after it. -/
structure Spec.Unimodal (F : ℝ → Py ℝ) (g : ℝ → ℝ) (lo hi m : ℝ) : Prop where
  mem : lo ≤ m ∧ m ≤ hi
  defined : ∀ z ∈ Set.Icc lo hi, F z = .ok (g z)
  anti : StrictAntiOn g (Set.Icc lo m)
  mono : StrictMonoOn g (Set.Icc m hi)

/-- What holds between two steps: the interior points divide the interval in the golden
ratio, the stored times are those of these points and the minimiser is inside. -/
structure Spec.GoldenInv (g : ℝ → ℝ) (lo hi m : ℝ) (s : Golden) : Prop where
  nested : lo ≤ s.zLow ∧ s.zHigh ≤ hi
  mini : s.zLow ≤ m ∧ m ≤ s.zHigh
  inner1 : s.z1 = s.zHigh - (Real.sqrt 5 - 1) / 2 * (s.zHigh - s.zLow)
  inner2 : s.z2 = s.zLow + (Real.sqrt 5 - 1) / 2 * (s.zHigh - s.zLow)
  time1 : s.t1 = g s.z1
  time2 : s.t2 = g s.z2

namespace Delatorre

theorem gr_sq : gr ^ 2 = 1 - gr := by
  unfold gr
  have : Real.sqrt 5 ^ 2 = 5 := Real.sq_sqrt (by norm_num)
  nlinarith

theorem gr_half : 1 / 2 < gr := by
  unfold gr
  have h1 : (2 : ℝ) < Real.sqrt 5 := Real.lt_sqrt_of_sq_lt (by norm_num)
  linarith

end Delatorre

/-- One step of the search keeps the minimiser and shrinks the interval by the golden ratio. -/
theorem golden_step {F : ℝ → Py ℝ} {g : ℝ → ℝ} {lo hi m : ℝ} (hF : Unimodal F g lo hi m) {s : Golden}
    (hs : GoldenInv g lo hi m s) : ∃ s', goldenStep F s = .ok s' ∧ GoldenInv g lo hi m s' ∧
      s'.zHigh - s'.zLow = (Real.sqrt 5 - 1) / 2 * (s.zHigh - s.zLow) := by
  have hg := gr_mem
  have hg2 := gr_sq
  have hg3 := gr_half
  have egr : (Real.sqrt 5 - 1) / 2 = gr := rfl
  obtain ⟨⟨n1, n2⟩, ⟨m1, m2⟩, i1, i2, t1, t2⟩ := hs
  rw [egr] at i1 i2 ⊢
  obtain ⟨w, hw⟩ : ∃ w, w = s.zHigh - s.zLow := ⟨_, rfl⟩
  have hw0 : 0 ≤ w := by linarith
  rw [← hw] at i1 i2 ⊢
  have hgw : gr * w ≤ w := by nlinarith
  have hgw0 : 0 ≤ gr * w := by nlinarith
  have hgw1 : w ≤ 2 * (gr * w) := by nlinarith
  have hg2w : gr * (gr * w) = w - gr * w := by rw [← mul_assoc, ← sq, hg2]; ring
  unfold goldenStep
  rcases hw0.eq_or_lt with hw1 | hw1
  · -- a single point
    have e1 : s.zHigh = s.zLow := by linarith
    have hml : m = s.zLow := by linarith
    rw [← hw1, mul_zero] at i1 i2 ⊢
    have e2 : s.z1 = s.zLow := by linarith
    have e3 : s.z2 = s.zLow := by linarith
    have hd := hF.defined s.zLow ⟨n1, by linarith⟩
    split
    · rename_i h
      rw [t1, t2, e2, e3] at h
      exact absurd h (lt_irrefl _)
    · simp only []
      rw [e2, e3, sub_self, mul_zero, sub_zero, hd, ok_bind]
      refine ⟨_, rfl, ⟨⟨n1, by linarith⟩, ⟨m1, hml.le⟩, ?_, ?_, rfl, ?_⟩, by simp⟩
      · simp
      · simp
      · simp only; rw [t1, e2]
  have h12 : s.z1 < s.z2 := by nlinarith
  split
  · rename_i h
    simp only []
    have hmz : s.z1 ≤ m := by
      by_contra hc
      rw [not_le] at hc
      have := hF.mono ⟨hc.le, by linarith⟩ ⟨by linarith, by linarith⟩ h12
      rw [t1, t2] at h
      linarith
    have ez : s.zHigh - s.z1 = gr * w := by linarith
    rw [ez, hF.defined (s.z1 + gr * (gr * w)) ⟨by linarith, by linarith⟩, ok_bind]
    refine ⟨_, rfl, ⟨⟨by simp only; linarith, n2⟩, ⟨hmz, m2⟩, ?_, ?_, t2, rfl⟩, ez⟩
    · simp only; rw [egr, ez]; linarith
    · simp only; rw [egr, ez]
  · rename_i h
    simp only []
    have hmz : m ≤ s.z2 := by
      by_contra hc
      rw [not_le] at hc
      have := hF.anti ⟨by linarith, by linarith⟩ ⟨by linarith, hc.le⟩ h12
      rw [t1, t2] at h
      exact h this
    have ez : s.z2 - s.zLow = gr * w := by linarith
    rw [ez, hF.defined (s.z2 - gr * (gr * w)) ⟨by linarith, by linarith⟩, ok_bind]
    refine ⟨_, rfl, ⟨⟨n1, by simp only; linarith⟩, ⟨m1, hmz⟩, ?_, ?_, rfl, t1⟩, ez⟩
    · simp only; rw [egr, ez]
    · simp only; rw [egr, ez]; linarith

/-- **C36.** For every unimodal time function and every number of passes the golden-section
search of `_find_minimum_time` returns a point of the initial interval and its time; after
`k` passes the interval has shrunk by the `k`-th power of the golden ratio and still
contains the minimiser, `k` being the pass where the tolerance was met or the last one. -/
theorem golden_section {F : ℝ → Py ℝ} {g : ℝ → ℝ} {lo hi m : ℝ} (hF : Unimodal F g lo hi m) (atol rtol : ℝ)
    (passes : ℕ) : ∃ z t k, goldenSearch F atol rtol lo hi passes = .ok (z, t) ∧ z ∈ Set.Icc lo hi ∧ t = g z ∧
      k ≤ passes ∧ |z - m| ≤ ((Real.sqrt 5 - 1) / 2) ^ k * (hi - lo) / 2 ∧
      (k = passes ∨ 1 ≤ k ∧ ∃ z1 ∈ Set.Icc lo hi, ((Real.sqrt 5 - 1) / 2) ^ k * (hi - lo) ≤ atol + rtol * |z1|) := by
  have egr : (Real.sqrt 5 - 1) / 2 = gr := rfl
  have hg := gr_mem
  obtain ⟨hm1, hm2⟩ := hF.mem
  have hloop : ∀ (n j : ℕ) (s : Golden), GoldenInv g lo hi m s → s.zHigh - s.zLow = gr ^ j * (hi - lo) →
      ∃ s' k, goldenLoop F atol rtol n s = .ok s' ∧ GoldenInv g lo hi m s' ∧ j ≤ k ∧ k ≤ j + n ∧
        s'.zHigh - s'.zLow = gr ^ k * (hi - lo) ∧
        (k = j + n ∨ j + 1 ≤ k ∧ gr ^ k * (hi - lo) ≤ atol + rtol * |s'.z1|) := by
    intro n
    induction n with
    | zero => intro j s hs hw; exact ⟨s, j, rfl, hs, le_rfl, le_rfl, hw, .inl rfl⟩
    | succ n ih =>
      intro j s hs hw
      obtain ⟨s1, h1, h2, h3⟩ := golden_step hF hs
      rw [egr, hw, ← mul_assoc, ← pow_succ'] at h3
      rw [goldenLoop, h1, ok_bind]
      split
      · rename_i hle
        refine ⟨s1, j + 1, rfl, h2, by omega, by omega, h3, .inr ⟨le_rfl, ?_⟩⟩
        rw [← h3]; exact (le_abs_self _).trans hle
      · obtain ⟨s', k, a, b, c, d, e, f⟩ := ih (j + 1) s1 h2 h3
        refine ⟨s', k, a, b, by omega, by omega, e, ?_⟩
        rcases f with f | f
        · exact .inl (by omega)
        · exact .inr ⟨by omega, f.2⟩
  have hw : 0 ≤ hi - lo := by linarith
  have hgw : gr * (hi - lo) ≤ hi - lo := by nlinarith [hg.2]
  have hgw0 : 0 ≤ gr * (hi - lo) := mul_nonneg hg.1.le hw
  obtain ⟨s, k, h1, h2, -, h3, h4, h5⟩ := hloop passes 0
    ⟨lo, hi, hi - gr * (hi - lo), lo + gr * (hi - lo), g (hi - gr * (hi - lo)), g (lo + gr * (hi - lo))⟩
    ⟨⟨le_rfl, le_rfl⟩, hF.mem, rfl, rfl, rfl, rfl⟩ (by simp)
  have hz : 0.5 * (s.zLow + s.zHigh) ∈ Set.Icc lo hi := by
    have := h2.nested
    have := h2.mini
    constructor <;> linarith
  refine ⟨0.5 * (s.zLow + s.zHigh), g (0.5 * (s.zLow + s.zHigh)), k, ?_, hz, rfl, by omega, ?_, ?_⟩
  · unfold goldenSearch
    simp only []
    rw [hF.defined (hi - gr * (hi - lo)) ⟨by linarith, by linarith⟩, ok_bind,
      hF.defined (lo + gr * (hi - lo)) ⟨by linarith, by linarith⟩, ok_bind, h1, ok_bind, hF.defined _ hz, ok_bind]
  · rw [egr, ← h4, abs_le]
    have := h2.mini
    constructor <;> linarith
  · rcases h5 with h5 | h5
    · exact .inl (by omega)
    · refine .inr ⟨by omega, s.z1, ?_, by rw [egr]; exact h5.2⟩
      have e1 := h2.inner1
      rw [egr] at e1
      have := h2.nested
      have := h2.mini
      have a1 : 0 ≤ gr * (s.zHigh - s.zLow) := mul_nonneg hg.1.le (by linarith)
      have a2 : gr * (s.zHigh - s.zLow) ≤ s.zHigh - s.zLow := by nlinarith [hg.2]
      constructor <;> linarith

/-- The hypotheses of `golden_section`: `(z - 1)²` on `[0, 5]`. -/
example : Unimodal (fun z => .ok ((z - 1) ^ 2)) (fun z => (z - 1) ^ 2) 0 5 1 := by
  refine ⟨by norm_num, fun _ _ => rfl, fun a ha b hb hab => ?_, fun a ha b hb hab => ?_⟩
  · nlinarith [ha.1, ha.2, hb.1, hb.2]
  · nlinarith [ha.1, ha.2, hb.1, hb.2]

/-! ## C52: the bracketed iteration is a bisection and converges -/

/-- The "safeguarded Newton iteration" of `_solve_bracketed` only ever bisects: the
candidate following the bracket update is the midpoint, for every time function. -/
theorem delatorre_bisects {F : ℝ → Py ℝ} {tof atol rtol z l u f z' l' u' f' : ℝ}
    (h : Delatorre.pass F tof atol rtol (z, l, u, f) = .ok (.inr (z', l', u', f'))) :
    z' = (l' + u') / 2 ∧ ((l' = l ∧ u' = z) ∨ (l' = z ∧ u' = u)) := by
  simp only [Delatorre.pass, bind_ok] at h
  obtain ⟨t, -, h⟩ := h
  split at h
  · simp at h
  split at h
  · simp only [Except.ok.injEq, Sum.inr.injEq, Prod.mk.injEq] at h
    obtain ⟨rfl, rfl, rfl, rfl⟩ := h
    rw [nextZ_end _ _ _ _ _ (.inr rfl)]
    exact ⟨by norm_num; ring, .inl ⟨rfl, rfl⟩⟩
  · simp only [Except.ok.injEq, Sum.inr.injEq, Prod.mk.injEq] at h
    obtain ⟨rfl, rfl, rfl, rfl⟩ := h
    rw [nextZ_end _ _ _ _ _ (.inl rfl)]
    exact ⟨by norm_num; ring, .inr ⟨rfl, rfl⟩⟩

/-- A root of a continuous function with a sign change. -/
theorem root_of_sign {g : ℝ → ℝ} {l u tof : ℝ} (hlu : l ≤ u) (hg : ContinuousOn g (Set.Icc l u))
    (hs : (g l - tof) * (g u - tof) ≤ 0) : ∃ p ∈ Set.Icc l u, g p = tof := by
  rcases mul_nonpos_iff.1 hs with ⟨h1, h2⟩ | ⟨h1, h2⟩
  · obtain ⟨p, hp, he⟩ := intermediate_value_Icc' hlu hg (show tof ∈ Set.Icc (g u) (g l) from ⟨by linarith, by linarith⟩)
    exact ⟨p, hp, he⟩
  · obtain ⟨p, hp, he⟩ := intermediate_value_Icc hlu hg (show tof ∈ Set.Icc (g l) (g u) from ⟨by linarith, by linarith⟩)
    exact ⟨p, hp, he⟩

/-- `_solve_bracketed` returns, given a large enough budget, for every continuous time
function with a sign change. -/
theorem delatorre_bracket_returns {F : ℝ → Py ℝ} {g : ℝ → ℝ} {lo hi tof atol rtol : ℝ} (hlh : lo ≤ hi)
    (hF : ∀ z ∈ Set.Icc lo hi, F z = .ok (g z)) (hg : ContinuousOn g (Set.Icc lo hi))
    (hs : (g lo - tof) * (g hi - tof) ≤ 0) (htol : 0 < atol + rtol * tof) :
    ∃ N0 : ℕ, ∀ N ≥ N0, ∃ z n, solveBracketed F tof lo hi N atol rtol = .ok (z, n) := by
  have huc := isCompact_Icc.uniformContinuousOn_of_continuous hg
  obtain ⟨δ, hδ, hcl⟩ := Metric.uniformContinuousOn_iff.1 huc _ htol
  obtain ⟨k, hk⟩ := pow_unbounded_of_one_lt ((hi - lo) / δ) one_lt_two
  rw [div_lt_iff₀ hδ] at hk
  have key : ∀ (r n : ℕ) (l u : ℝ), lo ≤ l → l ≤ u → u ≤ hi → (g l - tof) * (g u - tof) ≤ 0 → u - l < 2 ^ r * δ →
      ∃ z j, bracketLoop F tof atol rtol (r + 1) n (0.5 * (l + u)) l u (g l - tof) = .ok (z, j) := by
    intro r
    induction r with
    | zero =>
      intro n l u h1 h2 h3 h4 h5
      have hmid : 0.5 * (l + u) ∈ Set.Icc lo hi := ⟨by linarith, by linarith⟩
      obtain ⟨p, hp, hpt⟩ := root_of_sign h2 (hg.mono (Set.Icc_subset_Icc h1 h3)) h4
      have hc := hcl (0.5 * (l + u)) hmid p ⟨h1.trans hp.1, hp.2.trans h3⟩ (by
        rw [Real.dist_eq, abs_lt]
        have := hp.1
        have := hp.2
        constructor <;> linarith)
      rw [Real.dist_eq, hpt] at hc
      rw [bracketLoop, hF _ hmid, ok_bind]
      simp only []
      rw [if_pos hc.le]
      exact ⟨_, _, rfl⟩
    | succ r ih =>
      intro n l u h1 h2 h3 h4 h5
      rw [pow_succ] at h5
      have hmid : 0.5 * (l + u) ∈ Set.Icc lo hi := ⟨by linarith, by linarith⟩
      rw [bracketLoop, hF _ hmid, ok_bind]
      simp only []
      split
      · exact ⟨_, _, rfl⟩
      split
      · rename_i hc
        rw [nextZ_end _ _ _ _ _ (.inr rfl)]
        exact ih (n + 1) l (0.5 * (l + u)) h1 (by linarith) hmid.2 hc (by linarith)
      · rename_i hc
        rw [nextZ_end _ _ _ _ _ (.inl rfl)]
        refine ih (n + 1) (0.5 * (l + u)) u hmid.1 (by linarith) h3 ?_ (by linarith)
        rw [not_le] at hc
        by_contra h'
        rw [not_le] at h'
        nlinarith [mul_pos hc h', sq_nonneg (g (0.5 * (l + u)) - tof)]
  refine ⟨k + 1, fun N hN => ?_⟩
  obtain ⟨j, rfl⟩ := Nat.exists_eq_add_of_le hN
  unfold solveBracketed
  rw [hF lo ⟨le_rfl, hlh⟩, ok_bind, hF hi ⟨hlh, le_rfl⟩]
  simp only [ok_bind]
  split
  · exact ⟨_, _, rfl⟩
  split
  · exact ⟨_, _, rfl⟩
  rw [if_neg (not_lt.2 hs), show k + 1 + j = (k + j) + 1 by ring]
  refine key (k + j) 1 lo hi le_rfl hlh le_rfl hs ?_
  have : (2 : ℝ) ^ k ≤ 2 ^ (k + j) := pow_le_pow_right₀ (by norm_num) (by omega)
  nlinarith

namespace Delatorre

/-- The time equation is the universal-variable one at `4 z`. -/
theorem T0_uvT {P A mu z : ℝ} (hmu : 0 < mu) (hz : z < Real.pi ^ 2) (hV : 0 ≤ VofZ P (Real.sqrt 2 * A) z) :
    VofZ P (Real.sqrt 2 * A) z = uvY P A (4 * z) ∧ T0 P (Real.sqrt 2 * A) mu z = uvT mu P A (4 * z) := by
  have hpi := Real.pi_pos
  rcases lt_trichotomy z 0 with h | rfl | h
  · obtain ⟨φ, hφ, rfl⟩ := neg_sq' h
    rw [show 4 * -φ ^ 2 = -(2 * φ) ^ 2 by ring]
    have e : VofZ P (Real.sqrt 2 * A) (-φ ^ 2) = uvY P A (-(2 * φ) ^ 2) := by
      unfold VofZ; rw [series0_neg_sq, uvY_neg_sq hφ]
    rw [T0_neg_sq hφ, uvT_neg_sq hmu hφ (by rw [← e]; exact hV), e]
    exact ⟨rfl, rfl⟩
  · rw [mul_zero]
    have e : VofZ P (Real.sqrt 2 * A) 0 = uvY P A 0 := by
      unfold VofZ; rw [series0_zero, uvY_zero]; ring
    rw [T0_zero, uvT_zero hmu (by rw [← e]; exact hV), e]
    exact ⟨rfl, rfl⟩
  · obtain ⟨φ, hφ, rfl⟩ := pos_sq h
    have hφ2 : φ < Real.pi := lt_of_pow_lt_pow_left₀ 2 hpi.le hz
    have hs := Real.sin_pos_of_pos_of_lt_pi hφ hφ2
    rw [show 4 * φ ^ 2 = (2 * φ) ^ 2 by ring]
    have e : VofZ P (Real.sqrt 2 * A) (φ ^ 2) = uvY P A ((2 * φ) ^ 2) := by
      rw [VofZ_sq, uvY_sq (M := 0) hφ (by simpa using hφ) (by simpa using hφ2)]; ring
    rw [T0_sq hφ.ne' hs.ne', uvT_sq hmu hφ hs.ne' (by rw [← e]; exact hV), e, Tell, abs_of_pos hs]
    exact ⟨rfl, rfl⟩

theorem dom_iff {P A z : ℝ} (hz : z < Real.pi ^ 2) (hV : 0 < VofZ P (Real.sqrt 2 * A) z) : 4 * z ∈ uvDom P A :=
  ⟨by linarith, by rw [← (T0_uvT (mu := 1) one_pos hz hV.le).1]; exact hV⟩

theorem tof_eq {P A mu z : ℝ} (hmu : 0 < mu) (hz : z < Real.pi ^ 2) (hV : 0 < VofZ P (Real.sqrt 2 * A) z) :
    tofEquation P (Real.sqrt 2 * A) mu z 0 = .ok (uvT mu P A (4 * z)) := by
  have h1 : stumpffSeries 1 z ≠ 0 := by
    rcases lt_trichotomy z 0 with h | rfl | h
    · obtain ⟨φ, hφ, rfl⟩ := neg_sq' h
      rw [series1_neg_sq hφ.ne']
      have := Real.sinh_pos_iff.2 hφ
      positivity
    · rw [series1_zero]; norm_num
    · exact series1_ne h hz
  obtain ⟨t, ht⟩ := tofEquation_exists hmu hV.le h1 0 (.inl rfl)
  have e := (tofEquation_ok hmu ht).2.2
  simp only [if_true, add_zero] at e
  rw [ht, e, (T0_uvT hmu hz hV.le).2]

/-- The doubling loop ends on a lower end whose time is at most `tof`. -/
theorem lowerZ_returns {P A mu tof : ℝ} (hmu : 0 < mu) (hA : A < 0) (hP : |Real.sqrt 2 * A| < P) (htof : 0 < tof) :
    ∃ z < 0, lowerZ (fun z => tofEquation P (Real.sqrt 2 * A) mu z 0) tof (-1.0) = .ok z ∧
      uvT mu P A (4 * z) ≤ tof := by
  have hpi := Real.pi_pos
  have hs2 : 0 < Real.sqrt 2 := by positivity
  have hP0 : 0 < P := (abs_nonneg _).trans_lt hP
  have hV : ∀ z < 0, 0 < VofZ P (Real.sqrt 2 * A) z := by
    intro z hz
    obtain ⟨φ, hφ, rfl⟩ := neg_sq' hz
    unfold VofZ
    rw [series0_neg_sq]
    have := mul_pos (mul_pos hs2 (neg_pos.2 hA)) (Real.cosh_pos φ)
    linarith
  have hz' : ∀ z : ℝ, z < 0 → z < Real.pi ^ 2 := fun z hz => by nlinarith
  obtain ⟨ψ, hψ, hψ0, hψT⟩ := uvT_small_neg hmu hA hP htof
  obtain ⟨k, hk⟩ := pow_unbounded_of_one_lt (-ψ) one_lt_two
  have key : ∀ (n : ℕ) (z : ℝ), z < 0 → 4 * (z * 2 ^ n) ≤ ψ → ∃ z' t', z' < 0 ∧
      whileLoop (fun s : ℝ × ℝ => s.2 > tof) (fun s => do
        let z := s.1 * 2
        let t ← tofEquation P (Real.sqrt 2 * A) mu z 0
        .ok (z, t)) (z, uvT mu P A (4 * z)) = .ok (z', t') ∧ uvT mu P A (4 * z') ≤ tof := by
    intro n
    induction n with
    | zero =>
      intro z hz h
      rw [pow_zero, mul_one] at h
      have hle := ((uvT_strictMonoOn (μ := mu) hmu hP).le_iff_le (dom_iff (hz' z hz) (hV z hz)) hψ).2 h
      exact ⟨z, _, hz, whileLoop_false (not_lt.2 (hle.trans hψT.le)), hle.trans hψT.le⟩
    | succ n ih =>
      intro z hz h
      by_cases hc : uvT mu P A (4 * z) ≤ tof
      · exact ⟨z, _, hz, whileLoop_false (not_lt.2 hc), hc⟩
      · have hz2 : z * 2 < 0 := by linarith
        obtain ⟨z', t', h1, h2, h3⟩ := ih (z * 2) hz2 (by rw [pow_succ] at h; linarith)
        refine ⟨z', t', h1, ?_, h3⟩
        rw [whileLoop_true (s' := (z * 2, uvT mu P A (4 * (z * 2)))) (show uvT mu P A (4 * z) > tof from not_le.1 hc)
          (by simp only []; rw [tof_eq hmu (hz' _ hz2) (hV _ hz2), ok_bind])]
        exact h2
  obtain ⟨z', t', h1, h2, h3⟩ := key k (-1) (by norm_num) (by linarith)
  refine ⟨z', h1, ?_, h3⟩
  unfold lowerZ
  simp only []
  rw [show (-1.0 : ℝ) = -1 by norm_num, tof_eq hmu (by nlinarith) (hV _ (by norm_num)), ok_bind, h2]
  rfl

/-- On the short way the first lower end is not positive and inside the domain. -/
theorem startZ_short {P A : ℝ} (hA : 0 < A) (hPQ : (1 + 1e-12) * (Real.sqrt 2 * A) ≤ P) :
    ∃ z ≤ 0, startZ P (Real.sqrt 2 * A) = .ok z ∧ 0 < VofZ P (Real.sqrt 2 * A) z := by
  have hs2 : 0 < Real.sqrt 2 := by positivity
  have hQ : 0 < Real.sqrt 2 * A := by positivity
  obtain ⟨q, hq⟩ : ∃ q, q = P / (Real.sqrt 2 * A) := ⟨_, rfl⟩
  have hq1 : 1 + 1e-12 ≤ q := by rw [hq, le_div_iff₀ hQ]; exact hPQ
  have hPq : P = Real.sqrt 2 * A * q := by rw [hq]; field_simp
  have hq' : 1 ≤ q := by linarith
  obtain ⟨x, hx⟩ : ∃ x, x = Real.arcosh q := ⟨_, rfl⟩
  have hxc : Real.cosh x = q := by rw [hx]; exact Real.cosh_arcosh hq'
  have hx0 : 0 ≤ x := by rw [hx]; exact Real.arcosh_nonneg hq'
  have hx2 : 1e-12 ≤ x ^ 2 := by
    by_contra hc
    rw [not_le] at hc
    have hx1 : x ≤ 5 / 2 := by nlinarith
    have := Vallado.cosh_le hx0 hx1
    have h4 : x ^ 4 ≤ x ^ 2 := by
      have : x ^ 2 ≤ 1 := by linarith
      nlinarith [sq_nonneg x]
    rw [hxc] at this
    linarith
  have hx0' : 0 < x := by
    rcases hx0.eq_or_lt with h | h
    · rw [← h] at hx2; norm_num at hx2
    · exact h
  have hmax : max 1e-12 (|-(x ^ 2)| * 1e-12) ≤ x ^ 2 := by
    rw [abs_neg, abs_of_nonneg (by positivity)]
    exact max_le hx2 (by linarith [sq_nonneg x])
  have hmax0 : (0 : ℝ) < max 1e-12 (|-(x ^ 2)| * 1e-12) := lt_of_lt_of_le (by norm_num) (le_max_left _ _)
  refine ⟨-(x ^ 2) + max 1e-12 (|-(x ^ 2)| * 1e-12), by linarith, ?_, ?_⟩
  · unfold startZ
    rw [if_pos hQ, pdiv_eq hQ.ne', ok_bind, ← hq]
    unfold pacosh
    rw [if_pos hq', ok_bind, ← hx]
  · obtain ⟨z, hz⟩ : ∃ z, z = -(x ^ 2) + max 1e-12 (|-(x ^ 2)| * 1e-12) := ⟨_, rfl⟩
    rw [← hz]
    have hz0 : z ≤ 0 := by linarith
    have hzx : -(x ^ 2) < z := by linarith
    unfold VofZ
    rw [hPq, ← hxc]
    have : stumpffSeries 0 z < Real.cosh x := by
      rcases hz0.eq_or_lt with h | h
      · rw [h, series0_zero]; exact Real.one_lt_cosh.2 hx0'.ne'
      · obtain ⟨φ, hφ, rfl⟩ := neg_sq' h
        rw [series0_neg_sq]
        refine Real.cosh_lt_cosh.2 ?_
        rw [abs_of_pos hφ, abs_of_pos hx0']
        exact lt_of_pow_lt_pow_left₀ 2 hx0 (by linarith)
    nlinarith

/-- The time of the upper end of the bracket. -/
theorem upper_time {P A mu : ℝ} (hmu : 0 < mu) (hP : |Real.sqrt 2 * A| < P)
    (hpos : 0 < 1e36 * (P - |Real.sqrt 2 * A|) - P) :
    Real.sqrt ((P - |Real.sqrt 2 * A|) / mu) * (1e36 * (P - |Real.sqrt 2 * A|) - P) ≤
      uvT mu P A (4 * (Real.pi ^ 2 - 1e-12)) := by
  have hpi := Real.pi_gt_three
  have hz : 0 < Real.pi ^ 2 - 1e-12 := by norm_num; nlinarith
  have hz' : Real.pi ^ 2 - 1e-12 < Real.pi ^ 2 := by norm_num
  have hVp := VofZ_pos hP hz
  rw [← (T0_uvT hmu hz' hVp.le).2]
  obtain ⟨φ, hφ, hφe⟩ := pos_sq hz
  rw [hφe] at hVp hz' ⊢
  have hφ2 : φ < Real.pi := lt_of_pow_lt_pow_left₀ 2 (by linarith) hz'
  have hφ1 : 2 < φ := by
    by_contra hc
    rw [not_lt] at hc
    have : φ ^ 2 ≤ 4 := by nlinarith
    rw [← hφe] at this
    norm_num at this
    nlinarith
  have hs := Real.sin_pos_of_pos_of_lt_pi hφ hφ2
  rw [T0_sq hφ.ne' hs.ne']
  set V := VofZ P (Real.sqrt 2 * A) (φ ^ 2) with hVdef
  have hcos : |Real.sqrt 2 * A * Real.cos φ| ≤ |Real.sqrt 2 * A| := by
    rw [abs_mul]
    exact mul_le_of_le_one_right (abs_nonneg _) (Real.abs_cos_le_one φ)
  have hVD : P - |Real.sqrt 2 * A| ≤ V := by
    rw [hVdef, VofZ_sq]
    have := le_abs_self (Real.sqrt 2 * A * Real.cos φ)
    linarith
  have hD : 0 < P - |Real.sqrt 2 * A| := by linarith
  have hsin : Real.sin φ ≤ 1e-12 := by
    rw [← Real.sin_pi_sub]
    have h1 : Real.sin (Real.pi - φ) ≤ Real.pi - φ := Real.sin_le (by linarith)
    have h2 : (Real.pi - φ) * (Real.pi + φ) = 1e-12 := by
      have : φ ^ 2 = Real.pi ^ 2 - 1e-12 := hφe.symm
      linear_combination -this
    nlinarith
  have hcosneg : Real.cos φ ≤ 0 := by
    apply Real.cos_nonpos_of_pi_div_two_le_of_le
    · have := Real.pi_lt_d2; linarith
    · linarith
  have hnum : 4 ≤ 2 * φ - Real.sin (2 * φ) := by
    rw [Real.sin_two_mul]
    nlinarith
  have hr2 : Real.sqrt 2 ≤ 2 := Real.sqrt_le_iff.2 ⟨by norm_num, by norm_num⟩
  have hr2p : 0 < Real.sqrt 2 := by positivity
  have hs3 : Real.sin φ ^ 3 ≤ 1e-36 := by
    calc Real.sin φ ^ 3 ≤ 1e-12 ^ 3 := by gcongr
      _ = 1e-36 := by norm_num
  have hA : -P ≤ A := by
    have h1 : -P < Real.sqrt 2 * A := (abs_lt.1 hP).1
    have hr1 : 1 ≤ Real.sqrt 2 := Real.one_le_sqrt.2 (by norm_num)
    have hP0 : 0 < P := (abs_nonneg _).trans_lt hP
    by_contra hc
    rw [not_le] at hc
    nlinarith
  have hbig : 1e36 * (P - |Real.sqrt 2 * A|) ≤ V * (2 * φ - Real.sin (2 * φ)) / (2 * Real.sqrt 2 * Real.sin φ ^ 3) := by
    rw [le_div_iff₀ (by positivity)]
    have e1 : 2 * Real.sqrt 2 * Real.sin φ ^ 3 ≤ 2 * 2 * 1e-36 := by gcongr
    calc 1e36 * (P - |Real.sqrt 2 * A|) * (2 * Real.sqrt 2 * Real.sin φ ^ 3)
        ≤ 1e36 * (P - |Real.sqrt 2 * A|) * (2 * 2 * 1e-36) := by gcongr
      _ = (P - |Real.sqrt 2 * A|) * 4 := by norm_num; ring
      _ ≤ V * (2 * φ - Real.sin (2 * φ)) := by gcongr
  have : 1e36 * (P - |Real.sqrt 2 * A|) - P ≤ V * (2 * φ - Real.sin (2 * φ)) / (2 * Real.sqrt 2 * Real.sin φ ^ 3) + A := by
    linarith
  gcongr

end Delatorre

/-- **C52.** Without revolutions `delatorre2018` returns, given a large enough budget, for
every pair of non-aligned positions, both senses, every tolerance with
`atol + rtol tof > 0` and every time of flight up to an astronomical bound: every positive
one on the long way, every elliptic one on the short way unless the positions almost
coincide. -/
theorem delatorre_returns_budget {mu : ℝ} (hmu : 0 < mu) {r1 r2 : V3} (hna : NotAligned r1 r2) {pro : Bool} {tof : ℝ}
    (htof : 0 < tof) {Q D : ℝ} (hQ : Q = Real.sqrt (2 * (V3.norm r1 * V3.norm r2 + V3.dot r1 r2)))
    (hD : D = V3.norm r1 + V3.norm r2 - Q)
    (hlow : ShortWay pro r1 r2 → parabolicTime mu r1 r2 pro ≤ tof ∧ (1 + 1e-12) * Q ≤ V3.norm r1 + V3.norm r2)
    (hup : tof ≤ Real.sqrt (D / mu) * (1e36 * D - (V3.norm r1 + V3.norm r2)))
    {atol rtol : ℝ} (htol : 0 < atol + rtol * tof) :
    ∃ N0 : ℕ, ∀ N ≥ N0, ∀ (low full : Bool) (clock : ℝ),
      ∃ out, delatorre2018 mu r1 r2 tof 0 pro low N atol rtol full clock = .ok out := by
  have hpi := Real.pi_gt_three
  have hθ := transferAngle_eq hna pro
  generalize (if ShortWay pro r1 r2 then _ else _ : ℝ) = θ at hθ
  have hang := angle_of_eq hna hθ
  have hP := geo_lt hna hθ
  obtain ⟨hG, hsh⟩ := hang.halfGeo hna
  obtain ⟨-, hG'⟩ := getA_signedA hang hna
  obtain ⟨hy0, hT0⟩ := Vallado.parabolic hmu hna pro
  have hAs : halfA (V3.norm r1) (V3.norm r2) θ = signedA pro r1 r2 := by
    have h1 := hG.hA2
    rw [← hG'.hA2] at h1
    rcases sq_eq_sq_iff_eq_or_eq_neg.1 h1 with h | h
    · exact h
    · exfalso
      have h2 := Real.sqrt_nonneg (V3.norm r1 * V3.norm r2 + V3.dot r1 r2)
      have h3 := hG'.hA
      by_cases hsw : ShortWay pro r1 r2
      · have := hsh.2 hsw
        rw [h] at this
        unfold signedA at this
        rw [if_pos hsw] at this
        linarith
      · have h4 : signedA pro r1 r2 ≤ 0 := by unfold signedA; rw [if_neg hsw]; linarith
        exact hsw (hsh.1 (by rw [h]; exact neg_pos.2 (lt_of_le_of_ne h4 h3)))
  have hA2 := hG.hA2
  set A := halfA (V3.norm r1) (V3.norm r2) θ with hAdef
  rw [← hAs] at hy0 hT0
  set P := V3.norm r1 + V3.norm r2 with hPdef
  have hQA : |Real.sqrt 2 * A| = Q := by
    rw [hQ, ← hA2, ← Real.sqrt_sq_eq_abs, mul_pow, Real.sq_sqrt (by norm_num)]
  have hP' := hP
  rw [hQA] at hP'
  have hD0 : 0 < D := by rw [hD]; linarith
  have hpos : 0 < 1e36 * D - P := by
    by_contra hc
    rw [not_lt] at hc
    have := mul_nonpos_of_nonneg_of_nonpos (Real.sqrt_nonneg (D / mu)) hc
    linarith
  have hut := upper_time hmu hP (by rw [hQA, ← hD]; exact hpos)
  rw [hQA, ← hD] at hut
  have hzh : 0 < Real.pi ^ 2 - 1e-12 := by norm_num; nlinarith
  have hzh' : Real.pi ^ 2 - 1e-12 < Real.pi ^ 2 := by norm_num
  have hVh := VofZ_pos hP hzh
  have hmono := uvT_strictMonoOn (μ := mu) hmu hP
  -- the lower end
  obtain ⟨zl, hzl0, hVl, hzlT, hbr⟩ : ∃ zl ≤ 0, 0 < VofZ P (Real.sqrt 2 * A) zl ∧ uvT mu P A (4 * zl) ≤ tof ∧
      (startZ P (Real.sqrt 2 * A) >>= fun z0 => lowerZ (fun z => tofEquation P (Real.sqrt 2 * A) mu z 0) tof z0) =
        .ok zl := by
    rcases lt_or_gt_of_ne hG.hA with hA | hA
    · obtain ⟨z, hz0, hz, hzT⟩ := lowerZ_returns hmu hA hP htof
      refine ⟨z, hz0.le, ?_, hzT, ?_⟩
      · obtain ⟨φ, hφ, rfl⟩ := neg_sq' hz0
        unfold VofZ
        rw [series0_neg_sq]
        have h1 := mul_pos (mul_pos (show 0 < Real.sqrt 2 by positivity) (neg_pos.2 hA)) (Real.cosh_pos φ)
        have h2 := hG.R1
        have h3 := hG.R2
        linarith
      · unfold startZ
        rw [if_neg (not_lt.2 (mul_nonpos_of_nonneg_of_nonpos (Real.sqrt_nonneg 2) hA.le)), ok_bind, hz]
    · obtain ⟨hpt, hq⟩ := hlow (hsh.1 hA)
      rw [← hQA, abs_of_pos (by positivity)] at hq
      obtain ⟨z, hz0, hz, hV⟩ := startZ_short hA hq
      have hzpi : z < Real.pi ^ 2 := by nlinarith
      have hT : uvT mu P A (4 * z) ≤ tof := by
        refine le_trans ?_ hpt
        rw [← hT0, hmono.le_iff_le (dom_iff hzpi hV) ⟨by positivity, hy0⟩]
        linarith
      refine ⟨z, hz0, hV, hT, ?_⟩
      rw [hz, ok_bind]
      unfold lowerZ
      simp only [tof_eq hmu hzpi hV, ok_bind]
      rw [whileLoop_false (cond := fun s : ℝ × ℝ => s.2 > tof) (not_lt.2 hT)]
      rfl
  have hF : ∀ z ∈ Set.Icc zl (Real.pi ^ 2 - 1e-12), 0 < VofZ P (Real.sqrt 2 * A) z := by
    intro z hz
    have hd := uvDom_up hP (dom_iff (by nlinarith) hVl) (show 4 * zl ≤ 4 * z by linarith [hz.1])
      (show 4 * z < 4 * Real.pi ^ 2 by linarith [hz.2])
    rcases le_or_gt z 0 with h0 | h0
    · rcases h0.eq_or_lt with rfl | h0
      · unfold VofZ; rw [series0_zero]
        have := (abs_lt.1 hP).2
        linarith
      · obtain ⟨φ, hφ, rfl⟩ := neg_sq' h0
        have h2 := hd.2
        rw [show 4 * -φ ^ 2 = -(2 * φ) ^ 2 by ring, uvY_neg_sq hφ] at h2
        unfold VofZ; rw [series0_neg_sq]; exact h2
    · exact VofZ_pos hP h0
  have hlt : ∀ z ∈ Set.Icc zl (Real.pi ^ 2 - 1e-12), z < Real.pi ^ 2 := fun z hz => lt_of_le_of_lt hz.2 hzh'
  have hle : zl ≤ Real.pi ^ 2 - 1e-12 := by linarith
  obtain ⟨N0, hN0⟩ := delatorre_bracket_returns (F := fun z => tofEquation P (Real.sqrt 2 * A) mu z 0)
    (g := fun z => uvT mu P A (4 * z)) (tof := tof) (atol := atol) (rtol := rtol) hle
    (fun z hz => tof_eq hmu (hlt z hz) (hF z hz))
    (fun z hz => by
      have h1 : ContinuousAt (uvT mu P A) (4 * z) := uvT_continuousAt (by linarith [hlt z hz])
      exact (ContinuousAt.comp (f := fun z : ℝ => 4 * z) h1 (by fun_prop)).continuousWithinAt)
    (mul_nonpos_of_nonpos_of_nonneg (by linarith) (by linarith)) htol
  refine ⟨N0, fun N hN low full clock => ?_⟩
  obtain ⟨z, k, hs⟩ := hN0 N hN
  have hfz : findZ P (Real.sqrt 2 * A) mu tof 0 low N atol rtol = .ok (z, k) := by
    unfold findZ
    have : chooseBracket P (Real.sqrt 2 * A) mu tof 0 low atol rtol = .ok (zl, Real.pi ^ 2 - 1e-12) := by
      unfold chooseBracket initialBracket
      rw [if_pos rfl]
      simp only []
      obtain ⟨z0, hz0, hz1⟩ := bind_ok.1 hbr
      rw [hz0, ok_bind, hz1, ok_bind, tof_eq hmu hzh' hVh, ok_bind, raiseIf_neg _ (not_lt.2 (hup.trans hut)), ok_bind]
    rw [this, ok_bind]
    exact hs
  have hS : Seg (Set.Icc zl (Real.pi ^ 2 - 1e-12)) := by
    intro a ha b hb t h0 h1
    constructor <;> nlinarith [ha.1, ha.2, hb.1, hb.2]
  obtain ⟨hm, -, hk, -⟩ := solveBracketed_ok hS ⟨le_rfl, hle⟩ ⟨hle, le_rfl⟩ hs
  exact finish_exists hmu hna htof le_rfl hk hθ hfz (hF z hm) full clock

/-- The hypotheses of C52 at a quarter turn of the unit circle, for an explicit range of
times of flight. -/
example {tof : ℝ} (h : parabolicTime 1 ⟨1, 0, 0⟩ ⟨0, 1, 0⟩ true ≤ tof) (h0 : 0 < tof) (h1 : tof ≤ 1e33) :
    ∃ N0 : ℕ, ∀ N ≥ N0, ∀ (low full : Bool) (clock : ℝ),
      ∃ out, delatorre2018 1 ⟨1, 0, 0⟩ ⟨0, 1, 0⟩ tof 0 true low N 1e-5 1e-7 full clock = .ok out := by
  have n1 : V3.norm ⟨1, 0, 0⟩ = 1 := by simp [V3.norm, V3.dot]
  have n2 : V3.norm ⟨0, 1, 0⟩ = 1 := by simp [V3.norm, V3.dot]
  have hd : V3.dot ⟨1, 0, 0⟩ ⟨0, 1, 0⟩ = 0 := by simp [V3.dot]
  have hs : Real.sqrt (2 * (1 * 1 + 0)) ≤ 1.5 := Real.sqrt_le_iff.2 ⟨by norm_num, by norm_num⟩
  refine delatorre_returns_budget one_pos (by simp [NotAligned]) h0 rfl rfl (fun _ => ⟨h, ?_⟩) ?_ (by positivity)
  · rw [n1, n2, hd]; linarith
  · rw [n1, n2, hd]
    have h2 : (0.5 : ℝ) ≤ 1 + 1 - Real.sqrt (2 * (1 * 1 + 0)) := by linarith
    have h3 : 0.5 ≤ Real.sqrt ((1 + 1 - Real.sqrt (2 * (1 * 1 + 0))) / 1) := Real.le_sqrt_of_sq_le (by rw [div_one]; linarith)
    have h4 : (1e34 : ℝ) ≤ 1e36 * (1 + 1 - Real.sqrt (2 * (1 * 1 + 0))) - (1 + 1) := by linarith
    calc tof ≤ 0.5 * 1e34 := by linarith
      _ ≤ _ := by gcongr

end Lamberthub
