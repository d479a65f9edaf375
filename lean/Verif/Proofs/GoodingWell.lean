import Verif.Proofs.GoodingMulti

/-!
# The two roots of `gooding1990` near the minimum time

Near its minimum the time is almost a parabola.  The iteration halves the distance to a root from all points that are
closer to it than half its distance to the minimum, whatever that distance is, and both starting values are such
points.
-/

set_option autoImplicit false

namespace Lamberthub
open Filter Topology Spec LC

namespace Gooding

/-- The iteration on a perturbed parabola, divided by its scale. -/
theorem halley_scaled {z p s c : ℝ} (hz : |z - 1| ≤ 1 / 2) (hp : |p - z| ≤ 1 / 100) (hs : |s - (z + 1) / 2| ≤ 1 / 100)
    (hc : |c - 1| ≤ 1 / 100) :
    p ≠ 0 ∧ 0 < p ^ 2 - (z - 1) * s * c / 2 ∧
      |p ^ 2 - (z - 1) * s * c / 2 - s * p| ≤ (p ^ 2 - (z - 1) * s * c / 2) / 2 := by
  obtain ⟨z1, z2⟩ := abs_le.1 hz
  obtain ⟨p1, p2⟩ := abs_le.1 hp
  obtain ⟨s1, s2⟩ := abs_le.1 hs
  obtain ⟨c1, c2⟩ := abs_le.1 hc
  have a1 : |(p - z) * (p + z)| ≤ 1 / 100 * (301 / 100) := by
    rw [abs_mul]
    exact mul_le_mul hp (abs_le.2 ⟨by linarith, by linarith⟩) (abs_nonneg _) (by norm_num)
  have a2 : |(s - (z + 1) / 2) * c| ≤ 1 / 100 * (101 / 100) := by
    rw [abs_mul]
    exact mul_le_mul hs (abs_le.2 ⟨by linarith, by linarith⟩) (abs_nonneg _) (by norm_num)
  have a3 : |(z + 1) / 2 * (c - 1)| ≤ 5 / 4 * (1 / 100) := by
    rw [abs_mul]
    exact mul_le_mul (abs_le.2 ⟨by linarith, by linarith⟩) hc (abs_nonneg _) (by norm_num)
  have a4 : |(z - 1) / 2 * ((s - (z + 1) / 2) * c + (z + 1) / 2 * (c - 1))| ≤ 1 / 4 * (3 / 100) := by
    rw [abs_mul]
    refine mul_le_mul (abs_le.2 ⟨by linarith, by linarith⟩) ((abs_add_le _ _).trans ?_) (abs_nonneg _) (by norm_num)
    linarith
  have a5 : |(s - (z + 1) / 2) * p| ≤ 1 / 100 * (151 / 100) := by
    rw [abs_mul]
    exact mul_le_mul hs (abs_le.2 ⟨by linarith, by linarith⟩) (abs_nonneg _) (by norm_num)
  have a6 : |(z + 1) / 2 * (p - z)| ≤ 5 / 4 * (1 / 100) := by
    rw [abs_mul]
    exact mul_le_mul (abs_le.2 ⟨by linarith, by linarith⟩) hp (abs_nonneg _) (by norm_num)
  have d0 : p ^ 2 - (z - 1) * s * c / 2 = (3 * z ^ 2 + 1) / 4 + (p - z) * (p + z) -
      (z - 1) / 2 * ((s - (z + 1) / 2) * c + (z + 1) / 2 * (c - 1)) := by ring
  have e0 : s * p = z * (z + 1) / 2 + (s - (z + 1) / 2) * p + (z + 1) / 2 * (p - z) := by ring
  have n0 : (z - 1) ^ 2 ≤ 1 / 4 := by nlinarith
  have n1 := sq_nonneg (z - 1)
  obtain ⟨b1, b2⟩ := abs_le.1 a1
  obtain ⟨b3, b4⟩ := abs_le.1 a4
  obtain ⟨b5, b6⟩ := abs_le.1 a5
  obtain ⟨b7, b8⟩ := abs_le.1 a6
  refine ⟨by intro h; linarith, by rw [d0]; nlinarith, ?_⟩
  rw [abs_le]
  generalize (p - z) * (p + z) = A at *
  generalize (z - 1) / 2 * ((s - (z + 1) / 2) * c + (z + 1) / 2 * (c - 1)) = B at *
  generalize (s - (z + 1) / 2) * p = C at *
  generalize (z + 1) / 2 * (p - z) = D at *
  rw [d0, e0]
  constructor <;> nlinarith

/-- The iteration on a perturbed parabola. -/
theorem halley_parabola {a R z F1 s F2 : ℝ} (ha : 0 < a) (hR : R ≠ 0) (hz : |z - R| ≤ |R| / 2)
    (h1 : |F1 - a * z| ≤ 1 / 100 * (a * |R|)) (h2 : |s - a * (z + R) / 2| ≤ 1 / 100 * (a * |R|))
    (h3 : |F2 - a| ≤ 1 / 100 * a) :
    F1 ≠ 0 ∧ 0 < F1 ^ 2 - (z - R) * s * F2 / 2 ∧
      |(z - R) - (z - R) * s * F1 / (F1 ^ 2 - (z - R) * s * F2 / 2)| ≤ |z - R| / 2 := by
  have hRp : 0 < |R| := abs_pos.2 hR
  have haR : a * R ≠ 0 := mul_ne_zero ha.ne' hR
  have habs : |a * R| = a * |R| := by rw [abs_mul, abs_of_pos ha]
  have hpos : 0 < a * |R| := by positivity
  obtain ⟨b1, b2, b3⟩ := halley_scaled (z := z / R) (p := F1 / (a * R)) (s := s / (a * R)) (c := F2 / a)
    (by rw [show z / R - 1 = (z - R) / R by field_simp, abs_div, div_le_iff₀ hRp]; linarith)
    (by rw [show F1 / (a * R) - z / R = (F1 - a * z) / (a * R) by field_simp, abs_div, habs, div_le_iff₀ hpos]; exact h1)
    (by rw [show s / (a * R) - (z / R + 1) / 2 = (s - a * (z + R) / 2) / (a * R) by field_simp, abs_div, habs,
          div_le_iff₀ hpos]; exact h2)
    (by rw [show F2 / a - 1 = (F2 - a) / a by field_simp, abs_div, abs_of_pos ha, div_le_iff₀ ha]; exact h3)
  have hsq : 0 < (a * R) ^ 2 := by positivity
  have e1 : F1 ^ 2 - (z - R) * s * F2 / 2 = (a * R) ^ 2 * ((F1 / (a * R)) ^ 2 - (z / R - 1) * (s / (a * R)) * (F2 / a) / 2) := by
    field_simp
  have e2 : s * F1 = (a * R) ^ 2 * (s / (a * R) * (F1 / (a * R))) := by field_simp
  have hD : 0 < F1 ^ 2 - (z - R) * s * F2 / 2 := by rw [e1]; positivity
  refine ⟨fun h => b1 (by rw [h, zero_div]), hD, ?_⟩
  have e3 : (z - R) - (z - R) * s * F1 / (F1 ^ 2 - (z - R) * s * F2 / 2) =
      (z - R) * ((F1 ^ 2 - (z - R) * s * F2 / 2 - s * F1) / (F1 ^ 2 - (z - R) * s * F2 / 2)) := by
    generalize F1 ^ 2 - (z - R) * s * F2 / 2 = D at *
    field_simp
  rw [e3, abs_mul, abs_div, abs_of_pos hD]
  have h5 : |F1 ^ 2 - (z - R) * s * F2 / 2 - s * F1| / (F1 ^ 2 - (z - R) * s * F2 / 2) ≤ 1 / 2 := by
    rw [div_le_iff₀ hD, e1, e2, ← mul_sub, abs_mul, abs_of_pos hsq]
    calc _ ≤ _ := mul_le_mul_of_nonneg_left b3 hsq.le
      _ = _ := by ring
  have := mul_le_mul_of_nonneg_left h5 (abs_nonneg (z - R))
  linarith

/-- The time near its minimum is almost a parabola. -/
theorem time_parabola {q m : ℝ} {M : ℕ} (hq : q ^ 2 < 1) (h1 : -1 < m) (h2 : m < 1) (hz : rev1 q M m = 0)
    (ha : 0 < rev2 q M m) :
    ∃ ρ : ℝ, 0 < ρ ∧ (∀ x, |x - m| ≤ ρ → -1 < x ∧ x < 1 ∧ |rev2 q M x - rev2 q M m| ≤ 1 / 1000 * rev2 q M m ∧
        |rev1 q M x - rev2 q M m * (x - m)| ≤ 1 / 1000 * rev2 q M m * |x - m|) ∧
      ∀ x y d, d ≤ ρ → |x - m| ≤ d → |y - m| ≤ d →
        |revT q M x - revT q M y - rev2 q M m / 2 * ((x - m) ^ 2 - (y - m) ^ 2)| ≤ 1 / 1000 * rev2 q M m * d * |x - y| := by
  have hc := (rev_deriv hq h1 h2 M).2.2.1.continuousAt
  have hev : ∀ᶠ x in 𝓝 m, |rev2 q M x - rev2 q M m| < 1 / 1000 * rev2 q M m :=
    Metric.continuousAt_iff'.1 hc _ (by positivity)
  obtain ⟨ρ, hρ, hb⟩ := Metric.eventually_nhds_iff_ball.1 (hev.and ((eventually_gt_nhds h1).and (eventually_lt_nhds h2)))
  have hb' : ∀ x, |x - m| ≤ ρ / 2 → -1 < x ∧ x < 1 ∧ |rev2 q M x - rev2 q M m| ≤ 1 / 1000 * rev2 q M m := by
    intro x hx
    obtain ⟨c1, c2, c3⟩ := hb x (by rw [Metric.mem_ball, Real.dist_eq]; linarith)
    exact ⟨c2, c3, c1.le⟩
  have hconv : ∀ d, Convex ℝ {x : ℝ | |x - m| ≤ d} := by
    intro d
    have : {x : ℝ | |x - m| ≤ d} = Metric.closedBall m d := by
      ext x; rw [Metric.mem_closedBall, Real.dist_eq]; rfl
    rw [this]; exact convex_closedBall m d
  have hr1 : ∀ x, |x - m| ≤ ρ / 2 → |rev1 q M x - rev2 q M m * (x - m)| ≤ 1 / 1000 * rev2 q M m * |x - m| := by
    intro x hx
    have h := Convex.norm_image_sub_le_of_norm_hasDerivWithin_le (f := fun t => rev1 q M t - rev2 q M m * (t - m))
      (f' := fun t => rev2 q M t - rev2 q M m) (s := {x : ℝ | |x - m| ≤ ρ / 2})
      (C := 1 / 1000 * rev2 q M m) (x := m) (y := x) (fun t ht => by
        obtain ⟨d1, d2, -⟩ := hb' t ht
        have := ((rev_deriv hq d1 d2 M).2.1.sub (((hasDerivAt_id t).sub_const m).const_mul (rev2 q M m))).hasDerivWithinAt
          (s := {x : ℝ | |x - m| ≤ ρ / 2})
        rw [mul_one] at this
        exact this)
      (fun t ht => (hb' t ht).2.2) (hconv _) (by change |m - m| ≤ _; rw [sub_self, abs_zero]; positivity) hx
    simp only [Real.norm_eq_abs] at h
    rwa [hz, sub_self, mul_zero, sub_zero, sub_zero] at h
  refine ⟨ρ / 2, by positivity, fun x hx => ⟨(hb' x hx).1, (hb' x hx).2.1, (hb' x hx).2.2, hr1 x hx⟩,
    fun x y d hd hx hy => ?_⟩
  have h := Convex.norm_image_sub_le_of_norm_hasDerivWithin_le (f := fun t => revT q M t - rev2 q M m / 2 * (t - m) ^ 2)
    (f' := fun t => rev1 q M t - rev2 q M m * (t - m)) (s := {x : ℝ | |x - m| ≤ d})
    (C := 1 / 1000 * rev2 q M m * d) (x := y) (y := x) (fun t ht => by
      obtain ⟨d1, d2, -⟩ := hb' t (le_trans ht hd)
      have := ((rev_deriv hq d1 d2 M).1.sub ((((hasDerivAt_id t).sub_const m).pow 2).const_mul
        (rev2 q M m / 2))).hasDerivWithinAt (s := {x : ℝ | |x - m| ≤ d})
      refine (HasDerivWithinAt.congr_deriv this ?_)
      simp only [id_eq, Nat.cast_ofNat, Nat.add_one_sub_one, pow_one, mul_one]
      ring)
    (fun t ht => (hr1 t (le_trans ht hd)).trans (mul_le_mul_of_nonneg_left ht (by positivity))) (hconv _) hy hx
  simp only [Real.norm_eq_abs] at h
  refine le_trans (le_of_eq ?_) h
  congr 1
  ring

theorem tlamb_two_rev {q x : ℝ} (hq : q ^ 2 < 1) (h1 : -1 < x) (h2 : x < 1) {M : ℕ} (hM : 1 ≤ M) :
    ∃ d, tlamb M q (1 - q ^ 2) x 2 = .ok (2 * revT q M x, 2 * rev1 q M x, 2 * rev2 q M x, d) := by
  have hM' : (M : ℤ) > 0 := by exact_mod_cast hM
  obtain ⟨c1, c2, c3, hcc, g1, g2, g3⟩ := tlambDirect_eq (lanc_lancY hq x) h1 h2.ne (.inr h2) (M := M) 2
  unfold tlamb
  rw [if_neg (by norm_num), u_eq, if_pos (.inl hM'), hcc, g1 (by norm_num), g2 (by norm_num)]
  exact ⟨_, rfl⟩

theorem tlamb_zero_rev {q x : ℝ} (hq : q ^ 2 < 1) (h1 : -1 < x) (h2 : x < 1) {M : ℕ} (hM : 1 ≤ M) :
    ∃ d, tlamb M q (1 - q ^ 2) x 0 = .ok (2 * revT q M x, d) := by
  have hM' : (M : ℤ) > 0 := by exact_mod_cast hM
  obtain ⟨c1, c2, c3, hcc, -⟩ := tlambDirect_eq (lanc_lancY hq x) h1 h2.ne (.inr h2) (M := M) 0
  unfold tlamb
  rw [if_neg (by norm_num), u_eq, if_pos (.inl hM'), hcc]
  exact ⟨_, rfl⟩

/-- The point to which one pass of the iteration moves. -/
noncomputable def nextM (q : ℝ) (M : ℕ) (τ x : ℝ) : ℝ :=
  x + (τ - revT q M x) * rev1 q M x / (rev1 q M x ^ 2 + (τ - revT q M x) * rev2 q M x / 2)

/-- One pass of `_xlamb_iter`. -/
theorem iter_succ_rev {q τ x : ℝ} {M : ℕ} (hM : 1 ≤ M) (hq : q ^ 2 < 1) (h1 : -1 < x) (h2 : x < 1) (h3 : x ≠ 0)
    (hd : rev1 q M x ≠ 0) (hn : rev1 q M x ^ 2 + (τ - revT q M x) * rev2 q M x / 2 ≠ 0) (atol rtol : ℝ)
    (maxiter k n : ℕ) (xold : ℝ) :
    xlambIter M q (1 - q ^ 2) (2 * τ) atol rtol maxiter (k + 1) n x xold =
      if |nextM q M τ x - x| ≤ atol ∧ |nextM q M τ x / x - 1| ≤ rtol then .ok (nextM q M τ x, n)
      else xlambIter M q (1 - q ^ 2) (2 * τ) atol rtol maxiter k (n + 1) (nextM q M τ x) x := by
  obtain ⟨d, htl⟩ := tlamb_two_rev hq h1 h2 hM
  have hn' : 2 * rev1 q M x * (2 * rev1 q M x) + (2 * τ - 2 * revT q M x) * (2 * rev2 q M x) / 2.0 ≠ 0 := by
    intro h; apply hn; norm_num at h; linarith
  have e : x + (2 * τ - 2 * revT q M x) * (2 * rev1 q M x) /
      (2 * rev1 q M x * (2 * rev1 q M x) + (2 * τ - 2 * revT q M x) * (2 * rev2 q M x) / 2.0) = nextM q M τ x := by
    rw [nextM]
    congr 1
    rw [show 2 * rev1 q M x * (2 * rev1 q M x) + (2 * τ - 2 * revT q M x) * (2 * rev2 q M x) / 2.0 =
      4 * (rev1 q M x ^ 2 + (τ - revT q M x) * rev2 q M x / 2) by norm_num; ring,
      show (2 * τ - 2 * revT q M x) * (2 * rev1 q M x) = 4 * ((τ - revT q M x) * rev1 q M x) by ring,
      mul_div_mul_left _ _ (by norm_num)]
  rw [xlambIter, htl, ok_bind]
  simp only []
  rw [halleyStep, if_pos (mul_ne_zero two_ne_zero hd), pdiv_eq hn', ok_bind, ok_bind]
  simp only [e]
  rw [pdiv_eq h3, ok_bind]

/-- The loop, on a neighbourhood of a root where each pass halves the distance to the root. -/
theorem loop_rev {q r ρ c τ atol rtol : ℝ} {M : ℕ} (hM : 1 ≤ M) (hq : q ^ 2 < 1) (hc : 0 < c)
    (hdom : ∀ x, |x - r| ≤ ρ → c ≤ x ∧ x < 1)
    (hst : ∀ x, |x - r| ≤ ρ → rev1 q M x ≠ 0 ∧ rev1 q M x ^ 2 + (τ - revT q M x) * rev2 q M x / 2 ≠ 0 ∧
      |nextM q M τ x - r| ≤ |x - r| / 2) (ha : 0 < atol) (hr : 0 < rtol) (maxiter : ℕ) :
    ∀ n rem k : ℕ, ∀ x0 xold, |x0 - r| ≤ ρ → 2 * |x0 - r| ≤ atol * 2 ^ n → 2 * |x0 - r| ≤ rtol * c * 2 ^ n → n + 1 ≤ rem →
      ∃ x k', xlambIter M q (1 - q ^ 2) (2 * τ) atol rtol maxiter rem (k + 1) x0 xold = .ok (x, k' + 1) ∧
        |x - r| ≤ ρ ∧ |x - r| ≤ atol := by
  intro n
  have accept : ∀ x x', |x - r| ≤ ρ → |x' - r| ≤ |x - r| / 2 → |x' - x| ≤ atol → |x' - r| ≤ ρ ∧ |x' - r| ≤ atol := by
    intro x x' hx hx' t1
    have hd : |x - r| ≤ |x' - r| + |x' - x| := by
      have := abs_sub (x' - r) (x' - x); rwa [show x' - r - (x' - x) = x - r by ring] at this
    have h0 := abs_nonneg (x - r)
    exact ⟨by linarith, by linarith⟩
  induction n with
  | zero =>
    intro rem k x0 xold hx0 h1 h2 hrem
    obtain ⟨rem, rfl⟩ : ∃ j, rem = j + 1 := ⟨rem - 1, by omega⟩
    obtain ⟨f1, f2⟩ := hdom x0 hx0
    obtain ⟨s1, s2, s3⟩ := hst x0 hx0
    rw [iter_succ_rev hM hq (by linarith) f2 (by linarith) s1 s2]
    simp only [pow_zero, mul_one] at h1 h2
    have hd : |nextM q M τ x0 - x0| ≤ |nextM q M τ x0 - r| + |x0 - r| := by
      have := abs_sub (nextM q M τ x0 - r) (x0 - r)
      rwa [show nextM q M τ x0 - r - (x0 - r) = nextM q M τ x0 - x0 by ring] at this
    have h0 := abs_nonneg (x0 - r)
    have t1 : |nextM q M τ x0 - x0| ≤ atol := by linarith
    have t2 : |nextM q M τ x0 / x0 - 1| ≤ rtol := by
      have hx0p : 0 < x0 := by linarith
      rw [show nextM q M τ x0 / x0 - 1 = (nextM q M τ x0 - x0) / x0 by field_simp, abs_div, abs_of_pos hx0p,
        div_le_iff₀ hx0p]
      have := mul_le_mul_of_nonneg_left f1 hr.le
      linarith
    rw [if_pos ⟨t1, t2⟩]
    exact ⟨_, _, rfl, accept x0 _ hx0 s3 t1⟩
  | succ n ih =>
    intro rem k x0 xold hx0 h1 h2 hrem
    obtain ⟨rem, rfl⟩ : ∃ j, rem = j + 1 := ⟨rem - 1, by omega⟩
    obtain ⟨f1, f2⟩ := hdom x0 hx0
    obtain ⟨s1, s2, s3⟩ := hst x0 hx0
    rw [iter_succ_rev hM hq (by linarith) f2 (by linarith) s1 s2]
    split
    · rename_i ht
      exact ⟨_, _, rfl, accept x0 _ hx0 s3 ht.1⟩
    · have h0 := abs_nonneg (x0 - r)
      rw [pow_succ] at h1 h2
      exact ih rem (k + 1) _ _ (by linarith) (by linarith) (by linarith) (by omega)

/-- A square root of a perturbed square. -/
theorem sqrt_close {A D a R : ℝ} (ha : 0 < a) (hR : 0 < R) (hA : |A - a * R ^ 2| ≤ a * R ^ 2 / 50) (hD : |D - a| ≤ a / 25) :
    0 < D ∧ 0 ≤ A / D ∧ |Real.sqrt (A / D) - R| ≤ R / 10 := by
  obtain ⟨a1, a2⟩ := abs_le.1 hA
  obtain ⟨d1, d2⟩ := abs_le.1 hD
  have hD0 : 0 < D := by linarith
  have hp : 0 < a * R ^ 2 := by positivity
  have hA0 : 0 < A := by linarith
  have hR2 : 0 < R ^ 2 := by positivity
  refine ⟨hD0, by positivity, ?_⟩
  rw [abs_le]
  constructor
  · have : R * (9 / 10) ≤ Real.sqrt (A / D) := by
      apply Real.le_sqrt_of_sq_le
      rw [le_div_iff₀ hD0]
      have := mul_le_mul_of_nonneg_left d2 hR2.le
      nlinarith
    linarith
  · have : Real.sqrt (A / D) ≤ R * (11 / 10) := by
      rw [Real.sqrt_le_left (by positivity), div_le_iff₀ hD0]
      have := mul_le_mul_of_nonneg_left d1 hR2.le
      nlinarith
    linarith

set_option maxHeartbeats 800000 in
/-- The first starting value is close to the root beyond the minimum. -/
theorem firstStart_close {M : ℕ} {thr2 xm A d2t a m R : ℝ} (h0 : 0 < thr2) (h1 : thr2 < 1) (ha : 0 < a) (hm0 : 0 < m)
    (hm : m < 1 / 2) (hR : 0 < R) (hR1 : R ≤ 1 / 100) (hRm : R ≤ m / 8) (hA : |A - a * R ^ 2| ≤ a * R ^ 2 / 50) (hd : |d2t / 2 - a| ≤ a / 1000)
    (hxm : |xm - m| ≤ R / 30) : ∃ x, firstStart M thr2 xm A d2t = .ok x ∧ |x - (m + R)| ≤ R / 2 := by
  obtain ⟨a1, a2⟩ := abs_le.1 hA
  obtain ⟨x1, x2⟩ := abs_le.1 hxm
  have hp : 0 < a * R ^ 2 := by positivity
  have hA0 : 0 < A := by linarith
  have hx0 : 0 < xm := by linarith
  have h6 : xm ≤ 6 / 10 := by linarith
  have hsq : 4 / 25 ≤ (1.0 - xm) ^ 2 := by norm_num; nlinarith
  have hsq0 : (1.0 - xm) ^ 2 ≠ 0 := by intro h; rw [h] at hsq; norm_num at hsq
  have hR2 : R ^ 2 ≤ 1 / 10000 := by nlinarith
  have hr0 : 0 ≤ A / (1.0 - xm) ^ 2 := by positivity
  have hr1 : A / (1.0 - xm) ^ 2 ≤ a / 50 := by
    rw [div_le_iff₀ (by linarith)]
    nlinarith
  obtain ⟨hD, hq0, hq1⟩ := sqrt_close (D := d2t / 2.0 + A / (1.0 - xm) ^ 2) ha hR hA (by
    rw [show (2.0 : ℝ) = 2 by norm_num]
    obtain ⟨e1, e2⟩ := abs_le.1 hd
    rw [abs_le]; constructor <;> linarith)
  unfold firstStart
  rw [pdiv_eq hsq0, ok_bind, pdiv_eq hD.ne', ok_bind, psqrt_eq hq0, ok_bind]
  simp only []
  obtain ⟨x, hx⟩ : ∃ x, x = Real.sqrt (A / (d2t / 2.0 + A / (1.0 - xm) ^ 2)) := ⟨_, rfl⟩
  rw [← hx] at hq1 ⊢
  obtain ⟨y1, y2⟩ := abs_le.1 hq1
  have hxp : 0 < x := by linarith
  have hA4 : 0 < 4.0 + A := by norm_num; linarith
  have hw0 : 0 ≤ (xm + x) * 4.0 / (4.0 + A) := by norm_num; positivity
  have hw1 : (xm + x) * 4.0 / (4.0 + A) ≤ 1 := by
    rw [div_le_one hA4]; norm_num; nlinarith
  have hv0 : 0 ≤ (1.0 - (xm + x)) ^ 2 := by positivity
  have hv1 : (1.0 - (xm + x)) ^ 2 ≤ 1 := by rw [show (1.0 : ℝ) = 1 by norm_num]; nlinarith
  rw [pdiv_eq hA4.ne', ok_bind, psqrt_eq (by linarith), ok_bind]
  obtain ⟨w, hw⟩ : ∃ w, w = (xm + x) * 4.0 / (4.0 + A) + (1.0 - (xm + x)) ^ 2 := ⟨_, rfl⟩
  rw [← hw]
  have hw2 : 0 ≤ w := by linarith
  have hw3 : w ≤ 2 := by linarith
  have hs0 := Real.sqrt_nonneg w
  have hs1 : Real.sqrt w ≤ 2 := by rw [Real.sqrt_le_left (by norm_num)]; linarith
  have hM0 : (0 : ℝ) ≤ ((M : ℤ) : ℝ) := by positivity
  have hk : 0 < 1.0 + 0.15 * ((M : ℤ) : ℝ) := by norm_num; positivity
  rw [pdiv_eq hk.ne', ok_bind]
  obtain ⟨k, hk'⟩ : ∃ k, k = (1.0 + ((M : ℤ) : ℝ) + 1.0 * (thr2 - 0.5)) / (1.0 + 0.15 * ((M : ℤ) : ℝ)) := ⟨_, rfl⟩
  rw [← hk']
  have k0 : 0 ≤ k := by
    rw [hk']; refine div_nonneg ?_ hk.le; norm_num; linarith
  have k1 : k ≤ 10 := by
    rw [hk', div_le_iff₀ hk]; norm_num; linarith
  refine ⟨_, rfl, ?_⟩
  have u0 : 0 ≤ 0.5 * w + 0.03 * x * Real.sqrt w := by
    rw [show (0.5 : ℝ) = 1 / 2 by norm_num, show (0.03 : ℝ) = 3 / 100 by norm_num]; positivity
  have u1 : 0.5 * w + 0.03 * x * Real.sqrt w ≤ 11 / 10 := by
    have : x * Real.sqrt w ≤ 1 / 50 * 2 := mul_le_mul (by linarith) hs1 hs0 (by norm_num)
    rw [show (0.5 : ℝ) = 1 / 2 by norm_num, show (0.03 : ℝ) = 3 / 100 by norm_num]; linarith
  have u2 : k * (0.5 * w + 0.03 * x * Real.sqrt w) ≤ 10 * (11 / 10) := mul_le_mul k1 u1 u0 (by norm_num)
  have u3 : 0 ≤ k * (0.5 * w + 0.03 * x * Real.sqrt w) := mul_nonneg k0 u0
  have e : x * (1.0 - k * x * (0.5 * w + 0.03 * x * Real.sqrt w)) + xm - (m + R) =
      (x - R) + (xm - m) - x ^ 2 * (k * (0.5 * w + 0.03 * x * Real.sqrt w)) := by rw [show (1.0 : ℝ) = 1 by norm_num]; ring
  rw [e]
  clear e
  generalize k * (0.5 * w + 0.03 * x * Real.sqrt w) = c at *
  have hx2 : x ^ 2 ≤ 121 / 100 * (R * (1 / 100)) := by
    have : x ^ 2 ≤ (11 / 10 * R) ^ 2 := pow_le_pow_left₀ hxp.le (by linarith) 2
    have h' := mul_le_mul_of_nonneg_left hR1 hR.le
    calc x ^ 2 ≤ 121 / 100 * (R * R) := by linarith
      _ ≤ _ := mul_le_mul_of_nonneg_left h' (by norm_num)
  have hx2c : x ^ 2 * c ≤ 121 / 100 * (R * (1 / 100)) * 11 := mul_le_mul hx2 (by linarith) u3 (by positivity)
  have hx2c0 : 0 ≤ x ^ 2 * c := by positivity
  rw [abs_le]
  constructor <;> linarith

/-- The second starting value is close to the root before the minimum. -/
theorem secondStart_close {q : ℝ} (hq : q ^ 2 < 1) {M : ℕ} (hM : 1 ≤ M) {thr2 xm xpl τ Ty b d2 a m R : ℝ} {n : ℤ} (ha : 0 < a)
    (hm0 : 0 < m) (hR : 0 < R) (hRm : R ≤ m / 8) (hA : |2 * τ - 2 * Ty - a * R ^ 2| ≤ a * R ^ 2 / 50)
    (hd : |d2 - a| ≤ a / 1000) (hxm : |xm - m| ≤ R / 30) (hb : 0 < b) (hτ : τ ≤ revT q M 0) (hT0 : b ≤ 2 * revT q M 0 - 2 * Ty)
    (hB : R ^ 2 * (2 * a / b + 4 / m ^ 2) ≤ 1 / 100) :
    ∃ x, secondStart M q (1 - q ^ 2) (2 * τ) thr2 (2 * Ty) (2 * τ - 2 * Ty) d2 xm xpl n = .ok (n, x) ∧
      |x - (m - R)| ≤ R / 2 := by
  obtain ⟨A, hA'⟩ : ∃ A, A = 2 * τ - 2 * Ty := ⟨_, rfl⟩
  rw [← hA'] at hA ⊢
  obtain ⟨a1, a2⟩ := abs_le.1 hA
  obtain ⟨x1, x2⟩ := abs_le.1 hxm
  obtain ⟨e1, e2⟩ := abs_le.1 hd
  have hp : 0 < a * R ^ 2 := by positivity
  have hA0 : 0 < A := by linarith
  have hx0 : m / 2 ≤ xm := by linarith
  obtain ⟨d, htl⟩ := tlamb_zero_rev (x := 0.0) hq (by norm_num) (by norm_num) hM
  rw [show (0.0 : ℝ) = 0 by norm_num] at htl
  unfold secondStart
  rw [show (0.0 : ℝ) = 0 by norm_num, htl, ok_bind]
  simp only []
  have hden : 0 < 2 * revT q M 0 - 2 * Ty := by linarith
  have hx2 : 0 < xm ^ 2 := by have : 0 < xm := by linarith
                              positivity
  rw [if_pos (by linarith), pdiv_eq hden.ne', ok_bind, pdiv_eq hx2.ne', ok_bind]
  obtain ⟨c, hc⟩ : ∃ c, c = d2 / (2 * revT q M 0 - 2 * Ty) - 1.0 / xm ^ 2 := ⟨_, rfl⟩
  rw [← hc]
  have hc1 : |c| ≤ 2 * a / b + 4 / m ^ 2 := by
    have f1 : |d2 / (2 * revT q M 0 - 2 * Ty)| ≤ 2 * a / b := by
      rw [abs_div, abs_of_pos hden]
      apply div_le_div₀ (by positivity) _ hb hT0
      rw [abs_le]; constructor <;> linarith
    have f2 : |1.0 / xm ^ 2| ≤ 4 / m ^ 2 := by
      rw [abs_of_pos (by norm_num; positivity), div_le_div_iff₀ hx2 (by positivity)]
      norm_num; nlinarith
    rw [hc]
    have := abs_sub (d2 / (2 * revT q M 0 - 2 * Ty)) (1.0 / xm ^ 2)
    linarith
  have hAc : |A * c| ≤ a / 50 := by
    rw [abs_mul, abs_of_pos hA0]
    calc A * |c| ≤ (2 * a * R ^ 2) * (2 * a / b + 4 / m ^ 2) :=
          mul_le_mul (by linarith) hc1 (abs_nonneg _) (by positivity)
      _ = 2 * a * (R ^ 2 * (2 * a / b + 4 / m ^ 2)) := by ring
      _ ≤ 2 * a * (1 / 100) := mul_le_mul_of_nonneg_left hB (by positivity)
      _ = _ := by ring
  obtain ⟨g1, g2⟩ := abs_le.1 hAc
  obtain ⟨hD, hq0, hq1⟩ := sqrt_close (D := d2 - A * c) ha hR hA (by rw [abs_le]; constructor <;> linarith)
  rw [pdiv_eq hD.ne', ok_bind, psqrt_eq hq0, ok_bind]
  refine ⟨_, rfl, ?_⟩
  obtain ⟨y1, y2⟩ := abs_le.1 hq1
  rw [abs_le]
  constructor <;> linarith

/-- The root at distance `R` from the minimum, on the side `σ`. -/
theorem root_near {q m : ℝ} {M : ℕ} (hq : q ^ 2 < 1) (ha : 0 < rev2 q M m) {ρ ρ' : ℝ} (hρ' : 0 < ρ') (hρρ : ρ' ≤ ρ)
    (h1 : ∀ x, |x - m| ≤ ρ → -1 < x ∧ x < 1)
    (h2 : ∀ x y d, d ≤ ρ → |x - m| ≤ d → |y - m| ≤ d →
        |revT q M x - revT q M y - rev2 q M m / 2 * ((x - m) ^ 2 - (y - m) ^ 2)| ≤ 1 / 1000 * rev2 q M m * d * |x - y|)
    {H σ : ℝ} (hσ : |σ| = 1) (hH : 0 < H) (hH' : H ≤ rev2 q M m * ρ' ^ 2 / 4) :
    ∃ R, 0 < R ∧ R ≤ ρ' ∧ revT q M (m + σ * R) = revT q M m + H ∧
      |2 * H - rev2 q M m * R ^ 2| ≤ rev2 q M m * R ^ 2 / 500 := by
  have hσ2 : σ ^ 2 = 1 := by rw [← sq_abs, hσ]; norm_num
  have habs : ∀ R, 0 ≤ R → |m + σ * R - m| = R := by
    intro R hR; rw [add_sub_cancel_left, abs_mul, hσ, one_mul, abs_of_nonneg hR]
  have hpar : ∀ R, 0 ≤ R → R ≤ ρ' → |revT q M (m + σ * R) - revT q M m - rev2 q M m / 2 * R ^ 2| ≤ 1 / 1000 * rev2 q M m * R ^ 2 := by
    intro R hR hR'
    have := h2 (m + σ * R) m R (by linarith) (habs R hR).le (by rw [sub_self, abs_zero]; exact hR)
    rw [habs R hR, show (m + σ * R - m) ^ 2 - (m - m) ^ 2 = σ ^ 2 * R ^ 2 by ring, hσ2, one_mul] at this
    linarith
  have hcont : ContinuousOn (fun R => revT q M (m + σ * R)) (Set.Icc 0 ρ') := by
    intro R hR
    obtain ⟨d1, d2⟩ := h1 (m + σ * R) (by rw [habs R hR.1]; linarith [hR.2])
    have hc := (rev_deriv hq d1 d2 M).1.continuousAt
    have hl : ContinuousAt (fun R : ℝ => m + σ * R) R := by fun_prop
    exact (ContinuousAt.comp (g := revT q M) (f := fun R : ℝ => m + σ * R) hc hl).continuousWithinAt
  have hend := (abs_le.1 (hpar ρ' hρ'.le le_rfl)).1
  have hsq : 0 < rev2 q M m * ρ' ^ 2 := by positivity
  obtain ⟨R, hR, hRe⟩ := intermediate_value_Icc hρ'.le hcont (show revT q M m + H ∈ Set.Icc _ _ from by
    constructor
    · simp only [mul_zero, add_zero]; linarith
    · linarith)
  simp only [] at hRe
  have hR0 : R ≠ 0 := by
    rintro rfl
    rw [mul_zero, add_zero] at hRe
    linarith
  refine ⟨R, lt_of_le_of_ne hR.1 (Ne.symm hR0), hR.2, hRe, ?_⟩
  have := hpar R hR.1 hR.2
  rw [hRe, add_sub_cancel_left] at this
  rw [show 2 * H - rev2 q M m * R ^ 2 = 2 * (H - rev2 q M m / 2 * R ^ 2) by ring, abs_mul, abs_two]
  linarith

/-- From a point closer to the root than half the distance of the root to the minimum each pass halves the distance. -/
theorem step_root {q m : ℝ} {M : ℕ} (ha : 0 < rev2 q M m) {ρ : ℝ}
    (h1 : ∀ x, |x - m| ≤ ρ → |rev2 q M x - rev2 q M m| ≤ 1 / 1000 * rev2 q M m ∧
        |rev1 q M x - rev2 q M m * (x - m)| ≤ 1 / 1000 * rev2 q M m * |x - m|)
    (h2 : ∀ x y d, d ≤ ρ → |x - m| ≤ d → |y - m| ≤ d →
        |revT q M x - revT q M y - rev2 q M m / 2 * ((x - m) ^ 2 - (y - m) ^ 2)| ≤ 1 / 1000 * rev2 q M m * d * |x - y|)
    {r : ℝ} (hr : r ≠ m) (hrρ : 2 * |r - m| ≤ ρ) {x : ℝ} (hx : |x - r| ≤ |r - m| / 2) :
    rev1 q M x ≠ 0 ∧ rev1 q M x ^ 2 + (revT q M r - revT q M x) * rev2 q M x / 2 ≠ 0 ∧
      |nextM q M (revT q M r) x - r| ≤ |x - r| / 2 ∧ |revT q M x - revT q M r| ≤ 2 * rev2 q M m * |r - m| * |x - r| := by
  have hR0 : r - m ≠ 0 := sub_ne_zero.2 hr
  have hRp : 0 < |r - m| := abs_pos.2 hR0
  have hxm : |x - m| ≤ 3 / 2 * |r - m| := by
    have := abs_add_le (x - r) (r - m)
    rw [sub_add_sub_cancel] at this
    linarith
  obtain ⟨k1, k2⟩ := h1 x (by linarith)
  have k3 := h2 x r (3 / 2 * |r - m|) (by linarith) hxm (by linarith)
  have hsum : |(x - m) + (r - m)| ≤ 5 / 2 * |r - m| := (abs_add_le _ _).trans (by linarith)
  have hT : |revT q M x - revT q M r| ≤ 2 * rev2 q M m * |r - m| * |x - r| := by
    have e : rev2 q M m / 2 * ((x - m) ^ 2 - (r - m) ^ 2) = rev2 q M m / 2 * ((x - m) + (r - m)) * (x - r) := by ring
    rw [e] at k3
    have h4 := abs_add_le (revT q M x - revT q M r - rev2 q M m / 2 * ((x - m) + (r - m)) * (x - r))
      (rev2 q M m / 2 * ((x - m) + (r - m)) * (x - r))
    rw [sub_add_cancel, abs_mul (rev2 q M m / 2 * ((x - m) + (r - m))), abs_mul (rev2 q M m / 2), abs_of_pos (half_pos ha)] at h4
    have h5 : rev2 q M m / 2 * |(x - m) + (r - m)| * |x - r| ≤ rev2 q M m / 2 * (5 / 2 * |r - m|) * |x - r| := by gcongr
    have h6 : 0 ≤ rev2 q M m * |r - m| * |x - r| := by positivity
    nlinarith
  rcases eq_or_ne x r with rfl | hxr
  · have hF : rev1 q M x ≠ 0 := by
      intro h
      rw [h, zero_sub, abs_neg, abs_mul, abs_of_pos ha] at k2
      have : 0 < rev2 q M m * |x - m| := by positivity
      nlinarith
    refine ⟨hF, by rw [sub_self, zero_mul, zero_div, add_zero]; exact pow_ne_zero 2 hF, ?_, hT⟩
    rw [nextM, sub_self, zero_mul, zero_div, add_zero, sub_self, abs_zero]; norm_num
  · have he : x - r ≠ 0 := sub_ne_zero.2 hxr
    have hep : 0 < |x - r| := abs_pos.2 he
    have ez : x - m - (r - m) = x - r := by ring
    have hs : (x - r) * ((revT q M x - revT q M r) / (x - r)) = revT q M x - revT q M r := by field_simp
    obtain ⟨c1, c2, c3⟩ := halley_parabola (a := rev2 q M m) (R := r - m) (z := x - m) (F1 := rev1 q M x)
      (s := (revT q M x - revT q M r) / (x - r)) (F2 := rev2 q M x) ha hR0 (by rw [ez]; exact hx)
      (k2.trans (by nlinarith)) (by
        rw [show (revT q M x - revT q M r) / (x - r) - rev2 q M m * (x - m + (r - m)) / 2 =
          (revT q M x - revT q M r - rev2 q M m / 2 * ((x - m) ^ 2 - (r - m) ^ 2)) / (x - r) by field_simp; ring,
          abs_div, div_le_iff₀ hep]
        refine k3.trans ?_
        have : 0 ≤ rev2 q M m * |r - m| * |x - r| := by positivity
        nlinarith) (k1.trans (by linarith))
    rw [ez, hs] at c2 c3
    have hden : rev1 q M x ^ 2 + (revT q M r - revT q M x) * rev2 q M x / 2 =
        rev1 q M x ^ 2 - (revT q M x - revT q M r) * rev2 q M x / 2 := by ring
    refine ⟨c1, by rw [hden]; exact c2.ne', ?_, hT⟩
    rw [nextM, hden]
    refine le_trans (le_of_eq ?_) c3
    congr 1
    ring

end Gooding
end Lamberthub
