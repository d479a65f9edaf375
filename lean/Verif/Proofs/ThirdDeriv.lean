import Verif.Proofs.SimpleRoot

/-!
# The third derivative of the time of hyperbolic transfers is negative

For `x > 1` and every `λ` the time without revolutions decreases, is convex, and its second derivative decreases.
-/

set_option autoImplicit false

namespace Lamberthub
open Filter Topology

/-- The bound below which the third derivative would be nonnegative, part without `λ`. -/
noncomputable def third0 (x : ℝ) : ℝ := 2 * (27 * x ^ 2 + 8) / (15 * x * (4 * x ^ 2 + 3))
/-- The part with `λ`, without its factor `λ³ / y`. -/
noncomputable def third1 (L x : ℝ) : ℝ :=
  (-2 * (27 * x ^ 2 + 8) * (1 + L * (x ^ 2 - 1)) ^ 2 + 14 * (x ^ 2 - 1) * (1 - L) * (1 + L * (x ^ 2 - 1)) +
    6 * (x ^ 2 - 1) ^ 2 * (1 - L) * L) / (15 * (4 * x ^ 2 + 3) * (1 + L * (x ^ 2 - 1)) ^ 2)

theorem third0_deriv {x : ℝ} (hx : 1 < x) :
    ∃ d, HasDerivAt third0 d x ∧
      2 - 3 * x * third0 x - (x ^ 2 - 1) * d = 16 * (x ^ 2 - 1) ^ 3 / (5 * x ^ 2 * (4 * x ^ 2 + 3) ^ 2) := by
  have hx0 : (0 : ℝ) < x := by linarith
  have h2 : HasDerivAt (fun t : ℝ => t ^ 2) (2 * x) x := by simpa using hasDerivAt_pow 2 x
  have hN : HasDerivAt (fun t : ℝ => 2 * (27 * t ^ 2 + 8)) (2 * (27 * (2 * x))) x :=
    ((h2.const_mul 27).add_const 8).const_mul 2
  have hD : HasDerivAt (fun t : ℝ => 15 * t * (4 * t ^ 2 + 3)) (15 * 1 * (4 * x ^ 2 + 3) + 15 * x * (4 * (2 * x))) x :=
    ((hasDerivAt_id x).const_mul 15).mul ((h2.const_mul 4).add_const 3)
  refine ⟨_, hN.div hD (by positivity), ?_⟩
  simp only [third0]
  field_simp
  ring

theorem third1_deriv {L x : ℝ} (hx : 1 < x) (hL0 : 0 ≤ L) :
    ∃ d, HasDerivAt (third1 L) d x ∧
      -2 * x - 3 * x * third1 L x - (x ^ 2 - 1) * (d - third1 L x * (L * x) / (1 + L * (x ^ 2 - 1))) =
        x * (x ^ 2 - 1) ^ 3 * L ^ 2 * ((90 + 72 * x ^ 2) * (1 - L) - 48 * L * x ^ 4) /
          (15 * (4 * x ^ 2 + 3) ^ 2 * (1 + L * (x ^ 2 - 1)) ^ 3) := by
  have hx0 : (0 : ℝ) < x := by linarith
  have hY : 0 < 1 + L * (x ^ 2 - 1) := by nlinarith [mul_nonneg hL0 (by nlinarith : (0 : ℝ) ≤ x ^ 2 - 1)]
  have h2 : HasDerivAt (fun t : ℝ => t ^ 2) (2 * x) x := by simpa using hasDerivAt_pow 2 x
  have hu : HasDerivAt (fun t : ℝ => t ^ 2 - 1) (2 * x) x := h2.sub_const 1
  have dY : HasDerivAt (fun t : ℝ => 1 + L * (t ^ 2 - 1)) (L * (2 * x)) x := (hu.const_mul L).const_add 1
  have hN : HasDerivAt (fun t : ℝ => -2 * (27 * t ^ 2 + 8) * (1 + L * (t ^ 2 - 1)) ^ 2 +
      14 * (t ^ 2 - 1) * (1 - L) * (1 + L * (t ^ 2 - 1)) + 6 * (t ^ 2 - 1) ^ 2 * (1 - L) * L)
      ((-2 * (27 * (2 * x))) * (1 + L * (x ^ 2 - 1)) ^ 2 + -2 * (27 * x ^ 2 + 8) * (2 * (1 + L * (x ^ 2 - 1)) * (L * (2 * x))) +
        (14 * (2 * x) * (1 - L) * (1 + L * (x ^ 2 - 1)) + 14 * (x ^ 2 - 1) * (1 - L) * (L * (2 * x))) +
        6 * (2 * (x ^ 2 - 1) * (2 * x)) * (1 - L) * L) x := by
    refine (((((h2.const_mul 27).add_const 8).const_mul (-2)).mul (dY.pow 2)).add
      (((hu.const_mul 14).mul_const (1 - L)).mul dY)).add ((((hu.pow 2).const_mul 6).mul_const (1 - L)).mul_const L)
      |>.congr_deriv ?_
    simp
  have hD : HasDerivAt (fun t : ℝ => 15 * (4 * t ^ 2 + 3) * (1 + L * (t ^ 2 - 1)) ^ 2)
      (15 * (4 * (2 * x)) * (1 + L * (x ^ 2 - 1)) ^ 2 + 15 * (4 * x ^ 2 + 3) * (2 * (1 + L * (x ^ 2 - 1)) * (L * (2 * x)))) x := by
    refine ((((h2.const_mul 4).add_const 3).const_mul 15).mul (dY.pow 2)).congr_deriv ?_
    simp
  refine ⟨_, hN.div hD (by positivity), ?_⟩
  simp only [third1]
  field_simp
  ring

theorem third_pos {lam x y : ℝ} (hl : lam ^ 2 < 1) (hx : 1 < x) (hy : 0 < y) (hy2 : y ^ 2 = 1 + lam ^ 2 * (x ^ 2 - 1)) :
    0 < 48 * (y ^ 2) ^ 3 * y + lam ^ 3 * x ^ 3 * (lam ^ 2) ^ 2 * ((90 + 72 * x ^ 2) * (1 - lam ^ 2) - 48 * lam ^ 2 * x ^ 4) := by
  have he : 0 < 1 - lam ^ 2 := by linarith
  have hx0 : 0 < x := by linarith
  rcases le_or_gt 0 lam with h | h
  · have hp : lam * x < y := by
      apply lt_of_pow_lt_pow_left₀ 2 hy.le
      nlinarith
    have h7 : (lam * x) ^ 7 < y ^ 7 := pow_lt_pow_left₀ hp (by positivity) (by norm_num)
    have h9 : lam ^ 2 * (lam * x) ^ 7 ≤ (lam * x) ^ 7 := mul_le_of_le_one_left (by positivity) hl.le
    have h10 : 0 ≤ lam ^ 7 * x ^ 3 * (90 + 72 * x ^ 2) * (1 - lam ^ 2) := by positivity
    have e : 48 * (y ^ 2) ^ 3 * y + lam ^ 3 * x ^ 3 * (lam ^ 2) ^ 2 * ((90 + 72 * x ^ 2) * (1 - lam ^ 2) - 48 * lam ^ 2 * x ^ 4) =
      48 * (y ^ 7 - lam ^ 2 * (lam * x) ^ 7) + lam ^ 7 * x ^ 3 * (90 + 72 * x ^ 2) * (1 - lam ^ 2) := by ring
    rw [e]
    linarith
  · obtain ⟨s, hs⟩ : ∃ s, s = -lam := ⟨_, rfl⟩
    obtain ⟨e, hee⟩ : ∃ e, e = 1 - lam ^ 2 := ⟨_, rfl⟩
    obtain ⟨p, hpp⟩ : ∃ p, p = s * x := ⟨_, rfl⟩
    have hs0 : 0 < s := by linarith
    have hs1 : s < 1 := by nlinarith
    have he0 : 0 < e := by rw [hee]; exact he
    have hes : e = 1 - s ^ 2 := by rw [hee, hs]; ring
    have hp0 : 0 < p := by rw [hpp]; positivity
    have hps : s ≤ p := by rw [hpp]; nlinarith
    have hyp : y ^ 2 = e + p ^ 2 := by rw [hy2, hee, hpp, hs]; ring
    have hlt : p < y := by apply lt_of_pow_lt_pow_left₀ 2 hy.le; linarith
    -- y ≥ p + e / (2 y)
    have h1 : e ≤ (y - p) * (2 * y) := by nlinarith
    have hy5 : p ^ 5 ≤ y ^ 5 := pow_le_pow_left₀ hp0.le hlt.le 5
    have h2 : e * p ^ 5 ≤ 2 * (y - p) * (y ^ 2) ^ 3 := by
      calc e * p ^ 5 ≤ (y - p) * (2 * y) * y ^ 5 := mul_le_mul h1 hy5 (by positivity) (by nlinarith)
        _ = 2 * (y - p) * (y ^ 2) ^ 3 := by ring
    have h3 : p ^ 7 + 3 * p ^ 5 * e + 3 * p ^ 3 * e ^ 2 + e * p ^ 5 / 2 ≤ (y ^ 2) ^ 3 * y := by
      have : (y ^ 2) ^ 3 * y = p * (y ^ 2) ^ 3 + (y - p) * (y ^ 2) ^ 3 := by ring
      rw [this]
      have h4 : p * (y ^ 2) ^ 3 = p ^ 7 + 3 * p ^ 5 * e + 3 * p ^ 3 * e ^ 2 + p * e ^ 3 := by rw [hyp]; ring
      have : 0 < p * e ^ 3 := by positivity
      linarith
    have e1 : lam ^ 3 * x ^ 3 * (lam ^ 2) ^ 2 * ((90 + 72 * x ^ 2) * (1 - lam ^ 2) - 48 * lam ^ 2 * x ^ 4) =
        -(90 * s ^ 4 * p ^ 3 * e) - 72 * s ^ 2 * p ^ 5 * e + 48 * s ^ 2 * p ^ 7 := by
      rw [hpp, hs, hee]; ring
    rw [e1]
    have h5 : 0 < 48 * s ^ 2 * p ^ 7 := by positivity
    have h6 : 0 < p ^ 3 * e := by positivity
    have h7 : p ^ 3 * e * (90 * s ^ 4) < p ^ 3 * e * ((168 - 72 * s ^ 2) * p ^ 2 + 144 * e) := by
      apply mul_lt_mul_of_pos_left _ h6
      have hs2 : s ^ 2 < 1 := by nlinarith
      have a : (168 - 72 * s ^ 2) * s ^ 2 ≤ (168 - 72 * s ^ 2) * p ^ 2 :=
        mul_le_mul_of_nonneg_left (pow_le_pow_left₀ hs0.le hps 2) (by linarith)
      have b : 0 < 144 * e + (168 - 72 * s ^ 2) * s ^ 2 - 90 * s ^ 4 := by
        rw [hes]; nlinarith [sq_nonneg s]
      linarith
    have h8 : 0 < 48 * p ^ 7 := by positivity
    nlinarith

/-- The third derivative of the time, hyperbolic transfers. -/
theorem lancT3_neg {lam x : ℝ} (hl : lam ^ 2 < 1) (hl0 : lam ≠ 0) (hx : 1 < x) :
    lancT3 lam x (lancY lam x) (lancT1 lam x (lancY lam x) (lancT lam x (lancY lam x) 0))
      (lancT2 lam x (lancY lam x) (lancT lam x (lancY lam x) 0)
        (lancT1 lam x (lancY lam x) (lancT lam x (lancY lam x) 0))) < 0 := by
  obtain ⟨T, hT⟩ : ∃ T : ℝ → ℝ, T = fun t => lancT lam t (lancY lam t) 0 := ⟨_, rfl⟩
  obtain ⟨Y, hY⟩ : ∃ Y : ℝ → ℝ, Y = lancY lam := ⟨_, rfl⟩
  have hYp : ∀ t, 0 < Y t := fun t => by rw [hY]; exact (lanc_lancY hl t).y_pos
  have hY2 : ∀ t, Y t ^ 2 = 1 + lam ^ 2 * (t ^ 2 - 1) := fun t => by
    rw [hY]; linear_combination (lanc_lancY hl t).y_sq
  have dY : ∀ t, HasDerivAt Y (lam ^ 2 * t / Y t) t := fun t => by rw [hY]; exact lancY_hasDerivAt hl t
  obtain ⟨G, hG⟩ : ∃ G : ℝ → ℝ, G = fun t => Real.sqrt (t ^ 2 - 1) ^ 3 * (T t - third0 t - lam ^ 3 * (third1 (lam ^ 2) t / Y t)) :=
    ⟨_, rfl⟩
  have hGd : ∀ t, 1 < t → ∃ d, HasDerivAt G d t ∧ 0 < d := by
    intro t ht
    have hu : 0 < t ^ 2 - 1 := by nlinarith
    have hw : 0 < Real.sqrt (t ^ 2 - 1) := Real.sqrt_pos.2 hu
    have hw2 : Real.sqrt (t ^ 2 - 1) ^ 2 = t ^ 2 - 1 := Real.sq_sqrt hu.le
    obtain ⟨d0, k0, e0⟩ := third0_deriv ht
    obtain ⟨d1, k1, e1⟩ := third1_deriv ht (sq_nonneg lam)
    have dw : HasDerivAt (fun z : ℝ => Real.sqrt (z ^ 2 - 1)) (t / Real.sqrt (t ^ 2 - 1)) t := by
      have h2 : HasDerivAt (fun z : ℝ => z ^ 2 - 1) (2 * t) t := by
        simpa using (hasDerivAt_pow 2 t).sub_const 1
      refine (h2.sqrt hu.ne').congr_deriv ?_
      field_simp
    have dT : HasDerivAt T (lancT1 lam t (Y t) (T t)) t := by
      rw [hT, hY]; exact lancT_hasDerivAt hl (by linarith) ht.ne' 0
    have dq := k1.div (dY t) (hYp t).ne'
    have := (dw.pow 3).mul ((dT.sub k0).sub (dq.const_mul (lam ^ 3)))
    rw [hG]
    refine ⟨_, this, ?_⟩
    have hyt := hYp t
    have hyt2 := hY2 t
    have hYY : 1 + lam ^ 2 * (t ^ 2 - 1) ≠ 0 := by rw [← hyt2]; positivity
    obtain ⟨w, hww⟩ : ∃ w, w = Real.sqrt (t ^ 2 - 1) := ⟨_, rfl⟩
    obtain ⟨y, hyy⟩ : ∃ y, y = Y t := ⟨_, rfl⟩
    obtain ⟨R, hR⟩ : ∃ R, R = third1 (lam ^ 2) t := ⟨_, rfl⟩
    have hT1 : (t ^ 2 - 1) * lancT1 lam t y (T t) = -3 * t * T t + 2 - 2 * lam ^ 3 * t / y := by
      unfold lancT1
      have : 1 - t ^ 2 ≠ 0 := by intro h; linarith
      field_simp
      ring
    have key : ∀ v d : ℝ, v = T t - third0 t - lam ^ 3 * (R / y) →
        d = lancT1 lam t y (T t) - d0 - lam ^ 3 * ((d1 * y - R * (lam ^ 2 * t / y)) / y ^ 2) →
        3 * t * v + (t ^ 2 - 1) * d = 16 * (t ^ 2 - 1) ^ 3 / (5 * t ^ 2 * (4 * t ^ 2 + 3) ^ 2) +
          lam ^ 3 / y * (t * (t ^ 2 - 1) ^ 3 * (lam ^ 2) ^ 2 * ((90 + 72 * t ^ 2) * (1 - lam ^ 2) - 48 * lam ^ 2 * t ^ 4) /
          (15 * (4 * t ^ 2 + 3) ^ 2 * (1 + lam ^ 2 * (t ^ 2 - 1)) ^ 3)) := by
      intro v d hv hd
      rw [hv, hd, ← e0, ← e1, ← hR, ← hyt2, ← hyy]
      rw [← hyy] at hyt
      have : (t ^ 2 - 1) * (lancT1 lam t y (T t) - d0 - lam ^ 3 * ((d1 * y - R * (lam ^ 2 * t / y)) / y ^ 2)) =
        (t ^ 2 - 1) * lancT1 lam t y (T t) - (t ^ 2 - 1) * (d0 + lam ^ 3 * ((d1 * y - R * (lam ^ 2 * t / y)) / y ^ 2)) := by ring
      rw [this, hT1]
      field_simp
      ring
    have hpos := third_pos hl ht hyt hyt2
    have hfin : 0 < 16 * (t ^ 2 - 1) ^ 3 / (5 * t ^ 2 * (4 * t ^ 2 + 3) ^ 2) +
          lam ^ 3 / y * (t * (t ^ 2 - 1) ^ 3 * (lam ^ 2) ^ 2 * ((90 + 72 * t ^ 2) * (1 - lam ^ 2) - 48 * lam ^ 2 * t ^ 4) /
          (15 * (4 * t ^ 2 + 3) ^ 2 * (1 + lam ^ 2 * (t ^ 2 - 1)) ^ 3)) := by
      rw [← hyt2, ← hyy]
      rw [← hyy] at hpos hyt
      have ht0 : 0 < t := by linarith
      have : 16 * (t ^ 2 - 1) ^ 3 / (5 * t ^ 2 * (4 * t ^ 2 + 3) ^ 2) +
          lam ^ 3 / y * (t * (t ^ 2 - 1) ^ 3 * (lam ^ 2) ^ 2 * ((90 + 72 * t ^ 2) * (1 - lam ^ 2) - 48 * lam ^ 2 * t ^ 4) /
          (15 * (4 * t ^ 2 + 3) ^ 2 * (y ^ 2) ^ 3)) = (t ^ 2 - 1) ^ 3 * (48 * (y ^ 2) ^ 3 * y + lam ^ 3 * t ^ 3 * (lam ^ 2) ^ 2 *
            ((90 + 72 * t ^ 2) * (1 - lam ^ 2) - 48 * lam ^ 2 * t ^ 4)) / (15 * t ^ 2 * (4 * t ^ 2 + 3) ^ 2 * (y ^ 2) ^ 3 * y) := by
        field_simp
        ring
      rw [this]
      positivity
    have hk := key _ _ rfl rfl
    rw [← hk] at hfin
    rw [← hww] at hw hw2
    simp only [Pi.pow_apply, Pi.sub_apply, Pi.mul_apply, Pi.div_apply]
    rw [← hww, ← hyy, ← hR]
    have hfac : ∀ v d : ℝ, (3 : ℝ) * w ^ 2 * (t / w) * v + w ^ 3 * d = w * (3 * t * v + (t ^ 2 - 1) * d) := by
      intro v d
      rw [← hw2]
      field_simp
    have := mul_pos hw hfin
    rw [← hfac] at this
    simpa using this
  have hmono : StrictMonoOn G (Set.Ioi 1) := by
    refine strictMonoOn_of_deriv_pos (convex_Ioi 1) (fun t ht => ?_) fun t ht => ?_
    · obtain ⟨d, hd, -⟩ := hGd t ht
      exact hd.continuousAt.continuousWithinAt
    · rw [interior_Ioi] at ht
      obtain ⟨d, hd, hp⟩ := hGd t ht
      rw [hd.deriv]; exact hp
  have hlim : Tendsto G (𝓝[>] 1) (𝓝 0) := by
    have hw : Tendsto (fun t : ℝ => Real.sqrt (t ^ 2 - 1) ^ 3) (𝓝[>] 1) (𝓝 0) := by
      have : ContinuousAt (fun t : ℝ => Real.sqrt (t ^ 2 - 1) ^ 3) 1 := by fun_prop
      have h := this.tendsto.mono_left (nhdsWithin_le_nhds (s := Set.Ioi 1))
      simpa using h
    have hB : ContinuousAt (fun t => third0 t + lam ^ 3 * (third1 (lam ^ 2) t / Y t)) 1 := by
      have c0 : ContinuousAt third0 1 := by
        unfold third0
        exact ContinuousAt.div (by fun_prop) (by fun_prop) (by norm_num)
      have c1 : ContinuousAt (third1 (lam ^ 2)) 1 := by
        unfold third1
        exact ContinuousAt.div (by fun_prop) (by fun_prop) (by norm_num)
      exact c0.add (continuousAt_const.mul (c1.div (dY 1).continuousAt (hYp 1).ne'))
    have hB' := hw.mul (hB.tendsto.mono_left (nhdsWithin_le_nhds (s := Set.Ioi 1)))
    have hTb : Tendsto (fun t => Real.sqrt (t ^ 2 - 1) ^ 3 * T t) (𝓝[>] 1) (𝓝 0) := by
      refine hw.zero_mul_isBoundedUnder_le ⟨|T 1| + |T 2|, ?_⟩
      rw [eventually_map]
      filter_upwards [Ioo_mem_nhdsGT (show (1 : ℝ) < 2 by norm_num)] with t ht
      have ha := (lancT_strictAnti hl hl0).antitoneOn
      rw [← hT] at ha
      have k1 : T t ≤ T 1 := ha (by simp) (show t ∈ Set.Ioi (-1 : ℝ) by simp; linarith [ht.1]) ht.1.le
      have k2 : T 2 ≤ T t := ha (show t ∈ Set.Ioi (-1 : ℝ) by simp; linarith [ht.1]) (by norm_num) ht.2.le
      simp only [Function.comp, Real.norm_eq_abs]
      rw [abs_le]
      constructor
      · linarith [neg_abs_le (T 2), abs_nonneg (T 1)]
      · linarith [le_abs_self (T 1), abs_nonneg (T 2)]
    have := hTb.sub hB'
    rw [zero_mul, sub_zero] at this
    refine this.congr fun t => ?_
    rw [hG]
    simp only []
    ring
  have hGx : 0 < G x := by
    have hm : (1 + x) / 2 ∈ Set.Ioi (1 : ℝ) := by simp only [Set.mem_Ioi]; linarith
    have h1 : 0 ≤ G ((1 + x) / 2) := by
      refine le_of_tendsto hlim ?_
      filter_upwards [Ioo_mem_nhdsGT (show (1 : ℝ) < (1 + x) / 2 from hm)] with t ht
      exact (hmono ht.1 hm ht.2).le
    exact h1.trans_lt (hmono hm hx (by linarith))
  have hu : 0 < x ^ 2 - 1 := by nlinarith
  have hw : 0 < Real.sqrt (x ^ 2 - 1) ^ 3 := pow_pos (Real.sqrt_pos.2 hu) 3
  rw [hG] at hGx
  have hGx := (mul_pos_iff_of_pos_left hw).1 hGx
  have hx0 : 0 < x := by linarith
  have hyt := hYp x
  have hthird : lancT3 lam x (Y x) (lancT1 lam x (Y x) (T x)) (lancT2 lam x (Y x) (T x) (lancT1 lam x (Y x) (T x))) =
      -(15 * x * (4 * x ^ 2 + 3) * (T x - third0 x - lam ^ 3 * (third1 (lam ^ 2) x / Y x)) / (x ^ 2 - 1) ^ 3) := by
    unfold lancT3 lancT2 lancT1 third0 third1
    rw [← hY2 x]
    generalize Y x = y at *
    generalize T x = τ at *
    have h1 : 1 - x ^ 2 ≠ 0 := by intro h; linarith
    have h2 : x ^ 2 - 1 = -(1 - x ^ 2) := by ring
    rw [h2]
    field_simp
    ring
  rw [← hY, show lancT lam x (Y x) 0 = T x by rw [hT, hY], hthird, neg_lt_zero]
  positivity

theorem lancT_hyp_bounded {lam : ℝ} (hl : lam ^ 2 < 1) (hl0 : lam ≠ 0) :
    Tendsto (fun t : ℝ => Real.sqrt (t ^ 2 - 1) ^ 3 * lancT lam t (lancY lam t) 0) (𝓝[>] 1) (𝓝 0) := by
  have hw : Tendsto (fun t : ℝ => Real.sqrt (t ^ 2 - 1) ^ 3) (𝓝[>] 1) (𝓝 0) := by
    have : ContinuousAt (fun t : ℝ => Real.sqrt (t ^ 2 - 1) ^ 3) 1 := by fun_prop
    have h := this.tendsto.mono_left (nhdsWithin_le_nhds (s := Set.Ioi 1))
    simpa using h
  obtain ⟨T, hT⟩ : ∃ T : ℝ → ℝ, T = fun t => lancT lam t (lancY lam t) 0 := ⟨_, rfl⟩
  refine hw.zero_mul_isBoundedUnder_le ⟨|T 1| + |T 2|, ?_⟩
  rw [eventually_map]
  filter_upwards [Ioo_mem_nhdsGT (show (1 : ℝ) < 2 by norm_num)] with t ht
  have ha := (lancT_strictAnti hl hl0).antitoneOn
  rw [← hT] at ha
  have k1 : T t ≤ T 1 := ha (by simp) (show t ∈ Set.Ioi (-1 : ℝ) by simp; linarith [ht.1]) ht.1.le
  have k2 : T 2 ≤ T t := ha (show t ∈ Set.Ioi (-1 : ℝ) by simp; linarith [ht.1]) (by norm_num) ht.2.le
  simp only [Function.comp, Real.norm_eq_abs]
  rw [show lancT lam t (lancY lam t) 0 = T t by rw [hT], abs_le]
  constructor
  · linarith [neg_abs_le (T 2), abs_nonneg (T 1)]
  · linarith [le_abs_self (T 1), abs_nonneg (T 2)]

theorem pos_of_deriv_pos {G : ℝ → ℝ} (hlim : Tendsto G (𝓝[>] 1) (𝓝 0)) (hGd : ∀ t, 1 < t → ∃ d, HasDerivAt G d t ∧ 0 < d)
    {x : ℝ} (hx : 1 < x) : 0 < G x := by
  have hmono : StrictMonoOn G (Set.Ioi 1) := by
    refine strictMonoOn_of_deriv_pos (convex_Ioi 1) (fun t ht => ?_) fun t ht => ?_
    · obtain ⟨d, hd, -⟩ := hGd t ht
      exact hd.continuousAt.continuousWithinAt
    · rw [interior_Ioi] at ht
      obtain ⟨d, hd, hp⟩ := hGd t ht
      rw [hd.deriv]; exact hp
  have hm : (1 + x) / 2 ∈ Set.Ioi (1 : ℝ) := by simp only [Set.mem_Ioi]; linarith
  have h1 : 0 ≤ G ((1 + x) / 2) := by
    refine le_of_tendsto hlim ?_
    filter_upwards [Ioo_mem_nhdsGT (show (1 : ℝ) < (1 + x) / 2 from hm)] with t ht
    exact (hmono ht.1 hm ht.2).le
  exact h1.trans_lt (hmono hm hx (by linarith))

/-- Hyperbolic transfers take a positive time. -/
theorem lancT_hyp_pos {lam x : ℝ} (hl : lam ^ 2 < 1) (hl0 : lam ≠ 0) (hx : 1 < x) : 0 < lancT lam x (lancY lam x) 0 := by
  have h := pos_of_deriv_pos (lancT_hyp_bounded hl hl0) (fun t ht => ?_) hx
  · have hu : 0 < x ^ 2 - 1 := by nlinarith
    exact (mul_pos_iff_of_pos_left (pow_pos (Real.sqrt_pos.2 hu) 3)).1 h
  have hu : 0 < t ^ 2 - 1 := by nlinarith
  have hw : 0 < Real.sqrt (t ^ 2 - 1) := Real.sqrt_pos.2 hu
  have hw2 : Real.sqrt (t ^ 2 - 1) ^ 2 = t ^ 2 - 1 := Real.sq_sqrt hu.le
  have dw : HasDerivAt (fun z : ℝ => Real.sqrt (z ^ 2 - 1)) (t / Real.sqrt (t ^ 2 - 1)) t := by
    have h2 : HasDerivAt (fun z : ℝ => z ^ 2 - 1) (2 * t) t := by
      simpa using (hasDerivAt_pow 2 t).sub_const 1
    refine (h2.sqrt hu.ne').congr_deriv ?_
    field_simp
  refine ⟨_, (dw.pow 3).mul (lancT_hasDerivAt hl (by linarith) ht.ne' 0), ?_⟩
  have hL := lanc_lancY hl t
  have hy := hL.y_pos
  have hy2 := hL.y_sq
  simp only [Pi.pow_apply]
  generalize lancY lam t = y at *
  generalize lancT lam t y 0 = τ at *
  generalize Real.sqrt (t ^ 2 - 1) = w at *
  have e : (3 : ℝ) * w ^ 2 * (t / w) * τ + w ^ 3 * lancT1 lam t y τ = 2 * w * (1 - lam ^ 3 * t / y) := by
    unfold lancT1
    have h1 : 1 - t ^ 2 = -w ^ 2 := by rw [hw2]; ring
    rw [h1]
    field_simp
    ring
  have hlt : lam ^ 3 * t < y := by
    have ha : |lam * t| < y := by
      apply lt_of_pow_lt_pow_left₀ 2 hy.le
      rw [sq_abs, hy2]; nlinarith
    have hb : lam ^ 2 * |lam * t| ≤ |lam * t| := mul_le_of_le_one_left (abs_nonneg _) hl.le
    calc lam ^ 3 * t = lam ^ 2 * (lam * t) := by ring
      _ ≤ lam ^ 2 * |lam * t| := mul_le_mul_of_nonneg_left (le_abs_self _) (sq_nonneg _)
      _ < y := by linarith
  have hq : lam ^ 3 * t / y < 1 := (div_lt_one hy).2 hlt
  have : 0 < 2 * w * (1 - lam ^ 3 * t / y) := mul_pos (by linarith) (by linarith)
  rw [← e] at this
  simpa using this

/-- The time of hyperbolic transfers decreases. -/
theorem lancT1_hyp_neg {lam x : ℝ} (hl : lam ^ 2 < 1) (hl0 : lam ≠ 0) (hx : 1 < x) :
    lancT1 lam x (lancY lam x) (lancT lam x (lancY lam x) 0) < 0 := by
  have hne := lancT1_ne_zero (M := 0) hl hl0 (by linarith) hx.ne' (.inl rfl)
  have dT := lancT_hasDerivAt hl (by linarith) hx.ne' 0
  refine lt_of_le_of_ne ?_ hne
  have hacc : AccPt x (𝓟 (Set.Ioi 1)) :=
    (PerfectSpace.univ_preperfect x (Set.mem_univ x)).nhds_inter (Ioi_mem_nhds hx) |>.mono (by simp)
  exact dT.hasDerivWithinAt.nonpos_of_antitoneOn hacc
    ((lancT_strictAnti hl hl0).antitoneOn.mono fun t (ht : 1 < t) => show -1 < t by linarith)

/-- The time of hyperbolic transfers is convex. -/
theorem lancT2_hyp_pos {lam x : ℝ} (hl : lam ^ 2 < 1) (hl0 : lam ≠ 0) (hx : 1 < x) :
    0 < lancT2 lam x (lancY lam x) (lancT lam x (lancY lam x) 0)
      (lancT1 lam x (lancY lam x) (lancT lam x (lancY lam x) 0)) := by
  obtain ⟨T, hT⟩ : ∃ T : ℝ → ℝ, T = fun t => lancT lam t (lancY lam t) 0 := ⟨_, rfl⟩
  obtain ⟨T1, hT1⟩ : ∃ T1 : ℝ → ℝ, T1 = fun t => lancT1 lam t (lancY lam t) (lancT lam t (lancY lam t) 0) := ⟨_, rfl⟩
  obtain ⟨T2, hT2⟩ : ∃ T2 : ℝ → ℝ, T2 = fun t => lancT2 lam t (lancY lam t) (lancT lam t (lancY lam t) 0)
      (lancT1 lam t (lancY lam t) (lancT lam t (lancY lam t) 0)) := ⟨_, rfl⟩
  have hn : ∀ t : ℝ, 1 < t → 1 - t ^ 2 ≠ 0 := fun t ht h => by nlinarith
  have d0 : ∀ t, 1 < t → HasDerivAt T (T1 t) t := fun t ht => by
    rw [hT, hT1]; exact lancT_hasDerivAt hl (by linarith) ht.ne' 0
  have d1 : ∀ t, 1 < t → HasDerivAt T1 (T2 t) t := fun t ht => by
    rw [hT1, hT2]; exact lancT1_hasDerivAt hl (hn t ht) (lancT_hasDerivAt hl (by linarith) ht.ne' 0)
  have d2 : ∀ t, 1 < t → ∃ d, HasDerivAt T2 d t ∧ d < 0 := fun t ht => by
    rw [hT2]
    exact ⟨_, lancT2_hasDerivAt hl (hn t ht) (T1 := fun t => lancT1 lam t (lancY lam t) (lancT lam t (lancY lam t) 0))
      (lancT_hasDerivAt hl (by linarith) ht.ne' 0)
      (lancT1_hasDerivAt hl (hn t ht) (lancT_hasDerivAt hl (by linarith) ht.ne' 0)), lancT3_neg hl hl0 ht⟩
  have a2 : StrictAntiOn T2 (Set.Ioi 1) := by
    refine strictAntiOn_of_deriv_neg (convex_Ioi 1) (fun t ht => ?_) fun t ht => ?_
    · obtain ⟨d, hd, -⟩ := d2 t ht
      exact hd.continuousAt.continuousWithinAt
    · rw [interior_Ioi] at ht
      obtain ⟨d, hd, hp⟩ := d2 t ht
      rw [hd.deriv]; exact hp
  show 0 < (fun t => lancT2 lam t (lancY lam t) (lancT lam t (lancY lam t) 0)
      (lancT1 lam t (lancY lam t) (lancT lam t (lancY lam t) 0))) x
  rw [← hT2]
  by_contra hneg
  have hneg := not_lt.1 hneg
  have a1 : AntitoneOn T1 (Set.Ici x) := by
    refine antitoneOn_of_deriv_nonpos (convex_Ici x)
      (fun t (ht : x ≤ t) => (d1 t (by linarith)).continuousAt.continuousWithinAt) (fun t ht => ?_) fun t ht => ?_
    all_goals
      rw [interior_Ici] at ht
      have ht : x < t := ht
    · exact (d1 t (by linarith)).differentiableAt.differentiableWithinAt
    · rw [(d1 t (by linarith)).deriv]
      exact ((a2 hx (show 1 < t by linarith) ht).le).trans hneg
  have hd : T1 x < 0 := by rw [hT1]; exact lancT1_hyp_neg hl hl0 hx
  have hp : ∀ t, 1 < t → 0 < T t := fun t ht => by rw [hT]; exact lancT_hyp_pos hl hl0 ht
  -- far enough the time would be negative
  obtain ⟨t, ht⟩ : ∃ t, t = x + T x / (-T1 x) := ⟨_, rfl⟩
  have hlt : x < t := by rw [ht]; have := div_pos (hp x hx) (neg_pos.2 hd); linarith
  obtain ⟨c, hc, e⟩ := exists_hasDerivAt_eq_slope T T1 hlt
    (fun z hz => (d0 z (by linarith [hz.1])).continuousAt.continuousWithinAt) fun z hz => d0 z (by linarith [hz.1])
  have hle := a1 Set.self_mem_Ici (show c ∈ Set.Ici x from hc.1.le) hc.1.le
  rw [e, div_le_iff₀ (by linarith)] at hle
  have : T1 x * (t - x) = -T x := by
    rw [ht, add_sub_cancel_left, div_neg, mul_neg, mul_div_cancel₀ _ hd.ne]
  have := hp t (by linarith)
  linarith

end Lamberthub
