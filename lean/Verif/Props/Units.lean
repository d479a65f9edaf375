import Verif.Proofs.AgreeLemmas

/-!
# Change of units (property C33)

A change of the units of length and time multiplies positions by `k`, times by `t` and the
gravitational parameter by `k³/t²`.  The solvers that iterate on non-dimensional variables give
the same outcome in both systems of units: the same error, or velocities multiplied by `k/t` (with the
same number of iterations).  The theorems are equations between the two runs and have no
hypothesis besides the positivity of the two factors.
-/

set_option autoImplicit false

namespace Lamberthub

theorem Izzo.geometry_units {k : ℝ} (hk : 0 < k) (r1 r2 : V3) (pro : Bool) :
    Agree (fun a b => b = (k * a.1, a.2)) (Izzo.geometry r1 r2 pro) (Izzo.geometry (k • r1) (k • r2) pro) := by
  unfold Izzo.geometry
  simp only [sub_scale, norm_scale hk.le, vdiv_scale hk.ne']
  have hs : ∀ a b c : ℝ, (k * a + k * b + k * c) * 0.5 = k * ((a + b + c) * 0.5) := fun a b c => by ring
  simp only [hs, pdiv_scale hk.ne']
  exact .same fun _ _ => .same fun _ _ => .same fun _ _ => .same fun _ _ => .same fun _ _ => .ok rfl

/-- C33, `izzo2015`. -/
theorem izzo_units {k t : ℝ} (hk : 0 < k) (ht : 0 < t) (mu : ℝ) (r1 r2 : V3) (tof : ℝ) (M : ℤ) (pro low : Bool)
    (N : ℕ) (atol rtol : ℝ) :
    izzo2015 (k ^ 3 / t ^ 2 * mu) (k • r1) (k • r2) (t * tof) M pro low N atol rtol =
      (izzo2015 mu r1 r2 tof M pro low N atol rtol).map fun p => ((k / t) • p.1, (k / t) • p.2) := by
  refine Agree.map ?_
  unfold izzo2015
  simp only [sub_scale, norm_scale hk.le, vdiv_scale hk.ne', ← mul_sub, pdiv_scale hk.ne']
  refine (Izzo.geometry_units hk r1 r2 pro).bind fun ⟨s, ll, it1, it2⟩ b _ _ hb => ?_
  subst hb
  refine (agree_pdiv (c := k ^ 3 / t ^ 2) (d := k ^ 3) (by positivity) (by ring) (by ring)).bind fun ts ts' _ _ h => ?_
  refine (agree_psqrt (c := 1 / t) (by positivity) (by rw [h]; field_simp)).bind fun q q' _ _ h' => ?_
  rw [show q' * (t * tof) = q * tof by rw [h']; field_simp]
  refine .same fun ⟨x, y⟩ _ => ?_
  refine (agree_psqrt (c := k ^ 2 / t) (by positivity) (by field_simp)).bind fun g g' _ _ hg => ?_
  refine .same fun rho _ => .same fun sg _ => ?_
  have hrec : Agree (fun a b => b = (k / t * a.1, k / t * a.2.1, k / t * a.2.2.1, k / t * a.2.2.2))
      (Izzo.reconstruct x y (V3.norm r1) (V3.norm r2) ll g rho sg)
      (Izzo.reconstruct x y (k * V3.norm r1) (k * V3.norm r2) ll g' rho sg) := by
    unfold Izzo.reconstruct
    have he : k ^ 2 / t / k = k / t := by field_simp
    refine (agree_pdiv (c := k ^ 2 / t) hk.ne' (by rw [hg]; ring) rfl).bind fun _ _ _ _ h1 =>
      (agree_pdiv (c := k ^ 2 / t) hk.ne' (by rw [hg]; ring) rfl).bind fun _ _ _ _ h2 =>
      (agree_pdiv (c := k ^ 2 / t) hk.ne' (by rw [hg]; ring) rfl).bind fun _ _ _ _ h3 =>
      (agree_pdiv (c := k ^ 2 / t) hk.ne' (by rw [hg]; ring) rfl).bind fun _ _ _ _ h4 => .ok ?_
    rw [h1, h2, h3, h4, he]
  refine hrec.bind fun ⟨a, b, c, d⟩ _ _ _ hb => ?_
  subst hb
  refine .same fun u1 _ => .same fun u2 _ => .ok ?_
  refine Prod.ext ?_ ?_ <;> ext <;> simp <;> ring

/-- C33, `gauss1809`. -/
theorem gauss_units {k t : ℝ} (hk : 0 < k) (ht : 0 < t) (mu : ℝ) (r1 r2 : V3) (tof : ℝ) (M : ℤ) (pro low : Bool)
    (N : ℕ) (atol rtol : ℝ) (full : Bool) (clock : ℝ) :
    gauss1809 (k ^ 3 / t ^ 2 * mu) (k • r1) (k • r2) (t * tof) M pro low N atol rtol full clock =
      (gauss1809 mu r1 r2 tof M pro low N atol rtol full clock).map (Output.mapV ((k / t) • ·)) := by
  refine Agree.map ?_
  unfold gauss1809
  rw [assertParameters_scale hk (by positivity) ht, transferAngle_scale hk]
  refine .same fun _ _ => .same fun dθ _ => .same fun _ _ => .same fun _ _ => ?_
  have hsq : ∀ a b : ℝ, k * a * (k * b) = k ^ 2 * (a * b) := fun a b => by ring
  have hS : Gauss.getS (V3.norm (k • r1)) (V3.norm (k • r2)) dθ = Gauss.getS (V3.norm r1) (V3.norm r2) dθ := by
    refine Agree.eq ?_
    unfold Gauss.getS
    rw [norm_scale hk.le, norm_scale hk.le, hsq]
    refine (agree_psqrt hk rfl).bind fun s s' _ _ h => ?_
    subst h
    refine (agree_pdiv (c := k) hk.ne' (by ring) (by ring)).bind fun q q' _ _ h => .ok ?_
    rw [h, div_self hk.ne', one_mul]
  have hW : Gauss.getW (k ^ 3 / t ^ 2 * mu) (t * tof) (V3.norm (k • r1)) (V3.norm (k • r2)) dθ =
      Gauss.getW mu tof (V3.norm r1) (V3.norm r2) dθ := by
    refine Agree.eq ?_
    unfold Gauss.getW
    rw [norm_scale hk.le, norm_scale hk.le, hsq]
    refine (agree_psqrt hk rfl).bind fun s s' _ _ h => ?_
    subst h
    refine (agree_pdiv (c := k ^ 3) (d := k ^ 3) (by positivity) (by field_simp) (by ring)).mono fun q q' h => ?_
    rw [h, div_self (by positivity), one_mul]
  rw [hS, hW]
  refine .same fun s _ => .same fun w _ => .same fun ⟨x, n⟩ _ => .same fun tpi _ => ?_
  have hv : Agree (fun a b => b = ((k / t) • a.1, (k / t) • a.2)) (Gauss.velocities mu r1 r2 dθ x)
      (Gauss.velocities (k ^ 3 / t ^ 2 * mu) (k • r1) (k • r2) dθ x) := by
    unfold Gauss.velocities
    simp only [norm_scale hk.le, hsq]
    refine .same fun dA _ => (agree_psqrt hk rfl).bind fun s s' _ _ h => ?_
    subst h
    refine (agree_pdiv (c := k ^ 2) (d := k) hk.ne' (by ring) (by ring)).bind fun p p' _ _ h => ?_
    replace h : p' = k * p := by rw [h]; field_simp
    subst h
    refine (agree_pdiv (c := k) (d := k) hk.ne' (by ring) rfl).bind fun q q' _ _ h => ?_
    replace h : q' = q := by rw [h, div_self hk.ne', one_mul]
    subst h
    refine (agree_psqrt (c := k ^ 2 / t) (by positivity) (by field_simp)).bind fun s1 s1' _ _ h => ?_
    subst h
    refine (agree_pdiv (c := k ^ 2) (d := k ^ 2 / t) (by positivity) (by ring) rfl).bind fun g g' _ _ h => ?_
    replace h : g' = t * g := by rw [h]; field_simp
    subst h
    refine (agree_pdiv (c := k ^ 3 / t ^ 2) (d := k) hk.ne' rfl rfl).bind fun q2 q2' _ _ h => ?_
    refine (agree_psqrt (c := k / t) (by positivity) (by rw [h]; field_simp)).bind fun s2 s2' _ _ h => ?_
    subst h
    refine .same fun tn _ => ?_
    refine (agree_pdiv (c := 1) (d := k) hk.ne' (by ring) rfl).bind fun q3 q3' _ _ h => ?_
    subst h
    refine (agree_pdiv (c := 1) (d := k) hk.ne' (by ring) rfl).bind fun i i' _ _ h => ?_
    subst h
    refine (agree_pdiv (c := k) (d := k) hk.ne' (by ring) rfl).bind fun q4 q4' _ _ h => ?_
    replace h : q4' = q4 := by rw [h, div_self hk.ne', one_mul]
    subst h
    refine (agree_vdiv (c := k) (d := t) ht.ne' (by ext <;> simp <;> ring) rfl).bind fun v v' _ _ h => .ok ?_
    subst h
    refine Prod.ext rfl ?_
    ext <;> simp <;> field_simp
  refine hv.bind fun ⟨v1, v2⟩ _ _ _ h => .ok ?_
  subst h
  rw [mkOutput_mapV]

/-- C33, `battin1984`. -/
theorem battin_units {k t : ℝ} (hk : 0 < k) (ht : 0 < t) (mu : ℝ) (r1 r2 : V3) (tof : ℝ) (M : ℤ) (pro low : Bool)
    (N : ℕ) (atol rtol : ℝ) (full : Bool) (clock : ℝ) :
    battin1984 (k ^ 3 / t ^ 2 * mu) (k • r1) (k • r2) (t * tof) M pro low N atol rtol full clock =
      (battin1984 mu r1 r2 tof M pro low N atol rtol full clock).map (Output.mapV ((k / t) • ·)) := by
  refine Agree.map ?_
  unfold battin1984
  rw [assertParameters_scale hk (by positivity) ht, transferAngle_scale hk]
  have hs : ∀ a b c : ℝ, (k * a + k * b + k * c) / 2 = k * ((a + b + c) / 2) := fun a b c => by ring
  simp only [sub_scale, norm_scale hk.le, hs]
  generalize (V3.norm r1 + V3.norm r2 + V3.norm (r2 - r1)) / 2 = s
  have hl : ∀ dθ, Battin.getLambda (k * V3.norm (r2 - r1)) (k * s) dθ = Battin.getLambda (V3.norm (r2 - r1)) s dθ := by
    intro dθ
    refine Agree.eq ?_
    unfold Battin.getLambda
    refine (agree_psqrt hk (by ring)).bind fun r r' _ _ h => ?_
    subst h
    rw [pdiv_scale hk.ne']
    exact .same fun _ _ => .ok rfl
  have hm : ∀ lam, Battin.getM (k ^ 3 / t ^ 2 * mu) (t * tof) (k * s) lam = Battin.getM mu tof s lam := by
    intro lam
    unfold Battin.getM
    rw [← pdiv_scale (k := k ^ 3) (by positivity) (8 * mu * tof ^ 2)]
    congr 1
    · field_simp
    · ring
  simp only [hl, hm]
  refine .same fun _ _ => .same fun dθ _ => .same fun lam _ => .same fun ll _ => .same fun m _ => ?_
  refine (agree_pdiv (c := k ^ 3 / t ^ 2) (d := k ^ 3) (by positivity) (by ring) (by ring)).bind fun q q' _ _ h => ?_
  refine (agree_psqrt (c := 1 / t) (by positivity) (by rw [h]; field_simp)).bind fun r r' _ _ h' => ?_
  rw [show r' * (t * tof) = r * tof by rw [h']; field_simp]
  refine .same fun ⟨x, y, n⟩ _ => .same fun tpi _ => ?_
  have hv : Agree (fun a b => b = ((k / t) • a.1, (k / t) • a.2)) (Battin.velocities r1 r2 tof s lam m x y)
      (Battin.velocities (k • r1) (k • r2) (t * tof) (k * s) lam m x y) := by
    unfold Battin.velocities
    refine (agree_pdiv (c := 1) (d := t) ht.ne' (by ring) (by ring)).bind fun q q' _ _ h => ?_
    subst h
    refine (agree_pdiv (c := k) (d := 1) one_ne_zero (by ring) (by ring)).bind fun q q' _ _ h => ?_
    subst h
    simp only [norm_scale hk.le]
    refine (agree_vdiv (c := k ^ 2) (d := k) hk.ne' (by ext <;> simp <;> ring) rfl).bind fun _ _ _ _ h => ?_
    subst h
    refine (agree_vdiv (c := k ^ 2) (d := k) hk.ne' (by ext <;> simp <;> ring) rfl).bind fun _ _ _ _ h => ?_
    subst h
    refine .ok (Prod.ext ?_ ?_) <;> ext <;> simp <;> field_simp <;> ring
  refine hv.bind fun ⟨v1, v2⟩ _ _ _ h => .ok ?_
  subst h
  rw [mkOutput_mapV]

/-- C33, `gooding1990`. -/
theorem gooding_units {k t : ℝ} (hk : 0 < k) (ht : 0 < t) (mu : ℝ) (r1 r2 : V3) (tof : ℝ) (M : ℤ) (pro low : Bool)
    (N : ℕ) (atol rtol : ℝ) (full : Bool) (clock : ℝ) :
    gooding1990 (k ^ 3 / t ^ 2 * mu) (k • r1) (k • r2) (t * tof) M pro low N atol rtol full clock =
      (gooding1990 mu r1 r2 tof M pro low N atol rtol full clock).map (Output.mapV ((k / t) • ·)) := by
  refine Agree.map ?_
  unfold gooding1990
  rw [assertParameters_scale hk (by positivity) ht, transferAngle_scale hk, orbitNormal_scale hk]
  simp only [norm_scale hk.le, vdiv_scale hk.ne']
  refine .same fun _ _ => .same fun ir1 _ => .same fun ir2 _ => .same fun θ _ => .same fun _ _ => .same fun ih _ => ?_
  have hv : ∀ R1 R2 dθ : ℝ, Agree (fun a b => b = ((k / t * a.1.1, k / t * a.1.2.1, k / t * a.1.2.2.1, k / t * a.1.2.2.2), a.2))
      (Gooding.vlamb mu R1 R2 dθ tof low N atol rtol full clock)
      (Gooding.vlamb (k ^ 3 / t ^ 2 * mu) (k * R1) (k * R2) dθ (t * tof) low N atol rtol full clock) := by
    intro R1 R2 dθ
    have e4 : (4.0 : ℝ) = 4 := by norm_num
    have e2 : (2.0 : ℝ) = 2 := by norm_num
    unfold Gooding.vlamb
    simp only [e4]
    refine .same fun ⟨thr2, m⟩ _ => ?_
    have haux : Agree (fun a b => b = (k ^ 2 / t * a.1, k * a.2.1, a.2.2))
        (Gooding.auxParams mu R1 R2 thr2) (Gooding.auxParams (k ^ 3 / t ^ 2 * mu) (k * R1) (k * R2) thr2) := by
      unfold Gooding.auxParams
      simp only [e4, e2]
      refine (agree_psqrt hk (by ring)).bind fun c c' _ _ h => ?_
      subst h
      refine (agree_psqrt (c := k ^ 2 / t) (by positivity) (by field_simp)).bind fun mus mus' _ _ h => ?_
      subst h
      have hs : (k * R1 + k * R2 + k * c) / 2 = k * ((R1 + R2 + c) / 2) := by ring
      simp only [hs, pdiv_scale hk.ne']
      refine .same fun qs _ => (agree_psqrt hk (by ring)).bind fun sr sr' _ _ h => ?_
      subst h
      rw [show k * sr * Real.cos thr2 = k * (sr * Real.cos thr2) by ring, pdiv_scale hk.ne']
      refine .same fun q _ => ?_
      by_cases hc : c = 0
      · subst hc
        simp only [mul_zero, ne_eq, not_true_eq_false, if_false]
        exact .ok (by simp)
      · rw [if_pos hc, if_pos (mul_ne_zero hk.ne' hc), ← mul_sub, pdiv_scale hk.ne']
        refine .same fun rho _ => ?_
        refine (agree_pdiv (c := k ^ 2) (d := k ^ 2) (by positivity) (by ring) (by ring)).bind fun sg sg' _ _ h => .ok ?_
        rw [h, div_self (by positivity), one_mul]
    refine haux.bind fun ⟨mus, s, qs, q, rho, sg⟩ _ _ _ h => ?_
    subst h
    simp only []
    have ht' : pdiv (4 * (k ^ 2 / t * mus) * (t * tof)) ((k * s) ^ 2) = pdiv (4 * mus * tof) (s ^ 2) := by
      rw [← pdiv_scale (k := k ^ 2) (by positivity) (4 * mus * tof)]
      congr 1
      · field_simp
      · ring
    rw [ht']
    refine .same fun T _ => .same fun res _ => ?_
    match res with
    | .four _ _ _ => exact .inl ⟨_, rfl, rfl⟩
    | .five n x xpl numiter tpi =>
      simp only []
      have hvel : ∀ x : ℝ, Agree (fun a b => b = (k / t * a.1, k / t * a.2.1, k / t * a.2.2.1, k / t * a.2.2.2))
          (Gooding.velocities m q qs x mus rho sg R1 R2)
          (Gooding.velocities m q qs x (k ^ 2 / t * mus) rho sg (k * R1) (k * R2)) := by
        intro x
        unfold Gooding.velocities
        refine .same fun ⟨_, a, b, c⟩ _ => .same fun ss _ => ?_
        have he : k ^ 2 / t / k = k / t := by field_simp
        refine (agree_pdiv (c := k ^ 2 / t) hk.ne' (by ring) rfl).bind fun _ _ _ _ h1 =>
          (agree_pdiv (c := k ^ 2 / t) hk.ne' (by ring) rfl).bind fun _ _ _ _ h2 =>
          (agree_pdiv (c := k ^ 2 / t) hk.ne' (by ring) rfl).bind fun _ _ _ _ h3 =>
          (agree_pdiv (c := k ^ 2 / t) hk.ne' (by ring) rfl).bind fun _ _ _ _ h4 => .ok ?_
        rw [h1, h2, h3, h4, he]
      exact (hvel _).bind fun _ _ _ _ h => .ok (by rw [h])
  refine (hv _ _ _).bind fun ⟨⟨vr1, vt1, vr2, vt2⟩, n, tpi⟩ _ _ _ h => ?_
  subst h
  refine .ok ?_
  simp only [mkOutput_mapV]
  congr 1 <;> ext <;> simp <;> ring

/-- C33, `der2011`. -/
theorem der_units {k t : ℝ} (hk : 0 < k) (ht : 0 < t) (b : Brent) (mu : ℝ) (r1 r2 : V3) (tof : ℝ) (M : ℤ)
    (pro low : Bool) (N : ℕ) (atol rtol : ℝ) (full : Bool) (clock : ℝ) :
    der2011 b (k ^ 3 / t ^ 2 * mu) (k • r1) (k • r2) (t * tof) M pro low N atol rtol full clock =
      (der2011 b mu r1 r2 tof M pro low N atol rtol full clock).map (Output.mapV ((k / t) • ·)) := by
  refine Agree.map ?_
  unfold der2011
  rw [assertParameters_scale hk (by positivity) ht, transferAngle_scale hk]
  simp only [sub_scale, norm_scale hk.le]
  have hs : ∀ a b c : ℝ, k * a + k * b + k * c = k * (a + b + c) := fun a b c => by ring
  have hd : ∀ a b c : ℝ, k * a + k * b - k * c = k * (a + b - c) := fun a b c => by ring
  simp only [hs, hd]
  generalize V3.norm r1 + V3.norm r2 + V3.norm (r2 - r1) = m
  generalize V3.norm r1 + V3.norm r2 - V3.norm (r2 - r1) = n
  have hsig : ∀ ψ, Der.computeSigma (k * V3.norm r1) (k * V3.norm r2) (k * m) ψ =
      Der.computeSigma (V3.norm r1) (V3.norm r2) m ψ := by
    intro ψ
    refine Agree.eq ?_
    unfold Der.computeSigma
    refine (agree_psqrt hk (by ring)).bind fun q q' _ _ h => ?_
    subst h
    rw [show 2 * (k * q) * Real.cos (ψ / 2) = k * (2 * q * Real.cos (ψ / 2)) by ring, pdiv_scale hk.ne']
    exact .refl fun _ _ => rfl
  have htau : Der.computeNormalizedTime (k ^ 3 / t ^ 2 * mu) (k * m) (t * tof) = Der.computeNormalizedTime mu m tof := by
    refine Agree.eq ?_
    unfold Der.computeNormalizedTime
    refine (agree_pdiv (c := k ^ 3 / t ^ 2) (d := k ^ 3) (by positivity) rfl (by ring)).bind fun q q' _ _ h => ?_
    refine (agree_psqrt (c := 1 / t) (by positivity) (by rw [h]; field_simp)).bind fun r r' _ _ h' => .ok ?_
    rw [h']; field_simp
  simp only [hsig, htau]
  refine .same fun _ _ => .same fun ψ _ => .same fun _ _ => .same fun _ _ => .same fun σ _ => .same fun τ _ =>
    .same fun _ _ => .same fun ⟨x, y, numiter⟩ _ => .same fun tpi _ => ?_
  have hv : Agree (fun a b => b = ((k / t) • a.1, (k / t) • a.2))
      (Der.reconstructVelocities mu r1 r2 (V3.norm r1) (V3.norm r2) (V3.norm (r2 - r1)) m n x y)
      (Der.reconstructVelocities (k ^ 3 / t ^ 2 * mu) (k • r1) (k • r2) (k * V3.norm r1) (k * V3.norm r2)
        (k * V3.norm (r2 - r1)) (k * m) (k * n) x y) := by
    have hq : 0 < Real.sqrt k := Real.sqrt_pos.2 hk
    obtain ⟨w, hw⟩ : ∃ w, w = Real.sqrt k := ⟨_, rfl⟩
    have hw2 : k = w ^ 2 := by rw [hw, Real.sq_sqrt hk.le]
    rw [← hw] at hq
    unfold Der.reconstructVelocities
    simp only [sub_scale, vdiv_scale hk.ne']
    refine (agree_psqrt (c := w ^ 3 / t) (by positivity) (by rw [hw2]; ring)).bind fun sm sm' _ _ h => ?_
    subst h
    refine (agree_psqrt (c := w) hq (by rw [← hw2])).bind fun sn sn' _ _ h => ?_
    subst h
    refine (agree_pdiv (c := 1) (d := w) hq.ne' (by ring) rfl).bind fun yn yn' _ _ h => ?_
    subst h
    refine (agree_psqrt (c := w) hq (by rw [← hw2])).bind fun sn sn' _ _ h => ?_
    subst h
    refine (agree_pdiv (c := 1) (d := w) hq.ne' (by ring) rfl).bind fun xm xm' _ _ h => ?_
    subst h
    refine .same fun ic _ => .same fun i1 _ => .same fun i2 _ => .ok ?_
    rw [hw2]
    refine Prod.ext ?_ ?_ <;> ext <;> simp <;> field_simp
  refine hv.bind fun ⟨v1, v2⟩ _ _ _ h => .ok ?_
  subst h
  rw [mkOutput_mapV]

/-- C33, `arora2013`. -/
theorem arora_units {k t : ℝ} (hk : 0 < k) (ht : 0 < t) (mz : Minimizer) (b : Brent) (mu : ℝ) (r1 r2 : V3) (tof : ℝ)
    (M : ℤ) (pro low : Bool) (N : ℕ) (atol rtol : ℝ) (full : Bool) (clock : ℝ) :
    arora2013 mz b (k ^ 3 / t ^ 2 * mu) (k • r1) (k • r2) (t * tof) M pro low N atol rtol full clock =
      (arora2013 mz b mu r1 r2 tof M pro low N atol rtol full clock).map (Output.mapV ((k / t) • ·)) := by
  refine Agree.map ?_
  unfold arora2013
  rw [assertParameters_scale hk (by positivity) ht, transferAngle_scale hk]
  simp only [norm_scale hk.le, vdiv_scale hk.ne']
  refine .same fun _ _ => .same fun _ _ => .same fun _ _ => .same fun θ _ => .same fun _ _ => ?_
  refine (agree_pdiv (c := k ^ 3) (d := k ^ 3 / t ^ 2) (by positivity) (by ring) rfl).bind fun q q' _ _ h => ?_
  refine (agree_psqrt (c := t) ht (by rw [h]; field_simp)).bind fun T T' _ _ h => ?_
  subst h
  refine .same fun r1h _ => .same fun r2h _ => ?_
  rw [pdiv_scale ht.ne']
  refine .same fun th _ => ?_
  refine (agree_pdiv (c := t ^ 2) (d := k ^ 3) (by positivity) (by ring) (by ring)).bind fun ra ra' _ _ h => ?_
  have hm : k ^ 3 / t ^ 2 * mu * ra' = mu * ra := by rw [h]; field_simp
  simp only [hm]
  refine .same fun _ _ => .same fun S _ => .same fun _ _ => .same fun tau _ => .same fun _ _ => .same fun k0 _ =>
    .same fun ⟨kk, n⟩ _ => .same fun tpi _ => ?_
  have hv : Agree (fun a b => b = ((k / t) • a.1, (k / t) • a.2))
      (Arora.reconstruct kk tau S (mu * ra) (V3.norm r1) T r1h r2h (V3.norm r1h) (V3.norm r2h))
      (Arora.reconstruct kk tau S (mu * ra) (k * V3.norm r1) (t * T) r1h r2h (V3.norm r1h) (V3.norm r2h)) := by
    unfold Arora.reconstruct
    refine .same fun _ _ => .same fun _ _ => .same fun _ _ => .same fun w1 _ => ?_
    refine (agree_pdiv (c := k) (d := t) ht.ne' rfl rfl).bind fun u u' _ _ h => ?_
    subst h
    refine .same fun w2 _ => .ok ?_
    rw [smul_smul', smul_smul']
  refine hv.bind fun ⟨v1, v2⟩ _ _ _ h => .ok ?_
  subst h
  rw [mkOutput_mapV]

section Avanzini
open Avanzini

/-- The geometry in other units of length. -/
def Avanzini.Geometry.scale (k : ℝ) (g : Geometry) : Geometry :=
  ⟨k * g.r1Norm, k * g.r2Norm, k * g.cNorm, g.dtheta, g.wC⟩

theorem Avanzini.getGeometry_units {k : ℝ} (hk : 0 < k) (r1 r2 : V3) (pro : Bool) :
    Agree (fun a b => b = a.scale k) (getGeometry r1 r2 pro) (getGeometry (k • r1) (k • r2) pro) := by
  unfold getGeometry
  rw [sub_scale, transferAngle_scale hk, transferAngle_scale hk]
  refine .same fun _ _ => .same fun _ _ => .same fun _ _ => .ok ?_
  simp only [norm_scale hk.le]
  rfl

theorem Avanzini.fundamental_units {k : ℝ} (hk : 0 < k) (R1 R2 c : ℝ) :
    Agree (fun a b => b = (a.1, k * a.2.1, k * a.2.2)) (fundamental R1 R2 c) (fundamental (k * R1) (k * R2) (k * c)) := by
  unfold fundamental getEccF
  rw [← mul_sub, pdiv_scale hk.ne']
  refine .same fun e _ => .ok ?_
  simp only [getAF, getPF]
  refine Prod.ext rfl (Prod.ext ?_ ?_) <;> simp <;> ring

theorem Avanzini.eapFromEccT_units {k : ℝ} (hk : 0 < k) (g : Geometry) (e : ℝ) :
    Agree (fun a b => b = (a.1, k * a.2.1, k * a.2.2)) (eapFromEccT e g) (eapFromEccT e (g.scale k)) := by
  unfold eapFromEccT pAtEccT aAtEccT
  refine (fundamental_units hk _ _ _).bind fun ⟨eF, aF, pF⟩ _ _ _ h => ?_
  subst h
  refine .same fun ecc _ => ?_
  refine Agree.bind (R := fun a b => b = k * a) ?_ fun p p' _ _ h => ?_
  · refine (agree_pdiv (c := k ^ 2) (d := k) hk.ne' (by simp only [Geometry.scale]; ring) rfl).bind fun _ _ _ _ h => .ok ?_
    rw [h]; field_simp
  subst h
  refine (agree_pdiv (c := k) (d := 1) one_ne_zero rfl (by ring)).bind fun a a' _ _ h => .ok ?_
  rw [h, div_one]

theorem Avanzini.tofFromDeltaM_units {k t : ℝ} (hk : 0 < k) (ht : 0 < t) (mu ecc a p d : ℝ) :
    Agree (fun x y => y = t * x) (tofFromDeltaM mu ecc a p d) (tofFromDeltaM (k ^ 3 / t ^ 2 * mu) ecc (k * a) (k * p) d) := by
  have hneg : ∀ x : ℝ, t * x < 0 ↔ x < 0 := fun x => by
    constructor
    · intro h; by_contra hx; exact absurd h (not_lt.2 (mul_nonneg ht.le (not_lt.1 hx)))
    · exact fun h => mul_neg_of_pos_of_neg ht h
  have hne : k ^ 3 / t ^ 2 ≠ 0 := by positivity
  unfold tofFromDeltaM
  by_cases h1 : 0 ≤ ecc ∧ ecc < 1
  · rw [if_pos h1, if_pos h1]
    refine (agree_pdiv (c := k ^ 3) (d := k ^ 3 / t ^ 2) hne (by ring) rfl).bind fun q q' _ _ h => ?_
    refine (agree_psqrt (c := t) ht (by rw [h]; field_simp)).bind fun s s' _ _ h => ?_
    subst h
    by_cases h2 : s * d < 0
    · rw [if_pos h2, if_pos (by rw [mul_assoc, hneg]; exact h2)]
      exact .ok (by ring)
    · rw [if_neg h2, if_neg (by rw [mul_assoc, hneg]; exact h2)]
      exact .ok (by ring)
  rw [if_neg h1, if_neg h1]
  by_cases h2 : ecc = 1
  · rw [if_pos h2, if_pos h2]
    refine (agree_pdiv (c := k ^ 3) (d := k ^ 3 / t ^ 2) hne (by ring) rfl).bind fun q q' _ _ h => ?_
    refine (agree_psqrt (c := t) ht (by rw [h]; field_simp)).bind fun s s' _ _ h => ?_
    subst h
    have he : 1 / 2 * (t * s) * d = t * (1 / 2 * s * d) := by ring
    by_cases h3 : 1 / 2 * s * d < 0
    · rw [if_pos h3, if_pos (by rw [he, hneg]; exact h3)]
      exact .inl ⟨_, rfl, rfl⟩
    · rw [if_neg h3, if_neg (by rw [he, hneg]; exact h3)]
      exact .ok he
  rw [if_neg h2, if_neg h2]
  refine (agree_pdiv (c := k ^ 3) (d := k ^ 3 / t ^ 2) hne (by ring) rfl).bind fun q q' _ _ h => ?_
  refine (agree_psqrt (c := t) ht (by rw [h]; field_simp)).bind fun s s' _ _ h => ?_
  subst h
  exact .ok (by ring)

theorem Avanzini.f_units {k t : ℝ} (hk : 0 < k) (ht : 0 < t) (eT : ℝ → Py ℝ) (mu : ℝ) (g : Geometry) (tof : ℝ) :
    f eT (k ^ 3 / t ^ 2 * mu) (g.scale k) (t * tof) = f eT mu g tof := by
  funext x
  refine Agree.eq ?_
  unfold f
  refine .same fun e _ => ?_
  refine Agree.bind (R := fun a b => b = t * a) ?_ fun T T' _ _ h => ?_
  · unfold keplerTofAtEccT
    refine (eapFromEccT_units hk g e).bind fun ⟨ecc, a, p⟩ _ _ _ h => ?_
    subst h
    refine (fundamental_units hk _ _ _).bind fun ⟨eF, aF, pF⟩ _ _ _ h => ?_
    subst h
    exact .same fun _ _ => .same fun _ _ => tofFromDeltaM_units hk ht _ _ _ _ _
  subst h
  refine (agree_pdiv (c := k ^ 3) (d := k ^ 3 / t ^ 2) (by positivity) (by simp only [Geometry.scale]; ring) rfl).bind
    fun q q' _ _ h => ?_
  refine (agree_psqrt (c := t) ht (by rw [h]; field_simp)).bind fun s s' _ _ h => ?_
  subst h
  rw [pdiv_scale ht.ne', pdiv_scale ht.ne']
  exact .refl fun _ _ => rfl

theorem Avanzini.getEccTAtX_units {k : ℝ} (hk : 0 < k) (g : Geometry) : getEccTAtX (g.scale k) = getEccTAtX g := by
  have h : getEccTLimits (g.scale k) = getEccTLimits g := by
    refine Agree.eq ?_
    unfold getEccTLimits
    refine (fundamental_units hk _ _ _).bind fun ⟨eF, aF, pF⟩ _ _ _ h => ?_
    subst h
    exact .refl fun _ _ => rfl
  unfold getEccTAtX
  rw [h]

theorem coe2rv_units {k t : ℝ} (hk : 0 < k) (ht : 0 < t) (mu p ecc inc raan argp nu : ℝ) :
    Agree (fun a b => b = (k • a.1, (k / t) • a.2)) (coe2rv mu p ecc inc raan argp nu)
      (coe2rv (k ^ 3 / t ^ 2 * mu) (k * p) ecc inc raan argp nu) := by
  unfold coe2rv rvPqw
  refine Agree.bind (R := fun a b => b = (k • a.1, (k / t) • a.2)) ?_ fun a b _ _ h => ?_
  · refine (agree_pdiv (c := k) (d := 1) one_ne_zero rfl (by ring)).bind fun q q' _ _ h => ?_
    subst h
    refine (agree_pdiv (c := k ^ 3 / t ^ 2) (d := k) hk.ne' rfl rfl).bind fun w w' _ _ h => ?_
    refine (agree_psqrt (c := k / t) (by positivity) (by rw [h]; field_simp)).bind fun s s' _ _ h => .ok ?_
    subst h
    refine Prod.ext ?_ ?_ <;> ext <;> simp <;> ring
  subst h
  refine .same fun m _ => .ok (Prod.ext ?_ ?_) <;> ext <;> simp [M3.app, V3.dot] <;> ring

theorem Avanzini.coeAtEccT_units {k : ℝ} (hk : 0 < k) (e : ℝ) (r1 r2 : V3) (pro : Bool) :
    Agree (fun a b => b = { a with p := k * a.p }) (coeAtEccT e r1 r2 pro) (coeAtEccT e (k • r1) (k • r2) pro) := by
  have hinc : getOrbitIncAndRaan (k • r1) (k • r2) pro = getOrbitIncAndRaan r1 r2 pro := by
    unfold getOrbitIncAndRaan
    rw [orbitNormal_scale hk]
  unfold coeAtEccT
  rw [hinc, orbitNormal_scale hk]
  refine (getGeometry_units hk r1 r2 pro).bind fun g _ _ _ h => ?_
  subst h
  refine (eapFromEccT_units hk g e).bind fun ⟨ecc, a, p⟩ _ _ _ h => ?_
  subst h
  refine (fundamental_units hk _ _ _).bind fun ⟨eF, aF, pF⟩ _ _ _ h => ?_
  subst h
  simp only [Geometry.scale, vdiv_scale hk.ne']
  refine .same fun _ _ => .same fun _ _ => .same fun ih _ => .same fun ⟨inc, raan⟩ _ => ?_
  refine (agree_pdiv (c := k) (d := 1) one_ne_zero (by simp [V3.dot]; ring) (by ring)).bind fun py py' _ _ h => .ok ?_
  replace h : py' = k * py := by rw [h, div_one]
  subst h
  have hx : ∀ n : V3, V3.dot (k • r1) n = k * V3.dot r1 n := fun n => by simp [V3.dot]; ring
  simp only [hx, arctan2_scale hk]

/-- C33, `avanzini2008`. -/
theorem avanzini_units {k t : ℝ} (hk : 0 < k) (ht : 0 < t) (mu : ℝ) (r1 r2 : V3) (tof : ℝ) (M : ℤ) (pro low : Bool)
    (N : ℕ) (atol rtol : ℝ) (full : Bool) (clock : ℝ) :
    avanzini2008 (k ^ 3 / t ^ 2 * mu) (k • r1) (k • r2) (t * tof) M pro low N atol rtol full clock =
      (avanzini2008 mu r1 r2 tof M pro low N atol rtol full clock).map (Output.mapV ((k / t) • ·)) := by
  refine Agree.map ?_
  unfold avanzini2008
  rw [assertParameters_scale hk (by positivity) ht]
  refine .same fun _ _ => .same fun _ _ => (getGeometry_units hk r1 r2 pro).bind fun g _ _ _ h => ?_
  subst h
  simp only [getEccTAtX_units hk, f_units hk ht]
  refine .same fun eT _ => .same fun ⟨x, n⟩ _ => .same fun tpi _ => .same fun e _ => ?_
  refine (coeAtEccT_units hk e r1 r2 pro).bind fun el _ _ _ h => ?_
  subst h
  have hv : Agree (fun a b => b = ((k / t) • a.1, (k / t) • a.2)) (velocities mu el)
      (velocities (k ^ 3 / t ^ 2 * mu) { el with p := k * el.p }) := by
    unfold velocities
    refine (coe2rv_units hk ht _ _ _ _ _ _ _).bind fun a _ _ _ h => ?_
    subst h
    refine (coe2rv_units hk ht _ _ _ _ _ _ _).bind fun b _ _ _ h => ?_
    subst h
    exact .ok rfl
  refine hv.bind fun ⟨v1, v2⟩ _ _ _ h => .ok ?_
  subst h
  rw [mkOutput_mapV]

end Avanzini

/-- The equations relate returned velocities: a transfer that `izzo2015` solves in one system of
units is solved in every other one. -/
example {k t : ℝ} (hk : 0 < k) (ht : 0 < t) : ∃ tof v1 v2,
    izzo2015 1 ⟨1, 0, 0⟩ ⟨0, 1, 0⟩ tof 0 true true 35 1e-5 1e-7 = .ok (v1, v2) ∧
      izzo2015 (k ^ 3 / t ^ 2 * 1) (k • ⟨1, 0, 0⟩) (k • ⟨0, 1, 0⟩) (t * tof) 0 true true 35 1e-5 1e-7 =
        .ok ((k / t) • v1, (k / t) • v2) := by
  obtain ⟨tof, v1, v2, -, h⟩ := izzo_returns_minimum_energy (mu := 1) one_pos
    (r1 := ⟨1, 0, 0⟩) (r2 := ⟨0, 1, 0⟩) (by simp [Spec.NotAligned]) true true 34 (atol := 1e-5) (by norm_num) 1e-7
  exact ⟨tof, v1, v2, h, by rw [izzo_units hk ht, h]; rfl⟩

/-- The same for `gauss1809`. -/
example {k t : ℝ} (hk : 0 < k) (ht : 0 < t) : ∃ tof atol v1 v2,
    gauss1809 1 ⟨1, 0, 0⟩ ⟨0, 1, 0⟩ tof 0 true true 250 atol 1e-7 false 0 = .ok (.plain v1 v2) ∧
      gauss1809 (k ^ 3 / t ^ 2 * 1) (k • ⟨1, 0, 0⟩) (k • ⟨0, 1, 0⟩) (t * tof) 0 true true 250 atol 1e-7 false 0 =
        .ok (.plain ((k / t) • v1) ((k / t) • v2)) := by
  obtain ⟨tof, atol, out, -, h, -⟩ := gauss_returns (mu := 1) one_pos (r1 := ⟨1, 0, 0⟩) (r2 := ⟨0, 1, 0⟩)
    (by simp [Spec.NotAligned]) true true 249 1e-7 false 0 (x := 1 / 2) (by norm_num) (by norm_num)
  have h2 := gauss_units hk ht 1 ⟨1, 0, 0⟩ ⟨0, 1, 0⟩ tof 0 true true 250 atol 1e-7 false 0
  obtain ⟨-, -, -, -, -, -, -, -, n, tpi, v1, v2, -, -, -, -, -, -, rfl⟩ := gauss_ok_split h
  rw [h] at h2
  exact ⟨tof, atol, v1, v2, h, h2⟩

end Lamberthub
