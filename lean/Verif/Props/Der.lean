import Verif.Proofs.DerLemmas
import Verif.Proofs.AssertLemmas
import Verif.Proofs.Conserved
import Verif.Proofs.PForm
import Verif.Props.Thorne

/-! # C21: what `der2011` returns is a true Kepler transfer -/

set_option autoImplicit false

namespace Lamberthub
open Spec LC

/-- The orbit through `r1` with velocity `v` has energy `-μ (1 - x²) / s`, where `s` is the
semi-perimeter of the triangle of the problem: `x² = 1 - s/(2a)` for a semi-major axis `a`. -/
def Spec.HasPathParameter (μ : ℝ) (r1 r2 v : V3) (x : ℝ) : Prop :=
  len v ^ 2 / 2 - μ / len r1 = -μ * (1 - x ^ 2) / ((len r1 + len r2 + len (r2 - r1)) / 2)

/-- The unit of time of the problem: `√(s³/(2μ))`. -/
noncomputable def Spec.timeUnit (μ : ℝ) (r1 r2 : V3) : ℝ :=
  Real.sqrt (((len r1 + len r2 + len (r2 - r1)) / 2) ^ 3 / (2 * μ))

namespace Der

/-- The motion of Lancaster parameter `x`, any number of revolutions. -/
theorem lancArc {μ s lam x y : ℝ} {r1 r2 : V3} {M : ℕ} (hμ : 0 < μ) (hG : Geo r1 r2 (Real.sqrt 2 * s * lam))
    (hS : Semi (V3.norm r1) (V3.norm r2) (V3.norm (r2 - r1)) s lam) (hL : Lanc lam x y) (hx : -1 < x)
    (hM : M = 0 ∨ x < 1) :
    LambertArc μ r1 r2 (fgV1 μ r1 r2 (Real.sqrt 2 * s * lam) (s * (y - lam * x) ^ 2))
      (fgV2 μ r1 r2 (Real.sqrt 2 * s * lam) (s * (y - lam * x) ^ 2))
      (Real.sqrt (s ^ 3 / (2 * μ)) * lancT lam x y M) M := by
  have hs := hS.spos
  obtain ⟨T, hp, hT⟩ := hL.path hμ hs (M := M) hx hM
  rw [← hS.sum] at hp
  have e : Real.sqrt (s ^ 3 / (2 * μ)) * lancT lam x y M = T := by
    rw [← hT, ← mul_assoc, ← Real.sqrt_mul (by positivity),
      show s ^ 3 / (2 * μ) * (2 * μ / s ^ 3) = 1 by field_simp, Real.sqrt_one, one_mul]
  rw [e]
  exact hp.arc hμ hG

/-- Geometry of the problem in the variables of the code. -/
theorem geo {r1 r2 : V3} {pro : Bool} {ψ : ℝ} (hna : NotAligned r1 r2) (hA : Angle pro r1 r2 ψ) :
    ∃ s σ, Geo r1 r2 (Real.sqrt 2 * s * σ) ∧ Semi (V3.norm r1) (V3.norm r2) (V3.norm (r2 - r1)) s σ ∧ σ ≠ 0 ∧
      (0 < σ ↔ ShortWay pro r1 r2) ∧
      computeSigma (V3.norm r1) (V3.norm r2) (V3.norm r1 + V3.norm r2 + V3.norm (r2 - r1)) ψ = .ok σ ∧
      ∀ mu tof, 0 < mu → computeNormalizedTime mu (V3.norm r1 + V3.norm r2 + V3.norm (r2 - r1)) tof =
        .ok (tof / Real.sqrt (s ^ 3 / (2 * mu))) := by
  obtain ⟨hG, hsh⟩ := hA.halfGeo hna
  obtain ⟨s, σ, hS, hAe⟩ := hG.semi
  have hs := hS.spos
  have hr2 : 0 < Real.sqrt 2 := by positivity
  have hm : V3.norm r1 + V3.norm r2 + V3.norm (r2 - r1) = 2 * s := by rw [hS.hs]; ring
  rw [hAe] at hG hsh
  refine ⟨s, σ, hG, hS, ?_, ?_, ?_, ?_⟩
  · rintro rfl; exact hG.hA (by ring)
  · rw [← hsh, mul_pos_iff_of_pos_left (by positivity)]
  · unfold computeSigma
    rw [hm, psqrt_eq (mul_nonneg (norm_nonneg _) (norm_nonneg _)), ok_bind, pdiv_eq (by positivity)]
    congr 1
    unfold halfA at hAe
    have : Real.sqrt (V3.norm r1 * V3.norm r2) * Real.cos (ψ / 2) = s * σ := by
      have h3 : Real.sqrt 2 * (Real.sqrt (V3.norm r1 * V3.norm r2) * Real.cos (ψ / 2)) = Real.sqrt 2 * (s * σ) := by
        linarith
      exact mul_left_cancel₀ hr2.ne' h3
    field_simp
    linear_combination this
  · intro mu tof hmu
    unfold computeNormalizedTime
    rw [hm, pdiv_eq (by positivity), ok_bind, psqrt_eq (by positivity), ok_bind]
    congr 1
    rw [eq_div_iff (by positivity), mul_assoc, ← Real.sqrt_mul (by positivity),
      show mu / (2 * s) ^ 3 * (s ^ 3 / (2 * mu)) = (1 / 4) ^ 2 by field_simp; norm_num, Real.sqrt_sq (by norm_num)]
    ring

end Der

open Der

theorem der_ok_split {brentq : Brent} {mu : ℝ} {r1 r2 : V3} {tof : ℝ} {M : ℤ} {pro low : Bool} {maxiter : ℕ}
    {atol rtol : ℝ} {full : Bool} {clock : ℝ} {out : Output}
    (h : der2011 brentq mu r1 r2 tof M pro low maxiter atol rtol full clock = .ok out) :
    0 ≤ M ∧ 0 < mu ∧ 0 < tof ∧ NotAligned r1 r2 ∧ ∃ ψ sigma tau x y n tpi v1 v2,
      getTransferAngle r1 r2 pro = .ok ψ ∧
      computeSigma (V3.norm r1) (V3.norm r2) (V3.norm r1 + V3.norm r2 + V3.norm (r2 - r1)) ψ = .ok sigma ∧
      computeNormalizedTime mu (V3.norm r1 + V3.norm r2 + V3.norm (r2 - r1)) tof = .ok tau ∧
      findPathParameter brentq sigma tau (computeParabolicTime sigma) M low maxiter atol rtol = .ok (x, y, n) ∧
      timePerIter full clock n = .ok tpi ∧
      reconstructVelocities mu r1 r2 (V3.norm r1) (V3.norm r2) (V3.norm (r2 - r1))
        (V3.norm r1 + V3.norm r2 + V3.norm (r2 - r1)) (V3.norm r1 + V3.norm r2 - V3.norm (r2 - r1)) x y =
        .ok (v1, v2) ∧
      out = mkOutput full v1 v2 n tpi := by
  unfold der2011 at h
  simp only [bind_ok, assertTransferAngleNotZero, assertTransferAngleNotPi, raiseIf_ok] at h
  obtain ⟨_, hv, ψ, hψ, _, hz, _, hp, sigma, hs, tau, ht, _, -, ⟨x, y, n⟩, hf, tpi, htpi, ⟨v1, v2⟩, hr, h⟩ := h
  obtain ⟨h1, -, -, h3, h4⟩ := assertParameters_iff.1 hv
  exact ⟨h4, h1, h3, notAligned_of_angle hψ hz hp, ψ, sigma, tau, x, y, n, tpi, v1, v2, hψ, hs, ht, hf, htpi, hr,
    (Except.ok.inj h).symm⟩

open Classical in
/-- Euler's formula for the time of the parabolic transfer from `r1` to `r2` in the
requested sense. -/
noncomputable def Spec.parabolicTime (μ : ℝ) (r1 r2 : V3) (pro : Bool) : ℝ :=
  timeUnit μ r1 r2 * (2 / 3 * (1 - (if ShortWay pro r1 r2 then 1 else -1) *
    Real.sqrt (1 - len (r2 - r1) / ((len r1 + len r2 + len (r2 - r1)) / 2)) ^ 3))

/-- The problem is close to a parabolic transfer, as the code tests it: the parabolic time
is within the tolerance of the requested time. -/
def Spec.NearParabolic (μ : ℝ) (r1 r2 : V3) (pro : Bool) (tof atol rtol : ℝ) : Prop :=
  |tof - parabolicTime μ r1 r2 pro| ≤ atol * timeUnit μ r1 r2 + rtol * parabolicTime μ r1 r2 pro

section
variable {mu s σ : ℝ} {r1 r2 : V3}

theorem Der.unit_eq (hS : Semi (V3.norm r1) (V3.norm r2) (V3.norm (r2 - r1)) s σ) :
    timeUnit mu r1 r2 = Real.sqrt (s ^ 3 / (2 * mu)) := by
  unfold timeUnit; rw [len_eq_norm, len_eq_norm, len_eq_norm, ← hS.hs]

theorem Der.pathParameter {x Y : ℝ} (hmu : 0 < mu) (hG : Geo r1 r2 (Real.sqrt 2 * s * σ))
    (hS : Semi (V3.norm r1) (V3.norm r2) (V3.norm (r2 - r1)) s σ) (hL : Lanc σ x Y) :
    HasPathParameter mu r1 r2 (fgV1 mu r1 r2 (Real.sqrt 2 * s * σ) (s * (Y - σ * x) ^ 2)) x := by
  have h := hL.energy hmu hS.spos hG hS.sum
  unfold HasPathParameter
  rw [h, len_eq_norm r1, len_eq_norm r2, len_eq_norm (r2 - r1), ← hS.hs]

theorem Der.sense {pro : Bool} {x Y : ℝ} (hmu : 0 < mu) (hG : Geo r1 r2 (Real.sqrt 2 * s * σ)) (hs : 0 < s)
    (hL : Lanc σ x Y) (hsg : 0 < σ ↔ ShortWay pro r1 r2) (hnp : NotPolar r1 r2) :
    Sense pro r1 (fgV1 mu r1 r2 (Real.sqrt 2 * s * σ) (s * (Y - σ * x) ^ 2)) := by
  have hη := hL.eta_pos
  refine sense_of_sign hmu (by positivity) hG.hA hnp ?_
  rw [mul_pos_iff_of_pos_left (by positivity), hsg]

theorem Der.parabolic_time (σ : ℝ) :
    lancT σ 1 (lancY σ 1) 0 = computeParabolicTime σ := by
  have h1 : lancY σ 1 = 1 := by unfold lancY; norm_num
  rw [lancT, if_neg (lt_irrefl _), if_pos rfl, h1, computeParabolicTime]
  ring

theorem Der.parabolicTime_eq {pro : Bool} (hS : Semi (V3.norm r1) (V3.norm r2) (V3.norm (r2 - r1)) s σ)
    (h0 : σ ≠ 0) (hsg : 0 < σ ↔ ShortWay pro r1 r2) :
    parabolicTime mu r1 r2 pro = Real.sqrt (s ^ 3 / (2 * mu)) * computeParabolicTime σ := by
  have hs := hS.spos
  have e : Real.sqrt (1 - V3.norm (r2 - r1) / s) = |σ| := by
    rw [hS.chord, show 1 - s * (1 - σ ^ 2) / s = σ ^ 2 by field_simp; ring, Real.sqrt_sq_eq_abs]
  unfold parabolicTime computeParabolicTime
  rw [unit_eq hS, len_eq_norm, len_eq_norm, len_eq_norm, ← hS.hs, e]
  congr 1
  simp only [← hsg]
  split
  · rename_i h; rw [abs_of_pos h]; ring
  · rename_i h
    rw [abs_of_neg (lt_of_le_of_ne (not_lt.1 h) h0)]; ring

theorem Der.near_iff {pro : Bool} {tof tau atol rtol : ℝ}
    (hS : Semi (V3.norm r1) (V3.norm r2) (V3.norm (r2 - r1)) s σ) (hmu : 0 < mu)
    (h0 : σ ≠ 0) (hsg : 0 < σ ↔ ShortWay pro r1 r2) (htau : tau = tof / Real.sqrt (s ^ 3 / (2 * mu))) :
    NearParabolic mu r1 r2 pro tof atol rtol ↔
      |tau - computeParabolicTime σ| ≤ atol + rtol * |computeParabolicTime σ| := by
  have hs := hS.spos
  have hU : 0 < Real.sqrt (s ^ 3 / (2 * mu)) := by positivity
  unfold NearParabolic
  have hpp : 0 < computeParabolicTime σ := by
    unfold computeParabolicTime
    have := (abs_lt.1 ((sq_lt_one_iff_abs_lt_one _).1 hS.lam_lt)).2
    nlinarith [sq_nonneg σ, sq_nonneg (σ + 1)]
  have e : tof = Real.sqrt (s ^ 3 / (2 * mu)) * tau := by rw [htau]; field_simp
  rw [parabolicTime_eq hS h0 hsg, unit_eq hS, abs_of_pos hpp, e, ← mul_sub, abs_mul, abs_of_pos hU,
    show atol * Real.sqrt (s ^ 3 / (2 * mu)) + rtol * (Real.sqrt (s ^ 3 / (2 * mu)) * computeParabolicTime σ) =
      Real.sqrt (s ^ 3 / (2 * mu)) * (atol + rtol * computeParabolicTime σ) by ring, mul_le_mul_iff_right₀ hU]

theorem Der.scaled {U T τ tof a r : ℝ} (hU : 0 < U) (hτ : τ = tof / U) (ht : 0 < tof)
    (h : |T - τ| ≤ a + r * |τ|) : |U * T - tof| ≤ a * U + r * tof := by
  have hτp : 0 < τ := by rw [hτ]; positivity
  have e : tof = U * τ := by rw [hτ]; field_simp
  rw [abs_of_pos hτp] at h
  rw [e, ← mul_sub, abs_mul, abs_of_pos hU]
  nlinarith

end

/-- **C21 (partial).** Whenever `der2011` returns, and the problem is not one that the code
takes for parabolic, the returned velocities belong to one and the same Kepler orbit, which
goes from `r1` to `r2` with exactly `M` complete revolutions in the requested sense.  Either
the elapsed time differs from `tof` by no more than `atol · √(s³/(2μ)) + rtol · tof`, or there
is an exact solution of the problem (elapsed time `tof`, `M` revolutions, requested sense)
whose path parameter (`x² = 1 - s/(2a)`) differs from that of the returned orbit by no more
than the tolerance given to the root finder.  `brentq` is any function that satisfies its
documentation.

Missing: the near-parabolic shortcut, where the statement is false
(`der_parabolic_not_a_transfer`). -/
theorem der_kepler_transfer_partial {brentq : Brent} (hb : BrentSpec brentq) {mu : ℝ} {r1 r2 : V3} {tof : ℝ} {M : ℤ}
    {pro low : Bool} {maxiter : ℕ} {atol rtol : ℝ} {full : Bool} {clock : ℝ} {out : Output}
    (h : der2011 brentq mu r1 r2 tof M pro low maxiter atol rtol full clock = .ok out)
    (hpar : ¬ (M = 0 ∧ NearParabolic mu r1 r2 pro tof atol rtol)) :
    0 ≤ M ∧ ∃ T, LambertArc mu r1 r2 out.v1 out.v2 T M.toNat ∧ (NotPolar r1 r2 → Sense pro r1 out.v1) ∧
      (|T - tof| ≤ atol * timeUnit mu r1 r2 + rtol * tof ∨
        ∃ x x0 w1 w2, HasPathParameter mu r1 r2 out.v1 x ∧ LambertArc mu r1 r2 w1 w2 tof M.toNat ∧
          (NotPolar r1 r2 → Sense pro r1 w1) ∧ HasPathParameter mu r1 r2 w1 x0 ∧
          |x - x0| ≤ atol + rtol * |x0|) := by
  obtain ⟨hM, hmu, htof, hna, ψ, sigma, tau, x, y, n, tpi, v1, v2, hψ, hsig, htau, hf, -, hrec, rfl⟩ :=
    der_ok_split h
  refine ⟨hM, ?_⟩
  obtain ⟨s, σ, hG, hS, h0, hsg, hcs, hnt⟩ := geo hna (angle_of_eq hna hψ)
  have hs := hS.spos
  rw [hcs] at hsig
  obtain rfl := Except.ok.inj hsig
  rw [hnt mu tof hmu] at htau
  have htau := Except.ok.inj htau
  have hl := hS.lam_lt
  rw [unit_eq hS]
  have hU : 0 < Real.sqrt (s ^ 3 / (2 * mu)) := by positivity
  obtain ⟨k, rfl⟩ := Int.eq_ofNat_of_zero_le hM
  rw [Int.toNat_natCast]
  rcases findPathParameter_ok hl h0 hb hf with ⟨rfl, hcl, -⟩ | ⟨-, hx1, hx2, rfl, -, hcase⟩
  · exfalso
    exact hpar ⟨rfl, (near_iff hS hmu h0 hsg htau.symm).2 hcl⟩
  have hL := lanc_lancY hl x
  rw [computeY_eq hl h0, reconstruct_lanc hmu h0 hG hS hL] at hrec
  simp only [Except.ok.injEq, Prod.mk.injEq] at hrec
  obtain ⟨rfl, rfl⟩ := hrec
  refine ⟨_, by rw [mkOutput_v1, mkOutput_v2]; exact lancArc hmu hG hS hL hx1 hx2,
    fun hnp => by rw [mkOutput_v1]; exact sense hmu hG hs hL hsg hnp, ?_⟩
  rw [mkOutput_v1]
  rcases hcase with ⟨-, hres⟩ | ⟨x0, hx01, hx02, hroot, hd⟩
  · exact .inl (scaled hU htau.symm htof hres)
  · right
    have hL0 := lanc_lancY hl x0
    have harc := lancArc hmu hG hS hL0 hx01 hx02
    rw [hroot, ← htau, mul_div_cancel₀ tof hU.ne'] at harc
    exact ⟨x, x0, _, _, pathParameter hmu hG hS hL, harc, fun hnp => sense hmu hG hs hL0 hsg hnp,
      pathParameter hmu hG hS hL0, hd⟩


/-! ## The near-parabolic shortcut -/

/-- Two states of one Kepler orbit with the same `v × (r × v)` are in the same direction. -/
theorem Der.no_arc {μ : ℝ} (hμ : 0 < μ) {r1 r2 v1 v2 : V3} (hna : NotAligned r1 r2)
    (hv : outer v1 (outer r1 v1) = outer v2 (outer r2 v2)) (T : ℝ) (M : ℕ) :
    ¬ LambertArc μ r1 r2 v1 v2 T M := by
  rintro ⟨-, pos, vel, hk, h1, h2, h3, h4, -⟩
  have he := eccVec_const hμ.ne' hk 0 T
  have hp1 := len_pos (hk.no_collision 0)
  have hp2 := len_pos (hk.no_collision T)
  unfold eccVec at he
  rw [h1, h2, h3, h4, hv] at he
  rw [h1] at hp1
  rw [h3] at hp2
  have hx := congrArg V3.x he
  have hy := congrArg V3.y he
  have hz := congrArg V3.z he
  simp only [V3.sub_x, V3.sub_y, V3.sub_z, V3.smul_x, V3.smul_y, V3.smul_z, sub_right_inj] at hx hy hz
  apply hna
  have ex : r2.x = (len r2 / len r1) * r1.x := by field_simp at hx ⊢; linarith
  have ey : r2.y = (len r2 / len r1) * r1.y := by field_simp at hy ⊢; linarith
  have ez : r2.z = (len r2 / len r1) * r1.z := by field_simp at hz ⊢; linarith
  rw [ex, ey, ez]
  exact ⟨by ring, by ring, by ring⟩

theorem der_fwd {brentq : Brent} {mu : ℝ} {r1 r2 : V3} {tof : ℝ} {M : ℤ} {pro low : Bool} {maxiter : ℕ}
    {atol rtol : ℝ} {full : Bool} {clock : ℝ} (hmu : 0 < mu) (hna : NotAligned r1 r2) (htof : 0 < tof) (hM : 0 ≤ M)
    {ψ sigma tau x y tpi : ℝ} {n : ℕ} {v1 v2 : V3}
    (hψ : getTransferAngle r1 r2 pro = .ok ψ)
    (hsig : computeSigma (V3.norm r1) (V3.norm r2) (V3.norm r1 + V3.norm r2 + V3.norm (r2 - r1)) ψ = .ok sigma)
    (htau : computeNormalizedTime mu (V3.norm r1 + V3.norm r2 + V3.norm (r2 - r1)) tof = .ok tau)
    (hfe : checkFeasible brentq sigma tau (computeParabolicTime sigma) M maxiter atol rtol = .ok ())
    (hf : findPathParameter brentq sigma tau (computeParabolicTime sigma) M low maxiter atol rtol = .ok (x, y, n))
    (htpi : timePerIter full clock n = .ok tpi)
    (hr : reconstructVelocities mu r1 r2 (V3.norm r1) (V3.norm r2) (V3.norm (r2 - r1))
        (V3.norm r1 + V3.norm r2 + V3.norm (r2 - r1)) (V3.norm r1 + V3.norm r2 - V3.norm (r2 - r1)) x y =
        .ok (v1, v2)) :
    der2011 brentq mu r1 r2 tof M pro low maxiter atol rtol full clock = .ok (mkOutput full v1 v2 n tpi) := by
  have h1 : r1 ≠ 0 := by rintro rfl; exact (norm_pos_of_notAligned_left hna).ne' (by simp [V3.norm, V3.dot])
  have h2 : r1 ≠ r2 := by rintro rfl; exact hna ⟨by ring, by ring, by ring⟩
  have hA := angle_of_eq hna hψ
  unfold der2011
  rw [assertParameters_eq hmu h1 h2 htof hM, ok_bind, hψ, ok_bind]
  simp only []
  rw [assertTransferAngleNotZero, raiseIf_neg _ hA.pos.ne', ok_bind, assertTransferAngleNotPi,
    raiseIf_neg _ hA.ne_pi, ok_bind, hsig, ok_bind, htau, ok_bind, hfe, ok_bind, hf, ok_bind]
  simp only []
  rw [htpi, ok_bind, hr, ok_bind]

theorem Der.parabolic_pos {σ : ℝ} (hl : σ ^ 2 < 1) : 0 < computeParabolicTime σ := by
  unfold computeParabolicTime
  have := (abs_lt.1 ((sq_lt_one_iff_abs_lt_one _).1 hl)).2
  nlinarith [sq_nonneg σ, sq_nonneg (σ + 1)]

theorem timePerIter_pos (full : Bool) (clock : ℝ) {n : ℕ} (hn : 1 ≤ n) :
    ∃ tpi, timePerIter full clock n = .ok tpi := by
  unfold timePerIter; split
  · rw [pdiv_eq (by have : n ≠ 0 := by omega
                    exact_mod_cast this)]; exact ⟨_, rfl⟩
  · exact ⟨_, rfl⟩

/-- **C21, negation at the parabola.** For every pair of non-aligned positions there is a
time of flight for which a parabolic transfer exists in the requested sense, and for which
`der2011` returns, whatever the tolerances, velocities that do not belong to any transfer
from `r1` to `r2` (no time of flight and number of revolutions make them one): the shortcut
of l.150-151 sets `y = sigma` where `y = ±1` is needed. -/
theorem der_parabolic_not_a_transfer {mu : ℝ} (hmu : 0 < mu) {r1 r2 : V3} (hna : NotAligned r1 r2) (pro : Bool) :
    ∃ tof, tof = parabolicTime mu r1 r2 pro ∧
      (∃ w1 w2, LambertArc mu r1 r2 w1 w2 tof 0 ∧ HasPathParameter mu r1 r2 w1 1 ∧
        (NotPolar r1 r2 → Sense pro r1 w1)) ∧
      ∀ (brentq : Brent) (low : Bool) (maxiter : ℕ) (atol rtol : ℝ) (full : Bool) (clock : ℝ), 0 ≤ atol → 0 ≤ rtol →
        ∃ out, der2011 brentq mu r1 r2 tof 0 pro low maxiter atol rtol full clock = .ok out ∧
          ∀ T M, ¬ LambertArc mu r1 r2 out.v1 out.v2 T M := by
  have hψ := transferAngle_eq hna pro
  have hA := angle_of_eq hna hψ
  obtain ⟨s, σ, hG, hS, h0, hsg, hcs, hnt⟩ := geo hna hA
  have hs := hS.spos
  have hl := hS.lam_lt
  have hL1 := lanc_lancY hl 1
  have hU : 0 < Real.sqrt (s ^ 3 / (2 * mu)) := by positivity
  have hpp := parabolic_pos hl
  have harc := lancArc hmu hG hS hL1 (by norm_num) (M := 0) (.inl rfl)
  rw [parabolic_time σ] at harc
  refine ⟨_, (parabolicTime_eq hS h0 hsg).symm, ⟨_, _, harc, pathParameter hmu hG hS hL1,
    fun hnp => sense hmu hG hs hL1 hsg hnp⟩, ?_⟩
  intro brentq low maxiter atol rtol full clock ha hr
  have htau := hnt mu (Real.sqrt (s ^ 3 / (2 * mu)) * computeParabolicTime σ) hmu
  rw [mul_div_cancel_left₀ _ hU.ne'] at htau
  have hf : findPathParameter brentq σ (computeParabolicTime σ) (computeParabolicTime σ) 0 low maxiter atol rtol =
      .ok (1.0, σ, 1) := by
    unfold findPathParameter
    rw [if_pos ⟨rfl, by rw [sub_self, abs_zero]; positivity⟩]
  obtain ⟨tpi, htpi⟩ := timePerIter_pos full clock le_rfl
  have hout := der_fwd (low := low) hmu hna (mul_pos hU hpp) le_rfl hψ hcs htau
    (by unfold checkFeasible; rw [if_neg (by norm_num)]) hf htpi (reconstruct_eq hmu h0 hG hS _ _)
  refine ⟨_, hout, ?_⟩
  rw [mkOutput_v1, mkOutput_v2]
  intro T M
  apply no_arc hmu hna
  have hσ : 0 < |σ| := abs_pos.2 h0
  have e1 : σ / |σ| = sg σ := by
    rw [div_eq_iff hσ.ne', sg_mul]
  rw [e1, show (1.0 : ℝ) = 1 by norm_num]
  generalize Real.sqrt (mu / (2 * s)) = q
  rcases sg_cases σ with h | h <;> rw [h]
  · ext <;> simp [outer] <;> ring
  · ext <;> simp [outer] <;> ring

example : NotAligned ⟨1, 0, 0⟩ ⟨0, 1, 0⟩ := by simp [NotAligned]

/-! ## Non-vacuity of `der_kepler_transfer_partial` -/

theorem Der.hyp_lt_parabolic {σ x : ℝ} (hl : σ ^ 2 < 1) (hx : 1 < x) :
    lancT σ x (lancY σ x) 0 < computeParabolicTime σ := by
  have hL := lanc_lancY hl x
  have hx2 : 0 < x ^ 2 - 1 := by nlinarith
  obtain ⟨w, hw, hw2⟩ : ∃ w, 0 < w ∧ w ^ 2 = x ^ 2 - 1 :=
    ⟨Real.sqrt (x ^ 2 - 1), by positivity, Real.sq_sqrt hx2.le⟩
  have h := lancT_hyp_lagrange hL hx hw hw2
  change lancT σ x (lancY σ x) 0 * (2 * w ^ 3) = Thorne.exc w - Thorne.exc (σ * w) at h
  have hlt : |σ| < 1 := (sq_lt_one_iff_abs_lt_one _).1 hl
  have hm := Thorne.cube_sub_exc_strictMonoOn
  have hodd : Thorne.exc (-(σ * w)) = -Thorne.exc (σ * w) := by
    unfold Thorne.exc
    rw [Real.arsinh_neg, mul_neg, Real.sinh_neg]; ring
  have key : 4 / 3 * (σ * w) ^ 3 - Thorne.exc (σ * w) < 4 / 3 * w ^ 3 - Thorne.exc w := by
    have hσw : |σ| * w < w := by nlinarith
    rcases le_total 0 σ with h0 | h0
    · rw [abs_of_nonneg h0] at hσw
      exact hm (Set.mem_Ici.2 (by positivity)) (Set.mem_Ici.2 hw.le) hσw
    · have h1 : 0 ≤ -(σ * w) := by nlinarith
      have h2 := hm.monotoneOn Set.self_mem_Ici (Set.mem_Ici.2 h1) h1
      have h3 := hm Set.self_mem_Ici (Set.mem_Ici.2 hw.le) hw
      simp only [Thorne.exc_zero, hodd] at h2 h3
      norm_num at h2 h3
      nlinarith
  have hw3 : 0 < 2 * w ^ 3 := by positivity
  rw [← mul_lt_mul_iff_left₀ hw3, h, computeParabolicTime]
  nlinarith

/-- Hyperbolic transfers are found: for every pair of non-aligned positions there is a time
of flight, below the parabolic one, for which `der2011` returns an exact solution of the
problem for all sufficiently small tolerances. -/
theorem der_returns {mu : ℝ} (hmu : 0 < mu) {r1 r2 : V3} (hna : NotAligned r1 r2) (pro low : Bool) :
    ∃ tof δ, 0 < tof ∧ 0 < δ ∧ ∀ (brentq : Brent) (maxiter : ℕ) (atol rtol : ℝ), 1 ≤ maxiter → 0 ≤ atol → atol < δ →
      0 ≤ rtol → rtol < δ → ∀ full clock, ∃ out,
        der2011 brentq mu r1 r2 tof 0 pro low maxiter atol rtol full clock = .ok out ∧
        LambertArc mu r1 r2 out.v1 out.v2 tof 0 ∧ ¬ NearParabolic mu r1 r2 pro tof atol rtol := by
  have hψ := transferAngle_eq hna pro
  have hA := angle_of_eq hna hψ
  obtain ⟨s, σ, hG, hS, h0, hsg, hcs, hnt⟩ := geo hna hA
  have hs := hS.spos
  have hl := hS.lam_lt
  have hx : max (1.1 : ℝ) (0.5 + 1.0) = 1.5 := by norm_num
  have h15 : (1 : ℝ) < 1.5 := by norm_num
  have hL := lanc_lancY hl 1.5
  have hU : 0 < Real.sqrt (s ^ 3 / (2 * mu)) := by positivity
  have hpp := parabolic_pos hl
  have hlt := hyp_lt_parabolic hl h15
  have harc := lancArc hmu hG hS hL (by linarith) (M := 0) (.inl rfl)
  obtain ⟨τ, hτ⟩ : ∃ τ, τ = lancT σ 1.5 (lancY σ 1.5) 0 := ⟨_, rfl⟩
  rw [← hτ] at harc hlt
  have htof := harc.1
  refine ⟨_, (computeParabolicTime σ - τ) / (1 + computeParabolicTime σ), htof,
    div_pos (by linarith) (by linarith), ?_⟩
  intro brentq maxiter atol rtol hmax ha0 ha hr0 hr full clock
  have htau := hnt mu (Real.sqrt (s ^ 3 / (2 * mu)) * τ) hmu
  rw [mul_div_cancel_left₀ _ hU.ne'] at htau
  have hncl : ¬ |τ - computeParabolicTime σ| ≤ atol + rtol * |computeParabolicTime σ| := by
    rw [abs_of_neg (by linarith), abs_of_pos hpp, not_le]
    have h1 : (computeParabolicTime σ - τ) / (1 + computeParabolicTime σ) * (1 + computeParabolicTime σ) =
      computeParabolicTime σ - τ := by field_simp
    nlinarith
  have hf : findPathParameter brentq σ τ (computeParabolicTime σ) 0 low maxiter atol rtol =
      .ok (1.5, computeY σ 1.5, 1) := by
    unfold findPathParameter
    rw [if_neg (fun h => hncl h.2)]
    unfold startX
    rw [if_pos rfl, if_neg (by linarith), ok_bind, if_neg (by rintro (h | h); · exact lt_irrefl _ h
                                                              · linarith)]
    unfold solveHyperbolic solveHyperbolicJit
    obtain ⟨k, rfl⟩ : ∃ k, maxiter = k + 1 := ⟨maxiter - 1, by omega⟩
    rw [hx, hyperbolicLoop]
    simp only []
    rw [tofHyperbolic_eq hl h0 h15, ok_bind, ← hτ, sub_self, abs_zero, if_pos (by positivity), ok_bind]
    simp only [Bool.false_eq_true, if_false]
  obtain ⟨tpi, htpi⟩ := timePerIter_pos full clock le_rfl
  rw [computeY_eq hl h0] at hf
  have hout := der_fwd (low := low) hmu hna htof le_rfl hψ hcs htau
    (by unfold checkFeasible; rw [if_neg (by norm_num)]) hf htpi (reconstruct_lanc hmu h0 hG hS hL)
  exact ⟨_, hout, by rw [mkOutput_v1, mkOutput_v2]; exact harc,
    fun h => hncl ((near_iff hS hmu h0 hsg (by field_simp)).1 h)⟩

/-- Non-vacuity of `der_kepler_transfer_partial`: a quarter turn with positive tolerances. -/
example : ∃ tof atol rtol out, 0 < atol ∧ 0 < rtol ∧ BrentSpec exactBrent ∧
    der2011 exactBrent 1 ⟨1, 0, 0⟩ ⟨0, 1, 0⟩ tof 0 true true 35 atol rtol true 1 = .ok out ∧
    ¬ NearParabolic 1 ⟨1, 0, 0⟩ ⟨0, 1, 0⟩ true tof atol rtol := by
  have hna : NotAligned ⟨1, 0, 0⟩ ⟨0, 1, 0⟩ := by simp [NotAligned]
  obtain ⟨tof, δ, -, hδ, h⟩ := der_returns one_pos hna true true
  obtain ⟨out, ho, -, ho'⟩ := h exactBrent 35 (δ / 2) (δ / 2) (by norm_num) (by linarith) (by linarith) (by linarith)
    (by linarith) true 1
  exact ⟨tof, δ / 2, δ / 2, out, by linarith, by linarith, exactBrent_spec, ho, ho'⟩

end Lamberthub
