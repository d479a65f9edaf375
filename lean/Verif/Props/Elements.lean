import Verif.Proofs.RoundTrip
import Mathlib.LinearAlgebra.Matrix.Determinant.Basic

/-! # C12-C14: rotation matrices and classical elements -/

set_option autoImplicit false

namespace Lamberthub
open Spec LC

/-- **C12**, for the axes the library uses: `rotation_matrix` about x and z is orthogonal
of determinant one, and every axis number other than 0, 1, 2 is refused.  Missing: axis 1,
where the claim is false (`rotationMatrix_axis1_not_rotation`). -/
theorem rotationMatrix_partial (angle : ℝ) (axis : ℤ) :
    ((axis = 0 ∨ axis = 2) → ∃ m, rotationMatrix angle axis = .ok m ∧
      m * m.transpose = 1 ∧ m.transpose * m = 1 ∧ m.det = 1) ∧
    (axis ≠ 0 → axis ≠ 1 → axis ≠ 2 → ∃ s, rotationMatrix angle axis = .error (.valueError s)) := by
  have h := Real.sin_sq_add_cos_sq angle
  constructor
  · rintro (rfl | rfl)
    · refine ⟨_, by unfold rotationMatrix; exact if_pos rfl, ?_, ?_, ?_⟩
      · ext i j
        fin_cases i <;> fin_cases j <;> simp [Matrix.mul_apply, Fin.sum_univ_three] <;>
          nlinarith [h]
      · ext i j
        fin_cases i <;> fin_cases j <;> simp [Matrix.mul_apply, Fin.sum_univ_three] <;>
          nlinarith [h]
      · simp [Matrix.det_fin_three]; nlinarith [h]
    · refine ⟨_, by unfold rotationMatrix; rw [if_neg (by norm_num), if_neg (by norm_num), if_pos rfl],
        ?_, ?_, ?_⟩
      · ext i j
        fin_cases i <;> fin_cases j <;> simp [Matrix.mul_apply, Fin.sum_univ_three] <;>
          nlinarith [h]
      · ext i j
        fin_cases i <;> fin_cases j <;> simp [Matrix.mul_apply, Fin.sum_univ_three] <;>
          nlinarith [h]
      · simp [Matrix.det_fin_three]; nlinarith [h]
  · intro h0 h1 h2
    exact ⟨_, by unfold rotationMatrix; rw [if_neg h0, if_neg h1, if_neg h2]⟩

/-- Finding: about axis 1 the returned matrix is orthogonal only for the angles with
`sin angle * cos angle = 0`; its determinant is `cos (2 angle)`. -/
theorem rotationMatrix_axis1_not_rotation (angle : ℝ) :
    ∃ m, rotationMatrix angle 1 = .ok m ∧ m.det = Real.cos (2 * angle) ∧
      (m * m.transpose = 1 ↔ Real.sin (2 * angle) = 0) := by
  refine ⟨_, by unfold rotationMatrix; rw [if_neg (by norm_num), if_pos rfl], ?_, ?_⟩
  · simp [Matrix.det_fin_three, Real.cos_two_mul']; ring
  · have h := Real.sin_sq_add_cos_sq angle
    rw [Real.sin_two_mul]
    constructor
    · intro hm
      have := congrFun (congrFun hm 0) 2
      simp [Matrix.mul_apply, Fin.sum_univ_three] at this
      linarith
    · intro hs
      ext i j
      fin_cases i <;> fin_cases j <;> simp [Matrix.mul_apply, Fin.sum_univ_three] <;> nlinarith [h]

/-- a quarter of a turn over two is an angle for which axis 1 fails -/
example : Real.sin (2 * (Real.pi / 4)) ≠ 0 := by
  rw [show 2 * (Real.pi / 4) = Real.pi / 2 by ring, Real.sin_pi_div_two]; norm_num

/-- **C13.** The state built from classical elements is at distance `p/(1+e cos ν)`, has
angular momentum `√(μp)` times the normal of the plane given by inclination and node,
energy `-μ(1-e²)/(2p)`, its eccentricity vector is `e` times the direction at the angle
`argp` from the node, and it makes the angle `argp + ν` with the node. -/
theorem coe2rv_state {μ p e inc raan argp ν : ℝ} (hμ : 0 < μ) (hp : 0 < p)
    (hd : 0 < 1 + e * Real.cos ν) :
    ∃ r v, coe2rv μ p e inc raan argp ν = .ok (r, v) ∧
      len r = p / (1 + e * Real.cos ν) ∧
      r = len r • planeDir inc raan (argp + ν) ∧
      outer r v = Real.sqrt (μ * p) • planeNormal inc raan ∧
      inner v v / 2 - μ / len r = -(μ * (1 - e ^ 2) / (2 * p)) ∧
      (1 / μ) • outer v (outer r v) - (1 / len r) • r = e • planeDir inc raan argp := by
  have hf := planeDir_orthonormal inc raan argp
  obtain ⟨c1, c2, c3, c4⟩ := conic_conserved hμ hp hd hf
  have hks : p * Real.sqrt (μ / p) = Real.sqrt (μ * p) := by
    rw [show μ * p = p ^ 2 * (μ / p) by field_simp, Real.sqrt_mul (by positivity), Real.sqrt_sq hp.le]
  refine ⟨_, _, coe2rv_eq hμ hp hd, c4, ?_, ?_, ?_, ?_⟩
  · rw [c4]; unfold conicPos; rw [planeDir_add]
  · rw [c2, planeDir_normal, hks]
  · have hv : inner (conicVel μ p e ν (planeDir inc raan argp) (planeDir inc raan (argp + Real.pi / 2)))
        (conicVel μ p e ν (planeDir inc raan argp) (planeDir inc raan (argp + Real.pi / 2))) =
        μ / p * (1 + 2 * e * Real.cos ν + e ^ 2) := by
      obtain ⟨h1, h2, h3⟩ := hf
      generalize planeDir inc raan argp = a at *
      generalize planeDir inc raan (argp + Real.pi / 2) = b at *
      have : inner (conicVel μ p e ν a b) (conicVel μ p e ν a b) = Real.sqrt (μ / p) ^ 2 *
          (Real.sin ν ^ 2 * inner a a - 2 * Real.sin ν * (e + Real.cos ν) * inner a b +
            (e + Real.cos ν) ^ 2 * inner b b) := by
        simp only [inner, conicVel, V3.add_x, V3.add_y, V3.add_z, V3.smul_x, V3.smul_y, V3.smul_z]
        ring
      rw [this, Real.sq_sqrt (by positivity), h1, h2, h3]
      have h4 := Real.sin_sq_add_cos_sq ν
      linear_combination (μ / p) * h4
    rw [hv, c4]
    field_simp
    ring
  · rw [← c3]; unfold eccVec; ext <;> simp [outer, inner] <;> ring

example : (0 : ℝ) < 1 + 1 / 2 * Real.cos 1 := by nlinarith [Real.neg_one_le_cos 1]

/-- What a successful run of `rv2coe` has computed before its branches. -/
theorem rv2coe_data {μ tol : ℝ} {r v : V3} {c : Coe} (hμ : 0 < μ)
    (h : rv2coe μ r v tol = .ok c) :
    ∃ (R H : ℝ) (e : V3), 0 < R ∧ R ^ 2 = inner r r ∧ 0 < H ∧
      H ^ 2 = inner (outer r v) (outer r v) ∧ c.p = H ^ 2 / μ ∧
      c.inc = Real.arccos ((outer r v).z / H) ∧ -1 ≤ (outer r v).z / H ∧ (outer r v).z / H ≤ 1 ∧
      0 ≤ c.ecc ∧ c.ecc ^ 2 = inner e e ∧
      μ • e = (inner v v - μ / R) • r - inner r v • v ∧
      inner r e = H ^ 2 / μ - R ∧ inner (outer r v) (outer e r) / H = inner r v * H / μ ∧
      c.ecc ^ 2 = 1 + H ^ 2 * (inner v v - 2 * μ / R) / μ ^ 2 ∧
      H ^ 2 = R ^ 2 * inner v v - inner r v ^ 2 := by
  unfold rv2coe at h
  simp only [bind_ok, psqrt_ok, pdiv_ok, vdiv_ok, pacos_ok] at h
  obtain ⟨R, ⟨hR0, hR⟩, vn, ⟨hv0, hvn⟩, H, ⟨hH0, hH⟩, kr, ⟨hRne, hkr⟩, e, ⟨-, he⟩, ecc, ⟨he0, hecc⟩, p,
    ⟨-, hp⟩, ci, ⟨hHne, hci⟩, inc, ⟨⟨hc1, hc2⟩, hinc⟩, ⟨raan, argp, nu⟩, -, hc⟩ := h
  obtain rfl := Except.ok.inj hc
  have hRp : 0 < R := lt_of_le_of_ne (by rw [hR]; exact Real.sqrt_nonneg _) (Ne.symm hRne)
  have hHp : 0 < H := lt_of_le_of_ne (by rw [hH]; exact Real.sqrt_nonneg _) (Ne.symm hHne)
  have hR2 : R ^ 2 = inner r r := by rw [hR, Real.sq_sqrt hR0]; rfl
  have hH2 : H ^ 2 = inner (outer r v) (outer r v) := by rw [hH, Real.sq_sqrt hH0]; rfl
  have hecc2 : ecc ^ 2 = inner e e := by rw [hecc, Real.sq_sqrt he0]; rfl
  have hme : μ • e = (inner v v - μ / R) • r - inner r v • v := by
    rw [he, hkr]; ext <;> simp [inner, V3.dot] <;> field_simp
  have hlag : H ^ 2 = R ^ 2 * inner v v - inner r v ^ 2 := by
    rw [hH2, hR2]; simp [inner, outer]; ring
  have hre : inner r e = H ^ 2 / μ - R := by
    have h1 : μ * inner r e = inner r (μ • e) := by simp [inner]; ring
    have h2 : inner r (μ • e) = (inner v v - μ / R) * inner r r - inner r v ^ 2 := by
      rw [hme]; simp [inner]; ring
    rw [h2, ← hR2] at h1
    field_simp
    have h3 : (inner v v - μ / R) * R ^ 2 = inner v v * R ^ 2 - μ * R := by field_simp
    linarith
  have hy : inner (outer r v) (outer e r) / H = inner r v * H / μ := by
    have h1 : μ * inner (outer r v) (outer e r) = inner (outer r v) (outer (μ • e) r) := by
      simp [inner, outer]; ring
    have h2 : inner (outer r v) (outer (μ • e) r) =
        inner r v * inner (outer r v) (outer r v) := by
      rw [hme]; simp [inner, outer]; ring
    rw [h2, ← hH2] at h1
    field_simp
    linarith
  refine ⟨R, H, e, hRp, hR2, hHp, hH2, ?_, ?_, ?_, ?_, ?_, hecc2, hme, hre, hy, ?_, hlag⟩
  · show p = _
    rw [hp, hH2]; rfl
  · show inc = _
    rw [hinc, hci]; rfl
  · rw [hci] at hc1; exact hc1
  · rw [hci] at hc2; exact hc2
  · show 0 ≤ ecc
    rw [hecc]; exact Real.sqrt_nonneg _
  · show ecc ^ 2 = _
    have h1 : μ ^ 2 * inner e e = inner (μ • e) (μ • e) := by simp [inner]; ring
    have h2 : inner (μ • e) (μ • e) = (inner v v - μ / R) ^ 2 * inner r r -
        2 * (inner v v - μ / R) * inner r v ^ 2 + inner r v ^ 2 * inner v v := by
      rw [hme]; simp [inner]; ring
    have h4 : inner r v ^ 2 = R ^ 2 * inner v v - H ^ 2 := by linarith
    rw [h2, ← hR2, h4] at h1
    rw [hecc2]
    have : inner e e = ((inner v v - μ / R) ^ 2 * R ^ 2 -
        2 * (inner v v - μ / R) * (R ^ 2 * inner v v - H ^ 2) +
        (R ^ 2 * inner v v - H ^ 2) * inner v v) / μ ^ 2 := by
      rw [eq_div_iff (by positivity)]; linarith
    rw [this]
    field_simp; ring

theorem two_sq_zero {a b : ℝ} (h : a ^ 2 + b ^ 2 = 0) : a = 0 ∧ b = 0 := by
  constructor <;> nlinarith [sq_nonneg a, sq_nonneg b]

set_option maxHeartbeats 400000 in
/-- **C14**, where it is true.  Whenever `rv2coe` returns elements for a state, `coe2rv`
turns them back into exactly that state, provided the eccentricity and the inclination
are not strictly between zero and the tolerance and the orbit is not equatorial
retrograde.  Missing: those three situations, where the claim is false (see
`rv2coe_near_circular_lossy` and `rv2coe_retrograde_equatorial` below), and the states for
which `rv2coe` divides by zero (`rv2coe_parabolic_undefined`). -/
theorem rv2coe_coe2rv_partial {μ tol : ℝ} {r v : V3} {c : Coe} (hμ : 0 < μ) (htol : 0 < tol)
    (h : rv2coe μ r v tol = .ok c) (hecc : c.ecc = 0 ∨ tol ≤ c.ecc) (hinc : c.inc = 0 ∨ tol ≤ c.inc)
    (hretro : ¬ ((outer r v).x = 0 ∧ (outer r v).y = 0 ∧ (outer r v).z < 0)) :
    coe2rv μ c.p c.ecc c.inc c.raan c.argp c.nu = .ok (r, v) := by
  obtain ⟨R, H, e, hR, hR2, hH, hH2, hp, hi, hz1, hz2, he0, he2, hme, hre, hy, hee, hlag⟩ :=
    rv2coe_data hμ h
  unfold rv2coe at h
  simp only [bind_ok, psqrt_ok, pdiv_ok, vdiv_ok, pacos_ok] at h
  obtain ⟨R', ⟨hR0', hR'⟩, vn, ⟨hv0, hvn⟩, H', ⟨hH0', hH'⟩, kr, ⟨-, hkr⟩, e', ⟨-, he'⟩, ecc, ⟨he0', hecc'⟩,
    p, ⟨-, hp'⟩, ci, ⟨-, hci⟩, inc, ⟨-, hinc'⟩, ⟨raan, argp, nu⟩, hbr, hc⟩ := h
  obtain rfl := Except.ok.inj hc
  simp only at hp hi he0 he2 hee hecc hinc ⊢
  have hRR : R' = R := by
    rw [hR', show V3.dot r r = R ^ 2 from hR2.symm, Real.sqrt_sq hR.le]
  have hHH : H' = H := by
    rw [hH', show V3.dot (V3.cross r v) (V3.cross r v) = H ^ 2 from hH2.symm, Real.sqrt_sq hH.le]
  have hee' : e' = e := by
    have : μ • e' = μ • e := by
      rw [hme, he', hkr, hRR]; ext <;> simp [inner, V3.dot] <;> field_simp
    ext
    · have := congrArg V3.x this; simpa [hμ.ne'] using this
    · have := congrArg V3.y this; simpa [hμ.ne'] using this
    · have := congrArg V3.z this; simpa [hμ.ne'] using this
  subst hRR hHH hee'
  clear hR0' hH0' he0' hR' hH' he' hkr
  have hincn : 0 ≤ inc := by rw [hi]; exact Real.arccos_nonneg _
  have hrh : inner r (outer r v) = 0 := by simp [inner, outer]; ring
  rw [hp]
  -- components of the conic
  have hsum : inner r e' ^ 2 + (inner r v * H' / μ) ^ 2 = (ecc * R') ^ 2 := by
    rw [mul_pow, hee, hre]
    have h4 : inner r v ^ 2 = R' ^ 2 * inner v v - H' ^ 2 := by linarith
    rw [div_pow, mul_pow, h4]
    field_simp; ring
  -- the equatorial plane
  have heqz : inc = 0 → (outer r v).x = 0 ∧ (outer r v).y = 0 ∧ (outer r v).z = H' ∧ r.z = 0 ∧
      v.z = 0 ∧ e'.z = 0 := by
    intro h0
    rw [hi, Real.arccos_eq_zero, le_div_iff₀ hH, one_mul] at h0
    have hzH : (outer r v).z = H' := le_antisymm (by rwa [div_le_one hH] at hz2) h0
    unfold inner at hH2
    rw [hzH] at hH2
    obtain ⟨hx0, hy0⟩ := two_sq_zero (a := (outer r v).x) (b := (outer r v).y) (by linarith)
    have hrz : r.z = 0 := by
      unfold inner at hrh
      rw [hx0, hy0, hzH] at hrh
      simpa [hH.ne'] using hrh
    have hvz : v.z = 0 := by
      have hvh : inner v (outer r v) = 0 := by simp [inner, outer]; ring
      unfold inner at hvh
      rw [hx0, hy0, hzH] at hvh
      simpa [hH.ne'] using hvh
    refine ⟨hx0, hy0, hzH, hrz, hvz, ?_⟩
    have := congrArg V3.z hme
    simp [hrz, hvz, hμ.ne'] at this
    exact this
  have hn0 : inc = 0 → outer r v = H' • planeNormal inc 0 := by
    intro h0
    obtain ⟨a, b, cc, -⟩ := heqz h0
    rw [h0]
    ext
    · simp [a, planeNormal]
    · simp [b, planeNormal]
    · simp [cc, planeNormal]
  -- the inclined plane
  have hxy : tol ≤ inc → ¬ ((outer r v).x = 0 ∧ (outer r v).y = 0) := by
    rintro ht ⟨a, b⟩
    have hz : 0 ≤ (outer r v).z := by
      by_contra hc; exact hretro ⟨a, b, by linarith⟩
    unfold inner at hH2
    rw [a, b] at hH2
    have : (outer r v).z = H' := by nlinarith
    rw [this, div_self hH.ne', Real.arccos_one] at hi
    linarith
  have hcirc : ecc = 0 → H' ^ 2 / μ = R' ∧ inner r v = 0 := by
    intro h0
    rw [h0] at hsum
    obtain ⟨h1, h2⟩ := two_sq_zero (a := inner r e') (b := inner r v * H' / μ) (by linarith)
    refine ⟨by linarith, ?_⟩
    simpa [hμ.ne', hH.ne'] using h2
  have habs : |inc| = inc := abs_of_nonneg hincn
  unfold rv2coeAngles at hbr
  rw [habs] at hbr
  simp only at hbr
  split at hbr
  · -- equatorial, not circular
    rename_i hcase
    have h0 : inc = 0 := hinc.resolve_right (not_le.2 hcase.1)
    have hep : 0 < ecc := lt_of_lt_of_le htol (not_lt.1 hcase.2)
    obtain ⟨a, b, hzH, hrz, hvz, hez⟩ := heqz h0
    simp only [bind_ok, pdiv_ok] at hbr
    obtain ⟨q, ⟨-, hq⟩, hbr⟩ := hbr
    have hbr := Except.ok.inj hbr
    simp only [Prod.mk.injEq] at hbr
    obtain ⟨rfl, hargp, hnu⟩ := hbr
    have hq1 : q = inner r v * H' / μ := by rw [hq]; exact hy
    have hq2 : q = e'.x * r.y - e'.y * r.x := by
      have h5 : V3.dot (V3.cross r v) (V3.cross e' r) = H' * (e'.x * r.y - e'.y * r.x) := by
        have hh : V3.cross r v = ⟨0, 0, H'⟩ := by
          ext
          · exact a
          · exact b
          · exact hzH
        rw [hh]; simp [V3.dot, V3.cross]
      rw [hq, h5]; field_simp
    have hdot : V3.dot r e' = inner r e' := rfl
    rw [hdot] at hnu
    have hsum' : inner r e' ^ 2 + q ^ 2 = (ecc * R') ^ 2 := by rw [hq1]; exact hsum
    have hnz : inner r e' ≠ 0 ∨ q ≠ 0 := by
      by_contra hc; push Not at hc; rw [hc.1, hc.2] at hsum'
      have : 0 < (ecc * R') ^ 2 := by positivity
      linarith
    have hcn : Real.cos nu = inner r e' / (ecc * R') := by
      rw [← hnu, cos_arctan2 hnz, hsum', Real.sqrt_sq (by positivity)]
    have hsn : Real.sin nu = q / (ecc * R') := by
      rw [← hnu, sin_arctan2, hsum', Real.sqrt_sq (by positivity)]
    have hexy : e'.x ^ 2 + e'.y ^ 2 = ecc ^ 2 := by rw [he2]; unfold inner; rw [hez]; ring
    have hexn : e'.x ≠ 0 ∨ e'.y ≠ 0 := by
      by_contra hc; push Not at hc; rw [hc.1, hc.2] at hexy; have := pow_pos hep 2; linarith
    have hca : Real.cos argp = e'.x / ecc := by
      rw [← hargp, cos_pmod, cos_arctan2 hexn, hexy, Real.sqrt_sq hep.le]
    have hsa : Real.sin argp = e'.y / ecc := by
      rw [← hargp, sin_pmod, sin_arctan2, hexy, Real.sqrt_sq hep.le]
    rw [coe2rv_congr rfl rfl (wrap_cos nu) (wrap_sin nu)]
    apply state_recover hμ hH hR hR2 _ _ (hn0 h0)
    · rw [h0]
      unfold planeDir nodeDir aheadDir
      rw [Real.cos_add, Real.sin_add, hca, hsa, hcn, hsn, hq2]
      have hin : inner r e' = r.x * e'.x + r.y * e'.y := by unfold inner; rw [hez]; ring
      rw [hin]
      ext
      · simp
        field_simp
        linear_combination (-r.x) * hexy
      · simp
        field_simp
        linear_combination (-r.y) * hexy
      · simp [hrz]
    · rw [hcn, hre]; field_simp
    · rw [hsn, hq1]; field_simp
  · rename_i hna
    split at hbr
    · -- inclined, circular
      rename_i hcase
      have h0 : ecc = 0 := hecc.resolve_right (not_le.2 hcase.2)
      simp only [bind_ok, pdiv_ok] at hbr
      obtain ⟨q, ⟨-, hq⟩, hbr⟩ := hbr
      have hbr := Except.ok.inj hbr
      simp only [Prod.mk.injEq] at hbr
      obtain ⟨hraan, rfl, hnu⟩ := hbr
      obtain ⟨pl1, pl2⟩ := plane_of_h hH hH2 (hxy (not_lt.1 hcase.1)) hi hraan.symm
      obtain ⟨hpR, hrv⟩ := hcirc h0
      rw [coe2rv_congr rfl rfl (wrap_cos nu) (wrap_sin nu)]
      apply state_recover hμ hH hR hR2 _ _ pl1
      · rw [zero_add, ← hnu, hq]
        exact pl2 r R' hR hR2 hrh
      · rw [h0, hpR, div_self hR.ne']; ring
      · rw [h0, hrv]; ring
    · rename_i hnb
      split at hbr
      · -- equatorial, circular
        rename_i hcase
        have h0 : inc = 0 := hinc.resolve_right (not_le.2 hcase.1)
        have hee0 : ecc = 0 := hecc.resolve_right (not_le.2 hcase.2)
        have hbr := Except.ok.inj hbr
        simp only [Prod.mk.injEq] at hbr
        obtain ⟨rfl, rfl, hnu⟩ := hbr
        obtain ⟨a, b, hzH, hrz, hvz, hez⟩ := heqz h0
        obtain ⟨hpR, hrv⟩ := hcirc hee0
        have hrxy : r.x ^ 2 + r.y ^ 2 = R' ^ 2 := by rw [hR2]; unfold inner; rw [hrz]; ring
        have hnz : r.x ≠ 0 ∨ r.y ≠ 0 := by
          by_contra hc; push Not at hc; rw [hc.1, hc.2] at hrxy; have := pow_pos hR 2; linarith
        have hcn : Real.cos nu = r.x / R' := by
          rw [← hnu, cos_pmod, cos_arctan2 hnz, hrxy, Real.sqrt_sq hR.le]
        have hsn : Real.sin nu = r.y / R' := by
          rw [← hnu, sin_pmod, sin_arctan2, hrxy, Real.sqrt_sq hR.le]
        rw [coe2rv_congr rfl rfl (wrap_cos nu) (wrap_sin nu)]
        apply state_recover hμ hH hR hR2 _ _ (hn0 h0)
        · rw [h0, zero_add]
          unfold planeDir nodeDir aheadDir
          rw [hcn, hsn]
          ext
          · simp; field_simp
          · simp; field_simp
          · simp [hrz]
        · rw [hee0, hpR, div_self hR.ne']; ring
        · rw [hee0, hrv]; ring
      · -- inclined, not circular
        rename_i hnc
        have hci : ¬ ecc < tol ∧ ¬ inc < tol := by
          by_cases h1 : ecc < tol
          · by_cases h2 : inc < tol
            · exact absurd ⟨h2, h1⟩ hnc
            · exact absurd ⟨h2, h1⟩ hnb
          · by_cases h2 : inc < tol
            · exact absurd ⟨h2, h1⟩ hna
            · exact ⟨h1, h2⟩
        have hep : 0 < ecc := lt_of_lt_of_le htol (not_lt.1 hci.1)
        simp only [bind_ok, pdiv_ok] at hbr
        obtain ⟨nu', hnu', q, ⟨-, hq⟩, hbr⟩ := hbr
        have hbr := Except.ok.inj hbr
        simp only [Prod.mk.injEq] at hbr
        obtain ⟨hraan, hargp, rfl⟩ := hbr
        obtain ⟨pl1, pl2⟩ := plane_of_h hH hH2 (hxy (not_lt.1 hci.2)) hi hraan.symm
        have hp'' : p = H' ^ 2 / μ := hp
        rw [hp''] at hnu'
        have hvn2 : vn ^ 2 = V3.dot v v := by rw [hvn, Real.sq_sqrt hv0]
        obtain ⟨s1, s2⟩ := rv2coeNu_spec hμ hH hR hvn2 hlag hep hee hnu'
        have hac : Real.cos argp = Real.cos (arctan2 q (V3.dot r (V3.cross ⟨0, 0, 1⟩ (V3.cross r v))) - nu') := by
          rw [← hargp, cos_pmod]
        have has : Real.sin argp = Real.sin (arctan2 q (V3.dot r (V3.cross ⟨0, 0, 1⟩ (V3.cross r v))) - nu') := by
          rw [← hargp, sin_pmod]
        rw [coe2rv_congr hac has (wrap_cos nu') (wrap_sin nu')]
        apply state_recover hμ hH hR hR2 s1 s2 pl1
        rw [sub_add_cancel, hq]
        exact pl2 r R' hR hR2 hrh

theorem dot_self_pos {a : V3} (h : a ≠ 0) : 0 < V3.dot a a := by
  rcases (dot_self_nonneg a).lt_or_eq with h1 | h1
  · exact h1
  · exfalso; apply h
    unfold V3.dot at h1
    ext <;> simp <;> nlinarith [mul_self_nonneg a.x, mul_self_nonneg a.y, mul_self_nonneg a.z]

/-- The prelude of `rv2coe` never fails for a state with angular momentum. -/
theorem rv2coe_reduce {μ tol : ℝ} {r v : V3} (hμ : 0 < μ) (hh : outer r v ≠ 0) :
    ∃ (R H ecc inc : ℝ) (e : V3), 0 < R ∧ R = len r ∧ 0 < H ∧ H ^ 2 = R ^ 2 * inner v v - inner r v ^ 2 ∧
      0 ≤ ecc ∧ ecc ^ 2 = 1 + H ^ 2 * (inner v v - 2 * μ / R) / μ ^ 2 ∧
      H ^ 2 = inner (outer r v) (outer r v) ∧ inc = Real.arccos ((outer r v).z / H) ∧
      rv2coe μ r v tol = (do
        let a ← rv2coeAngles μ (H ^ 2 / μ) ecc inc tol R (Real.sqrt (V3.dot v v)) H r v (V3.cross r v)
          (V3.cross ⟨0, 0, 1⟩ (V3.cross r v)) e
        .ok ⟨H ^ 2 / μ, ecc, inc, a.1, a.2.1, pmod (a.2.2 + Real.pi) (2 * Real.pi) - Real.pi⟩) := by
  have hr : r ≠ 0 := by
    rintro rfl; apply hh; ext <;> simp [outer]
  have hRp : 0 < Real.sqrt (V3.dot r r) := Real.sqrt_pos.2 (dot_self_pos hr)
  have hHp : 0 < Real.sqrt (V3.dot (V3.cross r v) (V3.cross r v)) := Real.sqrt_pos.2 (dot_self_pos hh)
  have hR2 := Real.sq_sqrt (dot_self_nonneg r)
  have hH2 := Real.sq_sqrt (dot_self_nonneg (V3.cross r v))
  obtain ⟨R, hRd⟩ : ∃ R, R = Real.sqrt (V3.dot r r) := ⟨_, rfl⟩
  obtain ⟨H, hHd⟩ : ∃ H, H = Real.sqrt (V3.dot (V3.cross r v) (V3.cross r v)) := ⟨_, rfl⟩
  rw [← hRd] at hRp hR2
  rw [← hHd] at hHp hH2
  have hlag : H ^ 2 = R ^ 2 * inner v v - inner r v ^ 2 := by
    rw [hH2, hR2]; simp [inner, V3.dot, V3.cross]; ring
  have hz : -1 ≤ (V3.cross r v).z / H ∧ (V3.cross r v).z / H ≤ 1 := by
    generalize V3.cross r v = w at *
    unfold V3.dot at hH2
    have : |w.z| ≤ H := abs_le_of_sq_le_sq (by nlinarith [mul_self_nonneg w.x, mul_self_nonneg w.y]) hHp.le
    rw [le_div_iff₀ hHp, div_le_one hHp]
    constructor <;> linarith [(abs_le.1 this).1, (abs_le.1 this).2]
  refine ⟨R, H, Real.sqrt (V3.dot (μ⁻¹ • ((V3.dot v v - μ / R) • r - V3.dot r v • v))
      (μ⁻¹ • ((V3.dot v v - μ / R) • r - V3.dot r v • v))), Real.arccos ((V3.cross r v).z / H),
    μ⁻¹ • ((V3.dot v v - μ / R) • r - V3.dot r v • v), hRp, ?_, hHp, hlag, Real.sqrt_nonneg _, ?_, hH2,
    rfl, ?_⟩
  · rw [hRd, len_eq_norm]; rfl
  · rw [Real.sq_sqrt (dot_self_nonneg _)]
    have h1 : V3.dot (μ⁻¹ • ((V3.dot v v - μ / R) • r - V3.dot r v • v))
        (μ⁻¹ • ((V3.dot v v - μ / R) • r - V3.dot r v • v)) =
        (μ⁻¹) ^ 2 * ((inner v v - μ / R) ^ 2 * V3.dot r r -
        2 * (inner v v - μ / R) * inner r v ^ 2 + inner r v ^ 2 * inner v v) := by
      simp [inner, V3.dot]; ring
    have h4 : inner r v ^ 2 = R ^ 2 * inner v v - H ^ 2 := by linarith
    rw [h1, ← hR2, h4]
    field_simp; ring
  · unfold rv2coe
    simp only [psqrt_eq (dot_self_nonneg _), ok_bind, ← hRd, ← hHd]
    rw [pdiv_eq hRp.ne']
    simp only [ok_bind]
    rw [vdiv, if_neg hμ.ne']
    rw [ok_bind]
    rw [pdiv_eq hμ.ne', pdiv_eq hHp.ne']
    simp only [ok_bind]
    rw [pacos, if_pos hz]
    simp only [ok_bind, ← hH2]

/-- `rv2coe` returns for every state with angular momentum that is neither parabolic nor
exactly at the apoapsis of an ellipse (there `tan(E/2)` is infinite; floating point rounds
it to a huge number, the model stops). -/
theorem rv2coe_defined {μ tol : ℝ} {r v : V3} (hμ : 0 < μ) (hh : outer r v ≠ 0)
    (hpar : inner v v ≠ 2 * μ / len r) (hapo : inner r v = 0 → μ ≤ len r * inner v v) :
    ∃ c, rv2coe μ r v tol = .ok c := by
  obtain ⟨R, H, ecc, inc, e, hR, hRl, hH, hlag, he0, hee, hH2, hi, hred⟩ := rv2coe_reduce (tol := tol) hμ hh
  rw [hred]
  rw [← hRl] at hpar hapo
  suffices ∃ a, rv2coeAngles μ (H ^ 2 / μ) ecc inc tol R (Real.sqrt (V3.dot v v)) H r v (V3.cross r v)
          (V3.cross ⟨0, 0, 1⟩ (V3.cross r v)) e = .ok a by
    obtain ⟨a, ha⟩ := this
    rw [ha]; exact ⟨_, rfl⟩
  have hp : 0 < H ^ 2 / μ := by positivity
  unfold rv2coeAngles
  simp only [pdiv_eq hH.ne', ok_bind]
  split
  · exact ⟨_, rfl⟩
  split
  · exact ⟨_, rfl⟩
  split
  · exact ⟨_, rfl⟩
  suffices ∃ nu, rv2coeNu μ (H ^ 2 / μ) ecc R (Real.sqrt (V3.dot v v)) (V3.dot r v) (V3.dot v v) = .ok nu by
    obtain ⟨a, ha⟩ := this
    rw [ha]; exact ⟨_, rfl⟩
  have hden : 1 - ecc ^ 2 ≠ 0 := by
    intro h0
    apply hpar
    have h1 : H ^ 2 * (inner v v - 2 * μ / R) / μ ^ 2 = 0 := by linarith
    have h2 : inner v v - 2 * μ / R = 0 := by
      have := (div_eq_zero_iff.1 h1).resolve_right (by positivity)
      exact (mul_eq_zero.1 this).resolve_left (by positivity)
    linarith
  unfold rv2coeNu
  rw [pdiv_eq hden]
  simp only [ok_bind]
  have hane : H ^ 2 / μ / (1 - ecc ^ 2) ≠ 0 := div_ne_zero hp.ne' hden
  split
  · rename_i hapos
    have he1 : 0 < 1 - ecc ^ 2 := by
      by_contra hc
      exact absurd (div_nonpos_of_nonneg_of_nonpos hp.le (not_lt.1 hc)) (not_le.2 hapos)
    have hka : 0 < μ * (H ^ 2 / μ / (1 - ecc ^ 2)) := by positivity
    rw [psqrt_eq hka.le, ok_bind, pdiv_eq (Real.sqrt_pos.2 hka).ne', ok_bind, pdiv_eq hμ.ne', ok_bind]
    refine ⟨_, eToNu_eq he0 (by nlinarith) (Complex.neg_pi_lt_arg _) ?_⟩
    refine lt_of_le_of_ne (Complex.arg_le_pi _) ?_
    rw [arctan2, Ne, Complex.arg_eq_pi_iff]
    rintro ⟨h1, h2⟩
    simp only at h1 h2
    have h3 : inner r v = 0 := (div_eq_zero_iff.1 h2).resolve_right (Real.sqrt_pos.2 hka).ne'
    have h4 := hapo h3
    have h5 : 1 ≤ R * V3.dot v v / μ := by rw [le_div_iff₀ hμ, one_mul]; exact h4
    linarith
  · rename_i hapos
    have haneg : H ^ 2 / μ / (1 - ecc ^ 2) < 0 := lt_of_le_of_ne (not_lt.1 hapos) hane
    have he1 : 1 - ecc ^ 2 < 0 := by
      by_contra hc
      exact absurd (div_nonneg hp.le (not_lt.1 hc)) (not_le.2 haneg)
    have hE1 : 1 < ecc := by nlinarith
    obtain ⟨a, ha⟩ : ∃ a, a = H ^ 2 / μ / (1 - ecc ^ 2) := ⟨_, rfl⟩
    rw [← ha] at haneg ⊢
    have hka : 0 < -(μ * a) := by nlinarith
    obtain ⟨s, hs⟩ : ∃ s, s = Real.sqrt (-(μ * a)) := ⟨_, rfl⟩
    have hspos : 0 < s := by rw [hs]; exact Real.sqrt_pos.2 hka
    have hs2 : s ^ 2 = -(μ * a) := by rw [hs, Real.sq_sqrt hka.le]
    have hpa : H ^ 2 / μ = a * (1 - ecc ^ 2) := by rw [ha]; field_simp
    have hvv : Real.sqrt (V3.dot v v) ^ 2 = V3.dot v v := Real.sq_sqrt (dot_self_nonneg v)
    rw [psqrt_eq hka.le, ok_bind, ← hs, pdiv_eq hspos.ne', ok_bind, pdiv_eq hμ.ne', ok_bind, hvv]
    have hvis : R * V3.dot v v / μ - 1 = 1 - R / a := by
      have h1 : 1 - ecc ^ 2 = (H ^ 2 / μ) * ((2 * μ / R - inner v v) / μ) := by
        rw [hee]; field_simp; ring
      have h2 : 1 = a * ((2 * μ / R - inner v v) / μ) := by
        have : H ^ 2 / μ * 1 = H ^ 2 / μ * (a * ((2 * μ / R - inner v v) / μ)) := by
          conv_lhs => rw [mul_one, hpa, h1]
          ring
        exact mul_left_cancel₀ hp.ne' this
      have h3 : 1 / a = (2 * μ / R - inner v v) / μ := by
        rw [div_eq_iff haneg.ne, mul_comm]; exact h2
      rw [show R / a = R * (1 / a) by ring, h3]
      show R * inner v v / μ - 1 = _
      field_simp; ring
    have hch : 1 < 1 - R / a := by
      have := div_neg_of_pos_of_neg hR haneg; linarith
    have hsq : (1 - R / a) ^ 2 - (V3.dot r v / s) ^ 2 = ecc ^ 2 := by
      have hrv : inner r v ^ 2 = R ^ 2 * inner v v - μ * (a * (1 - ecc ^ 2)) := by
        rw [← hpa]; field_simp; linarith
      have hvv' : inner v v = μ * (2 - R / a) / R := by
        have : R * inner v v / μ - 1 = 1 - R / a := hvis
        field_simp; field_simp at this; linarith
      have : V3.dot r v ^ 2 = inner r v ^ 2 := rfl
      rw [div_pow, hs2, this, hrv, hvv']
      have := haneg.ne
      field_simp; ring
    have habs : |V3.dot r v / s| < 1 - R / a := by
      apply abs_lt_of_sq_lt_sq _ (by linarith)
      have : 0 < ecc ^ 2 := by positivity
      linarith
    have hp1 : 0 < 1 - R / a + V3.dot r v / s := by linarith [(abs_lt.1 habs).1]
    have hp2 : 0 < 1 - R / a - V3.dot r v / s := by linarith [(abs_lt.1 habs).2]
    rw [hvis, pdiv_eq hp2.ne', ok_bind, plog, if_pos (div_pos hp1 hp2), ok_bind]
    exact ⟨_, hToNu_eq hE1⟩

/-- Non-vacuity of the round trip: an inclined elliptic state off the apsides for which
`rv2coe` returns with eccentricity and inclination above the tolerance. -/
example : ∃ c, rv2coe 1 ⟨1, 0, 0⟩ ⟨1 / 2, 0, 1 / 2⟩ (1 / 100) = .ok c ∧ (c.ecc = 0 ∨ 1 / 100 ≤ c.ecc) ∧
    (c.inc = 0 ∨ 1 / 100 ≤ c.inc) ∧ ¬ ((outer ⟨1, 0, 0⟩ ⟨1 / 2, 0, 1 / 2⟩).x = 0 ∧
      (outer ⟨1, 0, 0⟩ ⟨1 / 2, 0, 1 / 2⟩).y = 0 ∧ (outer ⟨1, 0, 0⟩ ⟨1 / 2, 0, 1 / 2⟩).z < 0) := by
  have hl : len (⟨1, 0, 0⟩ : V3) = 1 := by unfold len; simp
  obtain ⟨c, hc⟩ := rv2coe_defined (μ := 1) (tol := 1 / 100) (r := ⟨1, 0, 0⟩) (v := ⟨1 / 2, 0, 1 / 2⟩)
    one_pos (by intro h; have := congrArg V3.y h; simp [outer] at this)
    (by rw [hl]; simp [inner]; norm_num) (by intro h; simp [inner] at h)
  obtain ⟨R, H, e, hR, hR2, hH, hH2, hp, hi, hz1, hz2, he0, he2, hme, hre, hy, hee, hlag⟩ :=
    rv2coe_data one_pos hc
  have hR1 : R = 1 := by simp [inner] at hR2; rcases hR2 with h | h <;> linarith
  refine ⟨c, hc, Or.inr ?_, Or.inr ?_, ?_⟩
  · rw [hH2, hR1] at hee
    simp [inner, outer] at hee
    norm_num at hee
    nlinarith
  · rw [hi]
    simp only [outer]
    norm_num
    have := Real.two_le_pi
    linarith
  · simp [outer]

/-- Finding: a parabolic state in an inclined plane has no elements: `rv2coe` divides by
`1 - ecc²`. -/
theorem rv2coe_parabolic_undefined {μ tol : ℝ} {r v : V3} (hμ : 0 < μ) (htol : tol ≤ 1)
    (hh : outer r v ≠ 0) (hpar : inner v v = 2 * μ / len r)
    (hinc : ∀ H : ℝ, 0 < H → H ^ 2 = inner (outer r v) (outer r v) → tol ≤ Real.arccos ((outer r v).z / H)) :
    rv2coe μ r v tol = .error .undefined := by
  obtain ⟨R, H, ecc, inc, e, hR, hRl, hH, hlag, he0, hee, hH2, hi, hred⟩ := rv2coe_reduce (tol := tol) hμ hh
  rw [← hRl] at hpar
  have hi0 : 0 ≤ inc := by rw [hi]; exact Real.arccos_nonneg _
  have hit : tol ≤ inc := by rw [hi]; exact hinc H hH hH2
  have he1 : ecc ^ 2 = 1 := by rw [hee, hpar]; ring
  have he1' : ecc = 1 := by nlinarith
  rw [hred]
  unfold rv2coeAngles
  simp only [abs_of_nonneg hi0, he1']
  rw [if_neg (by rintro ⟨h, -⟩; linarith), if_neg (by rintro ⟨-, h⟩; linarith),
    if_neg (by rintro ⟨h, -⟩; linarith)]
  unfold rv2coeNu
  rw [pdiv, if_pos (by norm_num)]
  rfl

/-- Finding: for a retrograde equatorial orbit the node vector is null and the recovered
position lies on the positive x axis, whatever the position was. -/
theorem rv2coe_retrograde_equatorial {μ tol : ℝ} {r v : V3} {c : Coe} (hμ : 0 < μ) (htol : 0 < tol)
    (htol1 : tol ≤ 1) (h : rv2coe μ r v tol = .ok c) (hecc : c.ecc = 0 ∨ tol ≤ c.ecc)
    (hx : (outer r v).x = 0) (hy : (outer r v).y = 0) (hz : (outer r v).z < 0) :
    ∃ v', coe2rv μ c.p c.ecc c.inc c.raan c.argp c.nu = .ok (⟨len r, 0, 0⟩, v') := by
  obtain ⟨R, H, e, hR, hR2, hH, hH2, hp, hi, hz1, hz2, he0, he2, hme, hre, hyy, hee, hlag⟩ :=
    rv2coe_data hμ h
  have hlen : len r = R := by
    unfold len
    rw [show r.x ^ 2 + r.y ^ 2 + r.z ^ 2 = R ^ 2 by rw [hR2]; unfold inner; ring, Real.sqrt_sq hR.le]
  have hpi := Real.two_le_pi
  have hzH : (outer r v).z = -H := by
    unfold inner at hH2; rw [hx, hy] at hH2; nlinarith
  have hipi : c.inc = Real.pi := by
    rw [hi, hzH, neg_div, div_self hH.ne', Real.arccos_neg_one]
  have hn : V3.cross ⟨0, 0, 1⟩ (V3.cross r v) = 0 := by
    have h1 : (V3.cross r v).x = 0 := hx
    have h2 : (V3.cross r v).y = 0 := hy
    ext <;> simp [V3.cross] <;> simp [V3.cross] at h1 h2 <;> linarith
  unfold rv2coe at h
  simp only [bind_ok, psqrt_ok, pdiv_ok, vdiv_ok, pacos_ok] at h
  obtain ⟨R', ⟨hR0', hR'⟩, vn, ⟨hv0, hvn⟩, H', ⟨hH0', hH'⟩, kr, ⟨-, hkr⟩, e', ⟨-, he'⟩, ecc, ⟨he0', hecc'⟩,
    p, ⟨-, hp'⟩, ci, ⟨-, hci⟩, inc, ⟨-, hinc'⟩, ⟨raan, argp, nu⟩, hbr, hc⟩ := h
  obtain rfl := Except.ok.inj hc
  simp only at hp hi he0 he2 hee hecc hipi ⊢
  have hRR : R' = R := by
    rw [hR', show V3.dot r r = R ^ 2 from hR2.symm, Real.sqrt_sq hR.le]
  have hHH : H' = H := by
    rw [hH', show V3.dot (V3.cross r v) (V3.cross r v) = H ^ 2 from hH2.symm, Real.sqrt_sq hH.le]
  subst hRR hHH
  have a0 : arctan2 0 0 = 0 := by unfold arctan2; exact Complex.arg_zero
  have p0 : pmod 0 (2 * Real.pi) = 0 := by simp [pmod]
  have d0 : ∀ w : V3, V3.dot w 0 = 0 := by intro w; simp [V3.dot]
  have c0 : ∀ w : V3, V3.cross w 0 = 0 := by intro w; ext <;> simp [V3.cross]
  unfold rv2coeAngles at hbr
  simp only [hipi, abs_of_pos Real.pi_pos, hn, c0, d0, V3.zero_x, V3.zero_y, a0, p0] at hbr
  rw [if_neg (by rintro ⟨h, -⟩; linarith)] at hbr
  have key : ∀ (E P n : ℝ), 0 < P → 0 < 1 + E * Real.cos n → P / (1 + E * Real.cos n) = R' →
      ∃ v', coe2rv μ P E Real.pi 0 (-n) n = .ok (⟨R', 0, 0⟩, v') := by
    intro E P n hP hd hr
    obtain ⟨r', v', h1, h2, h3, -⟩ := coe2rv_state (inc := Real.pi) (raan := 0) (argp := -n) hμ hP hd
    refine ⟨v', ?_⟩
    rw [h1, h3, h2, hr, neg_add_cancel]
    congr 2
    ext <;> simp [planeDir, nodeDir, aheadDir]
  have hpp : 0 < H' ^ 2 / μ := by positivity
  rw [hlen, hp, hipi]
  split at hbr
  · rename_i hcase
    have h0 : ecc = 0 := hecc.resolve_right (not_le.2 hcase.2)
    simp only [bind_ok, pdiv_ok] at hbr
    obtain ⟨q, ⟨-, hq⟩, hbr⟩ := hbr
    have hbr := Except.ok.inj hbr
    simp only [Prod.mk.injEq] at hbr
    obtain ⟨rfl, rfl, hnu⟩ := hbr
    rw [hq, zero_div, a0] at hnu
    have hpR : H' ^ 2 / μ = R' := by
      have hsum : inner r e ^ 2 + (inner r v * H' / μ) ^ 2 = (ecc * R') ^ 2 := by
        rw [mul_pow, hee, hre]
        have h4 : inner r v ^ 2 = R' ^ 2 * inner v v - H' ^ 2 := by linarith
        rw [div_pow, mul_pow, h4]
        field_simp; ring
      rw [h0] at hsum
      have := (two_sq_zero (a := inner r e) (b := inner r v * H' / μ) (by linarith)).1
      linarith
    rw [coe2rv_congr (a' := -0) (by simp) (by simp) (wrap_cos nu) (wrap_sin nu), ← hnu]
    apply key _ _ _ hpp
    · rw [h0]; norm_num
    · rw [h0, hpR]; simp
  · rename_i hncase
    have hep : 0 < ecc := by
      rcases hecc with h | h
      · exact absurd ⟨by linarith, by linarith⟩ hncase
      · linarith
    rw [if_neg (by rintro ⟨h, -⟩; linarith)] at hbr
    simp only [bind_ok, pdiv_ok] at hbr
    obtain ⟨nu', hnu', q, ⟨-, hq⟩, hbr⟩ := hbr
    have hbr := Except.ok.inj hbr
    simp only [Prod.mk.injEq] at hbr
    obtain ⟨rfl, hargp, rfl⟩ := hbr
    have hp'' : p = H' ^ 2 / μ := hp
    rw [hp''] at hnu'
    have hvn2 : vn ^ 2 = V3.dot v v := by rw [hvn, Real.sq_sqrt hv0]
    obtain ⟨s1, s2⟩ := rv2coeNu_spec hμ hH hR hvn2 hlag hep hee hnu'
    rw [hq, zero_div, a0, zero_sub] at hargp
    rw [coe2rv_congr (a' := -nu') (by rw [← hargp, cos_pmod]) (by rw [← hargp, sin_pmod])
      (wrap_cos nu') (wrap_sin nu')]
    have hd : 1 + ecc * Real.cos nu' = H' ^ 2 / μ / R' := by rw [s1]; ring
    apply key _ _ _ hpp
    · rw [hd]; positivity
    · rw [hd]; field_simp

/-- Finding: when the eccentricity is positive but below the tolerance the periapsis is
moved to the node: the round trip can only succeed if it was there already. -/
theorem rv2coe_near_circular_lossy {μ tol : ℝ} {r v : V3} {c : Coe} (hμ : 0 < μ) (htol1 : tol ≤ 1)
    (h : rv2coe μ r v tol = .ok c) (hecc0 : 0 < c.ecc) (hecc : c.ecc < tol) (hinc : tol ≤ c.inc)
    (hback : coe2rv μ c.p c.ecc c.inc c.raan c.argp c.nu = .ok (r, v)) :
    (1 / μ) • outer v (outer r v) - (1 / len r) • r = c.ecc • nodeDir c.raan := by
  obtain ⟨R, H, e, hR, hR2, hH, hH2, hp, hi, -⟩ := rv2coe_data hμ h
  have hinc0 : 0 ≤ c.inc := by rw [hi]; exact Real.arccos_nonneg _
  have hpp : 0 < c.p := by rw [hp]; positivity
  have hargp : c.argp = 0 := by
    unfold rv2coe at h
    simp only [bind_ok, psqrt_ok, pdiv_ok, vdiv_ok, pacos_ok] at h
    obtain ⟨R', -, vn, -, H', -, kr, -, e', -, ecc, -, p, -, ci, -, inc, -, ⟨raan, argp, nu⟩, hbr, hc⟩ := h
    obtain rfl := Except.ok.inj hc
    simp only at hecc0 hecc hinc hinc0 ⊢
    unfold rv2coeAngles at hbr
    simp only [abs_of_nonneg hinc0] at hbr
    rw [if_neg (by rintro ⟨h, -⟩; linarith), if_pos ⟨not_lt.2 hinc, hecc⟩] at hbr
    simp only [bind_ok] at hbr
    obtain ⟨q, -, hbr⟩ := hbr
    have hbr := Except.ok.inj hbr
    simp only [Prod.mk.injEq] at hbr
    exact hbr.2.1.symm
  have hd : 0 < 1 + c.ecc * Real.cos c.nu := by
    nlinarith [Real.neg_one_le_cos c.nu, Real.cos_le_one c.nu]
  obtain ⟨r', v', h1, -, -, -, -, h6⟩ := coe2rv_state (inc := c.inc) (raan := c.raan) (argp := c.argp) hμ hpp hd
  rw [hback] at h1
  have h1 := Except.ok.inj h1
  simp only [Prod.mk.injEq] at h1
  obtain ⟨rfl, rfl⟩ := h1
  rw [h6, hargp]
  congr 1
  ext <;> simp [planeDir]

/-- Non-vacuity of `rv2coe_parabolic_undefined`. -/
example : outer ⟨1, 0, 0⟩ ⟨0, 0, Real.sqrt 2⟩ ≠ 0 ∧
    inner ⟨0, 0, Real.sqrt 2⟩ ⟨0, 0, Real.sqrt 2⟩ = 2 * 1 / len ⟨1, 0, 0⟩ ∧
    ∀ H : ℝ, (1 / 100 : ℝ) ≤ Real.arccos ((outer ⟨1, 0, 0⟩ ⟨0, 0, Real.sqrt 2⟩).z / H) := by
  have hl : len (⟨1, 0, 0⟩ : V3) = 1 := by unfold len; simp
  refine ⟨by intro h; have := congrArg V3.y h; simp [outer] at this, by rw [hl]; simp [inner], ?_⟩
  intro H
  simp [outer]
  have := Real.two_le_pi
  linarith

/-- Non-vacuity of `rv2coe_retrograde_equatorial`, with a position off the x axis: the
round trip fails there. -/
example : ∃ c, rv2coe 1 ⟨0, 1, 0⟩ ⟨1, 1 / 2, 0⟩ (1 / 100) = .ok c ∧
    coe2rv 1 c.p c.ecc c.inc c.raan c.argp c.nu ≠ .ok (⟨0, 1, 0⟩, ⟨1, 1 / 2, 0⟩) := by
  have hl : len (⟨0, 1, 0⟩ : V3) = 1 := by unfold len; simp
  obtain ⟨c, hc⟩ := rv2coe_defined (μ := 1) (tol := 1 / 100) (r := ⟨0, 1, 0⟩) (v := ⟨1, 1 / 2, 0⟩)
    one_pos (by intro h; have := congrArg V3.z h; simp [outer] at this)
    (by rw [hl]; simp [inner]; norm_num) (by intro h; simp [inner] at h)
  obtain ⟨R, H, e, hR, hR2, hH, hH2, hp, hi, hz1, hz2, he0, he2, hme, hre, hy, hee, hlag⟩ :=
    rv2coe_data one_pos hc
  have hR1 : R = 1 := by simp [inner] at hR2; rcases hR2 with h | h <;> linarith
  refine ⟨c, hc, ?_⟩
  obtain ⟨v', hv'⟩ := rv2coe_retrograde_equatorial one_pos (by norm_num) (by norm_num) hc (Or.inr (by
    rw [hH2, hR1] at hee
    simp [inner, outer] at hee
    norm_num at hee
    nlinarith)) (by simp [outer]) (by simp [outer]) (by simp [outer])
  rw [hv', hl]
  intro h
  have h := Except.ok.inj h
  simp at h

/-- Non-vacuity of `rv2coe_near_circular_lossy`: a state whose elements do not give the
state back. -/
example : ∃ c, rv2coe 1 ⟨1, 0, 0⟩ ⟨1 / 1000, 0, 1⟩ (1 / 100) = .ok c ∧
    coe2rv 1 c.p c.ecc c.inc c.raan c.argp c.nu ≠ .ok (⟨1, 0, 0⟩, ⟨1 / 1000, 0, 1⟩) := by
  have hl : len (⟨1, 0, 0⟩ : V3) = 1 := by unfold len; simp
  obtain ⟨c, hc⟩ := rv2coe_defined (μ := 1) (tol := 1 / 100) (r := ⟨1, 0, 0⟩) (v := ⟨1 / 1000, 0, 1⟩)
    one_pos (by intro h; have := congrArg V3.y h; simp [outer] at this)
    (by rw [hl]; simp [inner]; norm_num) (by intro h; simp [inner] at h)
  obtain ⟨R, H, e, hR, hR2, hH, hH2, hp, hi, hz1, hz2, he0, he2, hme, hre, hy, hee, hlag⟩ :=
    rv2coe_data one_pos hc
  have hR1 : R = 1 := by simp [inner] at hR2; rcases hR2 with h | h <;> linarith
  have hec : c.ecc = 1 / 1000 := by
    rw [hH2, hR1] at hee
    simp [inner, outer] at hee
    norm_num at hee
    nlinarith
  have hinc : 1 / 100 ≤ c.inc := by
    rw [hi]
    simp [outer]
    have := Real.two_le_pi
    linarith
  refine ⟨c, hc, fun hback => ?_⟩
  have h := rv2coe_near_circular_lossy one_pos (by norm_num) hc (by rw [hec]; norm_num)
    (by rw [hec]; norm_num) hinc hback
  have hz := congrArg V3.z h
  rw [hl] at hz
  simp [outer, nodeDir] at hz

end Lamberthub
