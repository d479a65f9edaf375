import Verif.Props.Budget

/-! # Comparing two runs of a program in different units or frames -/

set_option autoImplicit false

namespace Lamberthub

theorem Agree.refl {α : Type} {R : α → α → Prop} {x : Py α} (h : ∀ a, x = .ok a → R a a) : Agree R x x := by
  cases x with
  | error e => exact .inl ⟨e, rfl, rfl⟩
  | ok a => exact .inr ⟨a, a, rfl, rfl, h a rfl⟩

theorem Agree.eq {α : Type} {x y : Py α} (h : Agree (fun a b => b = a) x y) : y = x := by
  rcases h with ⟨e, rfl, rfl⟩ | ⟨a, b, rfl, rfl, rfl⟩ <;> rfl

/-- An agreement whose relation is a function is an equation between the outcomes. -/
theorem Agree.map {α β : Type} {f : α → β} {x : Py α} {y : Py β} (h : Agree (fun a b => b = f a) x y) :
    y = x.map f := by
  rcases h with ⟨e, rfl, rfl⟩ | ⟨a, b, rfl, rfl, rfl⟩ <;> rfl

theorem agree_of_map {α β : Type} {f : α → β} {x : Py α} {y : Py β} (h : y = x.map f) :
    Agree (fun a b => b = f a) x y := by
  cases x with
  | error e => exact .inl ⟨e, rfl, h⟩
  | ok a => exact .inr ⟨a, f a, rfl, h, rfl⟩

theorem agree_pdiv {a b a' b' c d : ℝ} (hd : d ≠ 0) (ha : a' = c * a) (hb : b' = d * b) :
    Agree (fun x y => y = c / d * x) (pdiv a b) (pdiv a' b') := by
  subst ha hb
  unfold pdiv
  by_cases h : b = 0
  · simp only [h, mul_zero, if_true]
    exact .inl ⟨_, rfl, rfl⟩
  · rw [if_neg h, if_neg (mul_ne_zero hd h)]
    exact .ok (by field_simp)

theorem agree_psqrt {a a' c : ℝ} (hc : 0 < c) (ha : a' = c ^ 2 * a) :
    Agree (fun x y => y = c * x) (psqrt a) (psqrt a') := by
  subst ha
  unfold psqrt
  have hc2 : 0 < c ^ 2 := by positivity
  by_cases h : a < 0
  · rw [if_pos h, if_pos (mul_neg_of_pos_of_neg hc2 h)]
    exact .inl ⟨_, rfl, rfl⟩
  · rw [if_neg h, if_neg (not_lt.2 (mul_nonneg hc2.le (not_lt.1 h)))]
    refine .ok ?_
    rw [Real.sqrt_mul hc2.le, Real.sqrt_sq hc.le]

theorem agree_vdiv {v v' : V3} {b b' c d : ℝ} (hd : d ≠ 0) (hv : v' = c • v) (hb : b' = d * b) :
    Agree (fun x y => y = (c / d) • x) (vdiv v b) (vdiv v' b') := by
  subst hv hb
  unfold vdiv
  by_cases h : b = 0
  · simp only [h, mul_zero, if_true]
    exact .inl ⟨_, rfl, rfl⟩
  · rw [if_neg h, if_neg (mul_ne_zero hd h)]
    refine .ok ?_
    ext <;> simp <;> field_simp

theorem smul_eq_zero_iff {k : ℝ} (hk : k ≠ 0) {v : V3} : k • v = 0 ↔ v = 0 := by
  constructor
  · intro h
    have hx := congrArg V3.x h
    have hy := congrArg V3.y h
    have hz := congrArg V3.z h
    simp [hk] at hx hy hz
    ext <;> simp [hx, hy, hz]
  · rintro rfl
    ext <;> simp

theorem smul_inj {k : ℝ} (hk : k ≠ 0) {v w : V3} : k • v = k • w ↔ v = w := by
  constructor
  · intro h
    have hx := congrArg V3.x h
    have hy := congrArg V3.y h
    have hz := congrArg V3.z h
    simp [hk] at hx hy hz
    ext <;> assumption
  · rintro rfl; rfl

theorem norm_scale {k : ℝ} (hk : 0 ≤ k) (v : V3) : V3.norm (k • v) = k * V3.norm v := by
  unfold V3.norm
  have : V3.dot (k • v) (k • v) = k ^ 2 * V3.dot v v := by simp [V3.dot]; ring
  rw [this, Real.sqrt_mul (by positivity), Real.sqrt_sq hk]

theorem sub_scale (k : ℝ) (a b : V3) : k • a - k • b = k • (a - b) := by
  ext <;> simp <;> ring

theorem cross_scale (k : ℝ) (a b : V3) : V3.cross (k • a) (k • b) = k ^ 2 • V3.cross a b := by
  ext <;> simp [V3.cross] <;> ring

theorem dot_scale (k : ℝ) (a b : V3) : V3.dot (k • a) (k • b) = k ^ 2 * V3.dot a b := by
  simp [V3.dot]; ring

theorem smul_smul' (a b : ℝ) (v : V3) : a • b • v = (a * b) • v := by
  ext <;> simp <;> ring

theorem one_smul' (v : V3) : (1 : ℝ) • v = v := by
  ext <;> simp

theorem vdiv_scale {k : ℝ} (hk : k ≠ 0) (v : V3) (b : ℝ) : vdiv (k • v) (k * b) = vdiv v b := by
  refine Agree.eq ((agree_vdiv hk rfl rfl).mono fun x y h => ?_)
  rw [h, div_self hk, one_smul']

theorem pdiv_scale {k : ℝ} (hk : k ≠ 0) (a b : ℝ) : pdiv (k * a) (k * b) = pdiv a b := by
  refine Agree.eq ((agree_pdiv hk rfl rfl).mono fun x y h => ?_)
  rw [h, div_self hk, one_mul]

theorem sameSigns_scale {k : ℝ} (hk : 0 < k) (a b : V3) : sameSigns (k • a) (k • b) ↔ sameSigns a b := by
  have h : ∀ x : ℝ, SignType.sign (k * x) = SignType.sign x := fun x => by
    rw [sign_mul, sign_pos hk, one_mul]
  simp only [sameSigns, V3.smul_x, V3.smul_y, V3.smul_z, h]

theorem transferAngle_scale {k : ℝ} (hk : 0 < k) (r1 r2 : V3) (pro : Bool) :
    getTransferAngle (k • r1) (k • r2) pro = getTransferAngle r1 r2 pro := by
  have hk2 : k ^ 2 ≠ 0 := by positivity
  unfold getTransferAngle
  simp only [cross_scale, smul_eq_zero_iff hk2, sameSigns_scale hk, norm_scale hk.le, dot_scale,
    norm_scale (by positivity : 0 ≤ k ^ 2), vdiv_scale hk2]
  have : ∀ a b c : ℝ, pdiv (k ^ 2 * a) (k * b * (k * c)) = pdiv a (b * c) := fun a b c => by
    rw [show k * b * (k * c) = k ^ 2 * (b * c) by ring, pdiv_scale hk2]
  simp only [this]
  have hz : V3.cross (k • r1) (k • r2) = 0 ↔ V3.cross r1 r2 = 0 := by rw [cross_scale, smul_eq_zero_iff hk2]
  have hs := sameSigns_scale hk r1 r2
  by_cases h : V3.cross r1 r2 = 0
  · rw [if_pos h, if_pos (hz.2 h)]
    by_cases h' : sameSigns r1 r2
    · rw [if_pos h', if_pos (hs.2 h')]
    · rw [if_neg h', if_neg fun q => h' (hs.1 q)]
  · rw [if_neg h, if_neg fun q => h (hz.1 q)]

theorem orbitNormal_scale {k : ℝ} (hk : 0 < k) (r1 r2 : V3) (pro : Bool) :
    getOrbitNormalVector (k • r1) (k • r2) pro = getOrbitNormalVector r1 r2 pro := by
  have hk2 : k ^ 2 ≠ 0 := by positivity
  unfold getOrbitNormalVector
  simp only [cross_scale, norm_scale (by positivity : 0 ≤ k ^ 2), vdiv_scale hk2]

theorem assertParameters_scale {k c t : ℝ} (hk : 0 < k) (hc : 0 < c) (ht : 0 < t) (mu : ℝ) (r1 r2 : V3) (tof : ℝ)
    (M : ℤ) : assertParametersAreValid (c * mu) (k • r1) (k • r2) (t * tof) M = assertParametersAreValid mu r1 r2 tof M := by
  have h : ∀ {a : ℝ} (_ : 0 < a) (x : ℝ), (a * x ≤ 0 ↔ x ≤ 0) := fun {a} ha x => by
    constructor
    · intro h; by_contra hx; exact absurd h (not_le.2 (mul_pos ha (not_le.1 hx)))
    · intro h; exact mul_nonpos_of_nonneg_of_nonpos ha.le h
  unfold assertParametersAreValid assertMu assertPositionVectors assertPositionVector assertTof
  rw [raiseIf_congr _ (h hc mu), raiseIf_congr _ (h ht tof), raiseIf_congr _ (smul_eq_zero_iff hk.ne'),
    raiseIf_congr _ (smul_inj hk.ne')]

/-- The effect of a map of the velocities on the returned value: the number of iterations and the
time per iteration are not touched. -/
def Output.mapV (f : V3 → V3) : Output → Output
  | .plain v1 v2 => .plain (f v1) (f v2)
  | .full v1 v2 n t => .full (f v1) (f v2) n t

theorem mkOutput_mapV (f : V3 → V3) (b : Bool) (v1 v2 : V3) (n : ℕ) (t : ℝ) :
    (mkOutput b v1 v2 n t).mapV f = mkOutput b (f v1) (f v2) n t := by cases b <;> rfl

end Lamberthub
