import Verif.Model.Catalogue
import Verif.Props.Validation
import Verif.Props.Vallado
import Verif.Props.DelatorreMore
import Verif.Props.Arora
import Verif.Props.AroraMore
import Verif.Props.Der
import Verif.Props.McElreath
import Verif.Props.Gauss
import Verif.Props.Battin
import Verif.Props.IzzoTime
import Verif.Props.Jiang
import Verif.Proofs.KeplerUnique

/-! # C01, C30, C40: what the solvers refuse, and the revolutions they make -/

set_option autoImplicit false

namespace Lamberthub
open Spec LC

/-- The call raises `ValueError`. -/
def RaisesValueError (x : Py Output) : Prop := ∃ msg, x = .error (.valueError msg)

theorem RaisesValueError.not_ok {x : Py Output} (h : RaisesValueError x) (out : Output) : x ≠ .ok out := by
  obtain ⟨m, rfl⟩ := h; exact fun h => by cases h

/-- Arguments whose scalars no solver should accept. -/
def InvalidScalars (a : Args) : Prop := a.mu ≤ 0 ∨ a.tof ≤ 0 ∨ a.M < 0

/-- A program that starts with the shared validation refuses what the validation refuses. -/
theorem refuse_first {mu : ℝ} {r1 r2 : V3} {tof : ℝ} {M : ℤ} (h : mu ≤ 0 ∨ tof ≤ 0 ∨ M < 0)
    (k : Unit → Py Output) : RaisesValueError (assertParametersAreValid mu r1 r2 tof M >>= k) := by
  obtain ⟨msg, hm⟩ := (validation_partial mu r1 r2 tof M).1.2 (by tauto)
  exact ⟨msg, by rw [hm]; rfl⟩

theorem refuse_second {mu : ℝ} {r1 r2 : V3} {tof : ℝ} {M : ℤ} (h : mu ≤ 0 ∨ tof ≤ 0 ∨ M < 0) {c : Prop}
    {_ : Decidable c} {m : String} (k : Unit → Py Output) :
    RaisesValueError (raiseIf c (.valueError m) >>= fun _ => assertParametersAreValid mu r1 r2 tof M >>= k) := by
  by_cases hc : c
  · exact ⟨m, by rw [raiseIf_pos _ hc]; rfl⟩
  · rw [raiseIf_neg _ hc, ok_bind]; exact refuse_first h k

/-- **C01.** Every solver but `izzo2015` raises `ValueError`, whatever the other arguments
(and the routines of scipy) are, for a gravitational parameter or a time of flight that is
not positive, or a negative number of revolutions. -/
theorem invalid_scalars_refused (env : Env) {s : Solver} (hs : s ≠ .izzo2015) {a : Args} (ha : InvalidScalars a)
    (full : Bool) (clock : ℝ) : RaisesValueError (solve env s a full clock) := by
  unfold InvalidScalars at ha
  cases s <;> simp only [solve]
  case izzo2015 => exact absurd rfl hs
  case avanzini2008 => exact refuse_second ha _
  case jiang2016 => exact refuse_second ha _
  case pan2016 => exact refuse_second ha _
  case thorne2004 => exact refuse_second ha _
  all_goals exact refuse_first ha _

example (env : Env) : RaisesValueError
    (solve env .gooding1990 { mu := 1, r1 := ⟨1, 0, 0⟩, r2 := ⟨0, 1, 0⟩, tof := -2, M := 3 } true 0.5) :=
  invalid_scalars_refused env (by decide) (.inr (.inl (by norm_num))) _ _

/-- **Finding (C01).** `izzo2015` validates nothing: with a negative gravitational parameter
it does not raise `ValueError` but takes the square root of a negative number, for all
positions that are not aligned with the centre. -/
theorem izzo_negative_mu_undefined (env : Env) {a : Args} (hmu : a.mu < 0) (hna : NotAligned a.r1 a.r2)
    (full : Bool) (clock : ℝ) : solve env .izzo2015 a full clock = .error .undefined := by
  obtain ⟨s, ll, it1, it2, hgeo⟩ := Izzo.geometry_eq hna a.isPrograde
  obtain ⟨ε, hε, hG, hS, hεl, h1, h2, hsw⟩ := Izzo.geometry_ok hgeo
  have hs := hS.spos
  have hneg : ¬ 0 ≤ 2 * a.mu / s ^ 3 := by
    push Not
    exact div_neg_of_neg_of_pos (by linarith) (by positivity)
  simp only [solve, izzo2015]
  rw [hgeo, ok_bind]
  simp only []
  rw [pdiv_eq (by positivity), ok_bind]
  have : psqrt (2 * a.mu / s ^ 3) = .error .undefined := by
    unfold psqrt
    push Not at hneg
    rw [if_pos hneg]
  rw [this]
  rfl

example (env : Env) : solve env .izzo2015 { mu := -1, r1 := ⟨1, 0, 0⟩, r2 := ⟨0, 1, 0⟩, tof := 2 } true 0.5 =
    .error .undefined :=
  izzo_negative_mu_undefined env (by norm_num) (by simp [NotAligned]) _ _

/-! ## The catalogue -/

/-- A solver that is not listed as able to make revolutions. -/
def ZeroRevOnly (s : Solver) : Prop := s ∈ ALL_SOLVERS ∧ s ∉ MULTI_REV_SOLVERS

/-- **C40**, the part about the lists of `__init__.py`: the list of all the solvers lists
every solver exactly once, the other lists have no duplicates, and every robust solver
supports revolutions and is not listed as not robust. -/
theorem catalogue_coherent_partial :
    (∀ s : Solver, s ∈ ALL_SOLVERS) ∧
    (∀ s ∈ ROBUST_SOLVERS, s ∈ MULTI_REV_SOLVERS ∧ s ∉ NON_ROBUST_SOLVERS) ∧
    (∀ s ∈ MULTI_REV_SOLVERS, s ∈ ZERO_REV_SOLVERS) ∧
    ALL_SOLVERS.Nodup ∧ ZERO_REV_SOLVERS.Nodup ∧ MULTI_REV_SOLVERS.Nodup ∧ NON_ROBUST_SOLVERS.Nodup ∧
    ROBUST_SOLVERS.Nodup := by
  refine ⟨fun s => by cases s <;> decide, by decide, by decide, by decide, by decide, by decide, by decide, by decide⟩

/-- **C40 and C30**, the solvers that refuse: four of the seven solvers that are not listed as
able to make revolutions raise `ValueError` for every `M ≥ 1`, whatever the other arguments. -/
theorem zero_rev_only_refuse_partial (env : Env) {s : Solver} (hs : ZeroRevOnly s)
    (hn : s ≠ .gauss1809 ∧ s ≠ .battin1984 ∧ s ≠ .vallado2013) {a : Args} (ha : 1 ≤ a.M) (full : Bool) (clock : ℝ) :
    RaisesValueError (solve env s a full clock) := by
  have hM : a.M > 0 := by omega
  obtain ⟨-, h2⟩ := hs
  obtain ⟨n1, n2, n3⟩ := hn
  cases s <;> simp only [solve] <;>
    first
    | exact absurd rfl n1
    | exact absurd rfl n2
    | exact absurd rfl n3
    | exact absurd (by decide) h2
    | skip
  · exact ⟨_, by unfold avanzini2008; rw [raiseIf_pos _ hM]; rfl⟩
  · exact ⟨_, by unfold jiang2016; rw [raiseIf_pos _ hM]; rfl⟩
  · exact ⟨_, by unfold pan2016; rw [raiseIf_pos _ hM]; rfl⟩
  · exact ⟨_, by unfold thorne2004; rw [raiseIf_pos _ hM]; rfl⟩

example (env : Env) : RaisesValueError
    (solve env .pan2016 { mu := 1, r1 := ⟨1, 0, 0⟩, r2 := ⟨0, 2, 0⟩, tof := 20, M := 2 } true 0.5) :=
  zero_rev_only_refuse_partial env ⟨by decide, by decide⟩ (by decide) (by norm_num) _ _

/-! ## The solvers that ignore the revolutions -/

theorem validation_ignores_M {mu : ℝ} {r1 r2 : V3} {tof : ℝ} {M : ℤ} (hM : 0 ≤ M) :
    assertParametersAreValid mu r1 r2 tof M = assertParametersAreValid mu r1 r2 tof 0 := by
  unfold assertParametersAreValid assertM raiseIf
  simp only [if_neg (not_lt.2 hM), lt_irrefl, if_false]

/-- **Finding (C30, C40).** `gauss1809`, `battin1984` and `vallado2013` accept any `M ≥ 0` and
do exactly what they do for `M = 0`. -/
theorem revolutions_ignored (env : Env) {s : Solver} (hs : s = .gauss1809 ∨ s = .battin1984 ∨ s = .vallado2013)
    (a : Args) (hM : 0 ≤ a.M) (full : Bool) (clock : ℝ) :
    solve env s a full clock = solve env s { a with M := 0 } full clock := by
  rcases hs with rfl | rfl | rfl <;> simp only [solve]
  · unfold gauss1809; rw [validation_ignores_M hM]
  · unfold battin1984; rw [validation_ignores_M hM]
  · unfold vallado2013; rw [validation_ignores_M hM]

/-- Velocities that solve a problem without revolutions can only make a revolution (and
come back to `r2`) in at least twice the time. -/
theorem Spec.LambertArc.period {μ : ℝ} {r1 r2 v1 v2 : V3} {T T' : ℝ} {M : ℕ}
    (h : LambertArc μ r1 r2 v1 v2 T 0) (h' : LambertArc μ r1 r2 v1 v2 T' M) (hM : 1 ≤ M) : 2 * T ≤ T' := by
  obtain ⟨hT, p, v, hk, hp0, hv0, hpT, hvT, hc⟩ := h
  obtain ⟨hT', p', v', hk', hp0', hv0', hpT', hvT', hc'⟩ := h'
  obtain ⟨rfl, rfl⟩ := hk.unique hk' (t₀ := 0) (by rw [hp0, hp0']) (by rw [hv0, hv0'])
  have hlt : T < T' := by
    by_contra hle
    push Not at hle
    have : {t : ℝ | 0 < t ∧ t < T' ∧ SameDirection r1 (p t)} = ∅ := by
      have he : {t : ℝ | 0 < t ∧ t < T ∧ SameDirection r1 (p t)} = ∅ := Set.encard_eq_zero.1 (by exact_mod_cast hc)
      refine Set.subset_empty_iff.1 (he ▸ fun t ht => ⟨ht.1, ht.2.1.trans_le hle, ht.2.2⟩)
    rw [this, Set.encard_empty] at hc'
    have : (0 : ℕ) = M := by exact_mod_cast hc'
    omega
  have he : {t : ℝ | 0 < t ∧ t < T ∧ SameDirection r1 (p t)} = ∅ := Set.encard_eq_zero.1 (by exact_mod_cast hc)
  have hsh : KeplerMotion μ (fun t => p (t + (T' - T))) (fun t => v (t + (T' - T))) := by
    refine ⟨fun t => hk.no_collision _, fun t => ?_, fun t => ?_⟩
    · obtain ⟨a, b, c⟩ := hk.velocity (t + (T' - T))
      exact ⟨a.comp_add_const t (T' - T), b.comp_add_const t (T' - T), c.comp_add_const t (T' - T)⟩
    · obtain ⟨a, b, c⟩ := hk.newton (t + (T' - T))
      exact ⟨a.comp_add_const t (T' - T), b.comp_add_const t (T' - T), c.comp_add_const t (T' - T)⟩
  obtain ⟨hq, -⟩ := hk.unique hsh (t₀ := T) (by
      show p T = p (T + (T' - T))
      rw [show T + (T' - T) = T' by ring, hpT, hpT']) (by
      show v T = v (T + (T' - T))
      rw [show T + (T' - T) = T' by ring, hvT, hvT'])
  have h0 := congrFun hq 0
  simp only [zero_add] at h0
  by_contra hc2
  push Not at hc2
  have hmem : (T' - T) ∈ {t : ℝ | 0 < t ∧ t < T ∧ SameDirection r1 (p t)} :=
    ⟨by linarith, by linarith, 1, one_pos, by rw [← h0, hp0]; ext <;> simp⟩
  rw [he] at hmem
  exact hmem

/-- **Finding (C30).** `vallado2013` never honours a request for `M ≥ 1` revolutions: for
positions not aligned with the centre (and a tolerance up to one third), when it returns, the
velocities are not those of any transfer with `M` revolutions in the requested time, or in
any time within the tolerance. -/
theorem vallado_revolutions_wrong {mu : ℝ} {r1 r2 : V3} {tof : ℝ} {M : ℕ} {pro low : Bool} {maxiter : ℕ} {atol rtol : ℝ}
    {full : Bool} {clock : ℝ} {out : Output} (hna : NotAligned r1 r2) (hM : 1 ≤ M) (hr : rtol ≤ 1 / 3)
    (h : vallado2013 mu r1 r2 tof M pro low maxiter atol rtol full clock = .ok out) {T' : ℝ}
    (hT' : |T' - tof| ≤ rtol * tof) : ¬ LambertArc mu r1 r2 out.v1 out.v2 T' M := by
  intro h'
  obtain ⟨⟨T, hT, hd⟩, -⟩ := vallado_kepler_transfer h hna
  have hp := hT.period h' hM
  have htof : 0 < tof := by
    unfold vallado2013 at h
    simp only [bind_ok] at h
    obtain ⟨_, ha, -⟩ := h
    exact (assertParameters_iff.1 ha).2.2.2.1
  have a := (abs_lt.1 hd).1
  have b := (abs_le.1 hT').2
  nlinarith

/-- Such calls exist: at the parabolic time `vallado2013` returns whatever `M` is. -/
theorem vallado_revolutions_accepted {mu : ℝ} (hmu : 0 < mu) {r1 r2 : V3} (hna : NotAligned r1 r2) (M : ℕ)
    (hM : 1 ≤ M) (pro low : Bool) (n : ℕ) (atol : ℝ) {rtol : ℝ} (hr : 0 < rtol) (hr' : rtol ≤ 1 / 3) (full : Bool)
    (clock : ℝ) : ∃ tof out, 0 < tof ∧
      vallado2013 mu r1 r2 tof M pro low (n + 1) atol rtol full clock = .ok out ∧
      ∀ T', |T' - tof| ≤ rtol * tof → ¬ LambertArc mu r1 r2 out.v1 out.v2 T' M := by
  obtain ⟨h0, out, ho⟩ := vallado_returns_parabolic hmu hna pro low n atol hr full clock
  have h' := revolutions_ignored (s := .vallado2013) ⟨exactBrent, fun _ _ _ _ => .error .undefined⟩ (.inr (.inr rfl))
    ⟨mu, r1, r2, uvT mu (V3.norm r1 + V3.norm r2) (signedA pro r1 r2) 0, (M : ℤ), pro, low, n + 1, atol, rtol⟩ (by simp)
    full clock
  simp only [solve] at h'
  rw [ho] at h'
  exact ⟨_, out, h0, h', fun T' hT' => vallado_revolutions_wrong hna hM hr' h' hT'⟩

/-- **Finding (C30).** `battin1984` called with `M ≥ 1` returns a transfer without revolutions,
for every time to which it returns; the same orbit makes revolutions only in at least twice
the time of that transfer. -/
theorem battin_revolutions_wrong {mu : ℝ} {r1 r2 : V3} {tof : ℝ} {M : ℕ} {pro low : Bool} {maxiter : ℕ} {atol rtol : ℝ}
    {full : Bool} {clock : ℝ} {out : Output} (hna : NotAligned r1 r2) (hM : 1 ≤ M)
    (h : battin1984 mu r1 r2 tof M pro low maxiter atol rtol full clock = .ok out) :
    ∃ T, LambertArc mu r1 r2 out.v1 out.v2 T 0 ∧ ∀ T', LambertArc mu r1 r2 out.v1 out.v2 T' M → 2 * T ≤ T' := by
  obtain ⟨⟨T, hT⟩, -⟩ := battin_kepler_transfer_partial hna h
  exact ⟨T, hT, fun T' h' => hT.period h' hM⟩

/-- **C30**, the solvers that check: when `delatorre2018`, `mcelreath2025`, `der2011` or
`arora2013` returns for `M ≥ 1`, the velocities belong to a Kepler motion from `r1` to `r2` that
makes exactly `M` complete revolutions.  For `delatorre2018` the tolerance must be below
the time of flight; for `arora2013` the time must exceed the parabolic time (otherwise it is
false, `arora_open_orbit_for_revolutions`).

Partial: `izzo2015`, `gooding1990` and `negrete2024` do not check that the accepted iterate
belongs to `M` revolutions (see their C18, C19 and C25). -/
theorem revolutions_honoured_partial (env : Env) (hb : BrentSpec env.brentq) (hm : MinimizerSpec env.minimize)
    {s : Solver} {a : Args} {full : Bool} {clock : ℝ} {out : Output} (h : solve env s a full clock = .ok out)
    (hM : 1 ≤ a.M)
    (hs : s = .mcelreath2025 ∨ s = .der2011 ∨ (s = .delatorre2018 ∧ a.atol + a.rtol * a.tof < a.tof) ∨
      (s = .arora2013 ∧ parabolicTime a.mu a.r1 a.r2 a.isPrograde < a.tof)) :
    ∃ T, LambertArc a.mu a.r1 a.r2 out.v1 out.v2 T a.M.toNat := by
  rcases hs with rfl | rfl | ⟨rfl, ht⟩ | ⟨rfl, ht⟩ <;> simp only [solve] at h
  · obtain ⟨-, ⟨T, hT, -⟩ | ⟨h0, -⟩⟩ := mcelreath_kepler_transfer_partial h
    · exact ⟨T, hT⟩
    · omega
  · obtain ⟨-, T, hT, -⟩ := der_kepler_transfer_partial hb h (fun h => by omega)
    exact ⟨T, hT⟩
  · obtain ⟨-, ⟨T, hT, -⟩, -⟩ := delatorre_kepler_transfer h ht
    exact ⟨T, hT⟩
  · obtain ⟨⟨T, hT, -⟩, -⟩ := arora_kepler_transfer_partial hm hb h (.inr ht)
    exact ⟨T, hT⟩

/-- Three revolutions with `delatorre2018`. -/
example (m : Minimizer) (hm : MinimizerSpec m) : ∃ a out T, a.M = 3 ∧
    solve ⟨exactBrent, m⟩ .delatorre2018 a true 0.5 = .ok out ∧
    LambertArc a.mu a.r1 a.r2 out.v1 out.v2 T 3 := by
  obtain ⟨tof, out, h0, h⟩ := delatorre_returns (mu := 1) one_pos (r1 := ⟨1, 0, 0⟩) (r2 := ⟨0, 1, 0⟩)
    (by simp [NotAligned]) (M := 3) (by norm_num) true true 35 (atol := 0) (rtol := 1e-7) true 0.5
  obtain ⟨T, hT⟩ := revolutions_honoured_partial ⟨exactBrent, m⟩ exactBrent_spec hm (s := .delatorre2018)
    (a := ⟨1, ⟨1, 0, 0⟩, ⟨0, 1, 0⟩, tof, 3, true, true, 35, 0, 1e-7⟩) h (by norm_num)
    (.inr (.inr (.inl ⟨rfl, by norm_num; linarith⟩)))
  exact ⟨⟨1, ⟨1, 0, 0⟩, ⟨0, 1, 0⟩, tof, 3, true, true, 35, 0, 1e-7⟩, out, T, rfl, h, hT⟩

end Lamberthub
