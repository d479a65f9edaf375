import Verif.Proofs.GoodingLemmas
import Verif.Proofs.PathTime
import Verif.Proofs.IzzoDomain

/-!
# Where Gooding's time equation can be satisfied

As for Izzo's (`Proofs/IzzoDomain`): outside the domain of the time equation `tlamb` still returns numbers,
far from every feasible time of flight.
-/

set_option autoImplicit false

namespace Lamberthub
open LC
namespace Gooding

/-- Above `x = 1` the number of revolutions is ignored. -/
theorem tlambDirect_rev {q x : ℝ} (M : ℤ) (n : ℤ) (hx : 1 < x) :
    tlambDirect M q (1 - q ^ 2) x n = tlambDirect 0 q (1 - q ^ 2) x n := by
  have h : ∀ f g, angleValue M x f g = angleValue 0 x f g := by
    intro f g
    have h1 : ¬ x ≤ 1.0 := by norm_num; exact hx
    rw [angleValue, angleValue, if_neg h1, if_neg h1]
  unfold tlambDirect
  simp only [h]

theorem lancT_lt_of_one_lt {q x : ℝ} (hq : q ^ 2 < 1) (hq0 : q ≠ 0) (hx : 1 < x) :
    lancT q x (lancY q x) 0 < 4 / 3 := by
  have h := lancT_strictAnti hq hq0 (a := 1) (b := x) (by norm_num [Set.mem_Ioi]) (by rw [Set.mem_Ioi]; linarith) hx
  have h1 : lancY q 1 = 1 := by unfold lancY; norm_num
  simp only [] at h
  rw [h1] at h
  have e : lancT q 1 1 0 = 2 / 3 * (1 - q) ^ 3 + 2 * q * (1 - q) := by
    rw [lancT, if_neg (by norm_num), if_pos rfl]; ring
  rw [e] at h
  have := abs_lt.1 ((sq_lt_one_iff_abs_lt_one _).1 hq)
  nlinarith [sq_nonneg q, sq_nonneg (1 + q), mul_pos (by linarith : 0 < 1 - q) (by linarith : 0 < 1 + q)]

/-- A point at which the residual of the time equation is at most half the time sought is in the domain of
the time equation. -/
theorem in_domain {q x tin t : ℝ} {d : ℝ × ℝ × ℝ} {M : ℕ} (hq : q ^ 2 < 1) (hq0 : q ≠ 0) (hT0 : 0 < tin)
    (hT : 2 * M * Real.pi ≤ tin) (h : tlamb M q (1 - q ^ 2) x 0 = .ok (t, d)) (he : |t - tin| ≤ tin / 2) :
    -1 < x ∧ (M = 0 ∨ x < 1) := by
  have hL := lanc_lancY hq x
  have hpi := Real.pi_gt_three
  obtain ⟨he1, he2⟩ := abs_le.1 he
  have hMr : (0 : ℝ) ≤ M := Nat.cast_nonneg M
  by_contra hn
  have hx : x ≤ -1 ∨ (1 ≤ M ∧ 1 ≤ x) := by
    by_contra h1
    push Not at h1
    refine hn ⟨h1.1, ?_⟩
    rcases Nat.eq_zero_or_pos M with h2 | h2
    · exact .inl h2
    · exact .inr (h1.2 h2)
  unfold tlamb at h
  rw [if_neg (by norm_num), if_pos (by
    rcases hx with h1 | h1
    · exact .inr (.inl (by linarith))
    · exact .inl (by omega))] at h
  have hu0 : (1.0 - x) * (1.0 + x) = 1 - x ^ 2 := by norm_num; ring
  have h' := h
  unfold tlambDirect at h'
  simp only [hu0, bind_ok, psqrt_ok, pdiv_ok] at h'
  obtain ⟨y, ⟨-, rfl⟩, z, ⟨hz0, rfl⟩, ⟨a, b⟩, hab, g, hg, t0, ht0, _, ⟨hy0, rfl⟩, t', ⟨hw, rfl⟩, dd, -, h'⟩ := h'
  have hx1 : x ≠ -1 := fun h1 => hw (by rw [h1]; norm_num)
  have hx2 : x ≠ 1 := fun h1 => hw (by rw [h1]; norm_num)
  rcases hx with h1 | ⟨hM, h1⟩
  · have hlt : x < -1 := lt_of_le_of_ne h1 hx1
    have hsq : 1 < x ^ 2 := by nlinarith
    have hz : Real.sqrt (1 - q ^ 2 + q * q * (x * x)) = lancY q x := by unfold lancY; congr 1; ring
    rw [hz] at hab
    have hzp := hL.y_pos
    have hlx := Izzo.lam_y_bounds hq hsq hL
    rw [abs_of_neg (by linarith : x < 0)] at hlx
    obtain ⟨b1, b2⟩ := abs_lt.1 hlx
    have hη := hL.eta_pos
    generalize lancY q x = z at *
    have hab' : 0 < a ∧ 0 < b := by
      unfold directCoeffs at hab
      simp only [] at hab
      split at hab
      · have := Except.ok.inj hab
        obtain ⟨rfl, rfl⟩ := Prod.mk.inj this
        exact ⟨hη, by linarith⟩
      · rename_i hqx
        push Not at hqx
        simp only [bind_ok, pdiv_ok] at hab
        obtain ⟨_, ⟨-, rfl⟩, _, ⟨hbb, rfl⟩, hab⟩ := hab
        have := Except.ok.inj hab
        obtain ⟨rfl, rfl⟩ := Prod.mk.inj this
        have hq1 : 0 < 1 - q ^ 2 := by linarith
        refine ⟨div_pos hq1 (by linarith), div_pos_of_neg_of_neg ?_ ?_⟩
        · have : q * q * (1 - x ^ 2) - x * x < 0 := by nlinarith [mul_self_nonneg q]
          exact mul_neg_of_pos_of_neg hq1 this
        · have : q < 0 := by nlinarith
          nlinarith
    have ht0' : 0 ≤ t0 := by
      rw [angleValue, if_pos (by norm_num; linarith)] at ht0
      rw [← Except.ok.inj ht0]
      have : 0 ≤ arctan2 (a * Real.sqrt |1 - x ^ 2|) g := by
        unfold arctan2
        rw [Complex.arg_nonneg_iff]
        show 0 ≤ a * Real.sqrt |1 - x ^ 2|
        have := hab'.1
        positivity
      push_cast
      positivity
    have : t = 2.0 * (t0 / Real.sqrt |1 - x ^ 2| + b) / (1 - x ^ 2) := (Prod.mk.inj (Except.ok.inj h')).1.symm
    have hneg : t < 0 := by
      rw [this]
      refine div_neg_of_pos_of_neg ?_ (by linarith)
      have : 0 ≤ t0 / Real.sqrt |1 - x ^ 2| := by positivity
      have := hab'.2
      positivity
    linarith
  · have hlt : 1 < x := lt_of_le_of_ne h1 (Ne.symm hx2)
    rw [tlambDirect_rev _ _ hlt] at h
    obtain ⟨d1, d2, d3, hd, -⟩ := tlambDirect_eq hL (M := 0) (by linarith) hx2 (.inl rfl) 0
    rw [Nat.cast_zero] at hd
    rw [hd] at h
    have := (Prod.mk.inj (Except.ok.inj h)).1
    have hb := lancT_lt_of_one_lt hq hq0 hlt
    have hM1 : (1 : ℝ) ≤ M := by exact_mod_cast hM
    have : 6 ≤ tin := by nlinarith
    linarith

end Gooding
end Lamberthub
