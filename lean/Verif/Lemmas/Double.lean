import Verif.Lemmas.Round
import Verif.Lemmas.Real
import Mathlib.Tactic.Linarith
import Mathlib.Tactic.NormNum
import Mathlib.Algebra.Order.Archimedean.Real.Basic

/-! Rounding particular real numbers. -/

namespace Bwsl
open Spec

/-- Binary64 arithmetic on the real numbers. -/
noncomputable def doubleArith : Arith ℝ :=
  ⟨rnd64, Real.sqrt, Real.exp, Real.log, Real.rpow, Real.sin, Real.cos, Real.pi⟩

theorem doubleArith_isBinary64 : doubleArith.IsBinary64 := fun _ => rfl

theorem doubleArith_sqrt : doubleArith.sqrt = Real.sqrt := rfl

theorem ulpExp_eq {x : ℝ} {k : Int} (hk : -1022 ≤ k) (h1 : (2 : ℝ) ^ k ≤ |x|) (h2 : |x| < (2 : ℝ) ^ (k + 1)) :
    ulpExp x = k - 52 := by
  have hx : 0 < |x| := lt_of_lt_of_le (two_zpow_pos k) h1
  have e1 : k ≤ Int.log 2 |x| := by
    rw [← Int.zpow_le_iff_le_log (by norm_num) hx]; exact_mod_cast h1
  have e2 : Int.log 2 |x| < k + 1 := by
    rw [← Int.lt_zpow_iff_log_lt (by norm_num) hx]; exact_mod_cast h2
  unfold ulpExp
  rw [max_eq_left (by omega)]
  omega

/-- A multiple of the unit in the last place that is closer than half a unit is the rounded value. -/
theorem rn_eq_of_close {x z : ℝ} {u : Int} (hu : ulpExp x = u) (hz : Mult u z) (h : |x - z| < (2 : ℝ) ^ u / 2) : rn x = z := by
  subst hu
  have h1 := rn_nearest_mult x z hz
  have h2 : |rn x - z| < (2 : ℝ) ^ ulpExp x := by
    have := abs_sub_le (rn x) x z
    rw [abs_sub_comm (rn x) x] at this
    linarith
  obtain ⟨k, hk⟩ := (rn_mult_ulp x).sub hz
  have hp := two_zpow_pos (K := ℝ) (ulpExp x)
  rw [hk, abs_mul, abs_of_pos hp] at h2
  have hk0 : |(k : ℝ)| < 1 := by
    by_contra hc
    push Not at hc
    nlinarith
  have : k = 0 := Int.abs_lt_one_iff.1 (by exact_mod_cast hk0)
  rw [this] at hk
  simp only [Int.cast_zero, zero_mul] at hk
  linarith

/-- The relative error of rounding, for zero and for normal numbers. -/
theorem rn_rel' {x : ℝ} (h : x = 0 ∨ (2 : ℝ) ^ (-1022 : Int) ≤ |x|) : |x - rn x| ≤ |x| / 2 ^ 53 := by
  rcases h with rfl | h
  · rw [rn_zero]; simp
  · exact rn_rel_normal h

/-- Rounding a nonnegative number changes it by a factor close to 1. -/
theorem rn_between {x : ℝ} (h : x = 0 ∨ (2 : ℝ) ^ (-1022 : Int) ≤ |x|) (h0 : 0 ≤ x) :
    (1 - 1 / 2 ^ 53) * x ≤ rn x ∧ rn x ≤ (1 + 1 / 2 ^ 53) * x := by
  have := rn_rel' h
  rw [abs_of_nonneg h0, abs_le] at this
  constructor <;> linarith [this.1, this.2]

/-- The same, for the square of any number. -/
theorem rn_between_sq {x : ℝ} (h : x = 0 ∨ (2 : ℝ) ^ (-1022 : Int) ≤ |x|) :
    (1 - 1 / 2 ^ 53) ^ 2 * x ^ 2 ≤ rn x ^ 2 ∧ rn x ^ 2 ≤ (1 + 1 / 2 ^ 53) ^ 2 * x ^ 2 := by
  have key : ∀ {x : ℝ}, (x = 0 ∨ (2 : ℝ) ^ (-1022 : Int) ≤ |x|) → 0 ≤ x →
      (1 - 1 / 2 ^ 53) ^ 2 * x ^ 2 ≤ rn x ^ 2 ∧ rn x ^ 2 ≤ (1 + 1 / 2 ^ 53) ^ 2 * x ^ 2 := by
    intro x h h0
    obtain ⟨h1, h2⟩ := rn_between h h0
    have h3 : 0 ≤ rn x := by simpa [rn_zero] using rn_mono h0
    rw [← mul_pow, ← mul_pow]
    exact ⟨pow_le_pow_left₀ (mul_nonneg (by norm_num) h0) h1 2, pow_le_pow_left₀ h3 h2 2⟩
  rcases le_total 0 x with h0 | h0
  · exact key h h0
  · have := key (x := -x) (by rwa [neg_eq_zero, abs_neg]) (by linarith)
    rwa [rn_neg, neg_sq, neg_sq] at this

/-- Numbers that are not tiny are normal. -/
theorem normal_of {x : ℝ} (h : 1 / 8 ≤ |x|) : (2 : ℝ) ^ (-1022 : Int) ≤ |x| := by
  refine le_trans ?_ h
  have : (1 / 8 : ℝ) = (2 : ℝ) ^ (-3 : Int) := by norm_num
  rw [this]
  exact zpow_le_zpow_right₀ one_le_two (by norm_num)

end Bwsl
