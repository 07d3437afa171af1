import Verif.Lemmas.Double
import Mathlib.Analysis.SpecialFunctions.Log.Deriv
import Mathlib.Analysis.Complex.ExponentialBounds

/-! Errors of logarithms, quotients and powers in binary64. -/

namespace Bwsl
open Spec

/-- The error of rounding any real number. -/
theorem rn_abs (x : ℝ) : |x - rn x| ≤ |x| / 2 ^ 53 + 1 / 2 ^ 200 := by
  by_cases hx : x = 0
  · rw [hx, rn_zero]; norm_num
  · rcases ulpExp_cases x hx with h | h
    · have h1 := rn_err_ulp x
      rw [h] at h1
      have h2 : (2 : ℝ) ^ (-1074 : Int) ≤ (2 : ℝ) ^ (-200 : Int) := zpow_le_zpow_right₀ one_le_two (by norm_num)
      have h3 : (2 : ℝ) ^ (-200 : Int) = 1 / 2 ^ 200 := by rw [zpow_neg]; norm_num
      have h4 : 0 < (2 : ℝ) ^ (-1074 : Int) := two_zpow_pos _
      have h5 : 0 ≤ |x| / 2 ^ 53 := by positivity
      rw [h3] at h2
      linarith
    · have h1 := rn_err_ulp x
      have e : (2 : ℝ) ^ (ulpExp x + 52) = (2 : ℝ) ^ ulpExp x * 2 ^ 52 := by
        rw [zpow_add₀ two_ne_zero]; norm_num
      rw [e] at h
      have : (2 : ℝ) ^ ulpExp x / 2 ≤ |x| / 2 ^ 53 := by
        rw [le_div_iff₀ (by norm_num)]
        calc _ = (2 : ℝ) ^ ulpExp x * 2 ^ 52 := by ring
          _ ≤ _ := h
      have : (0 : ℝ) < 1 / 2 ^ 200 := by norm_num
      linarith

/-- A number close to 1 has a small logarithm. -/
theorem log_near {r : ℝ} (h : |r - 1| ≤ 1 / 2 ^ 53) : |Real.log r| ≤ 2 / 2 ^ 53 := by
  obtain ⟨h1, h2⟩ := abs_le.1 h
  have hr : 0 < r := by norm_num at h1; linarith
  rw [abs_le]
  constructor
  · refine le_trans ?_ (Real.one_sub_inv_le_log_of_pos hr)
    have : r⁻¹ ≤ 1 + 2 / 2 ^ 53 := by
      rw [inv_le_iff_one_le_mul₀ hr]
      nlinarith
    linarith
  · have := Real.log_le_sub_one_of_pos hr
    linarith

/-- Rounding a positive normal number changes its logarithm by little. -/
theorem log_rn {x : ℝ} (h : (2 : ℝ) ^ (-1022 : Int) ≤ x) : 0 < rn x ∧ |Real.log (rn x) - Real.log x| ≤ 2 / 2 ^ 53 := by
  have hx : 0 < x := (two_zpow_pos _).trans_le h
  obtain ⟨h1, h2⟩ := rn_between (x := x) (.inr (by rwa [abs_of_pos hx])) hx.le
  have hr : 0 < rn x := lt_of_lt_of_le (mul_pos (by norm_num) hx) h1
  refine ⟨hr, ?_⟩
  rw [← Real.log_div hr.ne' hx.ne']
  refine log_near ?_
  rw [abs_le]
  constructor
  · rw [neg_le_sub_iff_le_add, ← sub_le_iff_le_add, le_div_iff₀ hx]; linarith
  · rw [sub_le_iff_le_add, div_le_iff₀ hx]; linarith

/-- The error of the logarithm of the factor, before taking the power. -/
theorem quotient_error {La Lb : ℝ} (hle : La ≤ Lb) {n : Nat} (hn : 0 < n) :
    0 ≤ rn (rn (rn Lb - rn La) / n) ∧
    |n * rn (rn (rn Lb - rn La) / n) - (Lb - La)| ≤ 4 / 2 ^ 53 * (|La| + |Lb|) + (n + 10) / 2 ^ 200 := by
  have hn' : (0 : ℝ) < n := by exact_mod_cast hn
  have h1 := rn_abs La
  have h2 := rn_abs Lb
  have h3 := rn_rel ((rn_isDouble Lb).mult.sub (rn_isDouble La).mult)
  have hd0 : 0 ≤ rn Lb - rn La := sub_nonneg.2 (rn_mono hle)
  have hD0 : 0 ≤ rn (rn Lb - rn La) := by simpa [rn_zero] using rn_mono hd0
  have h4 := rn_abs (rn (rn Lb - rn La) / n)
  have hq0 : 0 ≤ rn (rn Lb - rn La) / n := by positivity
  have hy0 : 0 ≤ rn (rn (rn Lb - rn La) / n) := by simpa [rn_zero] using rn_mono hq0
  refine ⟨hy0, ?_⟩
  set la := rn La
  set lb := rn Lb
  set D := rn (lb - la)
  set y := rn (D / n)
  rw [abs_of_nonneg hd0] at h3
  rw [abs_of_nonneg hq0] at h4
  have h5 : |D - n * y| ≤ D / 2 ^ 53 + n / 2 ^ 200 := by
    have : D - n * y = n * (D / n - y) := by field_simp
    rw [this, abs_mul, abs_of_pos hn']
    calc _ ≤ n * (D / n / 2 ^ 53 + 1 / 2 ^ 200) := mul_le_mul_of_nonneg_left h4 hn'.le
      _ = _ := by field_simp
  obtain ⟨a1, a2⟩ := abs_le.1 h1
  obtain ⟨b1, b2⟩ := abs_le.1 h2
  obtain ⟨c1, c2⟩ := abs_le.1 h3
  obtain ⟨d1, d2⟩ := abs_le.1 h5
  have hT : Lb - La ≤ |La| + |Lb| := by
    have := neg_abs_le La
    have := le_abs_self Lb
    linarith
  have p1 := abs_nonneg La
  have p2 := abs_nonneg Lb
  generalize |La| = p at *
  generalize |Lb| = q at *
  clear_value la lb D y
  rw [add_div, abs_le]
  norm_num at *
  constructor <;> linarith

end Bwsl
