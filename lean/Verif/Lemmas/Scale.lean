import Verif.Lemmas.FloatFormat

/-! Rounding and powers of two: unless a number is below the normal range, rounding it and multiplying it by a power of two
can be done in either order. -/

namespace Bwsl.FloatFormat
open Bwsl.Spec

set_option linter.unusedSectionVars false

section
variable {K : Type} [Field K] [LinearOrder K] [IsStrictOrderedRing K] [FloorRing K] {f : FloatFormat}

theorem log_scale (k : Nat) {y : K} (hy : 0 < y) : Int.log 2 ((2 : K) ^ k * y) = k + Int.log 2 y := by
  have hp : (0 : K) < 2 ^ k * y := by positivity
  have key : ∀ z : Int, z ≤ Int.log 2 ((2 : K) ^ k * y) ↔ z - k ≤ Int.log 2 y := by
    intro z
    rw [← Int.zpow_le_iff_le_log (by norm_num) hp, ← Int.zpow_le_iff_le_log (by norm_num) hy]
    push_cast
    rw [zpow_sub₀ two_ne_zero, zpow_natCast, div_le_iff₀ (by positivity), mul_comm y]
  have h1 := (key (Int.log 2 ((2 : K) ^ k * y))).1 le_rfl
  have h2 := (key (k + Int.log 2 y)).2 (by omega)
  omega

theorem value_scale (k : Nat) {x : K} (h : InFormat f x) : InFormat f ((2 : K) ^ k * x) := by
  obtain ⟨m, e, h1, h2, rfl⟩ := h
  refine ⟨m, e + k, h1, by omega, ?_⟩
  rw [zpow_add₀ two_ne_zero, zpow_natCast]
  ring

theorem scale_of_normal (k : Nat) {x : K} (hx : x ≠ 0) (h : f.emin ≤ Int.log 2 |x| - (f.prec - 1)) :
    f.rn ((2 : K) ^ k * x) = 2 ^ k * f.rn x := by
  have e : f.ulpExp ((2 : K) ^ k * x) = k + f.ulpExp x := by
    unfold ulpExp
    rw [abs_mul, abs_of_pos (show (0 : K) < 2 ^ k by positivity), log_scale k (abs_pos.2 hx)]
    omega
  unfold rn
  rw [e, zpow_add₀ two_ne_zero, zpow_natCast, mul_div_mul_left _ _ (by positivity : (2 : K) ^ k ≠ 0)]
  ring

/-- Numbers in the normal range. -/
theorem fl_scale_normal (k : Nat) {x : K} (h : (2 : K) ^ (f.emin + (f.prec - 1)) ≤ |x|) :
    f.rn ((2 : K) ^ k * x) = 2 ^ k * f.rn x := by
  have h0 : 0 < |x| := (two_zpow_pos _).trans_le h
  refine scale_of_normal k (abs_pos.1 h0) ?_
  have := (Int.zpow_le_iff_le_log (b := 2) (by norm_num) h0).1 (by push_cast; exact h)
  omega

/-- Sums and differences of values. -/
theorem fl_scale (k : Nat) {x : K} (h : Mult f.emin x) : f.rn ((2 : K) ^ k * x) = 2 ^ k * f.rn x := by
  by_cases hx : x = 0
  · rw [hx, mul_zero, fl_zero, mul_zero]
  rcases fl_ulpExp_cases (f := f) x hx with hu | hu
  · have e : f.rn x = x := fl_of_mult (by rw [hu]; exact h)
    have hv := fl_inFormat (f := f) x
    rw [e] at hv
    rw [e, fl_value (value_scale k hv)]
  · refine fl_scale_normal k (le_trans (zpow_le_zpow_right₀ one_le_two ?_) hu)
    have := fl_ulpExp_ge (f := f) x
    omega

/-- A number is no larger after rounding than its multiple. -/
theorem fl_le_scale (k : Nat) (x : K) : |f.rn x| ≤ |f.rn ((2 : K) ^ k * x)| := by
  rw [fl_abs, fl_abs, abs_mul, abs_of_pos (show (0 : K) < 2 ^ k by positivity)]
  refine fl_mono ?_
  have : (1 : K) ≤ 2 ^ k := one_le_pow₀ one_le_two
  nlinarith [abs_nonneg x]

/-- Above the smallest normal value before or after rounding. -/
theorem normal_of_rn {x : K} (h : (2 : K) ^ (f.emin + (f.prec - 1)) < |f.rn x|) : (2 : K) ^ (f.emin + (f.prec - 1)) ≤ |x| := by
  by_contra hc
  have := f.prec_ge
  exact absurd h (not_lt.2 (fl_abs_le (two_zpow_value (by omega)) (not_le.1 hc).le))

end
end Bwsl.FloatFormat
