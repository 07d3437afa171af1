import Verif.Cxx.Float
import Mathlib.Tactic.Linarith
import Mathlib.Tactic.Ring
import Mathlib.Tactic.FieldSimp
import Mathlib.Tactic.Positivity
import Mathlib.Tactic.NormNum
import Mathlib.Algebra.Order.Ring.Abs
import Mathlib.Algebra.Order.Field.Power
import Mathlib.Algebra.Order.Round

/-! Rounding to binary64: nearest, monotone, exact on representable values, and error-free sums. -/

namespace Bwsl
open Spec

set_option linter.unusedSectionVars false

section
variable {K : Type u} [Field K] [LinearOrder K] [IsStrictOrderedRing K] [FloorRing K]

/-! ### Rounding to an integer -/

theorem rint_cases (x : K) : (rint x = ⌊x⌋ ∧ x - ⌊x⌋ ≤ 1 / 2) ∨ (rint x = ⌊x⌋ + 1 ∧ 1 / 2 ≤ x - ⌊x⌋) := by
  unfold rint
  simp only
  split
  · next h => exact Or.inl ⟨rfl, h.le⟩
  · next h =>
    split
    · next h2 => exact Or.inr ⟨rfl, h2.le⟩
    · next h2 =>
      split
      · exact Or.inl ⟨rfl, not_lt.1 h2⟩
      · exact Or.inr ⟨rfl, not_lt.1 h⟩

theorem rint_intCast (n : Int) : rint (n : K) = n := by
  unfold rint
  simp

theorem rint_err (x : K) : |x - rint x| ≤ 1 / 2 := by
  have h1 := Int.floor_le x
  have h2 := Int.lt_floor_add_one x
  rcases rint_cases x with ⟨h, hd⟩ | ⟨h, hd⟩ <;> rw [h, abs_le]
  · constructor <;> linarith
  · push_cast; constructor <;> linarith

/-- No integer is nearer. -/
theorem rint_nearest (x : K) (n : Int) : |x - rint x| ≤ |x - n| := by
  have h1 := Int.floor_le x
  have h2 := Int.lt_floor_add_one x
  have key : |x - n| ≥ x - ⌊x⌋ ∨ |x - n| ≥ ⌊x⌋ + 1 - x := by
    rcases le_or_gt n ⌊x⌋ with h | h
    · left
      have : (n : K) ≤ ⌊x⌋ := by exact_mod_cast h
      exact le_trans (by linarith) (le_abs_self _)
    · right
      have : (⌊x⌋ : K) + 1 ≤ n := by exact_mod_cast h
      exact le_trans (by linarith) (neg_le_abs (x - n))
  rcases rint_cases x with ⟨h, hd⟩ | ⟨h, hd⟩ <;> rw [h]
  · rw [abs_of_nonneg (by linarith)]
    rcases key with k | k <;> linarith
  · push_cast
    rw [abs_of_nonpos (by linarith)]
    rcases key with k | k <;> linarith

theorem rint_neg (x : K) : rint (-x) = -rint x := by
  by_cases hx : (⌊x⌋ : K) = x
  · rw [← hx]; rw [← Int.cast_neg, rint_intCast, rint_intCast]
  · have h1 : (⌊x⌋ : K) < x := lt_of_le_of_ne (Int.floor_le x) hx
    have h2 := Int.lt_floor_add_one x
    have hf : ⌊-x⌋ = -⌊x⌋ - 1 := by
      rw [Int.floor_eq_iff]; push_cast; constructor <;> linarith
    unfold rint
    simp only [hf]
    push_cast
    rcases lt_trichotomy (x - (⌊x⌋ : K)) (1 / 2) with h | h | h
    · rw [if_neg (by linarith), if_pos (by linarith), if_pos h]; ring
    · rw [if_neg (show ¬ (-x - (-(⌊x⌋ : K) - 1) < 1 / 2) by linarith),
        if_neg (show ¬ (1 / 2 < -x - (-(⌊x⌋ : K) - 1)) by linarith),
        if_neg (show ¬ (x - (⌊x⌋ : K) < 1 / 2) by linarith),
        if_neg (show ¬ (1 / 2 < x - (⌊x⌋ : K)) by linarith)]
      by_cases he : ⌊x⌋ % 2 = 0
      · rw [if_neg (show ¬ ((-⌊x⌋ - 1) % 2 = 0) by omega), if_pos he]; ring
      · rw [if_pos (show (-⌊x⌋ - 1) % 2 = 0 by omega), if_neg he]; ring
    · rw [if_pos (by linarith), if_neg (by linarith), if_pos h]; ring

/-! ### Multiples of powers of two -/

/-- `x` is an integer times 2^e -/
def Mult (e : Int) (x : K) : Prop := ∃ m : Int, x = m * (2 : K) ^ e

theorem two_zpow_pos (e : Int) : (0 : K) < (2 : K) ^ e := zpow_pos two_pos _

theorem Mult.mono {e e' : Int} {x : K} (h : Mult e x) (he : e' ≤ e) : Mult e' x := by
  obtain ⟨m, rfl⟩ := h
  refine ⟨m * 2 ^ (e - e').toNat, ?_⟩
  push_cast
  rw [mul_assoc, ← zpow_natCast, ← zpow_add₀ two_ne_zero]
  congr 2; omega

theorem Mult.add {e : Int} {x y : K} (hx : Mult e x) (hy : Mult e y) : Mult e (x + y) := by
  obtain ⟨m, rfl⟩ := hx; obtain ⟨n, rfl⟩ := hy
  exact ⟨m + n, by push_cast; ring⟩

theorem Mult.neg {e : Int} {x : K} (hx : Mult e x) : Mult e (-x) := by
  obtain ⟨m, rfl⟩ := hx
  exact ⟨-m, by push_cast; ring⟩

theorem Mult.sub {e : Int} {x y : K} (hx : Mult e x) (hy : Mult e y) : Mult e (x - y) := by
  rw [sub_eq_add_neg]; exact hx.add hy.neg

theorem mult_zpow {e e' : Int} (h : e ≤ e') : Mult e ((2 : K) ^ e') := Mult.mono ⟨1, by simp⟩ h

theorem double_iff {x : K} : Double x ↔ ∃ e, -1074 ≤ e ∧ Mult e x ∧ |x| ≤ (2 : K) ^ (e + 53) := by
  constructor
  · rintro ⟨m, e, hm, he, rfl⟩
    refine ⟨e, he, ⟨m, rfl⟩, ?_⟩
    rw [abs_mul, abs_of_pos (two_zpow_pos (K := K) e), zpow_add₀ two_ne_zero, mul_comm]
    refine mul_le_mul_of_nonneg_left ?_ (two_zpow_pos e).le
    have : ((|m| : Int) : K) ≤ ((2 ^ 53 : Int) : K) := by exact_mod_cast hm
    rw [Int.cast_abs] at this
    refine this.trans ?_
    norm_num
  · rintro ⟨e, he, ⟨m, rfl⟩, h⟩
    refine ⟨m, e, ?_, he, rfl⟩
    rw [abs_mul, abs_of_pos (two_zpow_pos (K := K) e), zpow_add₀ two_ne_zero, mul_comm] at h
    have h' := le_of_mul_le_mul_left h (two_zpow_pos e)
    have : ((|m| : Int) : K) ≤ ((2 ^ 53 : Int) : K) := by
      rw [Int.cast_abs]; refine h'.trans ?_; norm_num
    exact_mod_cast this

theorem Spec.Double.neg {x : K} (h : Double x) : Double (-x) := by
  obtain ⟨m, e, h1, h2, rfl⟩ := h
  exact ⟨-m, e, by rw [abs_neg]; exact h1, h2, by push_cast; ring⟩

theorem double_zero : Double (0 : K) := ⟨0, 0, by decide, by decide, by simp⟩

/-! ### The exponent -/

theorem abs_lt_ulp (x : K) : |x| < (2 : K) ^ (ulpExp x + 53) := by
  have h := Int.lt_zpow_succ_log_self (R := K) (b := 2) (by norm_num) |x|
  push_cast at h
  refine h.trans_le (zpow_le_zpow_right₀ one_le_two ?_)
  unfold ulpExp; omega

theorem ulpExp_ge (x : K) : -1074 ≤ ulpExp x := le_max_right _ _

theorem ulpExp_cases (x : K) (hx : x ≠ 0) : ulpExp x = -1074 ∨ (2 : K) ^ (ulpExp x + 52) ≤ |x| := by
  have h := Int.zpow_log_le_self (R := K) (b := 2) (by norm_num) (abs_pos.2 hx)
  push_cast at h
  by_cases h' : Int.log 2 |x| - 52 ≤ -1074
  · left; unfold ulpExp; omega
  · right
    refine le_trans (le_of_eq ?_) h
    congr 1; unfold ulpExp; omega

theorem ulpExp_mono {x y : K} (hx : x ≠ 0) (h : |x| ≤ |y|) : ulpExp x ≤ ulpExp y := by
  have := Int.log_mono_right (b := 2) (abs_pos.2 hx) h
  unfold ulpExp; omega

theorem ulpExp_neg (x : K) : ulpExp (-x) = ulpExp x := by unfold ulpExp; rw [abs_neg]

/-! ### Rounding -/

theorem rn_neg (x : K) : rn (-x) = -rn x := by
  unfold rn; rw [ulpExp_neg, neg_div, rint_neg]; push_cast; ring

theorem rn_of_mult {x : K} (h : Mult (ulpExp x) x) : rn x = x := by
  obtain ⟨m, hm⟩ := h
  have h0 := (two_zpow_pos (K := K) (ulpExp x)).ne'
  have : x / (2 : K) ^ ulpExp x = m := by rw [div_eq_iff h0]; exact hm
  unfold rn; rw [this, rint_intCast]; exact hm.symm

theorem rn_mult_ulp (x : K) : Mult (ulpExp x) (rn x) := ⟨_, rfl⟩

theorem rn_zero : rn (0 : K) = 0 := rn_of_mult ⟨0, by simp⟩

/-- Representable values are not changed. -/
theorem rn_double {x : K} (h : Double x) : rn x = x := by
  by_cases hx : x = 0
  · rw [hx]; exact rn_zero
  obtain ⟨e, he, hm, hle⟩ := double_iff.1 h
  refine rn_of_mult ?_
  rcases ulpExp_cases x hx with hu | hu
  · exact hm.mono (by omega)
  · have h2 := hu.trans hle
    have : ulpExp x + 52 ≤ e + 53 := (zpow_le_zpow_iff_right₀ one_lt_two).1 h2
    by_cases h3 : ulpExp x ≤ e
    · exact hm.mono h3
    · -- |x| is a power of two
      have h4 : ulpExp x = e + 1 := by omega
      have h5 : |x| = (2 : K) ^ (e + 53) := le_antisymm hle (by
        rw [h4] at hu; convert hu using 2; omega)
      have h6 : Mult (ulpExp x) ((2 : K) ^ (e + 53)) := mult_zpow (by omega)
      rcases abs_choice x with hx' | hx'
      · rw [hx'] at h5; rw [← h5] at h6; exact h6
      · rw [hx'] at h5; rw [← h5] at h6; have := h6.neg; rwa [neg_neg] at this

theorem rn_isDouble (x : K) : Double (rn x) := by
  rw [double_iff]
  refine ⟨ulpExp x, ulpExp_ge x, rn_mult_ulp x, ?_⟩
  have hp := two_zpow_pos (K := K) (ulpExp x)
  have h := abs_lt_ulp x
  rw [zpow_add₀ two_ne_zero, mul_comm] at h ⊢
  unfold rn
  rw [abs_mul, abs_of_pos hp]
  refine mul_le_mul_of_nonneg_right ?_ hp.le
  have h1 : |x / (2 : K) ^ ulpExp x| < (2 : K) ^ (53 : Int) := by
    rw [abs_div, abs_of_pos hp, div_lt_iff₀ hp]; exact h
  have h2 := rint_nearest (x / (2 : K) ^ ulpExp x)
  have e53 : (2 : K) ^ (53 : Int) = ((2 ^ 53 : Int) : K) := by norm_num
  rw [e53] at h1 ⊢
  obtain ⟨h1a, h1b⟩ := abs_lt.1 h1
  rw [abs_le]
  have h3 := h2 (2 ^ 53)
  have h4 := h2 (-2 ^ 53)
  generalize hr : ((rint (x / (2 : K) ^ ulpExp x) : Int) : K) = r at *
  push_cast at *
  constructor
  · by_contra hc
    push Not at hc
    rw [abs_of_pos (by linarith), abs_of_nonneg (by linarith)] at h4
    linarith
  · by_contra hc
    push Not at hc
    rw [abs_of_neg (by linarith), abs_of_nonpos (by linarith)] at h3
    linarith

theorem rn_err_ulp (x : K) : |x - rn x| ≤ (2 : K) ^ ulpExp x / 2 := by
  have hp := two_zpow_pos (K := K) (ulpExp x)
  have h := rint_err (x / (2 : K) ^ ulpExp x)
  have e : x - rn x = (x / (2 : K) ^ ulpExp x - rint (x / (2 : K) ^ ulpExp x)) * (2 : K) ^ ulpExp x := by
    unfold rn; field_simp
  rw [e, abs_mul, abs_of_pos hp]
  calc _ ≤ 1 / 2 * (2 : K) ^ ulpExp x := mul_le_mul_of_nonneg_right h hp.le
    _ = _ := by ring

/-- No multiple of the unit in the last place is nearer. -/
theorem rn_nearest_mult (x z : K) (hz : Mult (ulpExp x) z) : |x - rn x| ≤ |x - z| := by
  have hp := two_zpow_pos (K := K) (ulpExp x)
  obtain ⟨n, rfl⟩ := hz
  have h := rint_nearest (x / (2 : K) ^ ulpExp x) n
  have e : x - rn x = (x / (2 : K) ^ ulpExp x - rint (x / (2 : K) ^ ulpExp x)) * (2 : K) ^ ulpExp x := by
    unfold rn; field_simp
  have e' : x - n * (2 : K) ^ ulpExp x = (x / (2 : K) ^ ulpExp x - n) * (2 : K) ^ ulpExp x := by field_simp
  rw [e, e', abs_mul, abs_mul]
  exact mul_le_mul_of_nonneg_right h (abs_nonneg _)

/-- No representable value is nearer. -/
theorem rn_nearest (x z : K) (hz : Double z) : |x - rn x| ≤ |x - z| := by
  by_cases hx : x = 0
  · rw [hx, rn_zero]; simp
  obtain ⟨e, he, hm, hle⟩ := double_iff.1 hz
  by_cases h : ulpExp x ≤ e
  · exact rn_nearest_mult x z (hm.mono h)
  · have hu : (2 : K) ^ (ulpExp x + 52) ≤ |x| := (ulpExp_cases x hx).resolve_left (by omega)
    have hz' : |z| ≤ (2 : K) ^ (ulpExp x + 52) :=
      hle.trans (zpow_le_zpow_right₀ one_le_two (by omega))
    have hM : Mult (ulpExp x) ((2 : K) ^ (ulpExp x + 52)) := mult_zpow (by omega)
    have step : |x - rn x| ≤ |x| - (2 : K) ^ (ulpExp x + 52) := by
      rcases le_total 0 x with h0 | h0
      · have := rn_nearest_mult x _ hM
        rw [abs_of_nonneg h0] at hu ⊢
        rwa [abs_of_nonneg (a := x - (2 : K) ^ (ulpExp x + 52)) (by linarith)] at this
      · have := rn_nearest_mult x _ hM.neg
        rw [abs_of_nonpos h0] at hu ⊢
        rw [abs_of_nonpos (a := x - -(2 : K) ^ (ulpExp x + 52)) (by linarith)] at this
        linarith
    have tri : |x| - |z| ≤ |x - z| := abs_sub_abs_le_abs_sub x z
    linarith

theorem rn_mono {x y : K} (h : x ≤ y) : rn x ≤ rn y := by
  rcases h.eq_or_lt with rfl | h
  · exact le_rfl
  by_contra hc
  push Not at hc
  have h1 := rn_nearest x _ (rn_isDouble y)
  have h2 := rn_nearest y _ (rn_isDouble x)
  -- the midpoint of the two results separates x and y the wrong way round
  have hx : (rn x + rn y) / 2 ≤ x := by
    by_contra h3
    push Not at h3
    rw [abs_of_neg (by linarith : x - rn x < 0)] at h1
    rcases abs_cases (x - rn y) with ⟨e, _⟩ | ⟨e, _⟩ <;> rw [e] at h1 <;> linarith
  have hy : y ≤ (rn x + rn y) / 2 := by
    by_contra h3
    push Not at h3
    rw [abs_of_pos (by linarith : 0 < y - rn y)] at h2
    rcases abs_cases (y - rn x) with ⟨e, _⟩ | ⟨e, _⟩ <;> rw [e] at h2 <;> linarith
  linarith

/-- Rounding keeps multiples of a power of two. -/
theorem rn_mult {x : K} {k : Int} (h : Mult k x) : Mult k (rn x) := by
  by_cases hk : k ≤ ulpExp x
  · exact (rn_mult_ulp x).mono hk
  · rw [rn_of_mult (h.mono (by omega))]; exact h

/-- Relative error of rounding a sum (or any multiple of the smallest double). -/
theorem rn_rel {x : K} (h : Mult (-1074) x) : |x - rn x| ≤ |x| / 2 ^ 53 := by
  by_cases hx : x = 0
  · rw [hx, rn_zero]; simp
  rcases ulpExp_cases x hx with hu | hu
  · rw [rn_of_mult (by rw [hu]; exact h), sub_self, abs_zero]; positivity
  · refine (rn_err_ulp x).trans ?_
    rw [zpow_add₀ two_ne_zero] at hu
    have e : (2 : K) ^ (52 : Int) = 2 ^ 52 := by norm_cast
    rw [e] at hu
    rw [div_le_div_iff₀ two_pos (by positivity)]
    calc (2 : K) ^ ulpExp x * 2 ^ 53 = ((2 : K) ^ ulpExp x * 2 ^ 52) * 2 := by ring
      _ ≤ |x| * 2 := mul_le_mul_of_nonneg_right hu zero_le_two

/-- Relative error of rounding a number that is not subnormal. -/
theorem rn_rel_normal {x : K} (h : (2 : K) ^ (-1022 : Int) ≤ |x|) : |x - rn x| ≤ |x| / 2 ^ 53 := by
  have hx : x ≠ 0 := by
    rintro rfl
    rw [abs_zero] at h
    exact absurd h (not_le.2 (two_zpow_pos _))
  have hu : (2 : K) ^ (ulpExp x + 52) ≤ |x| := by
    rcases ulpExp_cases x hx with hu | hu
    · rw [hu]; exact h
    · exact hu
  refine (rn_err_ulp x).trans ?_
  rw [zpow_add₀ two_ne_zero] at hu
  have e : (2 : K) ^ (52 : Int) = 2 ^ 52 := by norm_cast
  rw [e] at hu
  rw [div_le_div_iff₀ two_pos (by positivity)]
  calc (2 : K) ^ ulpExp x * 2 ^ 53 = ((2 : K) ^ ulpExp x * 2 ^ 52) * 2 := by ring
    _ ≤ |x| * 2 := mul_le_mul_of_nonneg_right hu zero_le_two

theorem Spec.Double.mult {x : K} (h : Double x) : Mult (-1074) x := by
  obtain ⟨e, he, hm, _⟩ := double_iff.1 h
  exact hm.mono he

/-! ### Error-free sums -/

/-- The error of a rounded sum is representable. -/
theorem sum_err_double {a b : K} (ha : Double a) (hb : Double b) : Double (a + b - rn (a + b)) := by
  have h1 := rn_nearest (a + b) a ha
  have h2 := rn_nearest (a + b) b hb
  rw [add_sub_cancel_left] at h1
  rw [add_sub_cancel_right] at h2
  obtain ⟨e, he, hm, hle⟩ := double_iff.1 ha
  obtain ⟨e', he', hm', hle'⟩ := double_iff.1 hb
  rw [double_iff]
  rcases le_total e e' with h | h
  · have hs := hm.add (hm'.mono h)
    exact ⟨e, he, hs.sub (rn_mult hs), h2.trans hle⟩
  · have hs := (hm.mono h).add hm'
    exact ⟨e', he', hs.sub (rn_mult hs), h1.trans hle'⟩

theorem sterbenz {a b : K} (ha : Double a) (hb : Double b) (h0 : 0 ≤ b) (h1 : b ≤ a) (h2 : a ≤ 2 * b) :
    Double (a - b) := by
  obtain ⟨e, he, hm, hle⟩ := double_iff.1 ha
  obtain ⟨e', he', hm', hle'⟩ := double_iff.1 hb
  rw [abs_of_nonneg (h0.trans h1)] at hle
  rw [abs_of_nonneg h0] at hle'
  rw [double_iff]
  rcases le_total e e' with h | h
  · exact ⟨e, he, hm.sub (hm'.mono h), by rw [abs_of_nonneg (by linarith)]; linarith⟩
  · exact ⟨e', he', (hm.mono h).sub hm', by rw [abs_of_nonneg (by linarith)]; linarith⟩

theorem double_mult_ulp {x : K} (h : Double x) : Mult (ulpExp x) x := by
  have := rn_mult_ulp x
  rwa [rn_double h] at this

theorem fast_two_sum_pos {a b : K} (ha : Double a) (hb : Double b) (h0 : 0 < a) (h : |b| ≤ a) :
    Double (rn (a + b) - a) := by
  rcases le_or_gt 0 b with hb0 | hb0
  · rw [abs_of_nonneg hb0] at h
    have l1 : a ≤ rn (a + b) := by
      have := rn_mono (by linarith : a ≤ a + b); rwa [rn_double ha] at this
    have d2 : Double (2 * a) := by
      obtain ⟨m, e, h1, h2, rfl⟩ := ha
      exact ⟨m, e + 1, h1, by omega, by rw [zpow_add₀ two_ne_zero]; ring⟩
    have l2 : rn (a + b) ≤ 2 * a := by
      have := rn_mono (by linarith : a + b ≤ 2 * a); rwa [rn_double d2] at this
    have hu : ulpExp a ≤ ulpExp (a + b) :=
      ulpExp_mono h0.ne' (by rw [abs_of_pos h0, abs_of_pos (by linarith)]; linarith)
    rw [double_iff]
    refine ⟨ulpExp a, ulpExp_ge a, ((rn_mult_ulp (a + b)).mono hu).sub (double_mult_ulp ha), ?_⟩
    have := abs_lt_ulp a
    rw [abs_of_pos h0] at this
    rw [abs_of_nonneg (by linarith)]
    linarith
  · rw [abs_of_neg hb0] at h
    rcases le_or_gt a (2 * -b) with h2 | h2
    · have := sterbenz ha hb.neg (by linarith) h h2
      rw [sub_neg_eq_add] at this
      rw [rn_double this, add_sub_cancel_left]
      exact hb
    · have hd : 0 < a + b := by linarith
      have hu : ulpExp (a + b) ≤ ulpExp a :=
        ulpExp_mono hd.ne' (by rw [abs_of_pos h0, abs_of_pos hd]; linarith)
      have hm : Mult (ulpExp (a + b)) (rn (a + b) - a) :=
        (rn_mult_ulp (a + b)).sub ((double_mult_ulp ha).mono hu)
      have hp := two_zpow_pos (K := K) (ulpExp (a + b))
      have h3 := abs_lt_ulp (a + b)
      rw [abs_of_pos hd] at h3
      have h4 := abs_le.1 (rn_err_ulp (a + b))
      have h5 : |rn (a + b) - a| < (2 : K) ^ (ulpExp (a + b) + 53) + (2 : K) ^ ulpExp (a + b) := by
        rw [abs_lt]; constructor <;> linarith [h4.1, h4.2]
      obtain ⟨m, hm'⟩ := hm
      refine ⟨m, ulpExp (a + b), ?_, ulpExp_ge _, hm'⟩
      rw [hm', abs_mul, abs_of_pos hp, zpow_add₀ two_ne_zero] at h5
      have h6 : |(m : K)| < (2 : K) ^ (53 : Int) + 1 := by
        have : |(m : K)| * (2 : K) ^ ulpExp (a + b) < ((2 : K) ^ (53 : Int) + 1) * (2 : K) ^ ulpExp (a + b) := by
          linarith
        exact lt_of_mul_lt_mul_right this hp.le
      have h7 : ((|m| : Int) : K) < ((2 ^ 53 + 1 : Int) : K) := by
        rw [Int.cast_abs]; refine h6.trans_le (le_of_eq ?_); norm_num
      have h8 : |m| < 2 ^ 53 + 1 := by exact_mod_cast h7
      omega

/-- Dekker's Fast2Sum: the rounded sum minus the larger operand is representable. -/
theorem fast_two_sum {a b : K} (ha : Double a) (hb : Double b) (h : |b| ≤ |a|) :
    Double (rn (a + b) - a) := by
  rcases lt_trichotomy a 0 with h0 | h0 | h0
  · have := fast_two_sum_pos ha.neg hb.neg (by linarith) (by rw [abs_neg, ← abs_of_neg h0]; exact h)
    have e : -a + -b = -(a + b) := by ring
    rw [e, rn_neg] at this
    have := this.neg
    convert this using 1
    ring
  · subst h0
    have hb' : b = 0 := by simpa using h
    subst hb'
    rw [add_zero, rn_zero, sub_zero]; exact double_zero
  · exact fast_two_sum_pos ha hb h0 (by rwa [abs_of_pos h0] at h)

end
end Bwsl
