import Verif.Model.Rational
import Verif.Lemmas.NumOrder
import Verif.Props.Rational

/-! Property C92: conversion of rationals to `double`. -/

namespace Bwsl
open Spec

section
variable {K : Type} [Field K] [LinearOrder K] [IsStrictOrderedRing K] {A : Arith K}

/-- C92.  In exact arithmetic the conversion gives the value of the rational. -/
theorem C92_exact (hA : A.IsExact) (r : RatNum) (hd : r.den ≠ 0) :
    (r.toDouble : Num A) = .fin ((r.num : K) / r.den) := by
  unfold RatNum.toDouble
  rw [Num.ofInt_eq, Num.ofInt_eq, Num.round_exact hA, Num.round_exact hA, Num.fin_div (by exact_mod_cast hd),
    Num.round_exact hA]

variable [FloorRing K]

theorem ofInt_small (hA : A.IsBinary64) {n : Int} (h : |n| ≤ 2 ^ 53) : (CxxFloat.ofInt n : Num A) = .fin (n : K) := by
  rw [Num.ofInt_eq]
  exact Num.round_of (rnd_of_double hA (double_int h) (int_lt_huge h))

theorem round_small (hA : A.IsBinary64) {x : K} (h : |x| ≤ 2 ^ 64) : Num.round A x = .fin (rn x) := by
  refine Num.round_of ?_
  rw [hA, rnd64, if_pos]
  have hD : Double ((2 : K) ^ 64) := double_iff.2 ⟨64, by norm_num, by
    have := mult_zpow (K := K) (e := 64) (e' := 64) le_rfl
    exact_mod_cast this, by
    rw [abs_of_pos (by positivity)]
    have : (2 : K) ^ 64 = (2 : K) ^ (64 : Int) := by norm_cast
    rw [this]
    exact zpow_le_zpow_right₀ one_le_two (by norm_num)⟩
  obtain ⟨h1, h2⟩ := abs_le.1 h
  have h3 := rn_mono h2
  have h4 := rn_mono h1
  rw [rn_double hD] at h3
  rw [rn_neg, rn_double hD] at h4
  refine (abs_le.2 ⟨h4, h3⟩).trans_lt ?_
  have : (2 : K) ^ 64 = (2 : K) ^ (64 : Int) := by norm_cast
  rw [this]
  exact zpow_lt_zpow_right₀ one_lt_two (by norm_num)

/-- C92.  In binary64 the result is the double nearest to the rational if numerator and denominator are at most 2^53 in
absolute value. -/
theorem C92_nearest (hA : A.IsBinary64) (r : RatNum) (hn : |r.num| ≤ 2 ^ 53) (hd : |r.den| ≤ 2 ^ 53) (h0 : r.den ≠ 0) :
    ∃ y : K, (r.toDouble : Num A) = .fin y ∧ Double y ∧
      ∀ z, Double z → |(r.num : K) / r.den - y| ≤ |(r.num : K) / r.den - z| := by
  refine ⟨rn ((r.num : K) / r.den), ?_, rn_isDouble _, fun z hz => rn_nearest _ z hz⟩
  unfold RatNum.toDouble
  rw [ofInt_small hA hn, ofInt_small hA hd, Num.fin_div (by exact_mod_cast h0)]
  refine round_small hA ?_
  have h1 : (1 : K) ≤ |(r.den : K)| := by
    have : 1 ≤ |r.den| := Int.one_le_abs h0
    exact_mod_cast this
  have h2 : |(r.num : K)| ≤ 2 ^ 53 := by exact_mod_cast hn
  rw [abs_div]
  refine (div_le_self (abs_nonneg _) h1).trans (h2.trans ?_)
  exact pow_le_pow_right₀ one_le_two (by norm_num)

/-- C92.  Integers of at most 53 bits are converted exactly. -/
theorem C92_integer (hA : A.IsBinary64) (n : Int) (hn : |n| ≤ 2 ^ 53) :
    ((⟨n, 1⟩ : RatNum).toDouble : Num A) = .fin (n : K) := by
  unfold RatNum.toDouble
  rw [ofInt_small hA hn, ofInt_small hA (by norm_num), Num.fin_div (by norm_num), Int.cast_one, div_one]
  exact Num.round_of (rnd_of_double hA (double_int hn) (int_lt_huge hn))

/-- C92.  The conversion keeps the order of rationals with terms of at most 53 bits. -/
theorem C92_mono (hA : A.IsBinary64) (r s : RatNum) (hn : |r.num| ≤ 2 ^ 53) (hd : |r.den| ≤ 2 ^ 53) (h0 : r.den ≠ 0)
    (hn' : |s.num| ≤ 2 ^ 53) (hd' : |s.den| ≤ 2 ^ 53) (h0' : s.den ≠ 0)
    (h : (r.num : K) / r.den ≤ (s.num : K) / s.den) :
    CxxFloat.le (r.toDouble : Num A) s.toDouble = true := by
  unfold RatNum.toDouble
  rw [ofInt_small hA hn, ofInt_small hA hd, ofInt_small hA hn', ofInt_small hA hd',
    Num.fin_div (by exact_mod_cast h0), Num.fin_div (by exact_mod_cast h0')]
  exact mono_of_binary64 hA _ _ h

theorem mult_int (n : Int) : Mult (-1074) (n : K) :=
  Mult.mono (e := 0) ⟨n, by simp⟩ (by norm_num)

/-- a relative error as a factor -/
theorem rel_factor {x y u : K} (u0 : 0 ≤ u) (h : |x - y| ≤ u * |x|) : ∃ a, |a| ≤ u ∧ y = x * (1 + a) := by
  by_cases hz : x = 0
  · refine ⟨0, by simpa using u0, ?_⟩
    subst hz
    rw [abs_zero, mul_zero] at h
    have := abs_nonpos_iff.1 h
    linarith
  · refine ⟨(y - x) / x, ?_, by field_simp; ring⟩
    rw [abs_div, div_le_iff₀ (abs_pos.2 hz), abs_sub_comm]
    exact h

theorem factors_quotient {u a b c : K} (u0 : 0 < u) (u1 : u ≤ 1 / 1000) (ha : |a| ≤ u) (hb : |b| ≤ u) (hc : |c| ≤ u) :
    |(1 + a) / (1 + b) * (1 + c) - 1| ≤ 4 * u := by
  have hac : |a * c| ≤ u * (1 / 1000) := by
    rw [abs_mul]; exact mul_le_mul ha (hc.trans u1) (abs_nonneg _) u0.le
  obtain ⟨ha1, ha2⟩ := abs_le.1 ha
  obtain ⟨hb1, hb2⟩ := abs_le.1 hb
  obtain ⟨hc1, hc2⟩ := abs_le.1 hc
  obtain ⟨hac1, hac2⟩ := abs_le.1 hac
  have hb0 : 0 < 1 + b := by linarith
  have e6 : (1 + a) / (1 + b) * (1 + c) - 1 = (a + c + a * c - b) / (1 + b) := by field_simp; ring
  rw [e6, abs_div, abs_of_pos hb0, div_le_iff₀ hb0]
  have hub : -(u * (1 / 1000)) ≤ u * b := by
    have := mul_le_mul_of_nonneg_left (show -(1 / 1000) ≤ b by linarith) u0.le
    linarith
  rw [abs_le]
  constructor <;> linarith

theorem abs_one_add {u a : K} (u1 : u ≤ 1 / 1000) (ha : |a| ≤ u) : 1 / 2 ≤ |1 + a| ∧ |1 + a| ≤ 2 := by
  obtain ⟨ha1, ha2⟩ := abs_le.1 ha
  rw [abs_of_pos (by linarith)]
  constructor <;> linarith

theorem quotient_normal {x y : K} (hx : 1 / 2 ≤ |x|) (hy : |y| ≤ 2 ^ 64) (hy1 : 1 ≤ |y|) :
    (2 : K) ^ (-1022 : Int) ≤ |x / y| := by
  rw [abs_div, le_div_iff₀ (by linarith)]
  have e1 : (2 : K) ^ (-1022 : Int) ≤ (2 : K) ^ (-65 : Int) := zpow_le_zpow_right₀ one_le_two (by norm_num)
  have e2 : (2 : K) ^ (-65 : Int) * 2 ^ 64 = 1 / 2 := by norm_num
  calc (2 : K) ^ (-1022 : Int) * |y| ≤ (2 : K) ^ (-65 : Int) * 2 ^ 64 :=
        mul_le_mul e1 hy (abs_nonneg _) (two_zpow_pos _).le
    _ = 1 / 2 := e2
    _ ≤ _ := hx

theorem one_le_rn_int {d : Int} (h0 : d ≠ 0) : 1 ≤ |rn (d : K)| := by
  rcases lt_or_gt_of_ne h0 with hneg | hpos
  · have h1 : (d : K) ≤ ((-1 : Int) : K) := by exact_mod_cast (show d ≤ -1 by omega)
    have h2 := rn_mono h1
    rw [rn_double (double_int (n := -1) (by norm_num))] at h2
    push_cast at h2
    rw [abs_of_nonpos (by linarith)]
    linarith
  · have h1 : ((1 : Int) : K) ≤ (d : K) := by exact_mod_cast (show (1 : Int) ≤ d by omega)
    have h2 := rn_mono h1
    rw [rn_double (double_int (n := 1) (by norm_num))] at h2
    push_cast at h2
    exact h2.trans (le_abs_self _)

theorem int_factor (n : Int) : ∃ a : K, |a| ≤ 1 / 2 ^ 53 ∧ rn (n : K) = n * (1 + a) :=
  rel_factor (by positivity) ((rn_rel (mult_int n)).trans (le_of_eq (by ring)))

/-- the conversion of a `long`, and its size -/
theorem rn_int_le {n : Int} (h : InLong n) : |(n : K)| ≤ 2 ^ 64 ∧ |rn (n : K)| ≤ 2 ^ 64 := by
  have b : |(n : K)| ≤ 2 ^ 63 := by
    have : |n| ≤ 2 ^ 63 := by rw [abs_le]; constructor <;> comega
    exact_mod_cast this
  refine ⟨b.trans (pow_le_pow_right₀ one_le_two (by norm_num)), ?_⟩
  obtain ⟨a, ha, ea⟩ := int_factor (K := K) n
  rw [ea, abs_mul]
  calc |(n : K)| * |1 + a| ≤ 2 ^ 63 * 2 := mul_le_mul b (abs_one_add (by norm_num) ha).2 (abs_nonneg _) (by positivity)
    _ = 2 ^ 64 := by ring

/-- C92.  For all numerators and denominators the result is finite and has a relative error of at most
4/2^53. -/
theorem C92_error (hA : A.IsBinary64) (r : RatNum) (hn : InLong r.num) (hd : InLong r.den) (h0 : r.den ≠ 0) :
    ∃ y : K, (r.toDouble : Num A) = .fin y ∧
      |y - (r.num : K) / r.den| ≤ 4 / 2 ^ 53 * |(r.num : K) / r.den| := by
  obtain ⟨n, d⟩ := r
  simp only at hn hd h0
  unfold RatNum.toDouble
  simp only
  obtain ⟨bn, cn⟩ := rn_int_le (K := K) hn
  obtain ⟨bd, cd⟩ := rn_int_le (K := K) hd
  have hrd := one_le_rn_int (K := K) h0
  have hrd0 : rn (d : K) ≠ 0 := by
    intro h; rw [h, abs_zero] at hrd; linarith
  have hD0 : (d : K) ≠ 0 := by exact_mod_cast h0
  obtain ⟨a, ha, ea⟩ := int_factor (K := K) n
  obtain ⟨b, hb, eb⟩ := int_factor (K := K) d
  have hb0 : 1 + b ≠ 0 := by
    intro h
    rw [eb, h, mul_zero] at hrd0
    exact hrd0 rfl
  have hq : rn (n : K) / rn (d : K) = (n : K) / d * ((1 + a) / (1 + b)) := by
    rw [ea, eb]; field_simp
  have hqb : |rn (n : K) / rn (d : K)| ≤ 2 ^ 64 := by
    rw [abs_div]
    exact (div_le_self (abs_nonneg _) hrd).trans cn
  rw [Num.ofInt_eq, Num.ofInt_eq, round_small hA bn, round_small hA bd, Num.fin_div hrd0]
  refine ⟨_, round_small hA hqb, ?_⟩
  obtain ⟨c, hc, ec⟩ : ∃ c : K, |c| ≤ 1 / 2 ^ 53 ∧
      rn (rn (n : K) / rn (d : K)) = rn (n : K) / rn (d : K) * (1 + c) := by
    by_cases hz : n = 0
    · refine ⟨0, by rw [abs_zero]; positivity, ?_⟩
      rw [hz]; simp [rn_zero]
    · have hnn : (1 / 2 : K) ≤ |rn (n : K)| := by
        have := one_le_rn_int (K := K) hz
        linarith
      exact rel_factor (by positivity) ((rn_rel_normal (quotient_normal hnn cd hrd)).trans (le_of_eq (by ring)))
  rw [ec, hq]
  have e4 : (n : K) / d * ((1 + a) / (1 + b)) * (1 + c) - (n : K) / d =
      ((1 + a) / (1 + b) * (1 + c) - 1) * ((n : K) / d) := by ring
  rw [e4, abs_mul]
  refine mul_le_mul_of_nonneg_right ?_ (abs_nonneg _)
  refine (factors_quotient (by positivity) (by norm_num) ha hb hc).trans (le_of_eq (by ring))

/-- C92: one third, and the largest `long` over 3, convert. -/
example (hA : A.IsBinary64) : ∃ y : K, ((⟨1, 3⟩ : RatNum).toDouble : Num A) = .fin y ∧ Double y ∧
    ∀ z, Double z → |((1 : Int) : K) / ((3 : Int) : K) - y| ≤ |((1 : Int) : K) / ((3 : Int) : K) - z| :=
  C92_nearest hA ⟨1, 3⟩ (by norm_num) (by norm_num) (by norm_num)
example (hA : A.IsBinary64) : ∃ y : K, ((⟨9223372036854775807, 3⟩ : RatNum).toDouble : Num A) = .fin y ∧
    |y - ((9223372036854775807 : Int) : K) / ((3 : Int) : K)| ≤
      4 / 2 ^ 53 * |((9223372036854775807 : Int) : K) / ((3 : Int) : K)| :=
  C92_error hA ⟨9223372036854775807, 3⟩ (by decide) (by decide) (by norm_num)

end
end Bwsl
