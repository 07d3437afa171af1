import Verif.Props.LogSpaceTypes
import Verif.Props.LogSpaceDouble
import Mathlib.Analysis.SpecialFunctions.Log.Deriv
import Mathlib.Analysis.Complex.ExponentialBounds

/-! Property C142: logarithmically spaced numbers of every integer type, with the factor computed in double precision. -/

namespace Bwsl
open Spec CInt

theorem exp_one_bounds : 2.718281828459045235360 < Real.exp 1 ∧ Real.exp 1 < 2.718281828459045235361 := by
  constructor
  · refine lt_of_lt_of_le ?_ (Real.sum_le_exp_of_nonneg zero_le_one 24)
    norm_num [Finset.sum_range_succ, Nat.factorial]
  · refine lt_of_le_of_lt (Real.exp_bound' zero_le_one le_rfl (n := 24) (by norm_num)) ?_
    norm_num [Finset.sum_range_succ, Nat.factorial]

theorem log_two_bounds : 0.69314718055994530941 < Real.log 2 ∧ Real.log 2 < 0.69314718055994530942 := by
  have t : |(2⁻¹ : ℝ)| = 2⁻¹ := by rw [abs_of_pos]; norm_num
  have z := Real.abs_log_sub_add_sum_range_le (show |(2⁻¹ : ℝ)| < 1 by rw [t]; norm_num) 72
  rw [t] at z
  norm_num1 at z
  rw [one_div, Real.log_inv, abs_le] at z
  obtain ⟨z1, z2⟩ := z
  norm_num at z1 z2 ⊢
  constructor <;> linarith

/-- A rounded value from an approximation of the exact one. -/
theorem rn_eq_of {x : ℝ} {m e : Int} (he : -1074 ≤ e) (h1 : (2 : ℝ) ^ (e + 52) ≤ x) (h2 : x < (2 : ℝ) ^ (e + 53))
    (h : |x / (2 : ℝ) ^ e - m| < 1 / 2) : rn x = m * (2 : ℝ) ^ e := by
  have hx : 0 < x := (two_zpow_pos _).trans_le h1
  have hl : Int.log 2 |x| = e + 52 := by
    rw [abs_of_pos hx]
    apply le_antisymm
    · have : Int.log 2 x < e + 53 := (Int.lt_zpow_iff_log_lt one_lt_two hx).1 (by exact_mod_cast h2)
      omega
    · exact (Int.zpow_le_iff_le_log one_lt_two hx).1 (by exact_mod_cast h1)
  have hu : ulpExp x = e := by
    unfold ulpExp
    rw [hl]
    omega
  unfold rn
  rw [hu]
  congr 2
  have h3 := rint_nearest (x / (2 : ℝ) ^ e) m
  generalize rint (x / (2 : ℝ) ^ e) = r at *
  have h4 : |(r : ℝ) - m| < 1 := by
    have e1 : (r : ℝ) - m = (x / (2 : ℝ) ^ e - m) - (x / (2 : ℝ) ^ e - r) := by ring
    rw [e1]
    have := abs_sub (x / (2 : ℝ) ^ e - m) (x / (2 : ℝ) ^ e - r)
    linarith
  have h5 : |r - m| < 1 := by exact_mod_cast h4
  have := abs_lt.1 h5
  omega

theorem rn_exp_one : rn (Real.exp 1) = 6121026514868073 / 2 ^ 51 := by
  obtain ⟨h1, h2⟩ := exp_one_bounds
  have := rn_eq_of (x := Real.exp 1) (m := 6121026514868073) (e := -51) (by norm_num) (by norm_num; norm_num at h1; linarith)
    (by norm_num; norm_num at h2; linarith) (by
      rw [abs_lt]; norm_num; norm_num at h1 h2; constructor <;> linarith)
  rw [this]
  norm_num

theorem rn_log_two : rn (Real.log 2) = 6243314768165359 / 2 ^ 53 := by
  obtain ⟨h1, h2⟩ := log_two_bounds
  have := rn_eq_of (x := Real.log 2) (m := 6243314768165359) (e := -53) (by norm_num) (by norm_num; norm_num at h1; linarith)
    (by norm_num; norm_num at h2; linarith) (by
      rw [abs_lt]; norm_num; norm_num at h1 h2; constructor <;> linarith)
  rw [this]
  norm_num

theorem rpow_lt_two {E y : ℝ} (hE : E = 6121026514868073 / 2 ^ 51) (hy : y = 6243314768165359 / 2 ^ 53) : E ^ y < 2 - 1 / 2 ^ 53 := by
  have hE0 : 0 < E := by rw [hE]; norm_num
  rw [← Real.log_lt_log_iff (Real.rpow_pos_of_pos hE0 y) (by norm_num), Real.log_rpow hE0]
  obtain ⟨l1, _⟩ := log_two_bounds
  obtain ⟨b1, b2⟩ := exp_one_bounds
  have h1 : Real.log E ≤ 1 - 5.318e-17 := by
    have h2 : Real.log E = 1 + Real.log (E / Real.exp 1) := by
      rw [Real.log_div hE0.ne' (Real.exp_pos 1).ne', Real.log_exp]; ring
    have h3 : Real.log (E / Real.exp 1) ≤ E / Real.exp 1 - 1 :=
      Real.log_le_sub_one_of_pos (div_pos hE0 (Real.exp_pos 1))
    have h4 : E / Real.exp 1 ≤ 1 - 5.318e-17 := by
      rw [div_le_iff₀ (Real.exp_pos 1), hE]
      norm_num at b1 b2 ⊢
      linarith
    linarith
  have h2 : Real.log 2 - 1 / (2 ^ 54 - 1) ≤ Real.log (2 - 1 / 2 ^ 53) := by
    have h3 : Real.log (2 - 1 / 2 ^ 53) = Real.log 2 + Real.log (1 - 1 / 2 ^ 54) := by
      rw [← Real.log_mul (by norm_num) (by norm_num)]
      norm_num
    have h4 := Real.one_sub_inv_le_log_of_pos (x := 1 - 1 / 2 ^ 54) (by norm_num)
    have h5 : (1 : ℝ) - (1 - 1 / 2 ^ 54)⁻¹ = - (1 / (2 ^ 54 - 1)) := by norm_num
    linarith
  have h3 : y * Real.log E ≤ y * (1 - 5.318e-17) := mul_le_mul_of_nonneg_left h1 (by rw [hy]; norm_num)
  rw [hy] at h3 ⊢
  norm_num at l1 h2 h3 ⊢
  linarith

/-- The factor of the space from 1 to 2 in one step is a little less than two. -/
theorem logFactor_two : 1 ≤ logFactor 1 2 1 ∧ logFactor 1 2 1 < 2 := by
  constructor
  · exact (logFactor_error one_pos one_le_two one_pos).1
  obtain ⟨y, hy⟩ : ∃ y : ℝ, y = 6243314768165359 / 2 ^ 53 := ⟨_, rfl⟩
  obtain ⟨E, hE⟩ : ∃ E : ℝ, E = 6121026514868073 / 2 ^ 51 := ⟨_, rfl⟩
  have hd : Double y := ⟨6243314768165359, -53, by norm_num, by norm_num, by rw [hy]; norm_num⟩
  have e1 : logFactor 1 2 1 = rn (E ^ y) := by
    unfold logFactor
    rw [Real.log_one, rn_zero, sub_zero, rn_log_two, ← hy, rn_double hd, Nat.cast_one, div_one, rn_double hd, rn_exp_one, ← hE]
  rw [e1]
  have hxu := rpow_lt_two hE hy
  generalize E ^ y = x at *
  by_contra hge
  push Not at hge
  have hd2 : Double (2 - 1 / 2 ^ 52 : ℝ) := ⟨2 ^ 53 - 1, -52, by norm_num, by norm_num, by norm_num⟩
  have hnear := rn_nearest x _ hd2
  rw [abs_of_neg (by norm_num at hxu; linarith : x - rn x < 0)] at hnear
  rcases abs_cases (x - (2 - 1 / 2 ^ 52)) with ⟨h, _⟩ | ⟨h, _⟩ <;> rw [h] at hnear <;> norm_num at hnear hxu hge <;> linarith

section
variable {A : Arith ℝ} {t : CInt} {a b : Int} {n : Nat}

theorem factorT_double (hA : IsCorrectlyRounded A) (ha : 0 < a) (hab : a < b) (hb : b ≤ 2 ^ 53) (hn : 0 < n) (hn50 : n ≤ 2 ^ 50) :
    LogSpaceT.factor (Num A) t a b n = t.ofFloat (.fin (logFactor a b n) : Num A) := by
  have ha1 : (1 : ℝ) ≤ a := by exact_mod_cast ha
  have hab' : (a : ℝ) < b := by exact_mod_cast hab
  have hb' : (b : ℝ) ≤ 2 ^ 53 := by exact_mod_cast hb
  have small : ∀ x : Int, 0 < x → x ≤ 2 ^ 53 → (CxxFloat.ofInt x : Num A) = .fin (x : ℝ) := by
    intro x h1 h2
    have hx : |(x : ℝ)| ≤ 2 ^ (53 : Int) := by
      rw [abs_of_pos (by exact_mod_cast h1)]
      have : (x : ℝ) ≤ 2 ^ 53 := by exact_mod_cast h2
      exact_mod_cast this
    rw [Num.ofInt_eq, round_of_le_two hA.binary64 (hx.trans (zpow_le_zpow_right₀ one_le_two (by norm_num))),
      rn_double (double_int (by rw [abs_of_pos h1]; exact h2))]
  unfold LogSpaceT.factor
  rw [small a ha (hab.le.trans hb), small b (ha.trans hab) hb, factor_double hA _ hab' _ hn hn50]
  · exact (zpow_le_one_of_nonpos₀ one_le_two (by norm_num)).trans ha1
  · refine hb'.trans ?_
    have : ((2 : ℝ) ^ 53) = 2 ^ (53 : Int) := by norm_num
    rw [this]
    exact zpow_le_zpow_right₀ one_le_two (by norm_num)

theorem exp_small {x : ℝ} (h : x ≤ 521 / 2 ^ 53) : Real.exp x ≤ 1 + 1 / 2 ^ 42 := by
  have h1 := Real.one_sub_le_exp_neg x
  have h2 : (0 : ℝ) < 1 - 521 / 2 ^ 53 := by norm_num
  have h3 : Real.exp x * Real.exp (-x) = 1 := by rw [← Real.exp_add]; simp
  have h4 : (1 - 521 / 2 ^ 53 : ℝ) ≤ Real.exp (-x) := by linarith
  have h5 : Real.exp x * (1 - 521 / 2 ^ 53) ≤ 1 := by
    exact (mul_le_mul_of_nonneg_left h4 (Real.exp_pos x).le).trans_eq h3
  rw [← le_div_iff₀ h2] at h5
  refine h5.trans ?_
  norm_num

/-- The computed factor is close to the real one. -/
theorem logFactor_close (ha : 0 < a) (hab : a < b) (hb : b ≤ 2 ^ 53) (hn : 0 < n) :
    1 ≤ logFactor a b n ∧ logFactor a b n ≤ ratio a b n * (1 + 1 / 2 ^ 42) ∧ ratio a b n ≤ logFactor a b n * (1 + 1 / 2 ^ 42) := by
  have ha1 : (1 : ℝ) ≤ a := by exact_mod_cast ha
  have ha0 : (0 : ℝ) < a := by linarith
  have hab' : (a : ℝ) < b := by exact_mod_cast hab
  have hb' : (b : ℝ) ≤ 2 ^ 53 := by exact_mod_cast hb
  obtain ⟨h1, h2⟩ := logFactor_error ha0 hab'.le hn
  have h3 := (ratio_floor ha hab hn.ne').2
  have hn' : (1 : ℝ) ≤ n := by exact_mod_cast hn
  have hlog2 := Real.log_two_lt_d9
  have hlb : Real.log b ≤ 53 * Real.log 2 := by
    have := Real.log_le_log (by linarith) hb'
    rwa [Real.log_pow, Nat.cast_ofNat] at this
  have hla : 0 ≤ Real.log a := Real.log_nonneg ha1
  have hlab := Real.log_le_log ha0 hab'.le
  have hr : Real.log (ratio a b n) = (Real.log b - Real.log a) / n := by
    unfold ratio
    rw [Real.log_rpow (div_pos (by linarith) ha0), Real.log_div (by linarith) ha0.ne']
    ring
  generalize logFactor (a : ℝ) b n = f at *
  generalize ratio (a : ℝ) b n = r at *
  have hT : |Real.log a| + |Real.log b| ≤ 74 := by
    rw [abs_of_nonneg hla, abs_of_nonneg (by linarith)]
    norm_num at hlog2
    linarith
  have h4 : |Real.log f - Real.log r| ≤ 521 / 2 ^ 53 := by
    have e : Real.log f - Real.log r = (n * Real.log f - (Real.log b - Real.log a)) / n := by
      rw [hr]; field_simp
    rw [e, abs_div, abs_of_pos (by linarith : (0 : ℝ) < n), div_le_iff₀ (by linarith)]
    refine h2.trans ?_
    have : 7 / 2 ^ 53 * (|Real.log a| + |Real.log b|) ≤ 7 / 2 ^ 53 * 74 := mul_le_mul_of_nonneg_left hT (by norm_num)
    refine (add_le_add_left this _).trans ?_
    have : (518 : ℝ) / 2 ^ 53 ≤ 518 / 2 ^ 53 * n := le_mul_of_one_le_right (by norm_num) hn'
    have e1 : (521 : ℝ) / 2 ^ 53 * n = 518 / 2 ^ 53 * n + 3 * n / 2 ^ 53 := by ring
    have e2 : (7 : ℝ) / 2 ^ 53 * 74 = 518 / 2 ^ 53 := by norm_num
    rw [e1, e2]
    linarith
  obtain ⟨h5, h6⟩ := abs_le.1 h4
  have key : ∀ x y : ℝ, 1 ≤ x → 1 ≤ y → Real.log x - Real.log y ≤ 521 / 2 ^ 53 → x ≤ y * (1 + 1 / 2 ^ 42) := by
    intro x y hx hy h
    have e : x = y * Real.exp (Real.log x - Real.log y) := by
      rw [Real.exp_sub, Real.exp_log (by linarith), Real.exp_log (by linarith)]
      field_simp
    rw [e]
    exact mul_le_mul_of_nonneg_left (exp_small h) (by linarith)
  exact ⟨h1, key f r h1 h3 h6, key r f h3 h1 (by linarith)⟩

end

variable {A : Arith ℝ}

/-- C142.  For first < last ≤ 2^53 the factor is the whole number g of C141 whenever (last/first)^(1/n) is not within a relative
distance of 2^-42 of g or g + 1. -/
theorem C142_exact_partial (hA : IsCorrectlyRounded A) (t : CInt) (a b : Int) (ha : 0 < a) (hab : a < b) (hb : t.Has b)
    (hb53 : b ≤ 2 ^ 53) (n : Nat) (hn : 0 < n) (hn50 : n ≤ 2 ^ 50) (g : Int) (hg0 : 0 ≤ g)
    (h1 : (a : ℝ) * (g * (1 + 1 / 2 ^ 42)) ^ n ≤ b) (h2 : (b : ℝ) * (1 + 1 / 2 ^ 42) ^ n < a * (g + 1) ^ n) :
    IsRoot a b n g ∧ ∃ s, LogSpaceT.new (Num A) t a b n = .ok s ∧ s = ⟨g, a, a, b, n, 0⟩ := by
  have ha0 : (0 : ℝ) < a := by exact_mod_cast ha
  have hab' : (a : ℝ) < b := by exact_mod_cast hab
  have hg0' : (0 : ℝ) ≤ g := by exact_mod_cast hg0
  obtain ⟨f1, f2, f3⟩ := logFactor_close ha hab hb53 hn
  have hp := ratio_pow ha0 (ha0.trans hab') n n
  rw [div_self (by exact_mod_cast hn.ne'), Real.rpow_one] at hp
  have hr1 := (ratio_floor ha hab hn.ne').2
  have hroot := (ratio_floor ha hab hn.ne').1
  generalize hr : ratio (a : ℝ) b n = r at *
  have g1 : (g : ℝ) * (1 + 1 / 2 ^ 42) ≤ r := by
    by_contra hlt
    push Not at hlt
    have := pow_lt_pow_left₀ hlt (by linarith) hn.ne'
    rw [hp, div_lt_iff₀ ha0] at this
    linarith
  have g2 : r * (1 + 1 / 2 ^ 42) < g + 1 := by
    by_contra hle
    push Not at hle
    have := pow_le_pow_left₀ (by linarith) hle n
    rw [mul_pow, hp, div_mul_eq_mul_div, le_div_iff₀ ha0] at this
    linarith
  have hfl : ⌊logFactor (a : ℝ) b n⌋ = g := by
    rw [Int.floor_eq_iff]
    constructor
    · have : (g : ℝ) * (1 + 1 / 2 ^ 42) ≤ logFactor a b n * (1 + 1 / 2 ^ 42) := g1.trans f3
      exact le_of_mul_le_mul_right this (by norm_num)
    · linarith
  have hgr : IsRoot a b n g := by
    have : ⌊r⌋ = g := by
      rw [Int.floor_eq_iff]
      have h3 : (g : ℝ) ≤ g * (1 + 1 / 2 ^ 42) := le_mul_of_one_le_right hg0' (by norm_num)
      have h4 : r ≤ r * (1 + 1 / 2 ^ 42) := le_mul_of_one_le_right (by linarith) (by norm_num)
      exact ⟨by linarith, by linarith⟩
    rw [← this]; exact hroot
  refine ⟨hgr, _, ?_, rfl⟩
  have h3 := root_pow_le ha hab hgr (j := 0) (k := 1) (by omega) (by omega)
  have h4 : g ≤ a * g ^ 1 := by
    rw [pow_one]
    exact le_mul_of_one_le_left hg0 (by omega)
  unfold LogSpaceT.new
  rw [if_pos hab, factorT_double hA ha hab hb53 hn hn50, ofFloat_fin (by linarith), hfl, Res.ok_bind]
  rw [hfl]
  exact ⟨by have := t.lo_nonpos; omega, by have := hb.2; omega⟩

/-- C142.  In any case the constructor is defined and the factor is off by at most one, if last ≤ 2^41. -/
theorem C142_close_partial (hA : IsCorrectlyRounded A) (t : CInt) (a b : Int) (ha : 0 < a) (hab : a < b) (hb : t.Has b)
    (hb41 : b ≤ 2 ^ 41) (n : Nat) (hn : 0 < n) (hn50 : n ≤ 2 ^ 50) (g : Int) (hg : IsRoot a b n g) :
    ∃ f : Int, LogSpaceT.new (Num A) t a b n = .ok ⟨f, a, a, b, n, 0⟩ ∧ 1 ≤ f ∧ g - 1 ≤ f ∧ f ≤ g + 1 := by
  have ha1 : (1 : ℝ) ≤ a := by exact_mod_cast ha
  have hab' : (a : ℝ) < b := by exact_mod_cast hab
  have hb' : (b : ℝ) ≤ 2 ^ 41 := by exact_mod_cast hb41
  obtain ⟨f1, f2, f3⟩ := logFactor_close ha hab (hb41.trans (by norm_num)) hn
  obtain ⟨hroot, hr1⟩ := ratio_floor ha hab hn.ne'
  have hrb : ratio (a : ℝ) b n ≤ b := by
    unfold ratio
    have h1 : 1 ≤ (b : ℝ) / a := (one_le_div (by linarith)).2 hab'.le
    have hn' : (1 : ℝ) ≤ n := by exact_mod_cast hn
    calc ((b : ℝ) / a) ^ (1 / (n : ℝ)) ≤ (b / a) ^ (1 : ℝ) :=
          Real.rpow_le_rpow_of_exponent_le h1 (by rw [div_le_one (by linarith)]; exact hn')
      _ = b / a := Real.rpow_one _
      _ ≤ b := div_le_self (by linarith) ha1
  have hgf := root_unique ha hg hroot
  generalize ratio (a : ℝ) b n = r at *
  have hfd := factorT_double (t := t) hA ha hab (hb41.trans (by norm_num)) hn hn50
  generalize logFactor (a : ℝ) b n = f at *
  have hfr : f ≤ r + 1 / 2 := by
    have : r * (1 / 2 ^ 42) ≤ 2 ^ 41 * (1 / 2 ^ 42) := mul_le_mul_of_nonneg_right (hrb.trans hb') (by norm_num)
    norm_num at this f2 ⊢
    linarith
  have hrf : r < f + 1 := by
    have h1 : f ≤ 2 ^ 41 + 1 := by linarith
    have : f * (1 / 2 ^ 42) ≤ (2 ^ 41 + 1) * (1 / 2 ^ 42) := mul_le_mul_of_nonneg_right h1 (by norm_num)
    norm_num at this f3 ⊢
    linarith
  have hf1 : 1 ≤ ⌊f⌋ := by rw [Int.le_floor]; exact_mod_cast f1
  refine ⟨⌊f⌋, ?_, hf1, ?_, ?_⟩
  · unfold LogSpaceT.new
    have hlt : ⌊f⌋ < b + 1 := by
      rw [Int.floor_lt]
      push_cast
      linarith
    rw [if_pos hab, hfd, ofFloat_fin (by linarith) ⟨by have := t.lo_nonpos; omega, by have := hb.2; omega⟩, Res.ok_bind]
  · rw [hgf]
    have : ⌊r⌋ ≤ ⌊f + 1⌋ := Int.floor_le_floor hrf.le
    rw [Int.floor_add_one] at this
    omega
  · rw [hgf]
    have : ⌊f⌋ ≤ ⌊r + 1⌋ := Int.floor_le_floor (by linarith)
    rw [Int.floor_add_one] at this
    omega

/-- C142.  From 1 to 2 in one step the factor is 1 instead of 2: all values are 1. -/
theorem C142_two_violated (hA : IsCorrectlyRounded A) (t : CInt) (ht : Standard t) :
    IsRoot 1 2 1 2 ∧ LogSpaceT.new (Num A) t 1 2 1 = .ok ⟨1, 1, 1, 2, 1, 0⟩ ∧
    logT t 1 ⟨1, 1, 1, 2, 1, 0⟩ = .ok ⟨1, 1, 1, 2, 1, 1⟩ := by
  refine ⟨by unfold IsRoot; norm_num, ?_, ?_⟩
  · obtain ⟨h1, h2⟩ := logFactor_two
    unfold LogSpaceT.new
    rw [if_pos (by norm_num), factorT_double hA (by norm_num) (by norm_num) (by norm_num) (by norm_num) (by norm_num)]
    have e : ⌊logFactor ((1 : Int) : ℝ) ((2 : Int) : ℝ) 1⌋ = 1 := by
      rw [Int.floor_eq_iff]
      push_cast
      exact ⟨h1, by linarith⟩
    have h0 : 0 ≤ logFactor ((1 : Int) : ℝ) ((2 : Int) : ℝ) 1 := by
      push_cast
      linarith
    rw [ofFloat_fin h0 (by rw [e]; exact has_one ht), e, Res.ok_bind]
  · have h1 : t.Has 1 := has_one ht
    show LogSpaceT.incr t _ = _
    unfold LogSpaceT.incr CInt.mul
    simp only [mul_one]
    rw [arith_ok ht (has_promote ht h1), Res.ok_bind, wrap_of_has ht h1]

/- The hypotheses of the first theorem hold for the space from 1 to 120 in three steps: 4^3 < 120 < 5^3. -/
example : (1 : ℝ) * (4 * (1 + 1 / 2 ^ 42)) ^ 3 ≤ 120 ∧ (120 : ℝ) * (1 + 1 / 2 ^ 42) ^ 3 < 1 * (4 + 1) ^ 3 ∧ tSChar.Has 120 :=
  ⟨by norm_num, by norm_num, by decide⟩

end Bwsl
