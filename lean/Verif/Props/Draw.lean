import Verif.Model.Draw
import Verif.Props.MathFloat
import Verif.Props.LinSpaceDouble
import Verif.Props.AccumSum
import Verif.Lemmas.NumOrder
import Verif.Lemmas.Double
import Mathlib.Data.Finset.Card
import Mathlib.Order.Interval.Finset.Nat

/-! Property C121: random choices for every number that a random engine can return. -/

namespace Bwsl
open Spec

variable {A : Arith ℝ}

/-! ### `generate_canonical` -/

/-- The number in [0,1) made of a 64-bit number. -/
noncomputable def unit64 (x : Nat) : ℝ := if rn (x : ℝ) = 2 ^ 64 then 1 - 1 / 2 ^ 53 else rn (x : ℝ) / 2 ^ 64

theorem double_p64 : Double ((2 : ℝ) ^ 64) := ⟨1, 64, by norm_num, by norm_num, by norm_num⟩

theorem rn_nat_bounds {x : Nat} (hx : x < 2 ^ 64) : 0 ≤ rn (x : ℝ) ∧ rn (x : ℝ) ≤ 2 ^ 64 := by
  have h1 : (0 : ℝ) ≤ x := Nat.cast_nonneg x
  have h2 : (x : ℝ) ≤ 2 ^ 64 := by exact_mod_cast hx.le
  have e1 := rn_mono h1
  have e2 := rn_mono h2
  rw [rn_zero] at e1
  rw [rn_double double_p64] at e2
  exact ⟨e1, e2⟩

theorem double_scale {x : Nat} : Double (rn (x : ℝ) / 2 ^ 64) := by
  have hm : Mult 0 (rn (x : ℝ)) := rn_mult ⟨x, by simp⟩
  obtain ⟨e, he, hme, hle⟩ := double_iff.1 (rn_isDouble (x : ℝ))
  by_cases h : -1010 ≤ e
  · obtain ⟨m, e', h1, h2, h3⟩ := rn_isDouble (x : ℝ)
    rw [double_iff]
    obtain ⟨m, hm'⟩ := hme
    refine ⟨e - 64, by omega, ⟨m, ?_⟩, ?_⟩
    · rw [hm', zpow_sub₀ two_ne_zero, mul_div_assoc]; norm_cast
    · rw [abs_div, abs_of_pos (show (0 : ℝ) < 2 ^ 64 by positivity), show e - 64 + 53 = (e + 53) - 64 by ring,
        zpow_sub₀ two_ne_zero (e + 53) 64]
      refine (div_le_div_of_nonneg_right hle (by positivity)).trans (le_of_eq ?_)
      norm_cast
  · obtain ⟨m, hm⟩ := hm
    rw [zpow_zero, mul_one] at hm
    have hlt : |rn (x : ℝ)| < 1 := by
      refine hle.trans_lt ?_
      rw [show (1 : ℝ) = (2 : ℝ) ^ (0 : Int) by simp]
      exact zpow_lt_zpow_right₀ one_lt_two (by omega)
    rw [hm] at hlt ⊢
    have : m = 0 := by
      have : |m| < 1 := by exact_mod_cast hlt
      rwa [Int.abs_lt_one_iff] at this
    rw [this]; simpa using double_zero

theorem double_last : Double (1 - 1 / 2 ^ 53 : ℝ) := ⟨2 ^ 53 - 1, -53, by norm_num, by norm_num, by norm_num⟩

theorem rn_small_fin (hA : A.IsBinary64) {y : ℝ} (h0 : 0 ≤ y) (h : y ≤ 2 ^ 64) : Num.round A y = .fin (rn y) := by
  refine round_of_le_two hA ?_
  rw [abs_of_nonneg h0]
  refine h.trans ?_
  rw [show (2 : ℝ) ^ 64 = (2 : ℝ) ^ (64 : Int) by norm_cast]
  exact zpow_le_zpow_right₀ one_le_two (by norm_num)

theorem round_double_small (hA : A.IsBinary64) {y : ℝ} (hd : Double y) (h0 : 0 ≤ y) (h : y ≤ 2 ^ 64) :
    Num.round A y = .fin y := by
  rw [rn_small_fin hA h0 h, rn_double hd]

theorem lit_one (hA : A.IsBinary64) : (CxxFloat.lit 1 : Num A) = .fin 1 := by
  rw [Num.lit_eq]
  have : ((1 : ℚ) : ℝ) = 1 := by norm_num
  rw [this]
  exact round_double_small hA ⟨1, 0, by norm_num, by norm_num, by norm_num⟩ (by norm_num) (by norm_num)

/-- The end of `generate_canonical`, for a sum that is a rounded 64-bit number. -/
theorem canonical_end (hA : A.IsBinary64) {x : Nat} (hx : x < 2 ^ 64) :
    (if CxxFloat.le (CxxFloat.lit 1 : Num A) (.fin (rn (x : ℝ)) / .fin (2 ^ 64)) then
      CxxFloat.lit (1 - 1 / 2 ^ 53) else .fin (rn (x : ℝ)) / .fin (2 ^ 64)) = (.fin (unit64 x) : Num A) := by
  obtain ⟨h0, h1⟩ := rn_nat_bounds hx
  have hd : (.fin (rn (x : ℝ)) / .fin (2 ^ 64) : Num A) = .fin (rn (x : ℝ) / 2 ^ 64) := by
    rw [Num.fin_div (by positivity)]
    refine round_double_small hA double_scale (by positivity) ?_
    rw [div_le_iff₀ (by positivity)]
    refine h1.trans ?_
    norm_num
  rw [hd, lit_one hA, Num.le_fin]
  have hiff : (1 ≤ rn (x : ℝ) / 2 ^ 64) ↔ rn (x : ℝ) = 2 ^ 64 := by
    rw [le_div_iff₀ (by positivity), one_mul]
    exact ⟨fun h => le_antisymm h1 h, fun h => h.ge⟩
  unfold unit64
  by_cases h : rn (x : ℝ) = 2 ^ 64
  · rw [if_pos h, if_pos (by rw [decide_eq_true_eq]; exact hiff.2 h), Num.lit_eq]
    have : (((1 - 1 / 2 ^ 53 : ℚ)) : ℝ) = 1 - 1 / 2 ^ 53 := by push_cast; rfl
    rw [this]
    exact round_double_small hA double_last (by norm_num) (by norm_num)
  · rw [if_neg h, if_neg (by rw [decide_eq_true_eq]; exact fun h' => h (hiff.1 h'))]

theorem lit_p64 (hA : A.IsBinary64) : (CxxFloat.lit (2 ^ 64) : Num A) = .fin (2 ^ 64) := by
  rw [Num.lit_eq]
  have : ((2 ^ 64 : ℚ) : ℝ) = 2 ^ 64 := by push_cast; rfl
  rw [this]
  exact round_double_small hA double_p64 (by positivity) le_rfl

theorem lit_p32 (hA : A.IsBinary64) : (CxxFloat.lit (2 ^ 32) : Num A) = .fin (2 ^ 32) := by
  rw [Num.lit_eq]
  have : ((2 ^ 32 : ℚ) : ℝ) = 2 ^ 32 := by push_cast; rfl
  rw [this]
  exact round_double_small hA ⟨1, 32, by norm_num, by norm_num, by norm_num⟩ (by positivity) (by norm_num)

/-- C121.  `generate_canonical` with a 64-bit engine: the number drawn, rounded to 53 bits and divided by 2^64, or the
last double below 1 where that is 1. -/
theorem C121_canonical (hA : A.IsBinary64) {x : Nat} (hx : x < 2 ^ 64) :
    (canonical (2 ^ 64) [x] : Num A) = .fin (unit64 x) := by
  obtain ⟨h0, h1⟩ := rn_nat_bounds hx
  have hs : (CxxFloat.zero + CxxFloat.ofNat x * CxxFloat.lit 1 : Num A) = .fin (rn (x : ℝ)) := by
    rw [Num.ofNat_eq, rn_small_fin hA (Nat.cast_nonneg x) (by exact_mod_cast hx.le), lit_one hA, Num.fin_mul, mul_one,
      round_double_small hA (rn_isDouble _) h0 h1, Num.zero_eq, Num.fin_add, zero_add,
      round_double_small hA (rn_isDouble _) h0 h1]
  have ht : (CxxFloat.lit 1 * CxxFloat.lit (2 ^ 64) : Num A) = .fin (2 ^ 64) := by
    rw [lit_one hA, lit_p64 hA, Num.fin_mul, one_mul, round_double_small hA double_p64 (by positivity) le_rfl]
  unfold canonical
  simp only [canonicalLoop, hs, ht]
  exact canonical_end hA hx

/-- C121.  With a 32-bit engine two numbers are drawn, and the outcome is that of the 64-bit number of which they are the
low and the high half. -/
theorem C121_halves (hA : A.IsBinary64) {x y : Nat} (hx : x < 2 ^ 32) (hy : y < 2 ^ 32) (a b : Num A) :
    (canonical (2 ^ 32) [x, y] : Num A) = canonical (2 ^ 64) [x + 2 ^ 32 * y] ∧
    draw32 x y a b = draw64 (x + 2 ^ 32 * y) a b := by
  have key : (canonical (2 ^ 32) [x, y] : Num A) = canonical (2 ^ 64) [x + 2 ^ 32 * y] := by
    have hxy : x + 2 ^ 32 * y < 2 ^ 64 := by omega
    rw [C121_canonical hA hxy]
    have nat : ∀ n : Nat, n < 2 ^ 32 → (CxxFloat.ofNat n : Num A) = .fin (n : ℝ) := fun n h => by
      rw [Num.ofNat_eq]; exact round_nat hA (by omega)
    have rnat : ∀ n : Nat, n < 2 ^ 32 → Num.round A (n : ℝ) = .fin (n : ℝ) := fun n h => round_nat hA (by omega)
    have hs : (CxxFloat.zero + CxxFloat.ofNat x * CxxFloat.lit 1 : Num A) = .fin (x : ℝ) := by
      rw [nat x hx, lit_one hA, Num.fin_mul, mul_one, rnat x hx, Num.zero_eq, Num.fin_add, zero_add, rnat x hx]
    have ht : (CxxFloat.lit 1 * CxxFloat.lit (2 ^ 32) : Num A) = .fin (2 ^ 32) := by
      rw [lit_one hA, lit_p32 hA, Num.fin_mul, one_mul]
      exact round_double_small hA ⟨1, 32, by norm_num, by norm_num, by norm_num⟩ (by positivity) (by norm_num)
    have hu : (.fin (x : ℝ) + CxxFloat.ofNat y * .fin (2 ^ 32) : Num A) = .fin (rn ((x + 2 ^ 32 * y : Nat) : ℝ)) := by
      have hyd : Double ((y : ℝ) * 2 ^ 32) :=
        ⟨y, 32, by rw [abs_of_nonneg (by positivity)]; exact_mod_cast (by omega : y ≤ 2 ^ 53), by norm_num, by norm_cast⟩
      have hyl : (y : ℝ) * 2 ^ 32 ≤ 2 ^ 64 := by exact_mod_cast (by omega : y * 2 ^ 32 ≤ 2 ^ 64)
      have e : (x : ℝ) + (y : ℝ) * 2 ^ 32 = ((x + 2 ^ 32 * y : Nat) : ℝ) := by push_cast; ring
      rw [nat y hy, Num.fin_mul, round_double_small hA hyd (by positivity) hyl, Num.fin_add, e]
      exact rn_small_fin hA (Nat.cast_nonneg _) (by exact_mod_cast hxy.le)
    have hv : (.fin (2 ^ 32) * CxxFloat.lit (2 ^ 32) : Num A) = .fin (2 ^ 64) := by
      rw [lit_p32 hA, Num.fin_mul, ← pow_add]
      exact round_double_small hA double_p64 (by positivity) le_rfl
    unfold canonical
    simp only [canonicalLoop, hs, ht, hu, hv]
    exact canonical_end hA hxy
  refine ⟨key, ?_⟩
  unfold draw32 draw64 uniformReal
  rw [key]

/-- C121.  The number is a double in [0, 1-2^-53], and within 2^-53 of the fraction x/2^64. -/
theorem C121_unit {x : Nat} (hx : x < 2 ^ 64) :
    Double (unit64 x) ∧ 0 ≤ unit64 x ∧ unit64 x ≤ 1 - 1 / 2 ^ 53 ∧ |unit64 x - (x : ℝ) / 2 ^ 64| ≤ 1 / 2 ^ 53 := by
  obtain ⟨h0, h1⟩ := rn_nat_bounds hx
  have hxn : (0 : ℝ) ≤ x := Nat.cast_nonneg x
  have hxl : (x : ℝ) < 2 ^ 64 := by exact_mod_cast hx
  have hr := rn_rel (K := ℝ) (x := (x : ℝ)) (Mult.mono (e := 0) ⟨x, by simp⟩ (by norm_num))
  rw [abs_of_nonneg hxn, abs_le] at hr
  unfold unit64
  split
  · next h =>
    rw [h] at hr
    refine ⟨double_last, by norm_num, le_rfl, ?_⟩
    rw [abs_le]
    have h2 : (x : ℝ) / 2 ^ 64 < 1 := by rw [div_lt_one (by positivity)]; exact hxl
    have h3 : 1 - 1 / 2 ^ 53 ≤ (x : ℝ) / 2 ^ 64 := by
      rw [le_div_iff₀ (by positivity)]
      have h4 := hr.1
      have : (x : ℝ) / 2 ^ 53 ≤ 2 ^ 11 := by rw [div_le_iff₀ (by positivity), ← pow_add]; norm_num; linarith
      have e : (1 - 1 / 2 ^ 53 : ℝ) * 2 ^ 64 = 2 ^ 64 - 2 ^ 11 := by norm_num
      rw [e]
      linarith
    constructor <;> norm_num at h2 h3 ⊢ <;> linarith
  · next h =>
    refine ⟨double_scale, by positivity, ?_, ?_⟩
    · have hlt : rn (x : ℝ) < 2 ^ 64 := lt_of_le_of_ne h1 h
      -- the doubles below 2^64 are at most 2^64 - 2^11
      have hb : rn (x : ℝ) ≤ 2 ^ 64 - 2 ^ 11 := by
        by_contra hc
        rw [not_le] at hc
        have hu : ulpExp (rn (x : ℝ)) = 63 - 52 := by
          refine ulpExp_eq (by norm_num) ?_ ?_
          · rw [abs_of_nonneg h0]; norm_num at hc ⊢; linarith
          · rw [abs_of_nonneg h0]; norm_num at hlt ⊢; linarith
        obtain ⟨m, hm⟩ := double_mult_ulp (rn_isDouble (x : ℝ))
        rw [hu] at hm
        norm_num at hm hc hlt
        rw [hm] at hc hlt
        have c1 : (9007199254740991 : ℝ) < m := by linarith
        have c2 : (m : ℝ) < 9007199254740992 := by linarith
        have c1' : (9007199254740991 : Int) < m := by exact_mod_cast c1
        have c2' : m < (9007199254740992 : Int) := by exact_mod_cast c2
        omega
      rw [div_le_iff₀ (by positivity)]
      norm_num at hb ⊢
      linarith
    · rw [← sub_div, abs_div, abs_of_pos (show (0 : ℝ) < 2 ^ 64 by positivity), div_le_iff₀ (by positivity), abs_le]
      have : (x : ℝ) / 2 ^ 53 ≤ 2 ^ 11 := by rw [div_le_iff₀ (by positivity), ← pow_add]; norm_num; linarith
      norm_num at this hr ⊢
      constructor <;> linarith

/-! ### Draws from [0, b) -/

/-- The number drawn between 0 and `b` is the product of that number and `b`, rounded. -/
theorem C121_draw (hA : A.IsBinary64) {x : Nat} (hx : x < 2 ^ 64) {b : ℝ} (hb : Double b) (h0 : 0 ≤ b)
    (hl : b < (2 : ℝ) ^ (1024 : Int)) : (draw64 x (.fin 0) (.fin b) : Num A) = .fin (rn (unit64 x * b)) := by
  obtain ⟨u1, u2, u3, _⟩ := C121_unit hx
  have hle : unit64 x * b ≤ b := by
    have : unit64 x ≤ 1 := u3.trans (by norm_num)
    nlinarith
  have hn : 0 ≤ unit64 x * b := mul_nonneg u2 h0
  have hr : rn (unit64 x * b) ≤ b := by have := rn_mono hle; rwa [rn_double hb] at this
  have hrn : 0 ≤ rn (unit64 x * b) := by have := rn_mono hn; rwa [rn_zero] at this
  have rd : ∀ y : ℝ, |y| ≤ b → Num.round A y = .fin (rn y) := fun y hy => round_of_le hA hb hl hy
  unfold draw64 uniformReal
  rw [C121_canonical hA hx, Num.fin_sub, sub_zero, rd b (by rw [abs_of_nonneg h0]), rn_double hb, Num.fin_mul,
    rd _ (by rw [abs_of_nonneg hn]; exact hle), Num.fin_add, add_zero, rd _ (by rw [abs_of_nonneg hrn]; exact hr),
    rn_double (rn_isDouble _)]

/-- A double above 2^-1022 has another one closely below. -/
theorem double_pred {b : ℝ} (hb : Double b) (h : (2 : ℝ) ^ (-1022 : Int) < b) :
    ∃ z, Double z ∧ z < b ∧ b - b / 2 ^ 52 < z := by
  have hbp : 0 < b := (two_zpow_pos _).trans h
  have hk1 := Int.zpow_log_le_self (R := ℝ) (b := 2) (by norm_num) hbp
  have hk2 := Int.lt_zpow_succ_log_self (R := ℝ) (b := 2) (by norm_num) b
  push_cast at hk1 hk2
  generalize Int.log 2 b = k at hk1 hk2
  have hk : -1022 ≤ k := by
    have : (2 : ℝ) ^ (-1022 : Int) < (2 : ℝ) ^ (k + 1) := h.trans hk2
    have := (zpow_lt_zpow_iff_right₀ (one_lt_two (α := ℝ))).1 this
    omega
  have hu : ulpExp b = k - 52 := ulpExp_eq hk (by rwa [abs_of_pos hbp]) (by rwa [abs_of_pos hbp])
  have hm : Mult (k - 52) b := hu ▸ double_mult_ulp hb
  have ek : (2 : ℝ) ^ (k - 52) = (2 : ℝ) ^ k / 2 ^ 52 := by rw [zpow_sub₀ two_ne_zero]; norm_cast
  have ek' : (2 : ℝ) ^ (k - 53) = (2 : ℝ) ^ k / 2 ^ 53 := by rw [zpow_sub₀ two_ne_zero]; norm_cast
  have hp := two_zpow_pos (K := ℝ) k
  rcases hk1.eq_or_lt with he | hlt
  · have hk' : -1021 ≤ k := by
      by_contra hc
      have : k = -1022 := by omega
      rw [← he, this] at h
      exact lt_irrefl _ h
    refine ⟨b - (2 : ℝ) ^ (k - 53), double_iff.2 ⟨k - 53, by omega, (hm.mono (by omega)).sub (mult_zpow le_rfl), ?_⟩, ?_, ?_⟩
    · rw [show k - 53 + 53 = k by ring, ek', ← he, abs_of_nonneg]
      · linarith [div_pos hp (show (0 : ℝ) < 2 ^ 53 by positivity)]
      · have : (2 : ℝ) ^ k / 2 ^ 53 ≤ (2 : ℝ) ^ k := div_le_self hp.le (by norm_num)
        linarith
    · linarith [two_zpow_pos (K := ℝ) (k - 53)]
    · rw [ek', ← he]
      have : (2 : ℝ) ^ k / 2 ^ 53 < (2 : ℝ) ^ k / 2 ^ 52 := by
        rw [div_lt_div_iff_of_pos_left hp (by positivity) (by positivity)]; norm_num
      linarith
  · refine ⟨b - (2 : ℝ) ^ (k - 52), double_iff.2 ⟨k - 52, by omega, hm.sub (mult_zpow le_rfl), ?_⟩, ?_, ?_⟩
    · rw [show k - 52 + 53 = k + 1 by ring, ek, abs_of_nonneg]
      · linarith [div_pos hp (show (0 : ℝ) < 2 ^ 52 by positivity)]
      · have : (2 : ℝ) ^ k / 2 ^ 52 ≤ (2 : ℝ) ^ k := div_le_self hp.le (by norm_num)
        linarith
    · linarith [two_zpow_pos (K := ℝ) (k - 52)]
    · rw [ek]
      have : (2 : ℝ) ^ k / 2 ^ 52 < b / 2 ^ 52 := div_lt_div_of_pos_right hlt (by positivity)
      linarith

/-- C121.  A number drawn between 0 and `b` > 2^-1022 is at least 0 and below `b`, whatever the engine returns. -/
theorem C121_below {x : Nat} (hx : x < 2 ^ 64) {b : ℝ} (hb : Double b) (h : (2 : ℝ) ^ (-1022 : Int) < b) :
    0 ≤ rn (unit64 x * b) ∧ rn (unit64 x * b) < b := by
  obtain ⟨u1, u2, u3, _⟩ := C121_unit hx
  have hbp : 0 < b := (two_zpow_pos _).trans h
  have hn : 0 ≤ unit64 x * b := mul_nonneg u2 hbp.le
  refine ⟨by have := rn_mono hn; rwa [rn_zero] at this, ?_⟩
  have hm : rn (unit64 x * b) ≤ rn ((1 - 1 / 2 ^ 53) * b) := rn_mono (mul_le_mul_of_nonneg_right u3 hbp.le)
  refine hm.trans_lt ?_
  have hle : (1 - 1 / 2 ^ 53) * b ≤ b := by
    have : 0 ≤ b / 2 ^ 53 := by positivity
    have e : (1 - 1 / 2 ^ 53) * b = b - b / 2 ^ 53 := by ring
    rw [e]; linarith
  have hr := rn_mono hle
  rw [rn_double hb] at hr
  refine lt_of_le_of_ne hr fun he => ?_
  obtain ⟨z, z1, z2, z3⟩ := double_pred hb h
  have hz := rn_nearest ((1 - 1 / 2 ^ 53) * b) z z1
  rw [he] at hz
  have e : (1 - 1 / 2 ^ 53) * b = b - b / 2 ^ 53 := by ring
  have e2 : b / 2 ^ 52 = 2 * (b / 2 ^ 53) := by ring
  have hq : 0 < b / 2 ^ 53 := by positivity
  rw [e, show b - b / 2 ^ 53 - b = -(b / 2 ^ 53) by ring, abs_neg, abs_of_pos hq] at hz
  rw [e2] at z3
  rcases abs_cases (b - b / 2 ^ 53 - z) with ⟨h1, _⟩ | ⟨h1, _⟩ <;> rw [h1] at hz <;> linarith

/-- C121 is violated by smaller ranges: when the engine returns its largest number, `b` itself is drawn, although the
distribution is over [0, b). -/
theorem C121_tiny_violated {b : ℝ} (hb : Double b) (h0 : 0 < b) (h : b ≤ (2 : ℝ) ^ (-1022 : Int)) :
    rn (unit64 (2 ^ 64 - 1) * b) = b := by
  have hx : (2 ^ 64 - 1 : Nat) < 2 ^ 64 := by norm_num
  have hu : unit64 (2 ^ 64 - 1) = 1 - 1 / 2 ^ 53 := by
    have : rn (((2 ^ 64 - 1 : Nat)) : ℝ) = 2 ^ 64 := by
      refine rn_eq_of_close (u := 11) (ulpExp_eq (k := 63) (by norm_num) ?_ ?_) ?_ ?_
      · norm_num
      · norm_num
      · exact ⟨2 ^ 53, by norm_num⟩
      · norm_num
    unfold unit64
    rw [if_pos this]
  rw [hu]
  obtain ⟨m, hm⟩ := hb.mult
  have hp := two_zpow_pos (K := ℝ) (-1074)
  have hm0 : 0 < m := by
    rw [hm] at h0
    exact_mod_cast (pos_iff_pos_of_mul_pos h0).2 hp
  have hml : m ≤ 2 ^ 52 := by
    have e : (2 : ℝ) ^ (-1022 : Int) = 2 ^ 52 * (2 : ℝ) ^ (-1074 : Int) := by
      rw [show (-1022 : Int) = 52 + -1074 by norm_num, zpow_add₀ two_ne_zero]; norm_cast
    rw [hm, e] at h
    have := le_of_mul_le_mul_right h hp
    exact_mod_cast this
  have hm0' : (0 : ℝ) < m := by exact_mod_cast hm0
  have hml' : (m : ℝ) ≤ 2 ^ 52 := by exact_mod_cast hml
  have hue : ulpExp ((1 - 1 / 2 ^ 53) * b) = -1074 := by
    have hpos : 0 < (1 - 1 / 2 ^ 53) * b := mul_pos (by norm_num) h0
    rcases ulpExp_cases _ hpos.ne' with h' | h'
    · exact h'
    · have hlt : (1 - 1 / 2 ^ 53) * b < (2 : ℝ) ^ (-1022 : Int) := by
        refine lt_of_lt_of_le ?_ h
        have : 0 < b / 2 ^ 53 := by positivity
        have e : (1 - 1 / 2 ^ 53) * b = b - b / 2 ^ 53 := by ring
        rw [e]; linarith
      rw [abs_of_pos hpos] at h'
      have := (zpow_lt_zpow_iff_right₀ (one_lt_two (α := ℝ))).1 (h'.trans_lt hlt)
      have := ulpExp_ge ((1 - 1 / 2 ^ 53) * b)
      omega
  unfold rn
  rw [hue, hm]
  have e : (1 - 1 / 2 ^ 53) * ((m : ℝ) * (2 : ℝ) ^ (-1074 : Int)) / (2 : ℝ) ^ (-1074 : Int) = m - m / 2 ^ 53 := by
    field_simp
  rw [e]
  have hq : (0 : ℝ) < (m : ℝ) / 2 ^ 53 := by positivity
  have hq' : (m : ℝ) / 2 ^ 53 ≤ 1 / 2 := by rw [div_le_iff₀ (by positivity)]; norm_num at hml' ⊢; linarith
  have hf : ⌊(m : ℝ) - (m : ℝ) / 2 ^ 53⌋ = m - 1 := by
    rw [Int.floor_eq_iff]; push_cast; constructor <;> linarith
  have hr : rint ((m : ℝ) - (m : ℝ) / 2 ^ 53) = m := by
    unfold rint
    simp only [hf]
    push_cast
    rw [if_neg (by linarith)]
    by_cases hh : (1 : ℝ) / 2 < (m : ℝ) - (m : ℝ) / 2 ^ 53 - ((m : ℝ) - 1)
    · rw [if_pos hh]; ring
    · rw [if_neg hh]
      have : (m : ℝ) = 2 ^ 52 := by
        have : (1 : ℝ) / 2 ≤ (m : ℝ) / 2 ^ 53 := by linarith
        rw [le_div_iff₀ (by positivity)] at this
        norm_num at this hml' ⊢
        linarith
      have : m = 2 ^ 52 := by exact_mod_cast this
      rw [this]; norm_num
  rw [hr]

/-! ### Choices -/

section
variable {F : Type} [CxxFloat F]

/-- A search for a value that is below no element gives the number of elements. -/
theorem upperBound_none (xs : List F) (v : F) (h : ∀ m ∈ xs, CxxFloat.lt v m = false) :
    stdUpperBound xs v 0 xs.length = .ok xs.length := by
  obtain ⟨r, e, _, h2, _, h4⟩ := stdUpperBound_spec xs v
    (fun i j a b _ ha _ hlt => by rw [h a (List.mem_of_getElem? ha)] at hlt; cases hlt) xs.length 0 (by omega)
  rw [e]
  rcases Nat.lt_or_ge r xs.length with hr | hr
  · have := h4 r xs[r] le_rfl (by omega) (List.getElem?_eq_getElem hr)
    rw [h _ (List.getElem_mem hr)] at this
    cases this
  · rw [show r = xs.length by omega]

theorem length_partialSums (xs : List F) : (partialSums xs).length = xs.length := by
  have go : ∀ (xs : List F) (a : F), (partialSums.go a xs).length = xs.length := by
    intro xs
    induction xs with
    | nil => intro a; rfl
    | cons x xs ih => intro a; rw [partialSums.go, List.length_cons, ih, List.length_cons]
  cases xs with
  | nil => rfl
  | cons x xs => rw [partialSums, List.length_cons, go, List.length_cons]

end

theorem go_finDouble (hA : A.IsBinary64) (ws : List ℝ) : ∀ (s : ℝ) (cs : List ℝ),
    partialSums.go (F := Num A) (.fin s) (ws.map .fin) = cs.map .fin → ∀ c ∈ cs, FinDouble c := by
  induction ws with
  | nil =>
    intro s cs e
    have : cs = [] := by simpa [partialSums.go] using e.symm
    subst this
    simp
  | cons w ws ih =>
    intro s cs e
    rw [List.map_cons, partialSums.go, Num.fin_add] at e
    cases cs with
    | nil => simp at e
    | cons c cs =>
      simp only [List.map_cons, List.cons.injEq] at e
      obtain ⟨e1, e2⟩ := e
      obtain ⟨hc, hl⟩ := rnd_eq_some hA (Num.round_eq_fin e1)
      rw [e1] at e2
      intro x hx
      rcases List.mem_cons.1 hx with rfl | hx
      · exact ⟨hc ▸ rn_isDouble _, hl⟩
      · exact ih c cs e2 x hx

/-- Sums that do not overflow are doubles, and do not decrease. -/
theorem sums_sorted (hA : A.IsBinary64) (ws cs : List ℝ) (hw : ∀ w ∈ ws, 0 ≤ w) (hd : ∀ w ∈ ws, FinDouble w)
    (hc : partialSums (ws.map .fin) = cs.map (Num.fin (A := A))) :
    cs.Pairwise (· ≤ ·) ∧ cs.length = ws.length ∧ ∀ c ∈ cs, FinDouble c ∧ 0 ≤ c := by
  cases ws with
  | nil =>
    have : cs = [] := by simpa [partialSums] using hc.symm
    subst this
    simp
  | cons w ws =>
    rw [List.map_cons, partialSums] at hc
    cases cs with
    | nil => simp at hc
    | cons c cs =>
      simp only [List.map_cons, List.cons.injEq, Num.fin.injEq] at hc
      obtain ⟨rfl, hc⟩ := hc
      obtain ⟨i1, i2, _⟩ := partialSums_go_binary64 hA ws (fun x h => hw x (List.mem_cons_of_mem _ h)) w cs
        (hd w List.mem_cons_self).1 hc
      refine ⟨i1, by simp [i2], fun c hcm => ⟨?_, ?_⟩⟩
      · rcases List.mem_cons.1 hcm with rfl | hm
        · exact hd _ List.mem_cons_self
        · exact go_finDouble hA ws w cs hc c hm
      · have h0 := hw w List.mem_cons_self
        rcases List.mem_cons.1 hcm with rfl | hm
        · exact h0
        · exact h0.trans ((List.pairwise_cons.1 i1).1 c hm)

theorem last_le {cs : List ℝ} (h : cs.Pairwise (· ≤ ·)) {t : ℝ} (ht : cs.getLast? = some t) : ∀ c ∈ cs, c ≤ t := by
  intro c hc
  rw [List.getLast?_eq_getElem?] at ht
  obtain ⟨hl, rfl⟩ := List.getElem?_eq_some_iff.1 ht
  obtain ⟨i, hi, rfl⟩ := List.getElem_of_mem hc
  rcases Nat.lt_or_ge i (cs.length - 1) with h' | h'
  · exact List.pairwise_iff_getElem.1 h i _ hi hl h'
  · have : i = cs.length - 1 := by omega
    subst this; exact le_rfl

/-- C121.  With nonnegative weights whose sums do not overflow and a total above 2^-1022, `choose_between` returns the
index of a positive weight, whatever the engine returns. -/
theorem C121_choice (hA : A.IsBinary64) (ws cs : List ℝ) (hw : ∀ w ∈ ws, 0 ≤ w) (hd : ∀ w ∈ ws, FinDouble w)
    (hc : partialSums (ws.map .fin) = cs.map (Num.fin (A := A))) (total : ℝ) (ht : cs.getLast? = some total)
    (hp : (2 : ℝ) ^ (-1022 : Int) < total) (x : Nat) (hx : x < 2 ^ 64) :
    ∃ i, ∃ h : i < ws.length, chooseBetween (ws.map (Num.fin (A := A))) (draw64 x) = .ok i ∧ 0 < ws[i] := by
  obtain ⟨s1, s2, s3⟩ := sums_sorted hA ws cs hw hd hc
  obtain ⟨⟨t1, t2⟩, t3⟩ := s3 total (List.mem_of_getLast? ht)
  obtain ⟨b1, b2⟩ := C121_below hx t1 hp
  exact C20_binary64 hA ws cs hw (fun w h => (hd w h).1) hc total _ ht b1 b2 _
    (C121_draw hA hx t1 t3 ((le_abs_self _).trans_lt t2))

/-- C121 is violated by smaller totals: when the engine returns its largest number, `choose_between` returns the number
of weights, which is no index. -/
theorem C121_index_violated (hA : A.IsBinary64) (ws cs : List ℝ) (hw : ∀ w ∈ ws, 0 ≤ w) (hd : ∀ w ∈ ws, FinDouble w)
    (hc : partialSums (ws.map .fin) = cs.map (Num.fin (A := A))) (total : ℝ) (ht : cs.getLast? = some total)
    (h0 : 0 < total) (hp : total ≤ (2 : ℝ) ^ (-1022 : Int)) :
    chooseBetween (ws.map (Num.fin (A := A))) (draw64 (2 ^ 64 - 1)) = .ok ws.length := by
  obtain ⟨s1, s2, s3⟩ := sums_sorted hA ws cs hw hd hc
  obtain ⟨⟨t1, t2⟩, t3⟩ := s3 total (List.mem_of_getLast? ht)
  have hdr := C121_draw hA (x := 2 ^ 64 - 1) (by norm_num) t1 t3 ((le_abs_self _).trans_lt t2)
  rw [C121_tiny_violated t1 h0 hp] at hdr
  have hl : (cs.map (Num.fin (A := A))).getLast? = some (.fin total) := by rw [List.getLast?_map, ht]; rfl
  unfold chooseBetween
  dsimp only
  rw [hc, hl]
  simp only [Num.zero_eq, hdr]
  rw [upperBound_none, List.length_map, s2]
  intro m hm
  obtain ⟨c, hcm, rfl⟩ := List.mem_map.1 hm
  rw [Num.lt_fin, decide_eq_false_iff_not, not_lt]
  exact last_le s1 ht c hcm

/-- C121 is violated by weights that are all zero: whatever the engine returns, the result is no index. -/
theorem C121_zero_violated (hA : A.IsBinary64) (n : Nat) (hn : 0 < n) (x : Nat) (hx : x < 2 ^ 64) :
    chooseBetween (List.replicate n (.fin 0 : Num A)) (draw64 x) = .ok n := by
  have go : ∀ k, partialSums.go (.fin 0 : Num A) (List.replicate k (.fin 0)) = List.replicate k (.fin 0) := by
    intro k
    induction k with
    | zero => rfl
    | succ k ih =>
      rw [List.replicate_succ, partialSums.go, Num.fin_add, add_zero, Num.round_of (rnd_zero_of_binary64 hA), ih]
  have hs : partialSums (List.replicate n (.fin 0 : Num A)) = List.replicate n (.fin 0) := by
    cases n with
    | zero => rfl
    | succ n => rw [List.replicate_succ, partialSums, go]
  have hl : (List.replicate n (.fin 0 : Num A)).getLast? = some (.fin 0) := by
    rw [List.getLast?_replicate, if_neg (by omega)]
  have hdr := C121_draw hA hx (b := 0) double_zero le_rfl (two_zpow_pos _)
  rw [mul_zero, rn_zero] at hdr
  unfold chooseBetween
  dsimp only
  rw [hs, hl]
  simp only [Num.zero_eq, hdr]
  rw [upperBound_none, List.length_replicate]
  intro m hm
  rw [List.eq_of_mem_replicate hm, Num.lt_fin]
  simp

/-- C121 is violated by weights whose sum overflows: whatever the engine returns, the result is no index. -/
theorem C121_overflow_violated (hA : A.IsBinary64) (ws : List (Num A))
    (ht : (partialSums ws).getLast? = some (.inf false)) (x : Nat) (hx : x < 2 ^ 64) :
    chooseBetween ws (draw64 x) = .ok ws.length := by
  have hdr : draw64 x (.fin 0) (.inf false) = (.inf false : Num A) ∨ draw64 x (.fin 0) (.inf false) = (.nan : Num A) := by
    unfold draw64 uniformReal
    rw [C121_canonical hA hx]
    have e : (.inf false - .fin 0 : Num A) = .inf false := rfl
    rw [e]
    obtain ⟨_, u2, _, _⟩ := C121_unit hx
    by_cases h : unit64 x = 0
    · right
      have : (.fin (unit64 x) * .inf false : Num A) = .nan := if_pos h
      rw [this, Num.nan_add]
    · left
      have : (.fin (unit64 x) * .inf false : Num A) = .inf false := by
        refine (if_neg h).trans ?_
        rw [decide_eq_false (not_lt.2 u2)]; rfl
      rw [this]; rfl
  unfold chooseBetween
  dsimp only
  rw [ht]
  rw [← length_partialSums ws]
  refine upperBound_none _ _ fun m _ => ?_
  show CxxFloat.lt (draw64 x (.fin 0) (.inf false)) m = false
  rcases hdr with h | h <;> rw [h] <;> cases m <;> rfl

/-- Such weights exist, and so do weights with a tiny total. -/
example (hA : A.IsBinary64) : (partialSums [.fin ((2 : ℝ) ^ (1023 : Int)), .fin ((2 : ℝ) ^ (1023 : Int))] : List (Num A)).getLast? =
    some (.inf false) := by
  have e : (2 : ℝ) ^ (1023 : Int) + (2 : ℝ) ^ (1023 : Int) = (2 : ℝ) ^ (1024 : Int) := by
    rw [show (1024 : Int) = 1023 + 1 by norm_num, zpow_add₀ two_ne_zero]; ring
  have : A.rnd ((2 : ℝ) ^ (1024 : Int)) = none := by
    rw [hA, rnd64, if_neg]
    rw [rn_double (double_two_zpow (by norm_num)), abs_of_pos (two_zpow_pos _)]
    exact lt_irrefl _
  simp only [partialSums, partialSums.go, Num.fin_add, e, List.getLast?_cons_cons, List.getLast?_singleton, Option.some.injEq]
  unfold Num.round
  rw [this]
  simp only [Num.inf.injEq, decide_eq_false_iff_not, not_lt]
  exact (two_zpow_pos _).le

example : partialSums [.fin ((2 : ℝ) ^ (-1074 : Int))] = [(2 : ℝ) ^ (-1074 : Int)].map (Num.fin (A := A)) ∧
    FinDouble ((2 : ℝ) ^ (-1074 : Int)) ∧ 0 < (2 : ℝ) ^ (-1074 : Int) ∧ (2 : ℝ) ^ (-1074 : Int) ≤ (2 : ℝ) ^ (-1022 : Int) :=
  ⟨rfl, ⟨double_two_zpow le_rfl, by rw [abs_of_pos (two_zpow_pos _)]; exact zpow_lt_zpow_right₀ one_lt_two (by norm_num)⟩,
    two_zpow_pos _, zpow_le_zpow_right₀ one_le_two (by norm_num)⟩

/-! ### Frequencies -/

/-- The fraction of the numbers of a 64-bit engine that satisfy `P`. -/
noncomputable def Spec.fraction (P : Nat → Prop) : ℝ :=
  letI := Classical.decPred P
  (((Finset.range (2 ^ 64)).filter P).card : ℝ) / 2 ^ 64

theorem fraction_bounds (P : Nat → Prop) (q : ℝ) (h0 : 0 ≤ q) (h1 : q ≤ 1)
    (hl : ∀ x : Nat, x < 2 ^ 64 → (x : ℝ) / 2 ^ 64 < q - 1 / 2 ^ 52 → P x)
    (hu : ∀ x : Nat, x < 2 ^ 64 → P x → (x : ℝ) / 2 ^ 64 < q + 1 / 2 ^ 52) :
    |fraction P - q| ≤ 1 / 2 ^ 52 + 1 / 2 ^ 64 := by
  let := Classical.decPred P
  unfold fraction
  have lo : (q - 1 / 2 ^ 52) * 2 ^ 64 ≤ (((Finset.range (2 ^ 64)).filter P).card : ℝ) := by
    refine (Nat.le_ceil _).trans ?_
    have hsub : Finset.range ⌈(q - 1 / 2 ^ 52) * 2 ^ 64⌉₊ ⊆ (Finset.range (2 ^ 64)).filter P := by
      intro x hx
      rw [Finset.mem_range, Nat.lt_ceil] at hx
      have hq : (x : ℝ) / 2 ^ 64 < q - 1 / 2 ^ 52 := by rwa [div_lt_iff₀ (by positivity)]
      have hx' : x < 2 ^ 64 := by
        have : (x : ℝ) < 2 ^ 64 := by
          refine hx.trans_le ?_
          have : q - 1 / 2 ^ 52 ≤ 1 := by linarith [show (0 : ℝ) ≤ 1 / 2 ^ 52 by positivity]
          have h64 : (0 : ℝ) < 2 ^ 64 := by positivity
          nlinarith
        exact_mod_cast this
      rw [Finset.mem_filter, Finset.mem_range]
      exact ⟨hx', hl x hx' hq⟩
    have := Finset.card_le_card hsub
    rw [Finset.card_range] at this
    exact_mod_cast this
  have hi : (((Finset.range (2 ^ 64)).filter P).card : ℝ) ≤ (q + 1 / 2 ^ 52) * 2 ^ 64 + 1 := by
    have hsub : (Finset.range (2 ^ 64)).filter P ⊆ Finset.range ⌈(q + 1 / 2 ^ 52) * 2 ^ 64⌉₊ := by
      intro x hx
      rw [Finset.mem_filter, Finset.mem_range] at hx
      rw [Finset.mem_range, Nat.lt_ceil]
      have := hu x hx.1 hx.2
      rwa [div_lt_iff₀ (by positivity)] at this
    have := Finset.card_le_card hsub
    rw [Finset.card_range] at this
    have h2 : (((Finset.range (2 ^ 64)).filter P).card : ℝ) ≤ (⌈(q + 1 / 2 ^ 52) * 2 ^ 64⌉₊ : ℝ) := by exact_mod_cast this
    exact h2.trans (Nat.ceil_lt_add_one (by positivity)).le
  rw [abs_le]
  have h64 : (0 : ℝ) < 2 ^ 64 := by positivity
  constructor
  · have := div_le_div_of_nonneg_right lo h64.le
    rw [mul_div_assoc, div_self h64.ne', mul_one] at this
    linarith [show (0 : ℝ) ≤ 1 / 2 ^ 64 by positivity]
  · have := div_le_div_of_nonneg_right hi h64.le
    rw [add_div, mul_div_assoc, div_self h64.ne', mul_one] at this
    linarith

/-- The number drawn between 0 and `b` is within b/2^52 of the fraction x/2^64 of `b`. -/
theorem draw_close {x : Nat} (hx : x < 2 ^ 64) {b : ℝ} (h : (2 : ℝ) ^ (-1022 : Int) ≤ b) :
    |rn (unit64 x * b) - (x : ℝ) / 2 ^ 64 * b| ≤ b / 2 ^ 52 := by
  obtain ⟨u1, u2, u3, u4⟩ := C121_unit hx
  have hbp : 0 < b := lt_of_lt_of_le (two_zpow_pos _) h
  have hy : 0 ≤ unit64 x * b := mul_nonneg u2 hbp.le
  have hyb : unit64 x * b ≤ b := by
    have : unit64 x ≤ 1 := u3.trans (by norm_num)
    nlinarith
  have h1 : |unit64 x * b - rn (unit64 x * b)| ≤ b / 2 ^ 53 := by
    by_cases h0 : unit64 x * b = 0
    · rw [h0, rn_zero]; simp; positivity
    · refine (rn_err_ulp _).trans ?_
      have hmono := ulpExp_mono h0 (y := b) (by rw [abs_of_nonneg hy, abs_of_pos hbp]; exact hyb)
      have hb52 : (2 : ℝ) ^ (ulpExp b + 52) ≤ b := by
        rcases ulpExp_cases b hbp.ne' with h' | h'
        · rw [h']; exact h
        · rwa [abs_of_pos hbp] at h'
      have h2 : (2 : ℝ) ^ ulpExp (unit64 x * b) ≤ (2 : ℝ) ^ ulpExp b := zpow_le_zpow_right₀ one_le_two hmono
      rw [zpow_add₀ two_ne_zero] at hb52
      have e : ((2 : ℝ) ^ (52 : Int)) = 2 ^ 52 := by norm_cast
      rw [e] at hb52
      rw [div_le_div_iff₀ (by norm_num) (by positivity)]
      calc (2 : ℝ) ^ ulpExp (unit64 x * b) * 2 ^ 53 ≤ (2 : ℝ) ^ ulpExp b * 2 ^ 53 :=
            mul_le_mul_of_nonneg_right h2 (by positivity)
        _ = (2 : ℝ) ^ ulpExp b * 2 ^ 52 * 2 := by ring
        _ ≤ b * 2 := by linarith
  have h2 : |unit64 x * b - (x : ℝ) / 2 ^ 64 * b| ≤ b / 2 ^ 53 := by
    rw [← sub_mul, abs_mul, abs_of_pos hbp]
    calc |unit64 x - (x : ℝ) / 2 ^ 64| * b ≤ 1 / 2 ^ 53 * b := mul_le_mul_of_nonneg_right u4 hbp.le
      _ = b / 2 ^ 53 := by ring
  have h3 := abs_sub_le (rn (unit64 x * b)) (unit64 x * b) ((x : ℝ) / 2 ^ 64 * b)
  rw [abs_sub_comm (rn (unit64 x * b)) (unit64 x * b)] at h3
  have e : b / 2 ^ 52 = b / 2 ^ 53 + b / 2 ^ 53 := by ring
  rw [e]; linarith

/-- C121.  The fraction of the numbers of the engine for which the draw between 0 and `b` is below `c` is c/b, within
2^-52 + 2^-64. -/
theorem C121_distribution {b c : ℝ} (h : (2 : ℝ) ^ (-1022 : Int) ≤ b) (hc0 : 0 ≤ c) (hcb : c ≤ b) :
    |fraction (fun x => rn (unit64 x * b) < c) - c / b| ≤ 1 / 2 ^ 52 + 1 / 2 ^ 64 := by
  have hbp : 0 < b := lt_of_lt_of_le (two_zpow_pos _) h
  refine fraction_bounds _ _ (by positivity) (by rwa [div_le_one hbp]) ?_ ?_
  · intro x hx hlt
    have h1 := (abs_le.1 (draw_close hx h)).2
    have h2 : (x : ℝ) / 2 ^ 64 * b < c - b / 2 ^ 52 := by
      have := mul_lt_mul_of_pos_right hlt hbp
      rw [sub_mul, div_mul_cancel₀ _ hbp.ne'] at this
      have e : 1 / 2 ^ 52 * b = b / 2 ^ 52 := by ring
      rwa [e] at this
    linarith
  · intro x hx hlt
    have h1 := (abs_le.1 (draw_close hx h)).1
    have h2 : (x : ℝ) / 2 ^ 64 * b < c + b / 2 ^ 52 := by linarith
    rw [← mul_lt_mul_iff_left₀ hbp, add_mul, div_mul_cancel₀ _ hbp.ne']
    have e : 1 / 2 ^ 52 * b = b / 2 ^ 52 := by ring
    rwa [e]

/-- C121.  `choose_with_probability(p)` is true for a fraction p of the numbers, within 2^-52 + 2^-64. -/
theorem C121_probability (hA : A.IsBinary64) {p : ℝ} (h0 : 0 ≤ p) (h1 : p ≤ 1) :
    |fraction (fun x => chooseWithProbability (.fin p : Num A) (draw64 x) = true) - p| ≤ 1 / 2 ^ 52 + 1 / 2 ^ 64 := by
  have hone : (2 : ℝ) ^ (-1022 : Int) ≤ 1 := by
    rw [show (1 : ℝ) = (2 : ℝ) ^ (0 : Int) by simp]
    exact zpow_le_zpow_right₀ one_le_two (by norm_num)
  have key : ∀ x, x < 2 ^ 64 → (chooseWithProbability (.fin p : Num A) (draw64 x) = true ↔ rn (unit64 x * 1) < p) := by
    intro x hx
    refine C21_iff p _ _ ?_
    rw [lit_one hA]
    refine C121_draw hA hx ⟨1, 0, by norm_num, by norm_num, by norm_num⟩ zero_le_one ?_
    rw [show (1 : ℝ) = (2 : ℝ) ^ (0 : Int) by simp]
    exact zpow_lt_zpow_right₀ one_lt_two (by norm_num)
  refine fraction_bounds _ _ h0 h1 ?_ ?_
  · intro x hx hlt
    rw [key x hx]
    have := (abs_le.1 (draw_close hx hone)).2
    linarith
  · intro x hx hlt
    rw [key x hx] at hlt
    have := (abs_le.1 (draw_close hx hone)).1
    linarith

/-- C121.  Probability 1 and above is always chosen, probability 0 and below never. -/
theorem C121_certain (hA : A.IsBinary64) {p : ℝ} {x : Nat} (hx : x < 2 ^ 64) :
    (1 ≤ p → chooseWithProbability (.fin p : Num A) (draw64 x) = true) ∧
    (p ≤ 0 → chooseWithProbability (.fin p : Num A) (draw64 x) = false) := by
  have hone : (2 : ℝ) ^ (-1022 : Int) < 1 := by
    rw [show (1 : ℝ) = (2 : ℝ) ^ (0 : Int) by simp]
    exact zpow_lt_zpow_right₀ one_lt_two (by norm_num)
  have d1 : Double (1 : ℝ) := ⟨1, 0, by norm_num, by norm_num, by norm_num⟩
  have key : chooseWithProbability (.fin p : Num A) (draw64 x) = true ↔ rn (unit64 x * 1) < p := by
    refine C21_iff p _ _ ?_
    rw [lit_one hA]
    refine C121_draw hA hx d1 zero_le_one ?_
    rw [show (1 : ℝ) = (2 : ℝ) ^ (0 : Int) by simp]
    exact zpow_lt_zpow_right₀ one_lt_two (by norm_num)
  obtain ⟨b1, b2⟩ := C121_below hx d1 hone
  constructor
  · intro h; rw [key]; linarith
  · intro h; rw [← Bool.not_eq_true, key]; linarith

theorem fraction_diff (P Q R : Nat → Prop) (h : ∀ x : Nat, x < 2 ^ 64 → (P x ↔ Q x ∧ ¬ R x))
    (hQ : ∀ x : Nat, x < 2 ^ 64 → R x → Q x) : fraction P = fraction Q - fraction R := by
  classical
  unfold fraction
  have e : (Finset.range (2 ^ 64)).filter Q = (Finset.range (2 ^ 64)).filter P ∪ (Finset.range (2 ^ 64)).filter R := by
    ext x
    simp only [Finset.mem_filter, Finset.mem_union, Finset.mem_range]
    constructor
    · rintro ⟨hx, hq⟩
      by_cases hr : R x
      · exact .inr ⟨hx, hr⟩
      · exact .inl ⟨hx, (h x hx).2 ⟨hq, hr⟩⟩
    · rintro (⟨hx, hp⟩ | ⟨hx, hr⟩)
      · exact ⟨hx, ((h x hx).1 hp).1⟩
      · exact ⟨hx, hQ x hx hr⟩
  have hd : Disjoint ((Finset.range (2 ^ 64)).filter P) ((Finset.range (2 ^ 64)).filter R) := by
    rw [Finset.disjoint_left]
    intro x h1 h2
    rw [Finset.mem_filter, Finset.mem_range] at h1 h2
    exact ((h x h1.1).1 h1.2).2 h2.2
  have hc := Finset.card_union_of_disjoint hd
  rw [← e] at hc
  have hc' : (((Finset.range (2 ^ 64)).filter Q).card : ℝ) =
      ((Finset.range (2 ^ 64)).filter P).card + ((Finset.range (2 ^ 64)).filter R).card := by exact_mod_cast hc
  have : (((Finset.range (2 ^ 64)).filter P).card : ℝ) =
      ((Finset.range (2 ^ 64)).filter Q).card - ((Finset.range (2 ^ 64)).filter R).card := by linarith
  rw [← sub_div]
  convert congrArg (· / (2 : ℝ) ^ 64) this using 3

/-- C121.  Index `i` is chosen for a fraction (c_i - c_{i-1})/total of the numbers, within 2^-51 + 2^-63; c_i are the
computed partial sums. -/
theorem C121_frequency_sums (hA : A.IsBinary64) (ws cs : List ℝ) (hw : ∀ w ∈ ws, 0 ≤ w) (hd : ∀ w ∈ ws, FinDouble w)
    (hc : partialSums (ws.map .fin) = cs.map (Num.fin (A := A))) (total : ℝ) (ht : cs.getLast? = some total)
    (hp : (2 : ℝ) ^ (-1022 : Int) < total) (i : Nat) (a c : ℝ) (ha : (0 :: cs)[i]? = some a) (hi : cs[i]? = some c) :
    |fraction (fun x => chooseBetween (ws.map (Num.fin (A := A))) (draw64 x) = .ok i) - (c - a) / total| ≤
      1 / 2 ^ 51 + 1 / 2 ^ 63 := by
  obtain ⟨s1, s2, s3⟩ := sums_sorted hA ws cs hw hd hc
  obtain ⟨⟨t1, t2⟩, t3⟩ := s3 total (List.mem_of_getLast? ht)
  have hcm := List.mem_of_getElem? hi
  have ha0 : 0 ≤ a := by
    rcases List.mem_cons.1 (List.mem_of_getElem? ha) with h | h
    · exact h.ge
    · exact (s3 a h).2
  have hac : a ≤ c := by
    cases i with
    | zero => simp only [List.getElem?_cons_zero, Option.some.injEq] at ha; rw [← ha]; exact (s3 c hcm).2
    | succ j =>
      rw [List.getElem?_cons_succ] at ha
      obtain ⟨h1, rfl⟩ := List.getElem?_eq_some_iff.1 ha
      obtain ⟨h2, rfl⟩ := List.getElem?_eq_some_iff.1 hi
      exact List.pairwise_iff_getElem.1 s1 j (j + 1) h1 h2 (Nat.lt_succ_self j)
  have hct := last_le s1 ht c hcm
  have e : chooseBetween (ws.map (Num.fin (A := A))) = chooseBetweenPsums (cs.map (Num.fin (A := A))) := by
    funext draw
    unfold chooseBetween chooseBetweenPsums
    rw [hc]
  have key : ∀ x : Nat, x < 2 ^ 64 → (chooseBetween (ws.map (Num.fin (A := A))) (draw64 x) = .ok i ↔
      rn (unit64 x * total) < c ∧ ¬ rn (unit64 x * total) < a) := by
    intro x hx
    obtain ⟨b1, b2⟩ := C121_below hx t1 hp
    rw [e, C20_psums (A := A) cs s1 (rn (unit64 x * total)) (draw64 x)
      (fun y hy => by rw [ht] at hy; cases hy; exact ⟨C121_draw hA hx t1 t3 ((le_abs_self _).trans_lt t2), b2⟩)
      (by rintro rfl; cases ht) i]
    rw [not_lt]
    constructor
    · rintro ⟨c', hc', h1, h2⟩
      rw [hi] at hc'; cases hc'
      refine ⟨h1, ?_⟩
      cases i with
      | zero => simp only [List.getElem?_cons_zero, Option.some.injEq] at ha; rw [← ha]; exact b1
      | succ j => rw [List.getElem?_cons_succ] at ha; exact h2 a (Nat.succ_pos j) (by rw [Nat.add_sub_cancel]; exact ha)
    · rintro ⟨h1, h2⟩
      refine ⟨c, hi, h1, fun b hb hb' => ?_⟩
      cases i with
      | zero => omega
      | succ j =>
        rw [Nat.add_sub_cancel] at hb'
        rw [List.getElem?_cons_succ, hb'] at ha
        cases ha; exact h2
  rw [fraction_diff _ (fun x => rn (unit64 x * total) < c) (fun x => rn (unit64 x * total) < a) key
    (fun x _ h => h.trans_le hac)]
  have d1 := C121_distribution hp.le (hac.trans' ha0) hct
  have d2 := C121_distribution hp.le ha0 (hac.trans hct)
  rw [abs_le] at d1 d2 ⊢
  rw [sub_div]
  have e1 : (1 : ℝ) / 2 ^ 51 = 1 / 2 ^ 52 + 1 / 2 ^ 52 := by norm_num
  have e2 : (1 : ℝ) / 2 ^ 63 = 1 / 2 ^ 64 + 1 / 2 ^ 64 := by norm_num
  rw [e1, e2]
  constructor <;> linarith [d1.1, d1.2, d2.1, d2.2]

theorem sums_step (hA : A.IsBinary64) (ws cs : List ℝ) (hd : ∀ w ∈ ws, FinDouble w)
    (hc : partialSums (ws.map .fin) = cs.map (Num.fin (A := A))) (i : Nat) (a c w : ℝ)
    (ha : (0 :: cs)[i]? = some a) (hi : cs[i]? = some c) (hw : ws[i]? = some w) : c = rn (a + w) := by
  have go : ∀ (ws : List ℝ) (s : ℝ) (cs : List ℝ), partialSums.go (F := Num A) (.fin s) (ws.map .fin) = cs.map .fin →
      ∀ (i : Nat) (a c w : ℝ), (s :: cs)[i]? = some a → cs[i]? = some c → ws[i]? = some w → c = rn (a + w) := by
    intro ws
    induction ws with
    | nil => intro s cs _ i a c w _ _ h; simp at h
    | cons v ws ih =>
      intro s cs e i a c w h1 h2 h3
      rw [List.map_cons, partialSums.go, Num.fin_add] at e
      cases cs with
      | nil => simp at e
      | cons d cs =>
        simp only [List.map_cons, List.cons.injEq] at e
        obtain ⟨e1, e2⟩ := e
        obtain ⟨hc, _⟩ := rnd_eq_some hA (Num.round_eq_fin e1)
        rw [e1] at e2
        cases i with
        | zero =>
          simp only [List.getElem?_cons_zero, Option.some.injEq] at h1 h2 h3
          rw [← h1, ← h2, ← h3]; exact hc
        | succ j => exact ih d cs e2 j a c w h1 h2 h3
  cases ws with
  | nil => simp at hw
  | cons v ws =>
    rw [List.map_cons, partialSums] at hc
    cases cs with
    | nil => simp at hc
    | cons d cs =>
      simp only [List.map_cons, List.cons.injEq, Num.fin.injEq] at hc
      obtain ⟨rfl, hc⟩ := hc
      cases i with
      | zero =>
        simp only [List.getElem?_cons_zero, Option.some.injEq] at ha hi hw
        rw [← ha, ← hi, ← hw, zero_add, rn_double (hd v List.mem_cons_self).1]
      | succ j => exact go ws v cs hc j a c w ha hi hw

/-- The error of one partial sum. -/
theorem step_err {a w t : ℝ} (ha : Double a) (hw : Double w) (ha0 : 0 ≤ a) (hw0 : 0 ≤ w) (ht : rn (a + w) ≤ t) :
    |rn (a + w) - (a + w)| ≤ t / 2 ^ 52 := by
  have h := rn_rel (ha.mult.add hw.mult)
  have hy : 0 ≤ a + w := add_nonneg ha0 hw0
  rw [abs_of_nonneg hy, abs_sub_comm] at h
  refine h.trans ?_
  have h1 := (abs_le.1 h).1
  have h2 : (a + w) / 2 ^ 53 ≤ (a + w) / 2 := div_le_div_of_nonneg_left hy (by norm_num) (by norm_num)
  have h3 : a + w ≤ 2 * t := by linarith
  rw [div_le_div_iff₀ (by positivity) (by positivity)]
  have : (0 : ℝ) ≤ 2 ^ 52 := by positivity
  calc (a + w) * 2 ^ 52 ≤ 2 * t * 2 ^ 52 := mul_le_mul_of_nonneg_right h3 this
    _ = t * 2 ^ 53 := by ring

/-- C121.  The computed total is within n total/2^52 of the sum of the weights. -/
theorem C121_total (hA : A.IsBinary64) (ws cs : List ℝ) (hw : ∀ w ∈ ws, 0 ≤ w) (hd : ∀ w ∈ ws, FinDouble w)
    (hc : partialSums (ws.map .fin) = cs.map (Num.fin (A := A))) (total : ℝ) (ht : cs.getLast? = some total) :
    |total - ws.sum| ≤ ws.length * (total / 2 ^ 52) := by
  obtain ⟨s1, s2, s3⟩ := sums_sorted hA ws cs hw hd hc
  have hlast : (0 :: cs)[ws.length]? = some total := by
    rw [List.getLast?_eq_getElem?] at ht
    have h1 := (List.getElem?_eq_some_iff.1 ht).1
    rw [← s2, show cs.length = (cs.length - 1) + 1 by omega, List.getElem?_cons_succ]
    exact ht
  have key : ∀ k, k ≤ ws.length → ∀ a, (0 :: cs)[k]? = some a → |a - (ws.take k).sum| ≤ k * (total / 2 ^ 52) := by
    intro k
    induction k with
    | zero => intro _ a ha; simp only [List.getElem?_cons_zero, Option.some.injEq] at ha; rw [← ha]; simp
    | succ k ih =>
      intro hk c hc'
      rw [List.getElem?_cons_succ] at hc'
      have hk' : k < ws.length := by omega
      obtain ⟨a, ha⟩ : ∃ a, (0 :: cs)[k]? = some a :=
        ⟨_, List.getElem?_eq_getElem (by rw [List.length_cons, s2]; omega)⟩
      have hst := sums_step hA ws cs hd hc k a c ws[k] ha hc' (List.getElem?_eq_getElem hk')
      have ham : Double a ∧ 0 ≤ a := by
        rcases List.mem_cons.1 (List.mem_of_getElem? ha) with h | h
        · rw [h]; exact ⟨double_zero, le_rfl⟩
        · exact ⟨(s3 a h).1.1, (s3 a h).2⟩
      have hm := List.getElem_mem hk'
      have hle := last_le s1 ht c (List.mem_of_getElem? hc')
      have he := step_err ham.1 (hd _ hm).1 ham.2 (hw _ hm) (hst ▸ hle)
      rw [← hst] at he
      have h1 := ih (by omega) a ha
      rw [List.sum_take_succ ws k hk']
      have h2 := abs_add_le (c - (a + ws[k])) (a - (ws.take k).sum)
      have e : c - (a + ws[k]) + (a - (ws.take k).sum) = c - ((ws.take k).sum + ws[k]) := by ring
      rw [e] at h2
      push_cast
      linarith
  have := key ws.length le_rfl total hlast
  rwa [List.take_length] at this

/-- C121.  Index `i` is chosen for a fraction w_i/(w_0+w_1+...) of the numbers of the engine, within (n+4)/2^52 for n
weights. -/
theorem C121_frequency (hA : A.IsBinary64) (ws cs : List ℝ) (hw : ∀ w ∈ ws, 0 ≤ w) (hd : ∀ w ∈ ws, FinDouble w)
    (hc : partialSums (ws.map .fin) = cs.map (Num.fin (A := A))) (total : ℝ) (ht : cs.getLast? = some total)
    (hp : (2 : ℝ) ^ (-1022 : Int) < total) (i : Nat) (w : ℝ) (hi : ws[i]? = some w) :
    |fraction (fun x => chooseBetween (ws.map (Num.fin (A := A))) (draw64 x) = .ok i) - w / ws.sum| ≤
      (ws.length + 4) / 2 ^ 52 := by
  obtain ⟨s1, s2, s3⟩ := sums_sorted hA ws cs hw hd hc
  have hil := (List.getElem?_eq_some_iff.1 hi).1
  obtain ⟨a, ha⟩ : ∃ a, (0 :: cs)[i]? = some a :=
    ⟨_, List.getElem?_eq_getElem (by rw [List.length_cons, s2]; omega)⟩
  obtain ⟨c, hci⟩ : ∃ c, cs[i]? = some c := ⟨_, List.getElem?_eq_getElem (by rw [s2]; omega)⟩
  have h1 := C121_frequency_sums hA ws cs hw hd hc total ht hp i a c ha hci
  have hst := sums_step hA ws cs hd hc i a c w ha hci hi
  have ham : Double a ∧ 0 ≤ a := by
    rcases List.mem_cons.1 (List.mem_of_getElem? ha) with h | h
    · rw [h]; exact ⟨double_zero, le_rfl⟩
    · exact ⟨(s3 a h).1.1, (s3 a h).2⟩
  have hm := List.mem_of_getElem? hi
  have htp : 0 < total := (two_zpow_pos _).trans hp
  have hle := last_le s1 ht c (List.mem_of_getElem? hci)
  have he := step_err ham.1 (hd _ hm).1 ham.2 (hw _ hm) (hst ▸ hle)
  rw [← hst] at he
  have hs := C121_total hA ws cs hw hd hc total ht
  obtain ⟨j, hj, _, hjp⟩ := C121_choice hA ws cs hw hd hc total ht hp 0 (by norm_num)
  have hsum : 0 < ws.sum := lt_of_lt_of_le hjp (List.single_le_sum hw _ (List.getElem_mem hj))
  have hws : w ≤ ws.sum := List.single_le_sum hw _ hm
  have h2 : |(c - a) / total - w / total| ≤ 1 / 2 ^ 52 := by
    rw [← sub_div, abs_div, abs_of_pos htp, div_le_iff₀ htp, show c - a - w = c - (a + w) by ring]
    refine he.trans (le_of_eq ?_)
    ring
  have h3 : |w / total - w / ws.sum| ≤ ws.length / 2 ^ 52 := by
    have e : w / total - w / ws.sum = w / ws.sum * ((ws.sum - total) / total) := by
      field_simp
    rw [e, abs_mul, abs_div (ws.sum - total), abs_of_pos htp, abs_sub_comm, abs_of_nonneg (div_nonneg (hw w hm) hsum.le)]
    have f1 : w / ws.sum ≤ 1 := by rwa [div_le_one hsum]
    have f2 : |total - ws.sum| / total ≤ ws.length / 2 ^ 52 := by
      rw [div_le_iff₀ htp]
      refine hs.trans (le_of_eq ?_)
      ring
    calc w / ws.sum * (|total - ws.sum| / total) ≤ 1 * (|total - ws.sum| / total) :=
          mul_le_mul_of_nonneg_right f1 (by positivity)
      _ ≤ _ := by rw [one_mul]; exact f2
  have e1 : ((ws.length : ℝ) + 4) / 2 ^ 52 = ws.length / 2 ^ 52 + 4 * (1 / 2 ^ 52) := by ring
  have e2 : (1 : ℝ) / 2 ^ 51 + 1 / 2 ^ 63 ≤ 3 * (1 / 2 ^ 52) := by norm_num
  rw [e1]
  rw [abs_le] at h1 h2 h3 ⊢
  constructor <;> linarith [h1.1, h1.2, h2.1, h2.2, h3.1, h3.2]

/-- Weights that meet the conditions. -/
example (hA : A.IsBinary64) : partialSums ([(1 : ℝ), 0, 3].map .fin) = [(1 : ℝ), 1, 4].map (Num.fin (A := A)) ∧
    (∀ w ∈ [(1 : ℝ), 0, 3], 0 ≤ w ∧ FinDouble w) ∧ [(1 : ℝ), 1, 4].getLast? = some 4 ∧ (2 : ℝ) ^ (-1022 : Int) < 4 := by
  have d : ∀ n : Nat, n ≤ 2 ^ 53 → FinDouble (n : ℝ) := fun n h => by
    have := finDouble_int (K := ℝ) (n := n) (by rw [abs_of_nonneg (by positivity)]; exact_mod_cast h)
    exact_mod_cast this
  have r : ∀ n : Nat, n ≤ 2 ^ 53 → Num.round A (n : ℝ) = .fin (n : ℝ) := fun n h => round_nat hA h
  have r1 := r 1 (by norm_num)
  have r4 := r 4 (by norm_num)
  push_cast at r1 r4
  refine ⟨?_, ?_, rfl, ?_⟩
  · simp only [List.map_cons, List.map_nil, partialSums, partialSums.go, Num.fin_add, add_zero, r1]
    rw [show (1 : ℝ) + 3 = 4 by norm_num, r4]
  · intro w hw
    have d0 := d 0 (by norm_num)
    have d1 := d 1 (by norm_num)
    have d3 := d 3 (by norm_num)
    push_cast at d0 d1 d3
    simp only [List.mem_cons, List.not_mem_nil, or_false] at hw
    rcases hw with rfl | rfl | rfl
    · exact ⟨by norm_num, d1⟩
    · exact ⟨le_rfl, d0⟩
    · exact ⟨by norm_num, d3⟩
  · rw [show (4 : ℝ) = (2 : ℝ) ^ (2 : Int) by norm_num]
    exact zpow_lt_zpow_right₀ one_lt_two (by norm_num)

end Bwsl
