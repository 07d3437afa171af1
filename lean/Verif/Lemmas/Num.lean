import Verif.Lemmas.Round

/-! Computing with finite floating-point values. -/

namespace Bwsl
open Spec

set_option linter.unusedSectionVars false

section
variable {K : Type} [Field K] [LinearOrder K] {A : Arith K}

namespace Num

theorem fin_add (x y : K) : (fin x : Num A) + fin y = round A (x + y) := rfl
theorem fin_sub (x y : K) : (fin x : Num A) - fin y = round A (x - y) := by
  show round A (x + -y) = _
  rw [sub_eq_add_neg]
theorem fin_mul (x y : K) : (fin x : Num A) * fin y = round A (x * y) := rfl
theorem fin_div {x y : K} (h : y ≠ 0) : (fin x : Num A) / fin y = round A (x / y) := if_neg h
theorem fin_neg (x : K) : -(fin x : Num A) = fin (-x) := rfl
theorem zero_eq : (CxxFloat.zero : Num A) = fin 0 := rfl
theorem nan_eq : (CxxFloat.nan : Num A) = nan := rfl
theorem ofNat_eq (n : Nat) : (CxxFloat.ofNat n : Num A) = round A (n : K) := rfl
theorem ofInt_eq (n : Int) : (CxxFloat.ofInt n : Num A) = round A (n : K) := rfl
theorem lit_eq (q : ℚ) : (CxxFloat.lit q : Num A) = round A (q : K) := rfl
theorem abs_fin (x : K) : CxxFloat.abs (fin x : Num A) = fin |x| := rfl
theorem lt_fin (x y : K) : CxxFloat.lt (fin x : Num A) (fin y) = decide (x < y) := rfl
theorem eq_fin (x y : K) : CxxFloat.eq (fin x : Num A) (fin y) = decide (x = y) := rfl
theorem le_fin (x y : K) : CxxFloat.le (fin x : Num A) (fin y) = decide (x ≤ y) := by
  show (decide (x < y) || decide (x = y)) = _
  rw [← Bool.decide_or]
  exact decide_eq_decide.2 le_iff_lt_or_eq.symm
theorem nan_div (x : Num A) : (nan : Num A) / x = nan := by cases x <;> rfl
theorem nan_add (x : Num A) : (nan : Num A) + x = nan := by cases x <;> rfl
theorem nan_sub (x : Num A) : (nan : Num A) - x = nan := by cases x <;> rfl
theorem add_nan (x : Num A) : x + (nan : Num A) = nan := by cases x <;> rfl
theorem sub_nan (x : Num A) : x - (nan : Num A) = nan := by cases x <;> rfl
theorem sqrt_nan : CxxFloat.sqrt (nan : Num A) = nan := rfl
theorem sqrt_fin {x : K} (h : 0 ≤ x) : CxxFloat.sqrt (fin x : Num A) = round A (A.sqrt x) :=
  if_pos (decide_eq_true h)
theorem sqrt_neg {x : K} (h : x < 0) : CxxFloat.sqrt (fin x : Num A) = nan :=
  if_neg (by simpa using h)

theorem round_of {x y : K} (h : A.rnd x = some y) : round A x = fin y := by unfold round; rw [h]

theorem round_exact (hA : A.IsExact) (x : K) : round A x = fin x := round_of (hA x)

theorem round_eq_fin {x y : K} (h : round A x = fin y) : A.rnd x = some y := by
  unfold round at h
  split at h
  · next h' => cases h; exact h'
  · cases h

/-- A finite sum has finite operands. -/
theorem add_eq_fin {x y : Num A} {z : K} (h : x + y = fin z) : ∃ a b, x = fin a ∧ y = fin b := by
  cases x with
  | nan => rw [nan_add] at h; cases h
  | fin a =>
    cases y with
    | nan => rw [add_nan] at h; cases h
    | fin b => exact ⟨a, b, rfl, rfl⟩
    | inf m => cases h
  | inf n =>
    cases y with
    | nan => rw [add_nan] at h; cases h
    | fin b => cases h
    | inf m =>
      have h' : (if n = m then (inf n : Num A) else nan) = fin z := h
      split at h' <;> cases h'

end Num
end

section
variable {K : Type} [Field K] [LinearOrder K] [IsStrictOrderedRing K] [FloorRing K] {A : Arith K}

theorem rnd_of_double (hA : A.IsBinary64) {x : K} (h : Double x) (hx : |x| < (2 : K) ^ (1024 : Int)) :
    A.rnd x = some x := by
  rw [hA, rnd64, rn_double h, if_pos hx]

theorem rnd_eq_some (hA : A.IsBinary64) {x y : K} (h : A.rnd x = some y) :
    y = rn x ∧ |y| < (2 : K) ^ (1024 : Int) := by
  rw [hA, rnd64] at h
  split at h
  · next h' => cases h; exact ⟨rfl, h'⟩
  · cases h

theorem double_int {n : Int} (h : |n| ≤ 2 ^ 53) : Double (n : K) :=
  ⟨n, 0, h, by norm_num, by simp⟩

theorem int_lt_huge {n : Int} (h : |n| ≤ 2 ^ 53) : |(n : K)| < (2 : K) ^ (1024 : Int) := by
  have h1 : ((|n| : Int) : K) ≤ ((2 ^ 53 : Int) : K) := by exact_mod_cast h
  rw [Int.cast_abs] at h1
  refine h1.trans_lt ?_
  have : ((2 ^ 53 : Int) : K) = (2 : K) ^ (53 : Int) := by norm_num
  rw [this]
  exact zpow_lt_zpow_right₀ one_lt_two (by norm_num)

end
end Bwsl
