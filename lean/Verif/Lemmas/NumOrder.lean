import Verif.Lemmas.Num

/-! The order of floating-point values, and monotone rounding. -/

namespace Bwsl
open Spec

set_option linter.unusedSectionVars false

section
variable {K : Type} [Field K] [LinearOrder K] {A : Arith K}

namespace Num

theorem le_def (x y : Num A) : CxxFloat.le x y = (lt x y || eq x y) := rfl

theorem le_inf_fin (n : Bool) (y : K) : CxxFloat.le (inf n : Num A) (fin y) = n := by
  show (n || false) = n; simp
theorem le_fin_inf (x : K) (m : Bool) : CxxFloat.le (fin x : Num A) (inf m) = !m := by
  show (!m || false) = !m; simp
theorem le_inf_inf (n m : Bool) : CxxFloat.le (inf n : Num A) (inf m) = (n || !m) := by
  show (n && !m || n == m) = _; cases n <;> cases m <;> rfl
theorem le_nan_left (y : Num A) : CxxFloat.le (nan : Num A) y = false := by cases y <;> rfl
theorem le_nan_right (x : Num A) : CxxFloat.le x (nan : Num A) = false := by cases x <;> rfl
theorem lt_inf_fin (n : Bool) (y : K) : CxxFloat.lt (inf n : Num A) (fin y) = n := rfl
theorem lt_fin_inf (x : K) (m : Bool) : CxxFloat.lt (fin x : Num A) (inf m) = !m := rfl
theorem lt_inf_inf (n m : Bool) : CxxFloat.lt (inf n : Num A) (inf m) = (n && !m) := rfl
theorem lt_nan_left (y : Num A) : CxxFloat.lt (nan : Num A) y = false := by cases y <;> rfl
theorem lt_nan_right (x : Num A) : CxxFloat.lt x (nan : Num A) = false := by cases x <;> rfl

theorem le_trans' {x y z : Num A} (h1 : CxxFloat.le x y = true) (h2 : CxxFloat.le y z = true) :
    CxxFloat.le x z = true := by
  cases x <;> cases y <;> cases z <;>
    simp only [le_nan_left, le_nan_right, le_inf_fin, le_fin_inf, le_inf_inf, le_fin, Bool.or_eq_true,
      Bool.not_eq_true', decide_eq_true_eq, Bool.false_eq_true] at h1 h2 ⊢ <;> grind

/-- `x` and `y` are numbers, not above one another: `x ≤ y` or `y < x`. -/
theorem le_or_lt {x y : Num A} (hx : x ≠ nan) (hy : y ≠ nan) : CxxFloat.le x y = true ∨ CxxFloat.lt y x = true := by
  cases x <;> cases y <;>
    simp only [ne_eq, not_true_eq_false, le_inf_fin, le_fin_inf, le_inf_inf, le_fin, lt_inf_fin, lt_fin_inf,
      lt_inf_inf, lt_fin, decide_eq_true_eq, Bool.or_eq_true, Bool.not_eq_true', Bool.and_eq_true] at hx hy ⊢ <;> grind

theorem le_of_lt' {x y : Num A} (h : CxxFloat.lt x y = true) : CxxFloat.le x y = true := by
  have h' : lt x y = true := h
  rw [le_def, h']; rfl

theorem round_ne_nan (x : K) : round A x ≠ nan := by
  unfold round; split <;> simp

end Num

/-- Rounding keeps order. -/
def Arith.Mono (A : Arith K) : Prop := ∀ x y : K, x ≤ y → CxxFloat.le (Num.round A x) (Num.round A y) = true

theorem mono_of_exact (hA : A.IsExact) : A.Mono := by
  intro x y h
  rw [Num.round_exact hA, Num.round_exact hA, Num.le_fin]
  exact decide_eq_true h

end

section
variable {K : Type} [Field K] [LinearOrder K] [IsStrictOrderedRing K] [FloorRing K] {A : Arith K}

theorem rnd_zero_of_binary64 (hA : A.IsBinary64) : A.rnd 0 = some 0 := by
  rw [hA]
  unfold rnd64
  rw [rn_zero, abs_zero, if_pos (two_zpow_pos _)]

theorem mono_of_binary64 (hA : A.IsBinary64) : A.Mono := by
  intro x y h
  have hr := rn_mono h
  have e : ∀ z : K, Num.round A z = if |rn z| < (2 : K) ^ (1024 : Int) then .fin (rn z) else .inf (decide (z < 0)) := by
    intro z
    unfold Num.round
    rw [hA, rnd64]
    split <;> rename_i h <;> split at h <;> simp_all
  -- a value that overflows is far on the side of its sign
  have sgn : ∀ z : K, ¬ |rn z| < (2 : K) ^ (1024 : Int) → z < 0 → rn z ≤ -(2 : K) ^ (1024 : Int) := by
    intro z hz h0
    have h1 : rn z ≤ 0 := by have := rn_mono h0.le; rwa [rn_zero] at this
    rw [abs_of_nonpos h1] at hz
    linarith [not_lt.1 hz]
  have sgn' : ∀ z : K, ¬ |rn z| < (2 : K) ^ (1024 : Int) → ¬ z < 0 → (2 : K) ^ (1024 : Int) ≤ rn z := by
    intro z hz h0
    have h1 : 0 ≤ rn z := by have := rn_mono (not_lt.1 h0); rwa [rn_zero] at this
    rw [abs_of_nonneg h1] at hz
    exact not_lt.1 hz
  rw [e, e]
  by_cases hx : |rn x| < (2 : K) ^ (1024 : Int)
  · rw [if_pos hx]
    by_cases hy : |rn y| < (2 : K) ^ (1024 : Int)
    · rw [if_pos hy, Num.le_fin]; exact decide_eq_true hr
    · rw [if_neg hy, Num.le_fin_inf]
      by_cases h0 : y < 0
      · have := sgn y hy h0
        exact absurd (abs_lt.1 hx).1 (not_lt.2 (hr.trans this))
      · simp [h0]
  · rw [if_neg hx]
    by_cases hy : |rn y| < (2 : K) ^ (1024 : Int)
    · rw [if_pos hy, Num.le_inf_fin]
      by_cases h0 : x < 0
      · simp [h0]
      · have := sgn' x hx h0
        exact absurd (abs_lt.1 hy).2 (not_lt.2 (this.trans hr))
    · rw [if_neg hy, Num.le_inf_inf]
      by_cases h0 : y < 0
      · simp [h.trans_lt h0]
      · simp [h0]

end
end Bwsl
