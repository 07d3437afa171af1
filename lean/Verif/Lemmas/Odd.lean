import Verif.Lemmas.Round
import Verif.Lemmas.Num
import Verif.Model.Contracted

/-! Arithmetics in which negation commutes with rounding. -/

namespace Bwsl

set_option linter.unusedSectionVars false

/-- Rounding treats a number and its negative alike, and zero does not overflow. -/
structure Arith.IsOdd {K : Type} [Field K] (A : Arith K) : Prop where
  neg : ∀ x, A.rnd (-x) = (A.rnd x).map (-·)
  zero : A.rnd 0 ≠ none

section
variable {K : Type} [Field K] [LinearOrder K] [IsStrictOrderedRing K] {A : Arith K}

theorem isOdd_exact (hA : A.IsExact) : A.IsOdd := ⟨fun x => by rw [hA, hA]; rfl, by rw [hA]; simp⟩

theorem isOdd_binary64 [FloorRing K] (hA : A.IsBinary64) : A.IsOdd := by
  refine ⟨fun x => ?_, ?_⟩
  · rw [hA, hA]
    unfold rnd64
    rw [rn_neg, abs_neg]
    split <;> rfl
  · rw [hA]
    unfold rnd64
    rw [rn_zero, abs_zero, if_pos (two_zpow_pos _)]
    simp

namespace Num

theorem neg_neg (x : Num A) : - -x = x := by
  match x with
  | .nan => rfl
  | .inf n => cases n <;> rfl
  | .fin x => show Num.fin (- -x) = _; rw [_root_.neg_neg]

theorem neg_nan : -(.nan : Num A) = .nan := rfl
theorem neg_inf (n : Bool) : -(.inf n : Num A) = .inf (!n) := rfl
theorem neg_zero : -(CxxFloat.zero : Num A) = CxxFloat.zero := by show Num.fin (-0) = _; rw [_root_.neg_zero]; rfl

theorem abs_neg (x : Num A) : CxxFloat.abs (-x) = CxxFloat.abs x := by
  match x with
  | .nan => rfl
  | .inf n => rfl
  | .fin x => show Num.fin |-x| = Num.fin |x|; rw [_root_.abs_neg]

theorem add_comm' (x y : Num A) : x + y = y + x := by
  match x, y with
  | .nan, .nan => rfl
  | .nan, .inf _ => rfl
  | .nan, .fin _ => rfl
  | .inf _, .nan => rfl
  | .fin _, .nan => rfl
  | .inf true, .inf true => rfl
  | .inf true, .inf false => rfl
  | .inf false, .inf true => rfl
  | .inf false, .inf false => rfl
  | .inf _, .fin _ => rfl
  | .fin _, .inf _ => rfl
  | .fin x, .fin y => rw [fin_add, fin_add, add_comm]

theorem mul_comm' (x y : Num A) : x * y = y * x := by
  match x, y with
  | .nan, .nan => rfl
  | .nan, .inf _ => rfl
  | .nan, .fin _ => rfl
  | .inf _, .nan => rfl
  | .fin _, .nan => rfl
  | .inf true, .inf true => rfl
  | .inf true, .inf false => rfl
  | .inf false, .inf true => rfl
  | .inf false, .inf false => rfl
  | .inf n, .fin y =>
    show (if y = 0 then Num.nan else Num.inf (n != decide (y < 0))) = if y = 0 then Num.nan else Num.inf (decide (y < 0) != n)
    rw [show (decide (y < 0) != n) = (n != decide (y < 0)) by cases n <;> cases decide (y < 0) <;> rfl]
  | .fin y, .inf n =>
    show (if y = 0 then Num.nan else Num.inf (decide (y < 0) != n)) = if y = 0 then Num.nan else Num.inf (n != decide (y < 0))
    rw [show (decide (y < 0) != n) = (n != decide (y < 0)) by cases n <;> cases decide (y < 0) <;> rfl]
  | .fin x, .fin y => rw [fin_mul, fin_mul, mul_comm]

section
variable (hA : A.IsOdd)
include hA

theorem round_neg (x : K) : round A (-x) = -round A x := by
  unfold round
  rw [hA.neg]
  cases h : A.rnd x with
  | some y => rfl
  | none =>
    have hx : x ≠ 0 := by rintro rfl; exact hA.zero h
    show Num.inf (decide (-x < 0)) = Num.inf (!decide (x < 0))
    congr 1
    rw [← decide_not, decide_eq_decide, neg_lt_zero, not_lt]
    exact ⟨le_of_lt, fun h => lt_of_le_of_ne h (Ne.symm hx)⟩

theorem neg_add_neg (x y : Num A) : -x + -y = -(x + y) := by
  match x, y with
  | .nan, .nan => rfl
  | .nan, .inf _ => rfl
  | .nan, .fin _ => rfl
  | .inf _, .nan => rfl
  | .fin _, .nan => rfl
  | .inf true, .inf true => rfl
  | .inf true, .inf false => rfl
  | .inf false, .inf true => rfl
  | .inf false, .inf false => rfl
  | .inf _, .fin _ => rfl
  | .fin _, .inf _ => rfl
  | .fin x, .fin y => rw [fin_neg, fin_neg, fin_add, fin_add, ← round_neg hA, neg_add]

theorem neg_sub_neg (x y : Num A) : -x - -y = -(x - y) := neg_add_neg hA x (-y)

theorem neg_mul (x y : Num A) : -x * y = -(x * y) := by
  match x, y with
  | .nan, .nan => rfl
  | .nan, .inf _ => rfl
  | .nan, .fin _ => rfl
  | .inf _, .nan => rfl
  | .fin _, .nan => rfl
  | .inf true, .inf true => rfl
  | .inf true, .inf false => rfl
  | .inf false, .inf true => rfl
  | .inf false, .inf false => rfl
  | .inf n, .fin y =>
    show (if y = 0 then Num.nan else Num.inf ((!n) != decide (y < 0))) = -(if y = 0 then Num.nan else Num.inf (n != decide (y < 0)))
    split
    · rfl
    · rw [neg_inf]; cases n <;> cases decide (y < 0) <;> rfl
  | .fin x, .inf n =>
    show (if -x = 0 then Num.nan else Num.inf (decide (-x < 0) != n)) = -(if x = 0 then Num.nan else Num.inf (decide (x < 0) != n))
    by_cases hx : x = 0
    · rw [if_pos hx, if_pos (by rw [hx, _root_.neg_zero])]; rfl
    · rw [if_neg hx, if_neg (neg_ne_zero.2 hx), neg_inf]
      have : decide (-x < 0) = !decide (x < 0) := by
        rw [← decide_not, decide_eq_decide, neg_lt_zero, not_lt]
        exact ⟨le_of_lt, fun h => lt_of_le_of_ne h (Ne.symm hx)⟩
      rw [this]
      cases n <;> cases decide (x < 0) <;> rfl
  | .fin x, .fin y => rw [fin_neg, fin_mul, fin_mul, ← round_neg hA, _root_.neg_mul]

theorem mul_neg (x y : Num A) : x * -y = -(x * y) := by rw [mul_comm', neg_mul hA, mul_comm']

theorem neg_mul_neg (x y : Num A) : -x * -y = x * y := by rw [neg_mul hA, mul_neg hA, neg_neg]

theorem neg_div (x y : Num A) : -x / y = -(x / y) := by
  match x, y with
  | .nan, .nan => rfl
  | .nan, .inf _ => rfl
  | .nan, .fin _ => rfl
  | .inf _, .nan => rfl
  | .fin _, .nan => rfl
  | .inf _, .inf _ => rfl
  | .inf n, .fin y =>
    show Num.inf ((!n) != decide (y < 0)) = -Num.inf (n != decide (y < 0))
    rw [neg_inf]; cases n <;> cases decide (y < 0) <;> rfl
  | .fin x, .inf n => show Num.fin 0 = Num.fin (-0); rw [_root_.neg_zero]
  | .fin x, .fin y =>
    by_cases hy : y = 0
    · subst hy
      show (if (0 : K) = 0 then (if -x = 0 then Num.nan else Num.inf (decide (-x < 0))) else _) =
        -(if (0 : K) = 0 then (if x = 0 then Num.nan else Num.inf (decide (x < 0))) else _)
      rw [if_pos rfl, if_pos rfl]
      by_cases hx : x = 0
      · rw [if_pos hx, if_pos (by rw [hx, _root_.neg_zero])]; rfl
      · rw [if_neg hx, if_neg (neg_ne_zero.2 hx), neg_inf]
        congr 1
        rw [← decide_not, decide_eq_decide, neg_lt_zero, not_lt]
        exact ⟨le_of_lt, fun h => lt_of_le_of_ne h (Ne.symm hx)⟩
    · rw [fin_neg, fin_div hy, fin_div hy, ← round_neg hA, _root_.neg_div]

theorem ofInt_neg (n : Int) : (CxxFloat.ofInt (-n) : Num A) = -CxxFloat.ofInt n := by
  rw [ofInt_eq, ofInt_eq, ← round_neg hA]; push_cast; rfl

theorem fma_neg (x y z : Num A) : Num.fma (-x) y (-z) = -Num.fma x y z := by
  have key : ∀ x y z : Num A, Num.add (Num.mul (-x) y) (-z) = -Num.add (Num.mul x y) z := by
    intro x y z
    show -x * y + -z = -(x * y + z)
    rw [neg_mul hA, neg_add_neg hA]
  match x, y, z with
  | .fin x, .fin y, .fin z =>
    show round A (-x * y + -z) = -round A (x * y + z)
    rw [← round_neg hA]; congr 1; ring
  | .fin x, .fin y, .nan => rfl
  | .fin x, .fin y, .inf n => rfl
  | .nan, y, z => exact key .nan y z
  | .inf n, y, z => exact key (.inf n) y z
  | .fin x, .nan, z => exact key (.fin x) .nan z
  | .fin x, .inf n, z => exact key (.fin x) (.inf n) z

end

theorem fma_comm (x y z : Num A) : Num.fma x y z = Num.fma y x z := by
  have key : ∀ x y z : Num A, Num.add (Num.mul x y) z = Num.add (Num.mul y x) z := by
    intro x y z
    show x * y + z = y * x + z
    rw [mul_comm']
  match x, y, z with
  | .fin x, .fin y, .fin z => show round A (x * y + z) = round A (y * x + z); rw [mul_comm]
  | .fin x, .fin y, .nan => rfl
  | .fin x, .fin y, .inf n => rfl
  | .nan, .nan, z => rfl
  | .nan, .inf n, z => exact key .nan (.inf n) z
  | .nan, .fin y, z => exact key .nan (.fin y) z
  | .inf n, .nan, z => exact key (.inf n) .nan z
  | .inf n, .inf m, z => exact key (.inf n) (.inf m) z
  | .inf n, .fin y, z => exact key (.inf n) (.fin y) z
  | .fin x, .nan, z => exact key (.fin x) .nan z
  | .fin x, .inf n, z => exact key (.fin x) (.inf n) z

end Num

section
variable (hA : A.IsOdd)
include hA

theorem mulAdd_neg_left (f : Bool) (x y z : Num A) : mulAdd f (-x) y (-z) = -mulAdd f x y z := by
  cases f
  · show -z + -x * y = -(z + x * y)
    rw [Num.neg_mul hA, Num.neg_add_neg hA]
  · exact Num.fma_neg hA x y z

theorem mulAdd_neg_right (f : Bool) (x y z : Num A) : mulAdd f x (-y) (-z) = -mulAdd f x y z := by
  cases f
  · show -z + x * -y = -(z + x * y)
    rw [Num.mul_neg hA, Num.neg_add_neg hA]
  · show Num.fma x (-y) (-z) = -Num.fma x y z
    rw [Num.fma_comm, Num.fma_neg hA, Num.fma_comm]

theorem mulAdd_neg_neg (f : Bool) (x y z : Num A) : mulAdd f (-x) (-y) z = mulAdd f x y z := by
  have h1 := mulAdd_neg_left hA f x (-y) (-z)
  rw [Num.neg_neg] at h1
  rw [h1, mulAdd_neg_right hA, Num.neg_neg]
end
end
end Bwsl
