import Verif.Cxx.Float

/-!
# Floating-point numbers with signed zeros

Not a model of a particular file of /repo.  `SNum A` is `Num A` with the two zeros of IEEE 754, for an implementation
`A` of rounding.  It removes one simplification of `Num A`; the others remain.
-/

namespace Bwsl

/-- A number, with a sign bit that means something for zeros only. -/
structure SNum {K : Type u} (A : Arith K) where
  val : Num A
  minus : Bool

namespace SNum
variable {K : Type u} [Field K] [LinearOrder K] {A : Arith K}

/-- The number is the zero +0.0 or -0.0. -/
def isZero (x : SNum A) : Bool := decide (x.val = .fin 0)

/-- `std::signbit` -/
def sign (x : SNum A) : Bool := if x.isZero then x.minus else x.val.isNeg

/-- The number is -0.0. -/
def IsMinusZero (x : SNum A) : Prop := x.val = .fin 0 ∧ x.minus = true

/-- The rounding of an exact result that is not an exact zero, which keeps its sign if it underflows; an exact zero is +0.0. -/
def round (A : Arith K) (x : K) : SNum A := ⟨Num.round A x, decide (x < 0)⟩

def neg (x : SNum A) : SNum A := ⟨x.val.neg, !x.sign⟩

/-- The sum of two doubles is exactly zero or does not round to zero.  A sum that is exactly zero is +0.0 unless both terms
are -0.0. -/
def add (x y : SNum A) : SNum A := ⟨x.val.add y.val, (x.isZero && x.minus) && (y.isZero && y.minus)⟩

def sub (x y : SNum A) : SNum A := add x y.neg

def mul (x y : SNum A) : SNum A := ⟨x.val.mul y.val, x.sign != y.sign⟩

/-- Division by a zero takes its sign into account. -/
def div (x y : SNum A) : SNum A :=
  if y.isZero then
    match x.val with
    | .nan => ⟨.nan, false⟩
    | .inf n => ⟨.inf (n != y.minus), false⟩
    | .fin a => if a = 0 then ⟨.nan, false⟩ else ⟨.inf (decide (a < 0) != y.minus), false⟩
  else ⟨x.val.div y.val, x.sign != y.sign⟩

/-- Odd whole numbers. -/
def IsOdd (y : K) : Prop := ∃ n : Int, y = 2 * (n : K) + 1

open Classical in
/-- `pow`: odd powers of a negative number, -0.0 included, are negative. -/
noncomputable def pow (x y : SNum A) : SNum A :=
  let odd : Bool := match y.val with
    | .fin b => decide (IsOdd b)
    | _ => false
  if x.isZero ∧ x.minus ∧ odd ∧ y.val.isNeg then ⟨.inf true, false⟩
  else ⟨x.val.pow y.val, x.sign && odd⟩

/-- `sin` keeps zeros and their signs. -/
def sin (x : SNum A) : SNum A :=
  ⟨CxxFloat.sin x.val, match x.val with
    | .fin a => if a = 0 then x.minus else decide (A.sin a < 0)
    | _ => false⟩

noncomputable instance : CxxFloat (SNum A) where
  add := add
  sub := sub
  mul := mul
  div := div
  neg := neg
  zero := ⟨.fin 0, false⟩
  lit q := round A (q : K)
  nan := ⟨.nan, false⟩
  ofNat n := ⟨Num.round A (n : K), false⟩
  ofInt n := ⟨Num.round A (n : K), false⟩
  lt x y := x.val.lt y.val
  le x y := x.val.lt y.val || x.val.eq y.val
  eq x y := x.val.eq y.val
  abs x := ⟨x.val.abs, false⟩
  sqrt x := ⟨CxxFloat.sqrt x.val, x.isZero && x.minus⟩
  pow := pow
  sin := sin
  cos x := ⟨CxxFloat.cos x.val, match x.val with
    | .fin a => decide (A.cos a < 0)
    | _ => false⟩
  pi := ⟨CxxFloat.pi, false⟩
  e := ⟨CxxFloat.e, false⟩
  log x := ⟨CxxFloat.log x.val, match x.val with
    | .fin a => decide (A.log a < 0)
    | _ => false⟩

end SNum
end Bwsl
