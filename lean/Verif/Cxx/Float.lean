import Verif.Cxx.Int64
import Mathlib.Algebra.Order.Field.Basic
import Mathlib.Data.Int.Log
import Mathlib.Data.Rat.Cast.Order
import Mathlib.Data.Rat.Floor

/-!
# Floating-point numbers

Not a model of a particular file of /repo.  `CxxFloat F` lists the operations on `double` that the library
uses; the model is written over any `F` with these operations.  `Num A` implements them, IEEE 754 style,
from a way of rounding `A`: NaN, two infinities and finite values in an ordered field `K`.  Two ways of
rounding matter: exact arithmetic (`A.IsExact`) and binary64 with rounding to nearest, ties to even
(`A.IsBinary64`), the `double` of every supported platform.

Simplifications: there is a single zero (division of a nonzero number by zero gives the infinity with the
sign of the dividend), there is a single NaN, the rounding mode is the default one, and there are no
extended-precision intermediates (FLT_EVAL_METHOD = 0) and no fused multiply-adds.  The elementary functions
and the constants `M_PI` and `M_E` are correctly rounded.  `pow` has the special values of the C standard (F.10.4.4)
except that positive powers of -∞ are NaN, and that a negative number is only ever raised to an integer.
-/

namespace Bwsl

/-- The operations on `double` used by the library. -/
class CxxFloat (F : Type u) extends Add F, Sub F, Mul F, Div F, Neg F where
  /-- the literal `0.0` -/
  zero : F
  /-- a decimal literal -/
  lit : ℚ → F
  /-- `std::numeric_limits<double>::quiet_NaN()` -/
  nan : F
  /-- conversion from `size_t` -/
  ofNat : Nat → F
  /-- conversion from `long` -/
  ofInt : Int → F
  lt : F → F → Bool
  le : F → F → Bool
  eq : F → F → Bool
  abs : F → F
  sqrt : F → F
  log : F → F
  pow : F → F → F
  sin : F → F
  cos : F → F
  /-- `M_PI` -/
  pi : F
  /-- `M_E` -/
  e : F

/-- A way of rounding the exact results of operations: `none` is an overflow.  The other fields are the
exact elementary functions and the number π. -/
structure Arith (K : Type u) where
  rnd : K → Option K
  sqrt : K → K
  exp : K → K
  log : K → K
  pow : K → K → K
  sin : K → K
  cos : K → K
  pi : K

/-- Floating-point values. -/
inductive Num {K : Type u} (A : Arith K) where
  | nan
  /-- an infinity, negative if `neg` -/
  | inf (neg : Bool)
  | fin (x : K)
  deriving DecidableEq

namespace Num
variable {K : Type u} [Field K] [LinearOrder K] {A : Arith K}

/-- The rounding of an exact result. -/
def round (A : Arith K) (x : K) : Num A :=
  match A.rnd x with
  | some y => fin y
  | none => inf (decide (x < 0))

def isNeg : Num A → Bool
  | nan => false
  | inf n => n
  | fin x => decide (x < 0)

def neg : Num A → Num A
  | nan => nan
  | inf n => inf (!n)
  | fin x => fin (-x)

def add : Num A → Num A → Num A
  | fin x, fin y => round A (x + y)
  | inf n, inf m => if n = m then inf n else nan
  | inf n, fin _ => inf n
  | fin _, inf m => inf m
  | nan, _ => nan
  | _, nan => nan

def sub (x y : Num A) : Num A := add x (neg y)

def mul : Num A → Num A → Num A
  | fin x, fin y => round A (x * y)
  | inf n, inf m => inf (n != m)
  | inf n, fin y => if y = 0 then nan else inf (n != decide (y < 0))
  | fin x, inf m => if x = 0 then nan else inf (decide (x < 0) != m)
  | nan, _ => nan
  | _, nan => nan

def div : Num A → Num A → Num A
  | fin x, fin y =>
    if y = 0 then (if x = 0 then nan else inf (decide (x < 0))) else round A (x / y)
  | inf _, inf _ => nan
  | inf n, fin y => inf (n != decide (y < 0))
  | fin _, inf _ => fin 0
  | nan, _ => nan
  | _, nan => nan

def lt : Num A → Num A → Bool
  | fin x, fin y => decide (x < y)
  | inf n, inf m => n && !m
  | inf n, fin _ => n
  | fin _, inf m => !m
  | nan, _ => false
  | _, nan => false

def eq : Num A → Num A → Bool
  | fin x, fin y => decide (x = y)
  | inf n, inf m => n == m
  | _, _ => false

def abs : Num A → Num A
  | nan => nan
  | inf _ => inf false
  | fin x => fin |x|

/-- a real function with domain `dom`; `atInf` and `atNegInf` are its values at the infinities -/
def unary (dom : K → Bool) (f : K → K) (atInf atNegInf : Num A) : Num A → Num A
  | nan => nan
  | inf n => if n then atNegInf else atInf
  | fin x => if dom x then round A (f x) else nan

/-- `pow` -/
def pow (x y : Num A) : Num A :=
  if y = fin 0 ∨ x = fin 1 then fin 1
  else match x, y with
    | nan, _ => nan
    | _, nan => nan
    | fin x, fin y => if x = 0 ∧ y < 0 then inf false else round A (A.pow x y)
    | fin x, inf n => if x = -1 then fin 1 else if decide (|x| < 1) = n then inf false else fin 0
    | inf n, fin y => if y < 0 then fin 0 else if n then nan else inf false
    | inf _, inf m => if m then fin 0 else inf false

instance : CxxFloat (Num A) where
  add := add
  sub := sub
  mul := mul
  div := div
  neg := neg
  zero := fin 0
  lit q := round A (q : K)
  nan := nan
  ofNat n := round A (n : K)
  ofInt n := round A (n : K)
  lt := lt
  le x y := lt x y || eq x y
  eq := eq
  abs := abs
  sqrt := unary (fun x => decide (0 ≤ x)) A.sqrt (inf false) nan
  pow := pow
  sin := unary (fun _ => true) A.sin nan nan
  cos := unary (fun _ => true) A.cos nan nan
  pi := round A A.pi
  e := round A (A.exp 1)
  log x := if x = fin 0 then inf true else unary (fun x => decide (0 < x)) A.log (inf false) nan x

end Num

/-- Exact arithmetic: no rounding and no overflow. -/
def Arith.IsExact (A : Arith K) : Prop := ∀ x, A.rnd x = some x

section binary64
variable {K : Type u} [Field K] [LinearOrder K] [IsStrictOrderedRing K] [FloorRing K]

/-- The integer nearest to `x`, the even one if there are two. -/
def rint (x : K) : Int :=
  let d := x - ⌊x⌋
  if d < 1 / 2 then ⌊x⌋
  else if 1 / 2 < d then ⌊x⌋ + 1
  else if ⌊x⌋ % 2 = 0 then ⌊x⌋ else ⌊x⌋ + 1

/-- The exponent of the unit in the last place: 53 significant bits, and nothing below 2^-1074. -/
def ulpExp (x : K) : Int := max (Int.log 2 |x| - 52) (-1074)

/-- Rounding to 53 significant bits, to nearest, ties to even, with gradual underflow and without a limit on
large exponents. -/
def rn (x : K) : K := (rint (x / (2 : K) ^ ulpExp x) : K) * (2 : K) ^ ulpExp x

/-- Rounding to binary64: an overflow if the rounded value is not below 2^1024. -/
def rnd64 (x : K) : Option K := if |rn x| < (2 : K) ^ (1024 : Int) then some (rn x) else none

/-- binary64 arithmetic, round to nearest, ties to even. -/
def Arith.IsBinary64 (A : Arith K) : Prop := ∀ x, A.rnd x = rnd64 x

end binary64

/-- The values of `double`: at most 53 significant bits and an exponent of at least -1074 (the bound on
large exponents is stated separately). -/
def Spec.Double {K : Type u} [Field K] (x : K) : Prop :=
  ∃ (m : Int) (e : Int), |m| ≤ 2 ^ 53 ∧ -1074 ≤ e ∧ x = m * (2 : K) ^ e

end Bwsl
