import Verif.Cxx.Int64

/-!
# The integer types

An integer type is a number of bits and a signedness; its values are `Int`s.  Operands narrower than `int` are promoted to
`int` ([conv.prom]), so that arithmetic on `short` and on `unsigned short` is done in `int`, and the result is converted when
it is stored.  Conversions are modular (GCC, Clang and C++20).  Arithmetic in a signed type is undefined out of range, in
an unsigned one it is modular.  `bool` is left out.  Not a model of a particular file of /repo.
-/

namespace Bwsl

/-- An integer type. -/
structure CInt where
  bits : Nat
  signed : Bool
  deriving DecidableEq, Repr

namespace CInt

/-- `long` -/
def tLong : CInt := ⟨64, true⟩
/-- `size_t` -/
def tSize : CInt := ⟨64, false⟩
/-- `int` -/
def tInt : CInt := ⟨32, true⟩
/-- `unsigned int` -/
def tUInt : CInt := ⟨32, false⟩
/-- `short` -/
def tShort : CInt := ⟨16, true⟩
/-- `unsigned short` -/
def tUShort : CInt := ⟨16, false⟩
/-- `signed char` -/
def tSChar : CInt := ⟨8, true⟩
/-- `unsigned char` -/
def tUChar : CInt := ⟨8, false⟩

/-- The smallest value. -/
def lo (t : CInt) : Int := if t.signed then -(2 ^ (t.bits - 1)) else 0
/-- One more than the largest value. -/
def hi (t : CInt) : Int := if t.signed then 2 ^ (t.bits - 1) else 2 ^ t.bits

/-- The value is one of the type. -/
def Has (t : CInt) (x : Int) : Prop := t.lo ≤ x ∧ x < t.hi

instance (t : CInt) (x : Int) : Decidable (t.Has x) := inferInstanceAs (Decidable (_ ∧ _))

/-- `static_cast<t>(x)` of an integer: the value of the type that is congruent modulo 2^bits, [conv.integral] -/
def wrap (t : CInt) (x : Int) : Int := (x - t.lo) % 2 ^ t.bits + t.lo

/-- The integral promotion, [conv.prom]; also the common type of a `t` and an `int` constant. -/
def promote (t : CInt) : CInt := if t.bits < 32 then tInt else t

/-- The result of an operation in type `p` with exact value `x`. -/
def arith (p : CInt) (x : Int) : Res Int :=
  if p.signed then (if p.Has x then .ok x else .ub .signedOverflow) else .ok (p.wrap x)

/-- `a + b` of operands of type `t`; the result has the promoted type. -/
def add (t : CInt) (a b : Int) : Res Int := t.promote.arith (a + b)
/-- `a - b` -/
def sub (t : CInt) (a b : Int) : Res Int := t.promote.arith (a - b)
/-- `a * b` -/
def mul (t : CInt) (a b : Int) : Res Int := t.promote.arith (a * b)
/-- `-a` -/
def neg (t : CInt) (a : Int) : Res Int := t.promote.arith (-a)
/-- `a / b` -/
def div (t : CInt) (a b : Int) : Res Int := if b = 0 then .ub .divByZero else t.promote.arith (Int.tdiv a b)
/-- `a % b`; undefined also if `a / b` is -/
def mod (t : CInt) (a b : Int) : Res Int :=
  if b = 0 then .ub .divByZero
  else do
    let _ ← t.promote.arith (Int.tdiv a b)
    .ok (Int.tmod a b)

end CInt
end Bwsl
