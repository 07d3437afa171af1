import Verif.Cxx.Text

/-!
# 32-bit `int`

As `long` in Int64.lean: values are `Int`s in `[-2^31, 2^31)` and every operation is range checked.  Not a model of a
particular file of /repo.
-/

namespace Bwsl

/-- 2^31 -/
notation "H31" => (2147483648 : Int)

/-- The value is an `int`. -/
def InInt (x : Int) : Prop := -H31 ≤ x ∧ x < H31

instance (x : Int) : Decidable (InInt x) := inferInstanceAs (Decidable (_ ∧ _))

/-- Result of an `int` computation with exact value `x`: undefined unless representable. -/
def int (x : Int) : Res Int := if InInt x then .ok x else .ub .signedOverflow

/-- `a + b` -/
def iadd (a b : Int) : Res Int := int (a + b)
/-- `a - b` -/
def isub (a b : Int) : Res Int := int (a - b)
/-- `a * b` -/
def imul (a b : Int) : Res Int := int (a * b)
/-- `a / b`, truncating; undefined for `b = 0` and for `INT_MIN / -1` -/
def idiv (a b : Int) : Res Int := if b = 0 then .ub .divByZero else int (Int.tdiv a b)
/-- `a % b`, sign of the dividend; undefined for `b = 0` and for `INT_MIN % -1` -/
def imod (a b : Int) : Res Int :=
  if b = 0 then .ub .divByZero
  else if InInt (Int.tdiv a b) then .ok (Int.tmod a b) else .ub .signedOverflow

/-- `in >> x` for an `int x` with the given old value: a `long` is read and clamped, [istream.formatted.arithmetic] -/
def IStream.readInt (st : IStream) (old : Int) : Int × IStream :=
  let (v, st) := st.readLong old
  if v < -H31 then (-H31, ⟨st.rest, true⟩)
  else if H31 ≤ v then (H31 - 1, ⟨st.rest, true⟩)
  else (v, st)

end Bwsl
