import Verif.Cxx.IntTypes
import Verif.Model.Spaces

/-!
# Model of include/bwsl/LogSpace.hpp at every integer type

The powers and logarithms are computed in `double`.  Results of type `double` are converted to `T` when they are stored in a
data member, [conv.fpint]: the fraction is dropped, and the conversion is undefined if the whole part is not a value of `T`.
Products of two `T` are computed in the promoted type and converted when they are stored.
-/

namespace Bwsl

/-- The whole part of a finite floating-point number. -/
class CxxTrunc (F : Type u) where
  trunc : F → Option Int

/-- The whole part, towards zero. -/
def Num.trunc {K : Type u} [Field K] [LinearOrder K] [FloorRing K] {A : Arith K} : Num A → Option Int
  | .fin x => some (if 0 ≤ x then ⌊x⌋ else ⌈x⌉)
  | _ => none

instance {K : Type u} [Field K] [LinearOrder K] [FloorRing K] {A : Arith K} : CxxTrunc (Num A) := ⟨Num.trunc⟩

/-- The conversion of a `double` to an integer type, [conv.fpint] -/
def CInt.ofFloat {F : Type} [CxxTrunc F] (t : CInt) (x : F) : Res Int :=
  match CxxTrunc.trunc x with
  | some n => if t.Has n then .ok n else .ub .floatToInt
  | none => .ub .floatToInt

/-- include/bwsl/LogSpace.hpp:64-80 at an integer type -/
structure LogSpaceT where
  base : Int
  current : Int
  first : Int
  last : Int
  nsteps : Nat
  step : Nat
deriving DecidableEq

namespace LogSpaceT

/-- LogSpace.hpp:103 and 115: the factor between values; the logarithms are those of the integers converted to `double` -/
def factor (F : Type) [CxxFloat F] [CxxTrunc F] (t : CInt) (first last : Int) (steps : Nat) : Res Int :=
  t.ofFloat (LogSpace.factor (CxxFloat.ofInt first : F) (CxxFloat.ofInt last) steps)

/-- LogSpace.hpp:107-117: constructor from the interval -/
def new (F : Type) [CxxFloat F] [CxxTrunc F] (t : CInt) (first last : Int) (steps : Nat) : Res LogSpaceT :=
  if first < last then do
    let base ← factor F t first last steps
    .ok ⟨base, first, first, last, steps, 0⟩
  else .ub .assertion

/-- LogSpace.hpp:95-105: constructor from exponents -/
def newPow {F : Type} [CxxFloat F] [CxxTrunc F] (t : CInt) (start stop : Int) (steps : Nat) (base : F) : Res LogSpaceT :=
  if start < stop then do
    let first ← t.ofFloat (CxxFloat.pow base (CxxFloat.ofInt start))
    let last ← t.ofFloat (CxxFloat.pow base (CxxFloat.ofInt stop))
    let factor ← factor F t first last steps
    let current ← t.ofFloat (CxxFloat.pow base (CxxFloat.ofInt start))
    .ok ⟨factor, current, first, last, steps, 0⟩
  else .ub .assertion

/-- LogSpace.hpp:45 `operator*` -/
def deref (s : LogSpaceT) : Int := s.current

/-- LogSpace.hpp:128-135 `operator++` -/
def incr (t : CInt) (s : LogSpaceT) : Res LogSpaceT := do
  let c ← t.mul s.current s.base
  .ok { s with current := t.wrap c, step := (s.step + 1) % W64 }

/-- LogSpace.hpp:119-126 `operator()`: the value and the new state -/
def call (t : CInt) (s : LogSpaceT) : Res (Int × LogSpaceT) := do
  let s' ← s.incr t
  .ok (s.current, s')

/-- LogSpace.hpp:137-144 postfix `operator++`: the result and the new state -/
def postIncr (t : CInt) (s : LogSpaceT) : Res (LogSpaceT × LogSpaceT) := do
  let s' ← s.incr t
  .ok (s, s')

/-- LogSpace.hpp:146-154 `begin` -/
def begin (s : LogSpaceT) : LogSpaceT := { s with current := s.first, step := 0 }

/-- LogSpace.hpp:156-164 `end` -/
def «end» (s : LogSpaceT) : LogSpaceT := { s with current := s.last, step := s.nsteps }

/-- LogSpace.hpp:83-86 `operator==` -/
def eq (a b : LogSpaceT) : Bool := a.step == b.step

/-- LogSpace.hpp:89-92 `operator!=` -/
def ne (a b : LogSpaceT) : Bool := !(eq a b)

/-- `std::generate_n(std::back_inserter(v), n, gen)` for a copy of the generator -/
def generateN (t : CInt) (s : LogSpaceT) : Nat → Res (List Int)
  | 0 => .ok []
  | n + 1 => do
    let r ← s.call t
    let xs ← generateN t r.2 n
    .ok (r.1 :: xs)

/-- LogSpace.hpp:166-174 `Collect` -/
def collect (t : CInt) (s : LogSpaceT) (n : Nat) : Res (List Int) := s.generateN t n

/-- The values seen by `for (auto x : space)`: a loop over `begin()`, `end()`, `!=`, `++` and `*`.  Not a model
of a function of the library. -/
def visit (t : CInt) (s : LogSpaceT) : Res (List Int) := do
  let r ← whileLoop (fun st : LogSpaceT × List Int => ne st.1 s.end)
    (fun st => do
      let s' ← st.1.incr t
      .ok (s', st.2 ++ [st.1.deref])) (s.begin, [])
  .ok r.2

end LogSpaceT
end Bwsl
