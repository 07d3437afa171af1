import Verif.Model.Spaces
import Verif.Cxx.Float

/-!
LogSpace<T> for a floating-point type `T` other than `double` (include/bwsl/LogSpace.hpp).

The calls of `log` and `pow` are unqualified.  Which functions they name depends on the headers of the standard
library: `::log(double)` and `::pow(double, double)` only (`own = false`), or the overloads for all floating-point
types (`own = true`).  `A` is the arithmetic of `T`, `B` the one of `double`, and `C` the one in which the quotient and
the power are computed: the one of `double` without the overloads, and of the wider of `T` and `double` with them.
All member functions but the constructors are those of Model/Spaces.lean, for the arithmetic of `T`.
-/

namespace Bwsl

variable {K : Type} [Field K] [LinearOrder K] [IsStrictOrderedRing K] [FloorRing K]

/-- Conversion between floating-point types: rounds to the nearest value, keeps infinities and NaN. -/
def Num.convert {A : Arith K} (B : Arith K) : Num A → Num B
  | .nan => .nan
  | .inf s => .inf s
  | .fin x => Num.round B x

namespace LogSpace

/-- LogSpace.hpp:103 and 115: `log(last_) - log(first_)`, as an operand of the division by a `double` -/
def logRatio {A : Arith K} (B C : Arith K) (own : Bool) (first last : Num A) : Num C :=
  if own then (CxxFloat.log last - CxxFloat.log first).convert C
  else (CxxFloat.log (last.convert B) - CxxFloat.log (first.convert B)).convert C

/-- LogSpace.hpp:103 and 115: the factor between values; `M_E` and `static_cast<double>(steps)` have type `double` -/
def factorIn {A : Arith K} (B C : Arith K) (own : Bool) (first last : Num A) (steps : Nat) : Num A :=
  (CxxFloat.pow ((CxxFloat.e : Num B).convert C)
    (logRatio B C own first last / (CxxFloat.ofNat steps : Num B).convert C)).convert A

/-- LogSpace.hpp:107-117: constructor from the interval -/
def newIn {A : Arith K} (B C : Arith K) (own : Bool) (first last : Num A) (steps : Nat) : Res (LogSpace (Num A)) :=
  if CxxFloat.lt first last then .ok ⟨factorIn B C own first last steps, first, first, last, steps, 0⟩
  else .ub .assertion

/-- LogSpace.hpp:95-105: constructor from exponents; the powers are computed in `double` and assigned to a `T` -/
def newPowIn (A : Arith K) {B : Arith K} (C : Arith K) (own : Bool) (start stop : Int) (steps : Nat) (base : Num B) :
    Res (LogSpace (Num A)) :=
  if start < stop then
    let first : Num A := (CxxFloat.pow base (CxxFloat.ofInt start)).convert A
    let last : Num A := (CxxFloat.pow base (CxxFloat.ofInt stop)).convert A
    .ok ⟨factorIn B C own first last steps, (CxxFloat.pow base (CxxFloat.ofInt start)).convert A, first, last, steps, 0⟩
  else .ub .assertion

end LogSpace
end Bwsl
