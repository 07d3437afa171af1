import Verif.Cxx.Float

/-!
# Model of include/bwsl/Approx.hpp

`operator<` and `operator>` are declared but not defined.
-/

namespace Bwsl

/-- include/bwsl/Approx.hpp:67-69 -/
structure Approx (F : Type) where
  value : F
  abs : F
  rel : F

/-- `std::max` -/
def stdMax {F : Type} [CxxFloat F] (a b : F) : F := if CxxFloat.lt a b then b else a

namespace Approx
variable {F : Type} [CxxFloat F]

/-- Approx.hpp:134-137: constructor; the default tolerances are on lines 68-69 -/
def new (val : F) : Approx F := ⟨val, CxxFloat.zero, CxxFloat.lit (1 / 2 ^ 52) * CxxFloat.ofInt 100⟩

/-- Approx.hpp:52-56 `SetAbs` -/
def setAbs (a : Approx F) (abs : F) : Approx F := { a with abs := CxxFloat.abs abs }

/-- Approx.hpp:59-63 `SetRel` -/
def setRel (a : Approx F) (rel : F) : Approx F := { a with rel := CxxFloat.abs rel }

/-- Approx.hpp:85-90 `operator==(double, Approx)` -/
def eqL (lhs : F) (rhs : Approx F) : Bool :=
  CxxFloat.le (CxxFloat.abs (lhs - rhs.value)) (stdMax rhs.abs (CxxFloat.abs (rhs.rel * rhs.value)))

/-- Approx.hpp:92-96 `operator==(Approx, double)` -/
def eqR (lhs : Approx F) (rhs : F) : Bool := eqL rhs lhs

/-- Approx.hpp:98-102 `operator!=(double, Approx)` -/
def neL (lhs : F) (rhs : Approx F) : Bool := !(eqL lhs rhs)

/-- Approx.hpp:104-108 `operator!=(Approx, double)` -/
def neR (lhs : Approx F) (rhs : F) : Bool := !(eqL rhs lhs)

/-- Approx.hpp:110-114 `operator<=(double, Approx)` -/
def leL (lhs : F) (rhs : Approx F) : Bool := CxxFloat.lt lhs rhs.value || eqL lhs rhs

/-- Approx.hpp:116-120 `operator<=(Approx, double)` -/
def leR (lhs : Approx F) (rhs : F) : Bool := CxxFloat.lt lhs.value rhs || eqR lhs rhs

/-- Approx.hpp:122-126 `operator>=(double, Approx)` -/
def geL (lhs : F) (rhs : Approx F) : Bool := CxxFloat.lt rhs.value lhs || eqL lhs rhs

/-- Approx.hpp:128-132 `operator>=(Approx, double)` -/
def geR (lhs : Approx F) (rhs : F) : Bool := CxxFloat.lt rhs lhs.value || eqR lhs rhs

end Approx
end Bwsl
