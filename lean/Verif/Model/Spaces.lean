import Verif.Cxx.Float
import Verif.Cxx.Outcome

/-!
# Model of include/bwsl/LinSpace.hpp and include/bwsl/LogSpace.hpp, at `T = double`

The comparison operators of `LinSpace` are declared as friends that are never defined, so that a program
using them does not link; they are not modelled.
-/

namespace Bwsl

/-- include/bwsl/LinSpace.hpp:58-74 -/
structure LinSpace (F : Type) where
  current : F
  first : F
  last : F
  stepsize : F
  nsteps : Nat
  step : Nat

namespace LinSpace
variable {F : Type} [CxxFloat F]

/-- LinSpace.hpp:83-93: constructor -/
def new (first last : F) (steps : Nat) : Res (LinSpace F) :=
  if CxxFloat.lt first last then
    .ok ⟨first, first, last, (last - first) / CxxFloat.ofNat steps, steps, 0⟩
  else .ub .assertion

/-- LinSpace.hpp:39 `operator*` -/
def deref (s : LinSpace F) : F := s.current

/-- LinSpace.hpp:104-111 `operator++` -/
def incr (s : LinSpace F) : LinSpace F :=
  let step := (s.step + 1) % W64
  { s with step := step, current := s.first + s.stepsize * CxxFloat.ofNat step }

/-- LinSpace.hpp:95-102 `operator()`: the value and the new state -/
def call (s : LinSpace F) : F × LinSpace F := (s.current, s.incr)

/-- LinSpace.hpp:113-120 postfix `operator++`: the result and the new state -/
def postIncr (s : LinSpace F) : LinSpace F × LinSpace F := (s, s.incr)

/-- LinSpace.hpp:122-130 `begin` -/
def begin (s : LinSpace F) : LinSpace F := { s with current := s.first, step := 0 }

/-- LinSpace.hpp:132-140 `end` -/
def «end» (s : LinSpace F) : LinSpace F := { s with current := s.last, step := s.nsteps }

/-- `std::generate_n(std::back_inserter(v), n, gen)` for a copy of the generator -/
def generateN (s : LinSpace F) : Nat → List F
  | 0 => []
  | n + 1 => s.call.1 :: generateN s.call.2 n

/-- LinSpace.hpp:142-150 `Collect`; the object itself is copied and not changed -/
def collect (s : LinSpace F) (n : Nat) : List F := s.generateN n

end LinSpace

/-- include/bwsl/LogSpace.hpp:64-80 -/
structure LogSpace (F : Type) where
  base : F
  current : F
  first : F
  last : F
  nsteps : Nat
  step : Nat

namespace LogSpace
variable {F : Type} [CxxFloat F]

/-- LogSpace.hpp:103 and 115: the factor between values -/
def factor (first last : F) (steps : Nat) : F :=
  CxxFloat.pow CxxFloat.e ((CxxFloat.log last - CxxFloat.log first) / CxxFloat.ofNat steps)

/-- LogSpace.hpp:107-117: constructor from the interval -/
def new (first last : F) (steps : Nat) : Res (LogSpace F) :=
  if CxxFloat.lt first last then .ok ⟨factor first last steps, first, first, last, steps, 0⟩
  else .ub .assertion

/-- LogSpace.hpp:95-105: constructor from exponents -/
def newPow (start stop : Int) (steps : Nat) (base : F) : Res (LogSpace F) :=
  if start < stop then
    let first := CxxFloat.pow base (CxxFloat.ofInt start)
    let last := CxxFloat.pow base (CxxFloat.ofInt stop)
    .ok ⟨factor first last steps, CxxFloat.pow base (CxxFloat.ofInt start), first, last, steps, 0⟩
  else .ub .assertion

/-- LogSpace.hpp:45 `operator*` -/
def deref (s : LogSpace F) : F := s.current

/-- LogSpace.hpp:128-135 `operator++` -/
def incr (s : LogSpace F) : LogSpace F := { s with current := s.current * s.base, step := (s.step + 1) % W64 }

/-- LogSpace.hpp:119-126 `operator()`: the value and the new state -/
def call (s : LogSpace F) : F × LogSpace F := (s.current, s.incr)

/-- LogSpace.hpp:137-144 postfix `operator++`: the result and the new state -/
def postIncr (s : LogSpace F) : LogSpace F × LogSpace F := (s, s.incr)

/-- LogSpace.hpp:146-154 `begin` -/
def begin (s : LogSpace F) : LogSpace F := { s with current := s.first, step := 0 }

/-- LogSpace.hpp:156-164 `end` -/
def «end» (s : LogSpace F) : LogSpace F := { s with current := s.last, step := s.nsteps }

/-- LogSpace.hpp:83-86 `operator==` -/
def eq (a b : LogSpace F) : Bool := a.step == b.step

/-- LogSpace.hpp:89-92 `operator!=` -/
def ne (a b : LogSpace F) : Bool := !(eq a b)

/-- `std::generate_n(std::back_inserter(v), n, gen)` for a copy of the generator -/
def generateN (s : LogSpace F) : Nat → List F
  | 0 => []
  | n + 1 => s.call.1 :: generateN s.call.2 n

/-- LogSpace.hpp:166-174 `Collect` -/
def collect (s : LogSpace F) (n : Nat) : List F := s.generateN n

/-- The values seen by `for (auto x : space)`: a loop over `begin()`, `end()`, `!=`, `++` and `*`.  Not a model
of a function of the library. -/
def visit (s : LogSpace F) : Res (List F) := do
  let r ← whileLoop (fun st : LogSpace F × List F => ne st.1 s.end)
    (fun st => .ok (st.1.incr, st.2 ++ [st.1.deref])) (s.begin, [])
  .ok r.2

end LogSpace
end Bwsl
