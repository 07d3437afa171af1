import Verif.Cxx.IntTypes

/-!
# Model of include/bwsl/LinSpace.hpp at every integer type

The differences, quotients and products are computed in the promoted type and converted when they are stored in a `T`.
-/

namespace Bwsl

/-- include/bwsl/LinSpace.hpp:58-74 at an integer type -/
structure LinSpaceT where
  current : Int
  first : Int
  last : Int
  stepsize : Int
  nsteps : Nat
  step : Nat
deriving DecidableEq

namespace LinSpaceT

/-- LinSpace.hpp:83-93: constructor -/
def new (t : CInt) (first last : Int) (steps : Nat) : Res LinSpaceT :=
  if first < last then do
    let d ← t.sub last first
    let s ← t.div d (t.wrap steps)
    .ok ⟨first, first, last, t.wrap s, steps, 0⟩
  else .ub .assertion

/-- LinSpace.hpp:39 `operator*` -/
def deref (s : LinSpaceT) : Int := s.current

/-- LinSpace.hpp:104-111 `operator++` -/
def incr (t : CInt) (s : LinSpaceT) : Res LinSpaceT := do
  let step := (s.step + 1) % W64
  let p ← t.mul s.stepsize (t.wrap step)
  let c ← t.add s.first p
  .ok { s with step := step, current := t.wrap c }

/-- LinSpace.hpp:95-102 `operator()`: the value and the new state -/
def call (t : CInt) (s : LinSpaceT) : Res (Int × LinSpaceT) := do
  let s' ← s.incr t
  .ok (s.current, s')

/-- LinSpace.hpp:113-120 postfix `operator++`: the result and the new state -/
def postIncr (t : CInt) (s : LinSpaceT) : Res (LinSpaceT × LinSpaceT) := do
  let s' ← s.incr t
  .ok (s, s')

/-- LinSpace.hpp:122-130 `begin` -/
def begin (s : LinSpaceT) : LinSpaceT := { s with current := s.first, step := 0 }

/-- LinSpace.hpp:132-140 `end` -/
def «end» (s : LinSpaceT) : LinSpaceT := { s with current := s.last, step := s.nsteps }

/-- `std::generate_n(std::back_inserter(v), n, gen)` for a copy of the generator -/
def generateN (t : CInt) (s : LinSpaceT) : Nat → Res (List Int)
  | 0 => .ok []
  | n + 1 => do
    let r ← s.call t
    let xs ← generateN t r.2 n
    .ok (r.1 :: xs)

/-- LinSpace.hpp:142-150 `Collect` -/
def collect (t : CInt) (s : LinSpaceT) (n : Nat) : Res (List Int) := s.generateN t n

end LinSpaceT
end Bwsl
