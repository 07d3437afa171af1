import Verif.Cxx.Int64

/-!
# Model of include/bwsl/LinSpace.hpp at `T = long`

The conversions `static_cast<T>` of the unsigned counters are the identity below 2^63 and subtract 2^64 above.
-/

namespace Bwsl

/-- include/bwsl/LinSpace.hpp:58-74 at `T = long` -/
structure LinSpaceLong where
  current : Int
  first : Int
  last : Int
  stepsize : Int
  nsteps : Nat
  step : Nat
deriving DecidableEq

namespace LinSpaceLong

/-- LinSpace.hpp:83-93: constructor -/
def new (first last : Int) (steps : Nat) : Res LinSpaceLong :=
  if first < last then do
    let d ← lsub last first
    let s ← ldiv d (toLong steps)
    .ok ⟨first, first, last, s, steps, 0⟩
  else .ub .assertion

/-- LinSpace.hpp:39 `operator*` -/
def deref (s : LinSpaceLong) : Int := s.current

/-- LinSpace.hpp:104-111 `operator++` -/
def incr (s : LinSpaceLong) : Res LinSpaceLong := do
  let step := (s.step + 1) % W64
  let p ← lmul s.stepsize (toLong step)
  let c ← ladd s.first p
  .ok { s with step := step, current := c }

/-- LinSpace.hpp:95-102 `operator()`: the value and the new state -/
def call (s : LinSpaceLong) : Res (Int × LinSpaceLong) := do
  let s' ← s.incr
  .ok (s.current, s')

/-- LinSpace.hpp:122-130 `begin` -/
def begin (s : LinSpaceLong) : LinSpaceLong := { s with current := s.first, step := 0 }

/-- LinSpace.hpp:132-140 `end` -/
def «end» (s : LinSpaceLong) : LinSpaceLong := { s with current := s.last, step := s.nsteps }

/-- `std::generate_n(std::back_inserter(v), n, gen)` for a copy of the generator -/
def generateN (s : LinSpaceLong) : Nat → Res (List Int)
  | 0 => .ok []
  | n + 1 => do
    let r ← s.call
    let xs ← generateN r.2 n
    .ok (r.1 :: xs)

/-- LinSpace.hpp:142-150 `Collect` -/
def collect (s : LinSpaceLong) (n : Nat) : Res (List Int) := s.generateN n

end LinSpaceLong
end Bwsl
