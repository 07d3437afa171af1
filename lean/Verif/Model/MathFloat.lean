import Verif.Cxx.Float
import Verif.Cxx.Outcome
import Verif.Model.Containers

/-!
# Model of the floating-point functions of include/bwsl/MathUtils.hpp

A generator of random numbers appears only through the number it draws: `draw a b` is what
`std::uniform_real_distribution(a, b)` returns.
-/

namespace Bwsl
variable {F : Type} [CxxFloat F]

/-- `std::partial_sum(first, last, result)` (bits/stl_numeric.h): the list of results -/
def partialSums : List F → List F
  | [] => []
  | x :: xs => x :: go x xs
where
  /-- the loop, with the current sum -/
  go (acc : F) : List F → List F
  | [] => []
  | x :: xs => (acc + x) :: go (acc + x) xs

/-- `std::upper_bound(first, first + len, value)` (bits/stl_algo.h `__upper_bound`), as an offset: halving of
the interval -/
def stdUpperBound (xs : List F) (value : F) (first len : Nat) : Res Nat :=
  if len = 0 then .ok first
  else
    let half := len / 2
    match xs[first + half]? with
    | none => .ub .outOfBounds
    | some m =>
      if CxxFloat.lt value m then stdUpperBound xs value first half
      else stdUpperBound xs value (first + half + 1) (len - half - 1)
termination_by len
decreasing_by all_goals omega

/-- include/bwsl/MathUtils.hpp:217-229 `choose_between_psums` -/
def chooseBetweenPsums (comul : List F) (draw : F → F → F) : Res Nat :=
  match comul.getLast? with
  | none => .ub .outOfBounds
  | some back =>
    let rnd := draw CxxFloat.zero back
    stdUpperBound comul rnd 0 comul.length

/-- include/bwsl/MathUtils.hpp:196-212 `choose_between` -/
def chooseBetween (probs : List F) (draw : F → F → F) : Res Nat :=
  let comul := partialSums probs
  match comul.getLast? with
  | none => .ub .outOfBounds
  | some back =>
    let rnd := draw CxxFloat.zero back
    stdUpperBound comul rnd 0 comul.length

/-- include/bwsl/MathUtils.hpp:234-240 `choose_with_probability` -/
def chooseWithProbability (prob : F) (draw : F → F → F) : Bool :=
  CxxFloat.lt (draw CxxFloat.zero (CxxFloat.lit 1)) prob

/-- include/bwsl/MathUtils.hpp:403-409 `heaviside` -/
def heaviside (x : F) : F := if CxxFloat.le CxxFloat.zero x then CxxFloat.lit 1 else CxxFloat.zero

/-- include/bwsl/MathUtils.hpp:412-425 `heaviside2` -/
def heaviside2 (x : F) : F :=
  if CxxFloat.eq x CxxFloat.zero then CxxFloat.lit (1 / 2)
  else if CxxFloat.lt CxxFloat.zero x then CxxFloat.lit 1
  else CxxFloat.zero

/-- include/bwsl/MathUtils.hpp:429-436 `lerp`; the `1` is an `int`, converted -/
def lerp (a b t : F) : F := (CxxFloat.ofInt 1 - t) * a + t * b

/-- include/bwsl/MathUtils.hpp:438-447 `lerpi`, at `Integer = long` -/
def lerpi (i j : Int) (a b : F) : F :=
  let t := CxxFloat.ofInt i / CxxFloat.ofInt j
  lerp a b t

/-- include/bwsl/MathUtils.hpp:44-50 `square`, at `double` -/
def squareF (x : F) : F := x * x

/-- include/bwsl/MathUtils.hpp:55-61 `cube`, at `double` -/
def cubeF (x : F) : F := x * x * x

/-- include/bwsl/MathUtils.hpp:107-116 `sum_squared`, at `double` -/
def sumSquared (v : List F) : F := v.foldl (fun d x => d + squareF x) (CxxFloat.ofInt 0)

/-- include/bwsl/MathUtils.hpp:121-130 `l2norm`, for a container of `double` -/
def l2norm (v : List F) : F := CxxFloat.sqrt (v.foldl (fun d x => d + squareF x) CxxFloat.zero)

/-- include/bwsl/MathUtils.hpp:121-130 `l2norm`, for a container of `long`: the sum is a `long`, converted for the root -/
def l2normL (v : List Int) : Res F := do
  let d ← sumSquaredL v
  .ok (CxxFloat.sqrt (CxxFloat.ofInt d))

/-! ## `bwsl::upper_bound`

The range is a list and the iterators are positions in it.  The model is of the instantiation with raw
pointers, `const double*`: there the last call in the function can only be to the function itself.  With
the iterators of standard containers that call is ambiguous with `std::upper_bound`, found by
argument-dependent lookup, and the function does not compile. -/

/-- The variables of the loop. -/
structure SearchState where
  it : Int
  to' : Int
  count : Int

/-- Loop control: leaving the function, or going on. -/
inductive Search where
  | ret (pos : Int)
  | state (s : SearchState)

/-- dereference of an iterator -/
def deref (xs : List F) (i : Int) : Res F :=
  if i < 0 then .ub .outOfBounds
  else match xs[i.toNat]? with
    | some x => .ok x
    | none => .ub .outOfBounds

/-- include/bwsl/MathUtils.hpp:361-387: the body of the loop; `round` is `std::round` with the conversion to a
difference of iterators -/
def upperBoundBody (round : F → Res Int) (xs : List F) (value : F) (s : SearchState) : Res Search := do
  let itval ← deref xs s.it
  if CxxFloat.lt value itval then .ok (.ret s.it)
  else if !(CxxFloat.lt itval value) then .ok (.ret (s.it + 1))
  else do
    let toval ← deref xs s.to'
    if !(CxxFloat.lt value toval) then .ok (.ret (s.to' + 1))
    else do
      let np ← round ((value - itval) / (toval - itval) * CxxFloat.ofInt s.count)
      let nt := s.it + np
      let ntval ← deref xs nt
      let s := if !(CxxFloat.lt value ntval) then { s with it := nt + 1 } else { s with to' := nt - 1 }
      .ok (.state { s with count := s.to' - s.it })

/-- One pass through the condition of the loop. -/
def upperBoundStep (round : F → Res Int) (xs : List F) (value : F) : Search → Res Search
  | .ret p => .ok (.ret p)
  | .state s => upperBoundBody round xs value s

/-- Whether the loop goes on. -/
def Search.again : Search → Bool
  | .ret _ => false
  | .state s => decide (s.count > 10000)

/-- include/bwsl/MathUtils.hpp:352-389 `upper_bound(first, last, value)`, for raw pointers.  Positions outside
of the array of `n` elements and its end are not valid pointers. -/
def bwslUpperBound (round : F → Res Int) (xs : List F) (value : F) (first last : Int) : Res Int := do
  let count := last - first
  let to' := first + (count - 1)
  if to' < 0 then .ub .outOfBounds
  else do
    let r ← whileLoop Search.again (upperBoundStep round xs value) (.state ⟨first, to', count⟩)
    match r with
    | .ret p => .ok p
    | .state s => bwslUpperBound round xs value s.it (s.to' + 1)
partial_fixpoint

end Bwsl
