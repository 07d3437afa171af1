import Verif.Model.Containers

/-!
# Model of the scalar integer functions of include/bwsl/MathUtils.hpp
-/

namespace Bwsl

/-- The state of the loop of `cbinomial`. -/
structure BinomState where
  res : Int
  i : Int
  deriving DecidableEq, Repr

/-- include/bwsl/MathUtils.hpp:185-188: the body of the loop, with its `++i` -/
def cbinomialBody (n : Int) (s : BinomState) : Res BinomState := do
  let n1 ← ladd n 1
  let f ← lsub n1 s.i
  let r ← lmul s.res f
  let r ← ldiv r s.i
  let i ← ladd s.i 1
  .ok ⟨r, i⟩

/-- include/bwsl/MathUtils.hpp:170-191 `cbinomial`, at `T = long`.  The result is the value of `res`
before its conversion to `double` in the `return` statement. -/
def cbinomial (n k : Int) : Res Int :=
  if k > n then .ok 0
  else do
    let d ← lsub n k
    -- `n - k` is evaluated a second time in the assignment, with the same value
    let k := if k > d then d else k
    let s ← whileLoop (fun s => decide (s.i ≤ k)) (cbinomialBody n) ⟨1, 1⟩
    .ok s.res

/-- include/bwsl/MathUtils.hpp:392-400 `get_gcd`, at `T = long` -/
def getGcd (a b : Int) : Res Int :=
  if b = 0 then .ok a
  else do
    let r ← lmod a b
    getGcd b r
partial_fixpoint

/-- include/bwsl/MathUtils.hpp:145-150 `absdiff`, at `size_t` -/
def absdiffU (a b : Nat) : Nat := if a > b then usub a b else usub b a

/-- include/bwsl/MathUtils.hpp:145-150 `absdiff`, at `long` -/
def absdiffL (a b : Int) : Res Int := if a > b then lsub a b else lsub b a

/-- include/bwsl/MathUtils.hpp:155-165 `signeddiff`, at `T = size_t`, `R = long` -/
def signeddiff (a b : Nat) : Res Int :=
  if a > b then .ok (toLong (usub a b)) else lneg (toLong (usub b a))

/-- include/bwsl/MathUtils.hpp:135-140 `sgn`, over any type with an order and a zero -/
def sgn [LT α] [DecidableRel (α := α) (· < ·)] [Zero α] (val : α) : Int :=
  (if 0 < val then 1 else 0) - (if val < 0 then 1 else 0)

/-- `*std::max_element(first, last)`: the first largest element, kept in an accumulator; dereferences
`end()` on an empty range -/
def maxElement [LT α] [DecidableRel (α := α) (· < ·)] : List α → Res α
  | [] => .ub .outOfBounds
  | x :: xs => .ok (xs.foldl (fun m y => if m < y then y else m) x)

/-- `*std::min_element(first, last)` -/
def minElement [LT α] [DecidableRel (α := α) (· < ·)] : List α → Res α
  | [] => .ub .outOfBounds
  | x :: xs => .ok (xs.foldl (fun m y => if y < m then y else m) x)

/-- include/bwsl/MathUtils.hpp:87-92 `max` -/
def maxOf [LT α] [DecidableRel (α := α) (· < ·)] (v : List α) : Res α := maxElement v
/-- include/bwsl/MathUtils.hpp:97-102 `min` -/
def minOf [LT α] [DecidableRel (α := α) (· < ·)] (v : List α) : Res α := minElement v

end Bwsl
