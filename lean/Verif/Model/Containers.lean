import Verif.Cxx.Int64

/-!
# Model of the integer container helpers of include/bwsl/MathUtils.hpp and of include/bwsl/Pairs.hpp

`std::vector<long>` is `List Int`, `std::vector<size_t>` is `List Nat`; loops over subscripts are
recursions over the lists.
-/

namespace Bwsl

/-- include/bwsl/MathUtils.hpp:44-50 `square`, at `size_t` -/
def squareU (x : Nat) : Nat := umul x x

/-- include/bwsl/MathUtils.hpp:44-50 `square`, at `long` -/
def squareL (x : Int) : Res Int := lmul x x

/-- include/bwsl/MathUtils.hpp:55-61 `cube`, at `size_t` -/
def cubeU (x : Nat) : Nat := umul (umul x x) x

/-- include/bwsl/MathUtils.hpp:55-61 `cube`, at `long` -/
def cubeL (x : Int) : Res Int := do
  let y ← lmul x x
  lmul y x

/-- include/bwsl/MathUtils.hpp:66-72 `accumulate_product`, at `std::vector<size_t>` -/
def accumulateProduct (v : List Nat) : Nat := v.foldl umul 1

/-- include/bwsl/MathUtils.hpp:77-82 `accumulate_sum`, at `std::vector<size_t>` -/
def accumulateSum (v : List Nat) : Nat := v.foldl uadd 0

/-- `std::accumulate(v.begin(), v.end(), acc, op)` in `long` -/
def foldLong (op : Int → Int → Res Int) : Int → List Int → Res Int
  | acc, [] => .ok acc
  | acc, x :: xs => do
    let acc ← op acc x
    foldLong op acc xs

/-- include/bwsl/MathUtils.hpp:66-72 `accumulate_product`, at `std::vector<long>` -/
def accumulateProductL (v : List Int) : Res Int := foldLong lmul 1 v

/-- include/bwsl/MathUtils.hpp:77-82 `accumulate_sum`, at `std::vector<long>` -/
def accumulateSumL (v : List Int) : Res Int := foldLong ladd 0 v

/-- include/bwsl/MathUtils.hpp:107-116 `sum_squared`, at `std::vector<long>` and `T = long`; also the loop of `l2norm`,
124-128 -/
def sumSquaredL (v : List Int) : Res Int :=
  foldLong (fun d x => do
    let y ← squareL x
    ladd d y) 0 v

/-- `std::transform(left.begin(), left.end(), right.begin(), left.begin(), op)`: reads one element of
`right` per element of `left`, past its end if it is shorter. -/
def transformInto (op : Int → Int → Res Int) : List Int → List Int → Res (List Int)
  | [], _ => .ok []
  | _ :: _, [] => .ub .outOfBounds
  | a :: as, b :: bs => do
    let c ← op a b
    let cs ← transformInto op as bs
    .ok (c :: cs)

/-- include/bwsl/MathUtils.hpp:245-255 `sum_into`, at `std::vector<long>`; the result is the new
content of `left` -/
def sumInto (left right : List Int) : Res (List Int) := transformInto ladd left right

/-- include/bwsl/MathUtils.hpp:260-270 `subtract_into`, at `std::vector<long>` -/
def subtractInto (left right : List Int) : Res (List Int) := transformInto lsub left right

/-- include/bwsl/MathUtils.hpp:275-283 `invert` and 288-296 `get_inverted`, at `std::vector<long>` -/
def invert : List Int → Res (List Int)
  | [] => .ok []
  | a :: as => do
    let x ← lneg a
    let xs ← invert as
    .ok (x :: xs)

/-- The loop of include/bwsl/MathUtils.hpp:315-318 from subscript `i` on. -/
def arrayToIndexLoop (index prod : Nat) : List Int → List Nat → Res Nat
  | _, [] => .ok index
  | [], _ :: _ => .ub .outOfBounds
  | a :: as, s :: ss => do
    let prod ← udiv prod s
    arrayToIndexLoop (uadd index (umul prod (toSize a))) prod as ss

/-- include/bwsl/MathUtils.hpp:301-321 `array_to_index`, coordinates of type `long` -/
def arrayToIndex (a : List Int) (size : List Nat) : Res Nat :=
  if a.length = size.length then
    arrayToIndexLoop 0 (accumulateProduct size) a size
  else
    .ub .assertion

/-- The loop of include/bwsl/MathUtils.hpp:339-343 from subscript `i` on; the result is the tail of
`result`. -/
def indexToArrayLoop (prod index : Nat) : List Nat → Res (List Int)
  | [] => .ok []
  | s :: ss => do
    let prod ← udiv prod s
    let q ← udiv index prod
    let index ← umod index prod
    let rest ← indexToArrayLoop prod index ss
    .ok (toLong q :: rest)

/-- include/bwsl/MathUtils.hpp:326-346 `index_to_array`, coordinates of type `long` -/
def indexToArray (index : Nat) (size : List Nat) : Res (List Int) :=
  indexToArrayLoop (accumulateProduct size) index size

namespace Pairs

/-- include/bwsl/Pairs.hpp:30-35 `GetPairIndex` -/
def getPairIndex (a b maxval : Nat) : Nat := uadd (umul b maxval) a

/-- include/bwsl/Pairs.hpp:40-45 `GetPairIndex` of a pair -/
def getPairIndexP (pair : Nat × Nat) (maxval : Nat) : Nat := getPairIndex pair.1 pair.2 maxval

/-- include/bwsl/Pairs.hpp:50-55 `GetPair` -/
def getPair (i maxval : Nat) : Res (Nat × Nat) := do
  let a ← umod i maxval
  let b ← udiv i maxval
  .ok (a, b)

/-- include/bwsl/Pairs.hpp:60-64 `GetNumPairs` -/
def getNumPairs (maxval : Nat) : Nat := squareU maxval

end Pairs
end Bwsl
