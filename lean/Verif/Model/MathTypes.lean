import Verif.Model.MathUtils
import Verif.Cxx.IntTypes

/-!
# Model of the integer functions of include/bwsl/MathUtils.hpp at every integer type

The type is a parameter `t`; containers are lists of values of the type.  `sgn`, `max` and `min` do not compute with
the values and are those of MathUtils.lean.
-/

namespace Bwsl.CInt

/-- include/bwsl/MathUtils.hpp:44-50 `square` -/
def square (t : CInt) (x : Int) : Res Int := do
  let y ← t.mul x x
  .ok (t.wrap y)

/-- include/bwsl/MathUtils.hpp:55-61 `cube`; the intermediate product has the promoted type -/
def cube (t : CInt) (x : Int) : Res Int := do
  let y ← t.mul x x
  let z ← t.mul y x
  .ok (t.wrap z)

/-- `std::accumulate(first, last, acc, op)` where every result is converted to the type of `acc` -/
def fold (t : CInt) (op : Int → Int → Res Int) : Int → List Int → Res Int
  | acc, [] => .ok acc
  | acc, x :: xs => do
    let y ← op acc x
    fold t op (t.wrap y) xs

/-- include/bwsl/MathUtils.hpp:66-72 `accumulate_product` -/
def accumulateProduct (t : CInt) (v : List Int) : Res Int := t.fold t.mul 1 v

/-- include/bwsl/MathUtils.hpp:77-82 `accumulate_sum` -/
def accumulateSum (t : CInt) (v : List Int) : Res Int := t.fold t.add 0 v

/-- include/bwsl/MathUtils.hpp:107-116 `sum_squared`, result type `t`; the elements, of any integer type, are converted.
With `t` the type of the elements also the loop of `l2norm`, 124-128 -/
def sumSquared (t : CInt) (v : List Int) : Res Int :=
  t.fold (fun d x => do
    let y ← t.square (t.wrap x)
    t.add d y) 0 v

/-- include/bwsl/MathUtils.hpp:145-150 `absdiff` -/
def absdiff (t : CInt) (a b : Int) : Res Int := do
  let d ← if a > b then t.sub a b else t.sub b a
  .ok (t.wrap d)

/-- include/bwsl/MathUtils.hpp:155-165 `signeddiff`, `T = t` unsigned and `R = r` signed.  The `?:` has the promoted
type of `r`. -/
def signeddiff (t r : CInt) (a b : Int) : Res Int :=
  if a > b then do
    let d ← t.sub a b
    .ok (r.wrap d)
  else do
    let d ← t.sub b a
    let n ← r.neg (r.wrap d)
    .ok (r.wrap n)

/-- include/bwsl/MathUtils.hpp:185-188: the body of the loop of `cbinomial`, with its `++i` -/
def cbinomialBody (t : CInt) (n : Int) (s : BinomState) : Res BinomState := do
  let n1 ← t.add n 1
  let f ← t.sub n1 s.i
  let p ← t.mul s.res f
  let q ← t.div (t.wrap p) s.i
  let i ← t.add s.i 1
  .ok ⟨t.wrap q, t.wrap i⟩

/-- include/bwsl/MathUtils.hpp:170-191 `cbinomial`: the value of `res` before its conversion to `double` -/
def cbinomial (t : CInt) (n k : Int) : Res Int :=
  if k > n then .ok 0
  else do
    let d ← t.sub n k
    -- `n - k` is evaluated a second time in the assignment, with the same value
    let k := if k > d then t.wrap d else k
    let s ← whileLoop (fun s => decide (s.i ≤ k)) (cbinomialBody t n) ⟨1, 1⟩
    .ok s.res

/-- include/bwsl/MathUtils.hpp:392-400 `get_gcd`, for types of at least 32 bits.  For a narrower one the arguments of the
recursive call have the types `T` and `int`, so that the template does not compile. -/
def getGcd (t : CInt) (a b : Int) : Res Int :=
  if b = 0 then .ok a
  else do
    let r ← t.mod a b
    getGcd t b r
partial_fixpoint

/-- `std::transform` with `std::plus<t>` or `std::minus<t>`, whose results are converted to `t` -/
def transformInto (t : CInt) (op : Int → Int → Res Int) : List Int → List Int → Res (List Int)
  | [], _ => .ok []
  | _ :: _, [] => .ub .outOfBounds
  | a :: as, b :: bs => do
    let c ← op a b
    let cs ← transformInto t op as bs
    .ok (t.wrap c :: cs)

/-- include/bwsl/MathUtils.hpp:245-255 `sum_into`: the new content of `left` -/
def sumInto (t : CInt) (left right : List Int) : Res (List Int) := t.transformInto t.add left right

/-- include/bwsl/MathUtils.hpp:260-270 `subtract_into` -/
def subtractInto (t : CInt) (left right : List Int) : Res (List Int) := t.transformInto t.sub left right

/-- include/bwsl/MathUtils.hpp:275-283 `invert` and 288-296 `get_inverted` -/
def invert (t : CInt) : List Int → Res (List Int)
  | [] => .ok []
  | a :: as => do
    let x ← t.neg a
    let xs ← invert t as
    .ok (t.wrap x :: xs)

/-- The loop of include/bwsl/MathUtils.hpp:315-318; `static_cast<size_t>` of a coordinate. -/
def arrayToIndexLoop (index prod : Nat) : List Int → List Nat → Res Nat
  | _, [] => .ok index
  | [], _ :: _ => .ub .outOfBounds
  | a :: as, s :: ss => do
    let prod ← udiv prod s
    arrayToIndexLoop (uadd index (umul prod (tSize.wrap a).toNat)) prod as ss

/-- include/bwsl/MathUtils.hpp:301-321 `array_to_index`, coordinates of any integer type -/
def arrayToIndex (a : List Int) (size : List Nat) : Res Nat :=
  if a.length = size.length then
    arrayToIndexLoop 0 (Bwsl.accumulateProduct size) a size
  else
    .ub .assertion

/-- The loop of include/bwsl/MathUtils.hpp:339-343, coordinates of type `t`. -/
def indexToArrayLoop (t : CInt) (prod index : Nat) : List Nat → Res (List Int)
  | [] => .ok []
  | s :: ss => do
    let prod ← udiv prod s
    let q ← udiv index prod
    let index ← umod index prod
    let rest ← indexToArrayLoop t prod index ss
    .ok (t.wrap q :: rest)

/-- include/bwsl/MathUtils.hpp:326-346 `index_to_array`, coordinates of type `t` -/
def indexToArray (t : CInt) (index : Nat) (size : List Nat) : Res (List Int) :=
  indexToArrayLoop t (Bwsl.accumulateProduct size) index size

end Bwsl.CInt
