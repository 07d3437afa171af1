import Verif.Model.MathTypes
import Verif.Model.MathFloat

/-!
# Model of include/bwsl/MathUtils.hpp at `bool`

Operands of type `bool` are promoted to `int`, where 0, 1, and the results below are exact; a result of type `bool` is whether
the `int` is not 0.  `cbinomial<bool>` and `get_gcd<bool>` do not compile (`++` of a `bool`; two types for one parameter), nor
do `invert`, `get_inverted` and `l2norm` of `std::vector<bool>`, whose elements are no references to `bool`; they do for
`std::array<bool, N>`.
-/

namespace Bwsl.CBool

/-- Integral promotion of `bool` -/
def promote (b : Bool) : Int := if b then 1 else 0

/-- Conversion of an `int` or `size_t` to `bool` -/
def ofInt (z : Int) : Bool := decide (z ≠ 0)

/-- include/bwsl/MathUtils.hpp:44-50 `square` -/
def square (x : Bool) : Bool := ofInt (promote x * promote x)

/-- include/bwsl/MathUtils.hpp:55-61 `cube` -/
def cube (x : Bool) : Bool := ofInt (promote x * promote x * promote x)

/-- include/bwsl/MathUtils.hpp:66-72 `accumulate_product`: `std::multiplies<bool>` returns a `bool` -/
def accumulateProduct (v : List Bool) : Bool := v.foldl (fun d x => ofInt (promote d * promote x)) (ofInt 1)

/-- include/bwsl/MathUtils.hpp:77-82 `accumulate_sum`: the sum so far is stored as a `bool` -/
def accumulateSum (v : List Bool) : Bool := v.foldl (fun d x => ofInt (promote d + promote x)) (ofInt 0)

/-- include/bwsl/MathUtils.hpp:107-116 `sum_squared` with `T = bool` -/
def sumSquared (v : List Bool) : Bool := v.foldl (fun d x => ofInt (promote d + promote (square x))) (ofInt 0)

/-- include/bwsl/MathUtils.hpp:87-92 `max`: `*std::max_element` -/
def max : List Bool → Res Bool
  | [] => .ub .outOfBounds
  | x :: xs => .ok (xs.foldl (fun m y => if promote m < promote y then y else m) x)

/-- include/bwsl/MathUtils.hpp:97-102 `min`: `*std::min_element` -/
def min : List Bool → Res Bool
  | [] => .ub .outOfBounds
  | x :: xs => .ok (xs.foldl (fun m y => if promote y < promote m then y else m) x)

/-- include/bwsl/MathUtils.hpp:121-130 `l2norm`: the sum is a `bool`, its square root a `double` -/
def l2norm {F : Type} [CxxFloat F] (v : List Bool) : F :=
  let d := v.foldl (fun d x => ofInt (promote d + promote (square x))) (ofInt 0)
  CxxFloat.sqrt (CxxFloat.ofInt (promote d))

/-- include/bwsl/MathUtils.hpp:135-140 `sgn` -/
def sgn (x : Bool) : Int :=
  promote (decide (promote (ofInt 0) < promote x)) - promote (decide (promote x < promote (ofInt 0)))

/-- include/bwsl/MathUtils.hpp:145-150 `absdiff` -/
def absdiff (a b : Bool) : Bool := ofInt (if promote a > promote b then promote a - promote b else promote b - promote a)

/-- include/bwsl/MathUtils.hpp:155-165 `signeddiff`, `T = bool` and `R` any signed type, which has -1, 0 and 1 -/
def signeddiff (a b : Bool) : Int :=
  if promote a > promote b then promote a - promote b else -(promote b - promote a)

/-- `std::transform(left.begin(), left.end(), right.begin(), left.begin(), op)` -/
def transformInto (op : Int → Int → Int) : List Bool → List Bool → Res (List Bool)
  | [], _ => .ok []
  | _ :: _, [] => .ub .outOfBounds
  | a :: as, b :: bs => do
    let cs ← transformInto op as bs
    .ok (ofInt (op (promote a) (promote b)) :: cs)

/-- include/bwsl/MathUtils.hpp:245-255 `sum_into`; the result is the new content of `left` -/
def sumInto (left right : List Bool) : Res (List Bool) := transformInto (fun a b => a + b) left right

/-- include/bwsl/MathUtils.hpp:260-270 `subtract_into` -/
def subtractInto (left right : List Bool) : Res (List Bool) := transformInto (fun a b => a - b) left right

/-- include/bwsl/MathUtils.hpp:275-283 `invert` and 288-296 `get_inverted` -/
def invert (c : List Bool) : List Bool := c.map fun x => ofInt (-promote x)

/-- include/bwsl/MathUtils.hpp:301-321 `array_to_index`, coordinates of type `bool` -/
def arrayToIndex (a : List Bool) (size : List Nat) : Res Nat := CInt.arrayToIndex (a.map promote) size

/-- The loop of include/bwsl/MathUtils.hpp:339-343, coordinates of type `bool`. -/
def indexToArrayLoop (prod index : Nat) : List Nat → Res (List Bool)
  | [] => .ok []
  | s :: ss => do
    let prod ← udiv prod s
    let q ← udiv index prod
    let index ← umod index prod
    let rest ← indexToArrayLoop prod index ss
    .ok (ofInt q :: rest)

/-- include/bwsl/MathUtils.hpp:326-346 `index_to_array`, coordinates of type `bool` -/
def indexToArray (index : Nat) (size : List Nat) : Res (List Bool) :=
  indexToArrayLoop (Bwsl.accumulateProduct size) index size

end Bwsl.CBool
