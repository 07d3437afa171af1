import Verif.Cxx.Float
import Verif.Cxx.Outcome
import Verif.Model.MathFloat

/-!
# Model of include/bwsl/MathUtils.hpp for containers of floating-point numbers

`T` is `float`, `double` or `long double`; containers are lists.  `std::max_element` and
`std::min_element` require a strict weak ordering, which `<` is not if there are NaN; the model makes the comparisons of the
standard library in order, as libstdc++ and libc++ do.  Operations are rounded to `T` (FLT_EVAL_METHOD 0).
-/

namespace Bwsl
variable {F : Type} [CxxFloat F]

/-- include/bwsl/MathUtils.hpp:77-82 `accumulate_sum`: `std::accumulate` from `static_cast<T>(0)` -/
def accumulateSumF (v : List F) : F := v.foldl (fun acc x => acc + x) (CxxFloat.ofInt 0)

/-- include/bwsl/MathUtils.hpp:66-72 `accumulate_product`: `std::accumulate` from `static_cast<T>(1)` with `std::multiplies` -/
def accumulateProductF (v : List F) : F := v.foldl (fun acc x => acc * x) (CxxFloat.ofInt 1)

/-- include/bwsl/MathUtils.hpp:87-92 `max`: `*std::max_element`, which replaces the largest element so far by one that it
compares less than -/
def maxF : List F → Res F
  | [] => .ub .outOfBounds
  | x :: xs => .ok (xs.foldl (fun m y => if CxxFloat.lt m y then y else m) x)

/-- include/bwsl/MathUtils.hpp:97-102 `min`: `*std::min_element` -/
def minF : List F → Res F
  | [] => .ub .outOfBounds
  | x :: xs => .ok (xs.foldl (fun m y => if CxxFloat.lt y m then y else m) x)

/-- include/bwsl/MathUtils.hpp:135-140 `sgn` -/
def sgnF (val : F) : Int :=
  (if CxxFloat.lt (CxxFloat.ofInt 0) val then 1 else 0) - (if CxxFloat.lt val (CxxFloat.ofInt 0) then 1 else 0)

/-- include/bwsl/MathUtils.hpp:145-150 `absdiff` -/
def absdiffF (a b : F) : F := if CxxFloat.lt b a then a - b else b - a

/-- `std::transform(left.begin(), left.end(), right.begin(), left.begin(), op)`: reads one element of `right` per element of
`left`, past its end if it is shorter -/
def transformIntoF (op : F → F → F) : List F → List F → Res (List F)
  | [], _ => .ok []
  | _ :: _, [] => .ub .outOfBounds
  | a :: as, b :: bs => do
    let cs ← transformIntoF op as bs
    .ok (op a b :: cs)

/-- include/bwsl/MathUtils.hpp:245-255 `sum_into`; the result is the new content of `left` -/
def sumIntoF (left right : List F) : Res (List F) := transformIntoF (fun a b => a + b) left right

/-- include/bwsl/MathUtils.hpp:260-270 `subtract_into` -/
def subtractIntoF (left right : List F) : Res (List F) := transformIntoF (fun a b => a - b) left right

/-- include/bwsl/MathUtils.hpp:275-283 `invert` and 288-296 `get_inverted` -/
def invertF (c : List F) : List F := c.map (fun x => -x)

end Bwsl
