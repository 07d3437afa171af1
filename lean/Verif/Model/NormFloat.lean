import Verif.Model.MathFloat
import Verif.Model.LogSpaceFloat

/-!
# `sum_squared` and `l2norm` of include/bwsl/MathUtils.hpp for containers of any floating-point type

`square` and `cube` at a floating-point type are `squareF` and `cubeF` of MathFloat.lean, for the arithmetic of that type.
-/

namespace Bwsl

variable {K : Type} [Field K] [LinearOrder K] [IsStrictOrderedRing K] [FloorRing K] {A : Arith K}

/-- include/bwsl/MathUtils.hpp:107-116 `sum_squared<Container, T>` where the elements have the arithmetic `A` and `T` has `B`:
`square<T>(x)` converts the element first. -/
def sumSquaredTo (B : Arith K) (v : List (Num A)) : Num B :=
  v.foldl (fun d x => d + squareF (x.convert B)) (CxxFloat.ofInt 0)

/-- include/bwsl/MathUtils.hpp:121-130 `l2norm` of a container with elements of arithmetic `A`; `B` is the one of `double`.
The call of `sqrt` is unqualified: it names `::sqrt(double)` only (`own = false`), or the overload for the type of the
elements (`own = true`), depending on the headers of the standard library. -/
def l2normIn (B : Arith K) (own : Bool) (v : List (Num A)) : Num B :=
  let d := v.foldl (fun d x => d + squareF x) CxxFloat.zero
  if own then (CxxFloat.sqrt d).convert B else CxxFloat.sqrt (d.convert B)

end Bwsl
