import Verif.Model.Contracted
import Verif.Model.NormFloat
import Verif.Model.DrawFormats

/-!
# `sum_squared`, `l2norm` and random draws of include/bwsl/MathUtils.hpp compiled with contraction, for any floating-point type

As in Contracted.lean: a product and the sum it is added to may be one fused operation.
-/

namespace Bwsl

variable {K : Type} [Field K] [LinearOrder K] [IsStrictOrderedRing K] [FloorRing K] {A : Arith K}

/-- include/bwsl/MathUtils.hpp:107-116 `sum_squared<Container, T>`; the product is in line 113, by the call of `square` -/
def sumSquaredToContracted (B : Arith K) (fused : Bool) (v : List (Num A)) : Num B :=
  v.foldl (fun d x => mulAdd fused (x.convert B) (x.convert B) d) (CxxFloat.ofInt 0)

/-- include/bwsl/MathUtils.hpp:121-130 `l2norm`; the product is in line 127, by the call of `square` -/
def l2normInContracted (B : Arith K) (own fused : Bool) (v : List (Num A)) : Num B :=
  let d := v.foldl (fun d x => mulAdd fused x x d) CxxFloat.zero
  if own then (CxxFloat.sqrt d).convert B else CxxFloat.sqrt (d.convert B)

section
variable {F : Type} [CxxFloat F] [CxxFma F]

/-- `std::generate_canonical<T, prec>` (see DrawFormats.lean); `sum += urng() * tmp` fused or not -/
def canonicalInContracted (fused : Bool) (prec w : Nat) (xs : List Nat) : F :=
  let s := canonicalLoopContracted fused (2 ^ w) xs CxxFloat.zero (CxxFloat.lit 1)
  let ret := s.1 / s.2
  if CxxFloat.le (CxxFloat.lit 1) ret then CxxFloat.lit (1 - 1 / 2 ^ prec) else ret

/-- `std::uniform_real_distribution<T>(a, b)` applied to an engine that returns `xs`: the loop of `generate_canonical` and
`canonical * (b - a) + a` fused or not -/
def drawInContracted (loop last : Bool) (prec w : Nat) (xs : List Nat) (a b : F) : F :=
  mulAdd last (canonicalInContracted loop prec w xs) (b - a) a

end

end Bwsl
