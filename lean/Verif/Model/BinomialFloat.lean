import Verif.Model.MathFloat
import Verif.Model.LogSpaceFloat

/-!
# `cbinomial` of include/bwsl/MathUtils.hpp for floating-point arguments
-/

namespace Bwsl

variable {K : Type} [Field K] [LinearOrder K] [IsStrictOrderedRing K] [FloorRing K] {A : Arith K}

/-- The state of the loop of `cbinomial` at a floating-point type. -/
structure BinomStateF (A : Arith K) where
  res : Num A
  i : Num A

/-- include/bwsl/MathUtils.hpp:185-188: the body of the loop, with its `++i` -/
def cbinomialBodyF (n : Num A) (s : BinomStateF A) : Res (BinomStateF A) :=
  let r := s.res * (n + CxxFloat.ofInt 1 - s.i)
  .ok ⟨r / s.i, s.i + CxxFloat.ofInt 1⟩

/-- include/bwsl/MathUtils.hpp:170-191 `cbinomial` at the floating-point type `T` with the arithmetic `A`; `B` is the one of
`double`, to which `res` is converted by the `return` statement. -/
def cbinomialF (B : Arith K) (n k : Num A) : Res (Num B) :=
  if CxxFloat.lt n k then .ok (CxxFloat.ofInt 0)
  else do
    let k := if CxxFloat.lt (n - k) k then n - k else k
    let s ← whileLoop (fun s => CxxFloat.le s.i k) (cbinomialBodyF n) ⟨CxxFloat.ofInt 1, CxxFloat.ofInt 1⟩
    .ok (s.res.convert B)

end Bwsl
