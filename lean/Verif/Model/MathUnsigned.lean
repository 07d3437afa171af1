import Verif.Model.MathUtils
import Verif.Cxx.Float

/-!
# Model of integer functions of include/bwsl/MathUtils.hpp at `T = size_t`, and of the conversion in `cbinomial`
-/

namespace Bwsl

/-- The state of the loop of `cbinomial<size_t>`. -/
structure BinomStateU where
  res : Nat
  i : Nat
  deriving DecidableEq, Repr

/-- include/bwsl/MathUtils.hpp:185-188: the body of the loop at `size_t`, with its `++i` -/
def cbinomialBodyU (n : Nat) (s : BinomStateU) : Res BinomStateU := do
  let r ← udiv (umul s.res (usub (uadd n 1) s.i)) s.i
  .ok ⟨r, uadd s.i 1⟩

/-- include/bwsl/MathUtils.hpp:170-191 `cbinomial`, at `T = size_t`: the value of `res` before its conversion to
`double` -/
def cbinomialU (n k : Nat) : Res Nat :=
  if k > n then .ok 0
  else do
    let k := if k > usub n k then usub n k else k
    let s ← whileLoop (fun s => decide (s.i ≤ k)) (cbinomialBodyU n) ⟨1, 1⟩
    .ok s.res

/-- include/bwsl/MathUtils.hpp:392-400 `get_gcd`, at `T = size_t` -/
def getGcdU (a b : Nat) : Res Nat :=
  if b = 0 then .ok a
  else do
    let r ← umod a b
    getGcdU b r
partial_fixpoint

section
variable {F : Type} [CxxFloat F]

/-- include/bwsl/MathUtils.hpp:170-191 `cbinomial`, at `T = long`, with the conversion of the `return` statement -/
def cbinomialD (n k : Int) : Res F := do
  let r ← cbinomial n k
  .ok (CxxFloat.ofInt r)

/-- include/bwsl/MathUtils.hpp:170-191 `cbinomial`, at `T = size_t`, with the conversion of the `return` statement -/
def cbinomialUD (n k : Nat) : Res F := do
  let r ← cbinomialU n k
  .ok (CxxFloat.ofNat r)

end

end Bwsl
