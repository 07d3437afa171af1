import Verif.Model.MathTypes

/-!
# Model of the sums and products of include/bwsl/MathUtils.hpp with a result type other than the type of the elements

`accumulate_sum<Container, T>` and `accumulate_product<Container, T>` with an explicit second template argument.  `t` is
the type of the result, `u` that of the elements.
-/

namespace Bwsl.CInt

/-- The usual arithmetic conversions, [expr.arith.conv], for types of at most 64 bits: after promotion, the wider of two
types of the same signedness; otherwise the unsigned one unless the signed one is wider. -/
def common (t u : CInt) : CInt :=
  let a := t.promote
  let b := u.promote
  if a.signed = b.signed then (if b.bits ≤ a.bits then a else b)
  else
    let n := if a.signed then b else a
    let s := if a.signed then a else b
    if s.bits ≤ n.bits then n else s

/-- `a + x` with `a` of type `t` and `x` of type `u`, whose result has the common type -/
def addMixed (t u : CInt) (a x : Int) : Res Int := (common t u).arith ((common t u).wrap a + (common t u).wrap x)

/-- include/bwsl/MathUtils.hpp:77-82 `accumulate_sum` with elements of type `u` and result type `t`: `std::accumulate`
adds and converts the sum to `t` -/
def accumulateSumMixed (t u : CInt) (v : List Int) : Res Int := t.fold (addMixed t u) 0 v

/-- include/bwsl/MathUtils.hpp:66-72 `accumulate_product` with elements of type `u` and result type `t`: the parameters
of `std::multiplies<T>` convert the elements to `t` -/
def accumulateProductMixed (t : CInt) (v : List Int) : Res Int := t.fold (fun a x => t.mul a (t.wrap x)) 1 v

end Bwsl.CInt
