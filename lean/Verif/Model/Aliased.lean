import Verif.Model.Lattice
import Verif.Model.MathTypes
import Verif.Model.MathFloatContainers

/-! Functions with two vectors called with the same vector twice: each write is seen by all later reads. -/

namespace Bwsl

/-- `std::transform(v.begin(), v.end(), v.begin(), v.begin(), op)`: in libstdc++ a loop over the elements, each of which is
read twice and then written.  The standard allows the result to begin where either of the inputs begins. -/
def transformSelf {T : Type} (op : T → T → Res T) (v : List T) : Res (List T) :=
  foldRange v.length (fun v i => do
    let a ← subscript v i
    let b ← subscript v i
    let c ← op a b
    .ok (v.set i c)) v

/-- include/bwsl/MathUtils.hpp:245-255 `sum_into(v, v)`, elements of type `long` -/
def sumIntoSelf (v : List Int) : Res (List Int) := transformSelf ladd v

/-- include/bwsl/MathUtils.hpp:260-270 `subtract_into(v, v)`, elements of type `long` -/
def subtractIntoSelf (v : List Int) : Res (List Int) := transformSelf lsub v

/-- include/bwsl/MathUtils.hpp:245-255 `sum_into(v, v)`, elements of any integer type -/
def CInt.sumIntoSelf (t : CInt) (v : List Int) : Res (List Int) := transformSelf (fun a b => t.wrap <$> t.add a b) v

/-- include/bwsl/MathUtils.hpp:260-270 `subtract_into(v, v)`, elements of any integer type -/
def CInt.subtractIntoSelf (t : CInt) (v : List Int) : Res (List Int) := transformSelf (fun a b => t.wrap <$> t.sub a b) v

section
variable {F : Type} [CxxFloat F]

/-- include/bwsl/MathUtils.hpp:245-255 `sum_into(v, v)`, elements of a floating-point type -/
def sumIntoSelfF (v : List F) : Res (List F) := transformSelf (fun a b => .ok (a + b)) v

/-- include/bwsl/MathUtils.hpp:260-270 `subtract_into(v, v)`, elements of a floating-point type -/
def subtractIntoSelfF (v : List F) : Res (List F) := transformSelf (fun a b => .ok (a - b)) v

/-- include/bwsl/Lattice.hpp:386-414 `AccumulateSk(v, v, mult)`, which compiles for occupations of type `double`: the loop over
the momenta reads all of `v` in each pass and writes one element at its end -/
def Lattice.accumulateSkSelf (l : Lattice F) (v : List F) (mult : F) : Res (List F) :=
  if l.grid.hasOpenBoundaries then .ok v
  else
    let n := l.grid.numsites
    foldRange n (fun v i => do
      let k ← subscript l.momenta i
      let s ← l.fourier id v k
      let old ← subscript v i
      .ok (v.set i (old + mult * (squareF s.1 + squareF s.2) / CxxFloat.ofNat (squareU n)))) v

end
end Bwsl
