import Verif.Model.Hist
import Verif.Model.LogSpaceTypes
import Verif.Model.LogSpaceFloat

/-!
# Measurements of other types

`HistAccumulator::Add` and `ForceAdd` are templates on the type of the measurement, and `apply_accumulator` on the iterator.  The
value is converted where the `Add` of the accumulator is called, whose parameter is a `double` or, for NaiveInteger, a `long`.
`conv` is that conversion: `CxxFloat.ofInt` from an integer type, [conv.fpint], and `Num.convert` from a floating-point type, [conv.double].
-/

namespace Bwsl

variable {F X : Type} [CxxFloat F]

/-- A `bool` as a number, [conv.fpint]: `true` is 1 -/
def measuredBool (b : Bool) : F := CxxFloat.ofInt (if b then 1 else 0)

/-- include/bwsl/HistAccumulator.hpp:134-140 `Add`; the conversion is in line 138 -/
def Hist.addAs (conv : X → F) (checks : Bool) (h : Hist F) (idx : Nat) (val : X) : Call (Hist F) Unit :=
  h.addTo checks idx (conv val)

/-- HistAccumulator.hpp:142-153 `ForceAdd`; the conversion is in line 151, after the bins have been added -/
def Hist.forceAddAs (conv : X → F) (checks : Bool) (h : Hist F) (idx : Nat) (val : X) : Call (Hist F) Unit :=
  match h.grow idx with
  | .ok h' => h'.addTo checks idx (conv val)
  | .throws e => ⟨h, .throws e⟩
  | .ub k => ⟨h, .ub k⟩
  | .diverges => ⟨h, .diverges⟩

/-- include/bwsl/Accumulators.hpp:24-32 `apply_accumulator`; the conversion is in line 29 -/
def applyAs (conv : X → F) (add : σ → F → Call σ Unit) : List X → σ → Call σ Unit
  | [], acc => ⟨acc, .ok ()⟩
  | x :: xs, acc =>
    let c := add acc (conv x)
    match c.res with
    | .ok () => applyAs conv add xs c.state
    | _ => c

/-- Accumulators.hpp:24-32 `apply_accumulator` with a NaiveInteger, whose `Add` has a parameter of type `long`
(include/bwsl/accumulators/NaiveIntegerAccumulator.hpp:56): `CInt.ofFloat` from a floating-point type, [conv.fpint], which is undefined
if the whole part is no `long`, and `CInt.wrap` from an integer type, [conv.integral] -/
def NaiveInteger.applyAs (conv : X → Res Int) (checks : Bool) : List X → NaiveInteger → Res NaiveInteger
  | [], s => .ok s
  | x :: xs, s => do
    let n ← conv x
    let s ← NaiveInteger.add checks s n
    NaiveInteger.applyAs conv checks xs s

end Bwsl
