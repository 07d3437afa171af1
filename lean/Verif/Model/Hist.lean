import Verif.Model.Accumulators

/-!
# Model of include/bwsl/HistAccumulator.hpp

`checks` tells whether BWSL_ACCUMULATORS_CHECKS is defined.  Simplification: memory never runs out.
-/

namespace Bwsl

/-- include/bwsl/HistAccumulator.hpp:102-109 -/
structure Hist (F : Type) where
  nbins : Nat
  acc : List (Neumaier F)
  count : Nat

namespace Hist
variable {F : Type} [CxxFloat F]

/-- HistAccumulator.hpp:38: default constructor -/
def empty : Hist F := ⟨0, [], 0⟩

/-- HistAccumulator.hpp:119-123: constructor -/
def new (nbins : Nat) : Hist F := ⟨nbins, List.replicate nbins Neumaier.new, 0⟩

/-- HistAccumulator.hpp:125-132 `Reset` -/
def reset (h : Hist F) : Hist F := ⟨h.nbins, h.acc.map Neumaier.reset, 0⟩

/-- `acc_[idx].Add(val); count_ += 1UL;`, HistAccumulator.hpp:138-139, 151-152 -/
def addTo (checks : Bool) (h : Hist F) (idx : Nat) (val : F) : Call (Hist F) Unit :=
  match h.acc[idx]? with
  | none => ⟨h, .ub .outOfBounds⟩
  | some a =>
    let c := a.add checks val
    let h' : Hist F := ⟨h.nbins, h.acc.set idx c.state, h.count⟩
    match c.res with
    | .ok () => ⟨⟨h'.nbins, h'.acc, succU h'.count⟩, .ok ()⟩
    | r => ⟨h', r⟩

/-- HistAccumulator.hpp:134-140 `Add` -/
def add (checks : Bool) (h : Hist F) (idx : Nat) (val : F) : Call (Hist F) Unit := addTo checks h idx val

/-- HistAccumulator.hpp:69 `Add` of a unitary measurement -/
def addOne (checks : Bool) (h : Hist F) (idx : Nat) : Call (Hist F) Unit :=
  add checks h idx (CxxFloat.lit 1)

/-- One iteration of the loop HistAccumulator.hpp:146-150 -/
def growStep (h : Hist F) : Res (Hist F) :=
  let h' : Hist F := ⟨succU h.nbins, h.acc ++ [Neumaier.new], h.count⟩
  if h'.nbins = h'.acc.length then .ok h' else .ub .assertion

/-- HistAccumulator.hpp:146-150 -/
def grow (h : Hist F) (idx : Nat) : Res (Hist F) :=
  whileLoop (fun h => decide (idx ≥ h.nbins)) growStep h

/-- HistAccumulator.hpp:142-153 `ForceAdd` -/
def forceAdd (checks : Bool) (h : Hist F) (idx : Nat) (val : F) : Call (Hist F) Unit :=
  match h.grow idx with
  | .ok h' => addTo checks h' idx val
  | .throws e => ⟨h, .throws e⟩
  | .ub k => ⟨h, .ub k⟩
  | .diverges => ⟨h, .diverges⟩

/-- HistAccumulator.hpp:76 `ForceAdd` of a unitary measurement -/
def forceAddOne (checks : Bool) (h : Hist F) (idx : Nat) : Call (Hist F) Unit :=
  forceAdd checks h idx (CxxFloat.lit 1)

/-- HistAccumulator.hpp:155-160 `Resize` -/
def resize (h : Hist F) (nbins : Nat) : Hist F :=
  ⟨nbins, h.acc.take nbins ++ List.replicate (nbins - h.acc.length) Neumaier.new, h.count⟩

/-- HistAccumulator.hpp:162-172 `GetResult` -/
def getResult (h : Hist F) (idx : Nat) : Res F :=
  match h.acc[idx]? with
  | none => .ub .outOfBounds
  | some c =>
    if c.getCount = 0 then .ok CxxFloat.zero
    else .ok (c.getSum / CxxFloat.ofNat h.count)

/-- HistAccumulator.hpp:174-184 `GetResults`: the elements from subscript `i` on, `k` of them -/
def resultsFrom (h : Hist F) : Nat → Nat → Res (List F)
  | _, 0 => .ok []
  | i, k + 1 => do
    let x ← h.getResult i
    let xs ← resultsFrom h (i + 1) k
    .ok (x :: xs)

/-- HistAccumulator.hpp:174-184 `GetResults` -/
def getResults (h : Hist F) : Res (List F) := h.resultsFrom 0 h.nbins

/-- The loop HistAccumulator.hpp:190-192: `k` iterations starting with the element of subscript `j`.  The
divisor `r[idx]` is read again in every iteration. -/
def divideFrom (idx : Nat) : Nat → Nat → List F → Res (List F)
  | _, 0, r => .ok r
  | j, k + 1, r =>
    match r[j]?, r[idx]? with
    | some v, some d => divideFrom idx (j + 1) k (r.set j (v / d))
    | _, _ => .ub .outOfBounds

/-- HistAccumulator.hpp:186-194 `GetResults(idx)` -/
def getResultsBy (h : Hist F) (idx : Nat) : Res (List F) := do
  let r ← h.getResults
  divideFrom idx 0 r.length r

/-- HistAccumulator.hpp:89 `GetCount` -/
def getCount (h : Hist F) : Nat := h.count

/-- HistAccumulator.hpp:92-95 `GetCount(idx)` -/
def getCountAt (h : Hist F) (idx : Nat) : Res Nat :=
  match h.acc[idx]? with
  | none => .ub .outOfBounds
  | some a => .ok a.getCount

/-- HistAccumulator.hpp:98 `GetNbins` -/
def getNbins (h : Hist F) : Nat := h.nbins

/-- HistAccumulator.hpp:196-204 `serialize` -/
def serialize : Codec F (Hist F) := fun ar h => do
  let nbins ← ar.ulong h.nbins
  let acc ← Archive.vector Neumaier.serialize Neumaier.new ar h.acc
  let count ← ar.ulong h.count
  pure ⟨nbins, acc, count⟩

/-- HistAccumulator.hpp:47 and 56, the defaulted move constructor and move assignment: the new object and the one moved
from.  The vector is moved, which leaves an empty one; the numbers are copied. -/
def move (h : Hist F) : Hist F × Hist F := (h, ⟨h.nbins, [], h.count⟩)

end Hist
end Bwsl
