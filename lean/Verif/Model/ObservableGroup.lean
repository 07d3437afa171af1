import Verif.Model.Accumulators
import Verif.Model.StdMap
import Verif.Cxx.Text

/-!
# Model of include/bwsl/ObservableGroup.hpp

Methods that print take the contents of all the files and return the new contents.  Simplifications: files
can always be opened and written.  The texts that `fmt` produces for a key (`{}`) and for a floating-point
number (`{:.{}e}`) are parameters.
-/

namespace Bwsl

/-- File contents by name. -/
abbrev Files := String → List Char

namespace Files

/-- contents after `std::ofstream(name, std::ios::trunc)` and writing `text` -/
def write (fs : Files) (name : String) (text : List Char) : Files :=
  fun n => if n = name then text else fs n

/-- contents after `std::ofstream(name, std::ios::app)` and writing `text` -/
def append (fs : Files) (name : String) (text : List Char) : Files :=
  fun n => if n = name then fs n ++ text else fs n

end Files

/-- How `fmt` prints. -/
structure Format (F ι : Type) where
  /-- `{}` of a key -/
  key : ι → List Char
  /-- `{:.{}e}` of a floating-point number and a precision -/
  sci : F → Nat → List Char

/-- include/bwsl/ObservableGroup.hpp:81-85 -/
structure ObsGroup (F ι : Type) where
  outputFile : String
  accumulator : StdMap ι (Kahan F)

namespace ObsGroup
variable {F ι : Type} [CxxFloat F] [LinearOrder ι]

/-- ObservableGroup.hpp:45: default constructor -/
def empty : ObsGroup F ι := ⟨"", []⟩

/-- ObservableGroup.hpp:93-97: constructor -/
def new (outputFile : String) : ObsGroup F ι := ⟨outputFile, []⟩

/-- ObservableGroup.hpp:148-155 `AddObservable` -/
def addObservable (g : ObsGroup F ι) (key : ι) : ObsGroup F ι :=
  ⟨g.outputFile, g.accumulator.tryEmplace key Kahan.new⟩

/-- ObservableGroup.hpp:99-107: constructor with indices -/
def newWith (outputFile : String) (indices : List ι) : ObsGroup F ι :=
  ⟨outputFile, indices.foldl (fun m i => m.tryEmplace i Kahan.new) []⟩

/-- ObservableGroup.hpp:109-114 `Measure` -/
def measure (checks : Bool) (g : ObsGroup F ι) (idx : ι) (val : F) : Call (ObsGroup F ι) Unit :=
  match g.accumulator.find idx with
  | none => ⟨g, .throws .outOfRange⟩
  | some a =>
    let c := a.add checks val
    ⟨⟨g.outputFile, g.accumulator.modify idx (fun _ => c.state)⟩, c.res⟩

/-- ObservableGroup.hpp:116-129 `PrintHeaders`: the text that is written -/
def headerText (f : Format F ι) (g : ObsGroup F ι) : Res (List Char) :=
  match g.accumulator with
  | [] => .ub .outOfBounds
  | (k, _) :: m =>
    .ok (f.key k ++ m.flatMap (fun p => ',' :: f.key p.1) ++ ",Count".toList ++ "\n".toList)

/-- ObservableGroup.hpp:116-129 `PrintHeaders` -/
def printHeaders (f : Format F ι) (g : ObsGroup F ι) (fs : Files) : Res Files := do
  let t ← g.headerText f
  .ok (fs.write g.outputFile t)

/-- ObservableGroup.hpp:131-146 `PrintAndReset`: the text that is written; fmt takes precisions that fit `int` and throws
for others, at the first number -/
def rowText (f : Format F ι) (g : ObsGroup F ι) (precision : Nat) : Res (List Char) :=
  match g.accumulator with
  | [] => .ub .outOfBounds
  | (_, a) :: m =>
    if 2147483647 < precision then .throws .formatError
    else .ok (f.sci a.mean precision ++ m.flatMap (fun p => ',' :: f.sci p.2.mean precision) ++
      ',' :: printNat a.getCount ++ "\n".toList)

/-- ObservableGroup.hpp:131-146 `PrintAndReset`: the group and the files after the call, and how it ended -/
def printAndReset (f : Format F ι) (g : ObsGroup F ι) (precision : Nat) (fs : Files) :
    Call (ObsGroup F ι × Files) Unit :=
  match g.rowText f precision with
  | .ok t =>
    ⟨(⟨g.outputFile, g.accumulator.map (fun p => (p.1, p.2.reset))⟩, fs.append g.outputFile t), .ok ()⟩
  | .throws e => ⟨(g, fs), .throws e⟩
  | .ub u => ⟨(g, fs), .ub u⟩
  | .diverges => ⟨(g, fs), .diverges⟩

/-- ObservableGroup.hpp:157-167 `serialize`; `key` is the serialization of keys -/
def serialize (key : Codec F ι) (freshKey : ι) : Codec F (ObsGroup F ι) := fun ar g => do
  let outputFile ← ar.str g.outputFile
  let accumulator ← StdMap.serialize key Kahan.serialize freshKey Kahan.new ar g.accumulator
  pure ⟨outputFile, accumulator⟩

end ObsGroup
end Bwsl
