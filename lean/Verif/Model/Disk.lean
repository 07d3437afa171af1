import Verif.Model.Lattice

/-!
# Model of the writing functions of include/bwsl/ObservableGroup.hpp and include/bwsl/Lattice.hpp, on files that may
not exist and may not be writable

`std::ofstream` does not throw when it cannot open a file, and `fmt::print` to such a stream formats its arguments and
writes nothing.  Writing to an open file may fail as well, as when the disk is full; the functions with `UpTo` in their
names take the number of characters that reach the file.  The state of a stream is never looked at and its destructor
does not throw, so that these functions end like the others.  Simplification: the characters that reach the file are the
first ones.
-/

namespace Bwsl

/-- The files: their contents (`none`: there is no such file) and whether they can be opened for writing. -/
structure Disk where
  contents : String → Option (List Char)
  writable : String → Bool

namespace Disk

/-- after `std::ofstream(name, std::ios::trunc)` and printing `text` -/
def write (d : Disk) (name : String) (text : List Char) : Disk :=
  if d.writable name then ⟨fun n => if n = name then some text else d.contents n, d.writable⟩ else d

/-- after `std::ofstream(name, std::ios::app)` and printing `text`; the file is created if there is none -/
def append (d : Disk) (name : String) (text : List Char) : Disk :=
  if d.writable name then
    ⟨fun n => if n = name then some ((d.contents name).getD [] ++ text) else d.contents n, d.writable⟩
  else d

/-- like `write`, when only the first `room` characters reach the file -/
def writeUpTo (d : Disk) (name : String) (text : List Char) (room : Nat) : Disk := d.write name (text.take room)

/-- like `append`, when only the first `room` characters reach the file -/
def appendUpTo (d : Disk) (name : String) (text : List Char) (room : Nat) : Disk := d.append name (text.take room)

end Disk

namespace ObsGroup
variable {F ι : Type} [CxxFloat F] [LinearOrder ι]

/-- ObservableGroup.hpp:116-129 `PrintHeaders` -/
def printHeadersTo (f : Format F ι) (g : ObsGroup F ι) (d : Disk) : Call Disk Unit :=
  match g.headerText f with
  | .ok t => ⟨d.write g.outputFile t, .ok ()⟩
  | .throws e => ⟨d.write g.outputFile [], .throws e⟩
  | .ub u => ⟨d.write g.outputFile [], .ub u⟩
  | .diverges => ⟨d.write g.outputFile [], .diverges⟩

/-- ObservableGroup.hpp:131-146 `PrintAndReset`: the group and the files after the call, and how it ended -/
def printAndResetTo (f : Format F ι) (g : ObsGroup F ι) (precision : Nat) (d : Disk) : Call (ObsGroup F ι × Disk) Unit :=
  match g.rowText f precision with
  | .ok t =>
    ⟨(⟨g.outputFile, g.accumulator.map (fun p => (p.1, p.2.reset))⟩, d.append g.outputFile t), .ok ()⟩
  | .throws e => ⟨(g, d.append g.outputFile []), .throws e⟩
  | .ub u => ⟨(g, d.append g.outputFile []), .ub u⟩
  | .diverges => ⟨(g, d.append g.outputFile []), .diverges⟩

/-- ObservableGroup.hpp:116-129 `PrintHeaders`, when only `room` characters reach the file -/
def printHeadersUpTo (room : Nat) (f : Format F ι) (g : ObsGroup F ι) (d : Disk) : Call Disk Unit :=
  match g.headerText f with
  | .ok t => ⟨d.writeUpTo g.outputFile t room, .ok ()⟩
  | .throws e => ⟨d.write g.outputFile [], .throws e⟩
  | .ub u => ⟨d.write g.outputFile [], .ub u⟩
  | .diverges => ⟨d.write g.outputFile [], .diverges⟩

/-- ObservableGroup.hpp:131-146 `PrintAndReset`, when only `room` characters reach the file -/
def printAndResetUpTo (room : Nat) (f : Format F ι) (g : ObsGroup F ι) (precision : Nat) (d : Disk) :
    Call (ObsGroup F ι × Disk) Unit :=
  match g.rowText f precision with
  | .ok t =>
    ⟨(⟨g.outputFile, g.accumulator.map (fun p => (p.1, p.2.reset))⟩, d.appendUpTo g.outputFile t room), .ok ()⟩
  | .throws e => ⟨(g, d.append g.outputFile []), .throws e⟩
  | .ub u => ⟨(g, d.append g.outputFile []), .ub u⟩
  | .diverges => ⟨(g, d.append g.outputFile []), .diverges⟩

end ObsGroup

namespace Lattice
variable {F : Type} [CxxFloat F]

/-- include/bwsl/Lattice.hpp:431-536, the four `Save…` functions; with undefined behaviour the files are not described -/
def saveTo (text : Lattice F → Res (List Char)) (l : Lattice F) (fname : String) (d : Disk) : Res Disk := do
  let t ← text l
  .ok (d.write fname t)

/-- include/bwsl/Lattice.hpp:431-536, when only `room` characters reach the file -/
def saveUpTo (room : Nat) (text : Lattice F → Res (List Char)) (l : Lattice F) (fname : String) (d : Disk) : Res Disk := do
  let t ← text l
  .ok (d.writeUpTo fname t room)

end Lattice
end Bwsl
