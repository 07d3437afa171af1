import Verif.Cxx.Archive
import Verif.Cxx.Text
import Verif.Model.Accumulators

/-!
# Model of include/bwsl/RNGUtils.hpp

A `std::mersenne_twister_engine` is modelled by the numbers that its `operator<<` writes, with `UIntType` = `unsigned
long`.  In the standard these are the words of the state; libstdc++ also writes the position of the next word.  Any
number of numbers is allowed, and what is drawn from an engine is a function of them (Twister.lean).  As in libstdc++, `operator>>` reads straight into the engine, so that it is changed when reading fails.
-/

namespace Bwsl

/-- The numbers that make up the state of an engine. -/
abbrev Engine := List Nat

namespace Engine

/-- `oss << mt`: the numbers separated by single blanks -/
def text : Engine → List Char
  | [] => []
  | [x] => printNat x
  | x :: xs => printNat x ++ ' ' :: text xs

/-- `iss >> mt`: number after number -/
def read : IStream → Engine → Engine × IStream
  | st, [] => ([], st)
  | st, old :: mt =>
    let r := st.readULong old
    let rs := read r.2 mt
    (r.1 :: rs.1, rs.2)

/-- include/bwsl/RNGUtils.hpp:55-66 `save`; writing to a string cannot fail -/
def save (mt : Engine) : Saver F Unit := do
  let _ ← Archive.out.str (String.ofList mt.text)
  pure ()

/-- include/bwsl/RNGUtils.hpp:45-51: the part of `load` after the text has been read from the archive -/
def loadText (mt : Engine) (text : List Char) : Call Engine Unit :=
  let r := read (.ofString text) mt
  ⟨r.1, if r.2.fail then .throws .invalidArgument else .ok ()⟩

/-- include/bwsl/RNGUtils.hpp:41-53 `load` -/
def load (mt : Engine) : Loader F (Call Engine Unit) := do
  let text ← Archive.inp.str ""
  pure (mt.loadText text.toList)

/-- A `boost` archive: what has been written to it or what is left to read. -/
inductive BoostArchive (F : Type) where
  | saving (out : List (Prim F))
  | loading (inp : List (Prim F))

/-- include/bwsl/RNGUtils.hpp:68-79 `serialize`: the engine and the archive afterwards, and how the call ended; the archive
type decides, by the value of an object of type `Ar::is_saving`.  `none`: there is no text to read in the archive. -/
def serialize (mt : Engine) : BoostArchive F → Option (Call (Engine × BoostArchive F) Unit)
  | .saving out => some ⟨(mt, .saving (mt.save out).2), .ok ()⟩
  | .loading inp =>
    match mt.load inp with
    | none => none
    | some (c, rest) => some ⟨(c.state, .loading rest), c.res⟩

end Engine
end Bwsl
