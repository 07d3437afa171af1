import Verif.Cxx.Text
import Verif.Cxx.IntTypes

/-!
# Reading integers of any type from a text stream

As `IStream.readLong`, for the types of at least 32 bits (16-bit types are read alike, character types are not).  Not a
model of a particular file of /repo.
-/

namespace Bwsl.IStream

/-- The part of `operator>>` after the blanks.  Returns the new value of the variable: unchanged at end of file, 0 if there
are no digits, clamped if it does not fit.  For an unsigned type a minus sign negates modulo 2^bits, and the magnitude
has to fit (libstdc++; [facet.num.get.virtuals] through `strtoull`). -/
def convertT (t : CInt) (old : Int) (cs : List Char) : Int × IStream :=
  match cs with
  | [] => (old, ⟨[], true⟩)
  | c :: cs' =>
    let neg := c == '-'
    let body := if c == '-' || c == '+' then cs' else c :: cs'
    let ds := body.takeWhile isDigit
    let tl := body.dropWhile isDigit
    if ds.isEmpty then (0, ⟨tl, true⟩)
    else
      let v : Int := if neg then -(digitsVal ds : Int) else (digitsVal ds : Int)
      if t.signed then
        if v < t.lo then (t.lo, ⟨tl, true⟩)
        else if t.hi ≤ v then (t.hi - 1, ⟨tl, true⟩)
        else (v, ⟨tl, false⟩)
      else if t.hi ≤ digitsVal ds then (t.hi - 1, ⟨tl, true⟩)
      else (t.wrap v, ⟨tl, false⟩)

/-- `in >> x` for an `x` of type `t` with the given old value -/
def readT (t : CInt) (st : IStream) (old : Int) : Int × IStream :=
  if st.fail then (old, st) else convertT t old (st.rest.dropWhile isSpace)

end Bwsl.IStream
