import Verif.Cxx.Int64

/-!
# Text streams

Formatted input and output of `std::istream` / `std::ostream` in the "C" locale with default flags, as
specified by [istream.formatted.arithmetic], [istream.extractors], [facet.num.get.virtuals] (decimal
conversion).  Not a model of a particular file of /repo.

Strings are lists of characters.  The stream state keeps the unread text and `failbit`; `eofbit` is
not kept because reading at the end of the text fails whether or not it has been set before.
-/

namespace Bwsl

/-- `std::isspace` in the "C" locale -/
def isSpace (c : Char) : Bool :=
  c == ' ' || c == '\t' || c == '\n' || c == '\x0b' || c == '\x0c' || c == '\r'

/-- a decimal digit -/
def isDigit (c : Char) : Bool := decide ('0'.toNat ≤ c.toNat ∧ c.toNat ≤ '9'.toNat)

/-- the value of a digit -/
def digitVal (c : Char) : Nat := c.toNat - '0'.toNat

/-- the value of a list of digits, the most significant one first -/
def digitsVal (ds : List Char) : Nat := ds.foldl (fun acc c => 10 * acc + digitVal c) 0

structure IStream where
  rest : List Char
  fail : Bool
  deriving DecidableEq, Repr

namespace IStream

def ofString (s : List Char) : IStream := ⟨s, false⟩

/-- The part of `operator>>(long&)` after the blanks: an optional sign and digits.  Returns the new value
of the variable: unchanged at end of file, 0 if there are no digits, clamped on overflow. -/
def convert (old : Int) (cs : List Char) : Int × IStream :=
  match cs with
  | [] => (old, ⟨[], true⟩)
  | c :: cs' =>
    let neg := c == '-'
    let body := if c == '-' || c == '+' then cs' else c :: cs'
    let ds := body.takeWhile isDigit
    let tl := body.dropWhile isDigit
    if ds.isEmpty then (0, ⟨tl, true⟩)
    else
      let v : Int := if neg then -(digitsVal ds : Int) else (digitsVal ds : Int)
      if v < -H63 then (-H63, ⟨tl, true⟩)
      else if H63 ≤ v then (H63 - 1, ⟨tl, true⟩)
      else (v, ⟨tl, false⟩)

/-- `in >> x` for a `long x` with the given old value -/
def readLong (st : IStream) (old : Int) : Int × IStream :=
  if st.fail then (old, st) else convert old (st.rest.dropWhile isSpace)

/-- The part of `operator>>(unsigned long&)` after the blanks: as `convert`, but a value with a minus sign is negated
modulo 2^64 (as `strtoull` does), and too long a numeral gives the largest value. -/
def convertU (old : Nat) (cs : List Char) : Nat × IStream :=
  match cs with
  | [] => (old, ⟨[], true⟩)
  | c :: cs' =>
    let neg := c == '-'
    let body := if c == '-' || c == '+' then cs' else c :: cs'
    let ds := body.takeWhile isDigit
    let tl := body.dropWhile isDigit
    if ds.isEmpty then (0, ⟨tl, true⟩)
    else if W64 ≤ digitsVal ds then (W64 - 1, ⟨tl, true⟩)
    else (if neg then (W64 - digitsVal ds) % W64 else digitsVal ds, ⟨tl, false⟩)

/-- `in >> x` for an `unsigned long x` with the given old value -/
def readULong (st : IStream) (old : Nat) : Nat × IStream :=
  if st.fail then (old, st) else convertU old (st.rest.dropWhile isSpace)

/-- `in >> c` for a `char c` with the given old value -/
def readChar (st : IStream) (old : Char) : Char × IStream :=
  if st.fail then (old, st)
  else match st.rest.dropWhile isSpace with
    | [] => (old, ⟨[], true⟩)
    | c :: cs => (c, ⟨cs, false⟩)

end IStream

/-- decimal digits of a natural number -/
def printNat (n : Nat) : List Char :=
  if n < 10 then [Char.ofNat (48 + n)] else printNat (n / 10) ++ [Char.ofNat (48 + n % 10)]

/-- `out << x` for a `long x` -/
def printLong (x : Int) : List Char :=
  if x < 0 then '-' :: printNat x.natAbs else printNat x.natAbs

end Bwsl
