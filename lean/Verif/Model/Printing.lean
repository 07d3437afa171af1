import Verif.Cxx.Float
import Verif.Cxx.Text

/-!
# Model of the texts that fmt writes for a `double`

fmt is not part of /repo (libs/fmt is an empty submodule).  This is a model of its documentation for the two formats that
/repo uses: `{:.Ne}` (ObservableGroup.hpp:138,141, mcutils/MoveStats.hpp:275-276) and `{}` (Lattice.hpp:446,467,487,521,526,531).
The exact value is rounded to the digits of the text, to nearest, ties to even.  Simplifications: one zero and one NaN, as
in `Num`.
-/

namespace Bwsl.Fmt

universe u
variable {K : Type u} [Field K] [LinearOrder K] [IsStrictOrderedRing K] [FloorRing K]

/-- zeros in front of digits, up to a number of digits -/
def pad (n : Nat) (ds : List Char) : List Char := List.replicate (n - ds.length) '0' ++ ds

/-- `e`, a sign and at least two digits -/
def exponent (e : Int) : List Char := 'e' :: (if e < 0 then '-' else '+') :: pad 2 (printNat e.natAbs)

/-- The first digit of `m`, a point, the other `p` digits and the exponent; no point if there are no other digits. -/
def sciText (p m : Nat) (e : Int) : List Char :=
  let ds := pad (p + 1) (printNat m)
  ds.take 1 ++ (if p = 0 then [] else '.' :: ds.drop 1) ++ exponent e

/-- The `p + 1` digits of a positive number, as an integer, and its exponent: the nearest ones, ties to even. -/
def sciDigits (p : Nat) (x : K) : Nat × Int :=
  let e := Int.log 10 x
  let m := (rint (x / (10 : K) ^ (e - p))).toNat
  if m = 10 ^ (p + 1) then (10 ^ p, e + 1) else (m, e)

/-- `{:.Ne}` of a finite number -/
def sciFin (p : Nat) (x : K) : List Char :=
  (if x < 0 then ['-'] else []) ++
    (if x = 0 then sciText p 0 0 else sciText p (sciDigits p |x|).1 (sciDigits p |x|).2)

/-- `{:.Ne}` of a `double` -/
def sci {A : Arith K} (x : Num A) (p : Nat) : List Char :=
  match x with
  | .nan => "nan".toList
  | .inf neg => if neg then "-inf".toList else "inf".toList
  | .fin x => sciFin p x

/-- The digits of `m` with `m` times ten to the `k` written without exponent if the decimal exponent of the first digit is
at least -4 and less than 16, and with exponent otherwise.  `dot`: integers end with `.0`, as before version 8 of `fmt`. -/
def shortText (dot : Bool) (m : Nat) (k : Int) : List Char :=
  let ds := printNat m
  let e := k + ds.length - 1
  if e < -4 ∨ 16 ≤ e then
    ds.take 1 ++ (if ds.length = 1 then [] else '.' :: ds.drop 1) ++ exponent e
  else if 0 ≤ k then ds ++ List.replicate k.toNat '0' ++ (if dot then ['.', '0'] else [])
  else if 0 ≤ e then ds.take (e + 1).toNat ++ '.' :: ds.drop (e + 1).toNat
  else '0' :: '.' :: List.replicate (-e - 1).toNat '0' ++ ds

/-- `{}` of a finite number; `dig` chooses the digits and the exponent of a positive number -/
def shortFin (dot : Bool) (dig : K → Nat × Int) (x : K) : List Char :=
  (if x < 0 then ['-'] else []) ++ (if x = 0 then '0' :: (if dot then ['.', '0'] else []) else shortText dot (dig |x|).1 (dig |x|).2)

/-- `{}` of a `double` -/
def short {A : Arith K} (dot : Bool) (dig : K → Nat × Int) (x : Num A) : List Char :=
  match x with
  | .nan => "nan".toList
  | .inf neg => if neg then "-inf".toList else "inf".toList
  | .fin x => shortFin dot dig x

end Bwsl.Fmt
