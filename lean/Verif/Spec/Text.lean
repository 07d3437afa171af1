import Verif.Cxx.Int64

/-! What decimal numerals and the text of a rational number are. -/

namespace Bwsl.Spec

/-- blank characters -/
def Blank (c : Char) : Prop := c ∈ [' ', '\t', '\n', '\x0b', '\x0c', '\r']

/-- decimal digits -/
def digits : List Char := ['0', '1', '2', '3', '4', '5', '6', '7', '8', '9']

/-- The number written by a list of digits: each digit counts its position in `digits` times ten to the
number of digits that follow. -/
def decValue : List Char → Nat
  | [] => 0
  | c :: cs => digits.idxOf c * 10 ^ cs.length + decValue cs

/-- `t` is an optionally signed decimal numeral for `n` -/
def IsNumeral (t : List Char) (n : Int) : Prop :=
  ∃ ds : List Char, ds ≠ [] ∧ (∀ c ∈ ds, c ∈ digits) ∧
    ((t = ds ∧ n = decValue ds) ∨ (t = '+' :: ds ∧ n = decValue ds) ∨ (t = '-' :: ds ∧ n = -decValue ds))

/-- `s` starts with the text of a rational number: two numerals that fit `long`, separated by two slashes,
with optional blanks before every item; the last numeral is taken as long as possible. -/
def IsRationalText (s : List Char) (n d : Int) : Prop :=
  ∃ w₀ t₁ w₁ w₂ w₃ t₂ rest : List Char,
    s = w₀ ++ t₁ ++ w₁ ++ '/' :: w₂ ++ '/' :: w₃ ++ t₂ ++ rest ∧
    (∀ c ∈ w₀ ++ w₁ ++ w₂ ++ w₃, Blank c) ∧
    IsNumeral t₁ n ∧ IsNumeral t₂ d ∧ InLong n ∧ InLong d ∧
    (∀ c ∈ rest.head?, c ∉ digits)

end Bwsl.Spec
