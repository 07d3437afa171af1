import Verif.Cxx.Float

/-!
# Binary floating-point formats

Not a model of a particular file of /repo.  The templates of the library take `float` and `long double` as well as
`double`.  A format has a precision, an exponent of the smallest positive number and a bound on the exponents; the
rounding is the same as that of binary64 in Float.lean, to nearest with ties to even and gradual underflow.
-/

namespace Bwsl

/-- A binary format of IEEE 754: `prec` (at least 11) significant bits, the smallest positive number is 2^`emin` and all finite numbers
are below 2^`emax`.  All numbers of type `size_t` are in the range of the formats considered. -/
structure FloatFormat where
  prec : Nat
  emin : Int
  emax : Int
  prec_ge : 11 ≤ prec
  emin_le : emin + 2 * prec ≤ 0
  emax_gt : 64 < emax
  emax_prec : prec + 2 ≤ emax

namespace FloatFormat

/-- `float` -/
def float : FloatFormat := ⟨24, -149, 128, by decide, by decide, by decide, by decide⟩

/-- `double` -/
def double : FloatFormat := ⟨53, -1074, 1024, by decide, by decide, by decide, by decide⟩

/-- `long double` on x86 -/
def extended : FloatFormat := ⟨64, -16445, 16384, by decide, by decide, by decide, by decide⟩

/-- `long double` on most other 64-bit processors -/
def quadruple : FloatFormat := ⟨113, -16494, 16384, by decide, by decide, by decide, by decide⟩

variable {K : Type u} [Field K] [LinearOrder K] [IsStrictOrderedRing K] [FloorRing K]

/-- The exponent of the unit in the last place. -/
def ulpExp (f : FloatFormat) (x : K) : Int := max (Int.log 2 |x| - (f.prec - 1)) f.emin

/-- Rounding to nearest, ties to even, without a limit on large exponents. -/
def rn (f : FloatFormat) (x : K) : K := (rint (x / (2 : K) ^ f.ulpExp x) : K) * (2 : K) ^ f.ulpExp x

/-- Rounding to the format: an overflow if the rounded value is not below 2^emax. -/
def rnd (f : FloatFormat) (x : K) : Option K := if |f.rn x| < (2 : K) ^ f.emax then some (f.rn x) else none

end FloatFormat

/-- Arithmetic in the format, round to nearest, ties to even. -/
def Arith.IsFormat {K : Type u} [Field K] [LinearOrder K] [IsStrictOrderedRing K] [FloorRing K] (A : Arith K)
    (f : FloatFormat) : Prop := ∀ x, A.rnd x = f.rnd x

/-- The values of the format, without the bound on large exponents. -/
def Spec.InFormat (f : FloatFormat) {K : Type u} [Field K] (x : K) : Prop :=
  ∃ (m : Int) (e : Int), |m| ≤ 2 ^ f.prec ∧ f.emin ≤ e ∧ x = m * (2 : K) ^ e

/-- The finite values of the format. -/
def Spec.FiniteIn (f : FloatFormat) {K : Type u} [Field K] [LinearOrder K] (x : K) : Prop :=
  Spec.InFormat f x ∧ |x| < (2 : K) ^ f.emax

end Bwsl
