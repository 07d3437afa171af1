import Verif.Model.Draw

/-!
# Random numbers of include/bwsl/MathUtils.hpp:196-240 for `float`, `double` and `long double`

`choose_between`, `choose_between_psums` and `choose_with_probability` draw with `std::uniform_real_distribution<T>`, where
`T` is the type of the weights or of the probability.  As in Draw.lean the definition is that of libstdc++
(bits/random.h, bits/random.tcc, up to GCC 14), with `std::numeric_limits<T>::digits` written `prec`.  The numbers of the
engine are below 2^w, with w = 32 for `std::mt19937` and w = 64 for `std::mt19937_64`.
-/

namespace Bwsl
variable {F : Type} [CxxFloat F]

/-- `std::generate_canonical<T, prec>`: the count of numbers drawn, `max(1, (prec + log2r - 1) / log2r)` -/
def canonicalCount (prec w : Nat) : Nat := max 1 ((prec + w - 1) / w)

/-- `std::generate_canonical<T, prec>` with an engine that returns `xs`.  A result of 1 or more is replaced by
`nextafter(T(1), T(0))`, which is 1 - 2^-prec. -/
def canonicalIn (prec w : Nat) (xs : List Nat) : F :=
  let s := canonicalLoop (2 ^ w) xs CxxFloat.zero (CxxFloat.lit 1)
  let ret := s.1 / s.2
  if CxxFloat.le (CxxFloat.lit 1) ret then CxxFloat.lit (1 - 1 / 2 ^ prec) else ret

/-- `std::uniform_real_distribution<T>(a, b)` applied to an engine that returns `xs` -/
def drawIn (prec w : Nat) (xs : List Nat) (a b : F) : F := canonicalIn prec w xs * (b - a) + a

end Bwsl
