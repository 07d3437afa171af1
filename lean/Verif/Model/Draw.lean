import Verif.Model.MathFloat

/-!
# Random numbers of include/bwsl/MathUtils.hpp:196-240 from the outputs of an engine

`choose_between`, `choose_between_psums` and `choose_with_probability` draw with `std::uniform_real_distribution`.  Its
definition below is that of libstdc++ (bits/random.h, bits/random.tcc, up to GCC 14).  An engine is represented by the
numbers it returns, which are below a power of two as for `std::mt19937` and `std::mt19937_64`.
-/

namespace Bwsl
variable {F : Type} [CxxFloat F]

/-- The loop of `std::generate_canonical`: `sum += urng() * tmp; tmp *= r;` for each number returned by the engine.  The
product with `r`, a `long double`, is a power of two and exact. -/
def canonicalLoop (r : ℚ) : List Nat → F → F → F × F
  | [], sum, tmp => (sum, tmp)
  | x :: xs, sum, tmp => canonicalLoop r xs (sum + CxxFloat.ofNat x * tmp) (tmp * CxxFloat.lit r)

/-- `std::generate_canonical<double, 53>` with an engine whose numbers are below `r`: the outcome for the numbers it
returns.  One number is drawn for `r = 2^64`, two for `r = 2^32`.  The result 1 is replaced by `nextafter(1., 0.)`. -/
def canonical (r : ℚ) (xs : List Nat) : F :=
  let s := canonicalLoop r xs CxxFloat.zero (CxxFloat.lit 1)
  let ret := s.1 / s.2
  if CxxFloat.le (CxxFloat.lit 1) ret then CxxFloat.lit (1 - 1 / 2 ^ 53) else ret

/-- `std::uniform_real_distribution<double>(a, b)` applied to an engine that returns `xs` -/
def uniformReal (r : ℚ) (xs : List Nat) (a b : F) : F := canonical r xs * (b - a) + a

/-- A draw from a 64-bit engine that returns `x`. -/
def draw64 (x : Nat) (a b : F) : F := uniformReal (2 ^ 64) [x] a b

/-- A draw from a 32-bit engine that returns `x` and then `y`. -/
def draw32 (x y : Nat) (a b : F) : F := uniformReal (2 ^ 32) [x, y] a b

end Bwsl
