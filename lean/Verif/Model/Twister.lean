import Verif.Model.Dumpmt
import Verif.Model.Draw

/-!
# The engines serialised by include/bwsl/RNGUtils.hpp and dumped by applications/dumpmt.cpp

`std::mersenne_twister_engine<UIntType, w, n, m, r, a, u, d, s, b, t, c, l, f>` as in libstdc++ (bits/random.h,
bits/random.tcc), for every choice of the template parameters.  Words are natural numbers; those of an engine are below
2^w, and so are the masks, so that the bits `UIntType` may have above w play no part.
-/

namespace Bwsl

/-- The template parameters. -/
structure MtParams where
  w : Nat
  n : Nat
  m : Nat
  r : Nat
  a : Nat
  u : Nat
  d : Nat
  s : Nat
  b : Nat
  t : Nat
  c : Nat
  l : Nat
  f : Nat

/-- `std::mt19937` -/
def mt32 : MtParams :=
  ⟨32, 624, 397, 31, 0x9908b0df, 11, 0xffffffff, 7, 0x9d2c5680, 15, 0xefc60000, 18, 1812433253⟩

/-- `std::mt19937_64` -/
def mt64 : MtParams :=
  ⟨64, 312, 156, 31, 0xb5026f5aa96619e9, 29, 0x5555555555555555, 17, 0x71d67fffeda60000, 37, 0xfff7eee000000000, 43,
    6364136223846793005⟩

/-- An engine: the words `_M_x` and the position `_M_p`. -/
structure Mt where
  x : List Nat
  p : Nat

namespace Mt
variable (P : MtParams)

/-- `(x & upper_mask) | (y & lower_mask)` -/
def mix (x y : Nat) : Nat := ((x >>> P.r) <<< P.r) ||| (y % 2 ^ P.r)

/-- `(y >> 1) ^ ((y & 0x01) ? a : 0)` -/
def twist (y : Nat) : Nat := (y >>> 1) ^^^ (if y % 2 = 1 then P.a else 0)

/-- One word of `_M_gen_rand`; its three loops differ only in which of the indices `k + m` and `k + 1` pass the end of
the array, and start again there. -/
def genStep (x : List Nat) (k : Nat) : List Nat :=
  x.set k (x.getD ((k + P.m) % P.n) 0 ^^^ twist P (mix P (x.getD k 0) (x.getD ((k + 1) % P.n) 0)))

/-- `_M_gen_rand`: all words in turn -/
def gen (x : List Nat) : List Nat := (List.range P.n).foldl (genStep P) x

/-- The tempering in `operator()`. -/
def temper (z : Nat) : Nat :=
  let z := z ^^^ ((z >>> P.u) &&& P.d)
  let z := z ^^^ ((z <<< P.s) &&& P.b)
  let z := z ^^^ ((z <<< P.t) &&& P.c)
  z ^^^ (z >>> P.l)

/-- `operator()`: the number and the engine afterwards -/
def next (e : Mt) : Nat × Mt :=
  let e := if P.n ≤ e.p then ⟨gen P e.x, 0⟩ else e
  (temper P (e.x.getD e.p 0), ⟨e.x, e.p + 1⟩)

/-- word `i` of an engine with a given seed -/
def seedWord (seed : Nat) : Nat → Nat
  | 0 => seed % 2 ^ P.w
  | i + 1 => (P.f * (seedWord seed i ^^^ (seedWord seed i >>> (P.w - 2))) + (i + 1) % P.n) % 2 ^ P.w

/-- the constructor from a seed -/
def seeded (seed : Nat) : Mt := ⟨(List.range P.n).map (seedWord P seed), P.n⟩

/-- the numbers written by `operator<<` -/
def toEngine (e : Mt) : Engine := e.x ++ [e.p]

/-- the engine of numbers read by `operator>>` -/
def ofEngine (e : Engine) : Mt := ⟨e.take P.n, e.getD P.n 0⟩

/-- The engine after `k` numbers have been drawn. -/
def after (e : Mt) (k : Nat) : Mt := (fun e => (next P e).2)^[k] e

/-- The `k`-th number drawn, from 0. -/
def draw (e : Mt) (k : Nat) : Nat := (next P (e.after P k)).1

end Mt
end Bwsl
