import Verif

/-! The 10000th number drawn from a default-constructed `std::mt19937` is 4123659995, that of `std::mt19937_64` is
9981545732273789042 (C++ standard, [rand.predef]).  Run `lake env lean --stdin < ../tools/conformance/Twister.txt` in
`lean/`. -/

open Bwsl

def run (P : MtParams) (e : Mt) : Nat → Mt
  | 0 => e
  | k + 1 => run P (Mt.next P e).2 k

#guard (Mt.next mt32 (run mt32 (Mt.seeded mt32 5489) 9999)).1 == 4123659995
#guard (Mt.next mt64 (run mt64 (Mt.seeded mt64 5489) 9999)).1 == 9981545732273789042
