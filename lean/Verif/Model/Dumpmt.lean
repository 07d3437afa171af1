import Verif.Model.Rng

/-!
# Model of applications/dumpmt.cpp

`std::atoi` and the seeding of `std::mt19937_64` follow the standards ([C 7.22.1.2], [rand.eng.mers]).  `extra` stands for
the numbers that `operator<<` writes after the words of the state (libstdc++ writes the position of the next word).
-/

namespace Bwsl.Dumpmt

/-- An optional sign is skipped. -/
def dropSign : List Char → List Char
  | c :: cs => if c == '-' || c == '+' then cs else c :: cs
  | [] => []

/-- `std::atoi`: blanks, an optional sign and digits; 0 without digits; undefined if the value does not fit
`int`. -/
def atoi (s : List Char) : Res Int :=
  let body := s.dropWhile isSpace
  let ds := (dropSign body).takeWhile isDigit
  let v : Int := if body.head? = some '-' then -(digitsVal ds : Int) else digitsVal ds
  if -2147483648 ≤ v ∧ v < 2147483648 then .ok v else .ub .signedOverflow

/-- The words of `std::mt19937_64{seed}`: word number `i`. -/
def seedWord (seed : Nat) : Nat → Nat
  | 0 => seed % W64
  | i + 1 => (6364136223846793005 * (seedWord seed i ^^^ (seedWord seed i >>> 62)) + (i + 1)) % W64

/-- `std::mt19937_64{seed}` -/
def seeded (seed : Nat) (extra : List Nat) : Engine := (List.range 312).map (seedWord seed) ++ extra

/-- applications/dumpmt.cpp:22-36 `main`: the exit status and what is written to the standard output; `args` is
`av` -/
def main (extra : List Nat) (args : List (List Char)) : Res (Nat × List Char) :=
  if args.length < 2 then .ok (1, [])
  else match args[1]? with
    | none => .ub .outOfBounds
    | some a => do
      let n ← atoi a
      let seed := toSize n
      let rng := seeded seed extra
      .ok (0, rng.text ++ ['\n'])

/-- applications/dumpmt.cpp:22-36 `main` with a standard output that takes only `room` characters, as a file on a full disk:
the state of `std::cout` is not looked at -/
def mainUpTo (room : Nat) (extra : List Nat) (args : List (List Char)) : Res (Nat × List Char) := do
  let r ← main extra args
  .ok (r.1, r.2.take room)

end Bwsl.Dumpmt
