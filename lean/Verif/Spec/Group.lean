import Verif.Spec.Stats

/-! Histories of a group of observables. -/

namespace Bwsl.Spec

/-- Calls on a group of observables. -/
inductive GroupOp (ι X : Type) where
  | add (k : ι)
  | measure (k : ι) (x : X)
  | headers
  | print (precision : Nat)

variable {ι X : Type} [DecidableEq ι]

/-- A print succeeds: its precision fits `int`. -/
def printable (precision : Nat) : Bool := decide (precision < 2 ^ 31)

/-- What one call does to an observable: whether it has been added, and the values measured for it (once it has
been added) since the last print that succeeded. -/
def watch (k : ι) (s : Bool × List X) : GroupOp ι X → Bool × List X
  | .add j => (s.1 || j == k, s.2)
  | .measure j x => (s.1, if s.1 && j == k then s.2 ++ [x] else s.2)
  | .headers => s
  | .print p => if printable p then (s.1, []) else s

/-- The observable was added in the history. -/
def known (k : ι) (ops : List (GroupOp ι X)) : Bool := (ops.foldl (watch k) (false, [])).1

/-- The values measured since the last print. -/
def sincePrint (k : ι) (ops : List (GroupOp ι X)) : List X := (ops.foldl (watch k) (false, [])).2

/-- The columns of a line of comma separated values. -/
def columns (line : List Char) : List (List Char) := line.splitOn ','

end Bwsl.Spec
