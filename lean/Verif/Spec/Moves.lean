import Verif.Spec.Stats

/-! Histories of move statistics. -/

namespace Bwsl.Spec

/-- The outcome of a move. -/
inductive Outcome where
  | accepted
  | rejected
  | impossible
  deriving DecidableEq

/-- Calls on the statistics of a move. -/
inductive MoveOp (X : Type u) where
  | propose
  | accept (p : X)
  | reject (p : X)
  | impossible
  /-- `Add` of a result with an outcome and a probability -/
  | add (o : Outcome) (p : X)
  | reset

/-- Proposals and resolutions alternate, starting with a proposal: the calls at even positions, and no
others, are proposals, and all the calls are proposals or resolutions. -/
def Alternating (ops : List (MoveOp X)) : Prop :=
  ∀ i op, ops[i]? = some op →
    if i % 2 = 0 then op = .propose else (∃ p, op = .accept p) ∨ (∃ p, op = .reject p) ∨ op = .impossible

/-- A resolved move with its probability. -/
inductive Move (X : Type u) where
  | accepted (p : X)
  | rejected (p : X)
  | impossible

def moveOf (p : X) : Outcome → Move X
  | .accepted => .accepted p
  | .rejected => .rejected p
  | .impossible => .impossible

def Move.isAccepted : Move X → Bool
  | .accepted _ => true
  | _ => false
def Move.isRejected : Move X → Bool
  | .rejected _ => true
  | _ => false
def Move.isImpossible : Move X → Bool
  | .impossible => true
  | _ => false

/-- the probability of a move, with a value for the impossible ones -/
def Move.prob (zero : X) : Move X → X
  | .accepted p => p
  | .rejected p => p
  | .impossible => zero

/-- Bookkeeping of one call: whether a proposal is pending, and the moves resolved since the last reset.  Calls
out of turn do nothing. -/
def bookkeep (s : Bool × List (Move X)) : MoveOp X → Bool × List (Move X)
  | .propose => (true, s.2)
  | .accept p => if s.1 then (false, s.2 ++ [.accepted p]) else s
  | .reject p => if s.1 then (false, s.2 ++ [.rejected p]) else s
  | .impossible => if s.1 then (false, s.2 ++ [.impossible]) else s
  | .add o p => if s.1 then s else (false, s.2 ++ [moveOf p o])
  | .reset => (false, [])

/-- Whether a proposal is pending after some calls, and the moves resolved since the last reset. -/
def book (ops : List (MoveOp X)) : Bool × List (Move X) := ops.foldl bookkeep (false, [])

end Bwsl.Spec
