import Mathlib.Algebra.Field.Basic
import Mathlib.Algebra.BigOperators.Group.List.Basic

/-! Histories of accumulators and textbook statistics. -/

namespace Bwsl.Spec

/-- Calls on an accumulator. -/
inductive AccOp (X : Type u) where
  | add (x : X)
  | reset

def AccOp.isReset : AccOp X → Bool
  | .reset => true
  | .add _ => false

/-- The values added after the last reset. -/
def sinceReset : List (AccOp X) → List X
  | [] => []
  | .reset :: ops => sinceReset ops
  | .add x :: ops => if ops.any AccOp.isReset then sinceReset ops else x :: sinceReset ops

variable {K : Type u} [Field K]

/-- arithmetic mean -/
def avg (xs : List K) : K := xs.sum / xs.length

/-- sum of the squared deviations from the mean -/
def sqDev (xs : List K) : K := (xs.map (fun x => (x - avg xs) ^ 2)).sum

/-- sum of the weights of (value, weight) pairs -/
def totalWeight (ps : List (K × K)) : K := (ps.map Prod.snd).sum

/-- weighted mean -/
def wavg (ps : List (K × K)) : K := (ps.map (fun p => p.2 * p.1)).sum / totalWeight ps

/-- weighted sum of the squared deviations from the weighted mean -/
def wsqDev (ps : List (K × K)) : K := (ps.map (fun p => p.2 * (p.1 - wavg ps) ^ 2)).sum

end Bwsl.Spec
