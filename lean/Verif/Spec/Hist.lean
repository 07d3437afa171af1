import Verif.Spec.Stats

/-! Histories of histograms. -/

namespace Bwsl.Spec

/-- Calls on a histogram. -/
inductive HistOp (X : Type u) where
  | add (i : Nat) (x : X)
  | forceAdd (i : Nat) (x : X)
  | reset

/-- The (bin, value) pairs added after the last reset. -/
def measurements : List (HistOp X) → List (Nat × X)
  | [] => []
  | .reset :: ops => measurements ops
  | .add i x :: ops => if ops.any isReset then measurements ops else (i, x) :: measurements ops
  | .forceAdd i x :: ops => if ops.any isReset then measurements ops else (i, x) :: measurements ops
where
  isReset : HistOp X → Bool
    | .reset => true
    | _ => false

/-- The values addressed to bin `i`. -/
def inBin (i : Nat) (ms : List (Nat × X)) : List X := (ms.filter (fun m => m.1 == i)).map Prod.snd

/-- The number of bins of a histogram of `n` bins after some calls. -/
def binsAfter (n : Nat) : List (HistOp X) → Nat
  | [] => n
  | .forceAdd i _ :: ops => binsAfter (max n (i + 1)) ops
  | _ :: ops => binsAfter n ops

/-- Every `Add` addresses a bin that exists at that time (and every `ForceAdd` one that can exist). -/
def Addressed (n : Nat) : List (HistOp X) → Prop
  | [] => True
  | .add i _ :: ops => i < n ∧ Addressed n ops
  | .forceAdd i _ :: ops => i < 2 ^ 64 - 1 ∧ Addressed (max n (i + 1)) ops
  | .reset :: ops => Addressed n ops

end Bwsl.Spec
