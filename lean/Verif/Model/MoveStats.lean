import Verif.Model.Accumulators

/-!
# Model of include/bwsl/mcutils

`checks` tells whether BWSL_ACCUMULATORS_CHECKS is defined.
-/

namespace Bwsl

/-- include/bwsl/mcutils/MoveStatus.hpp:22-27; an `enum class` with underlying type `char` can hold any
`char` -/
abbrev MoveStatus := Char

/-- MoveStatus.hpp:24-26 -/
def MoveStatus.accepted : MoveStatus := 'A'
def MoveStatus.rejected : MoveStatus := 'R'
def MoveStatus.impossible : MoveStatus := 'I'

/-- include/bwsl/mcutils/MoveResult.hpp:88-92 -/
structure MoveResult (F : Type) where
  status : MoveStatus
  prob : F

namespace MoveResult
variable {F : Type} [CxxFloat F]

/-- MoveResult.hpp:29: default constructor -/
def new : MoveResult F := ⟨.impossible, CxxFloat.zero⟩
/-- MoveResult.hpp:53 `IsAccepted` -/
def isAccepted (r : MoveResult F) : Bool := r.status == MoveStatus.accepted
/-- MoveResult.hpp:56 `IsRejected` -/
def isRejected (r : MoveResult F) : Bool := r.status == MoveStatus.rejected
/-- MoveResult.hpp:59-62 `IsImpossible` -/
def isImpossible (r : MoveResult F) : Bool := r.status == MoveStatus.impossible
/-- MoveResult.hpp:65 `Probability` -/
def probability (r : MoveResult F) : F := r.prob
/-- MoveResult.hpp:68 `GetStatus` -/
def getStatus (r : MoveResult F) : MoveStatus := r.status
/-- MoveResult.hpp:72-75 `Accept` -/
def accept (prob : F) : MoveResult F := ⟨.accepted, prob⟩
/-- MoveResult.hpp:76-79 `Reject` -/
def reject (prob : F) : MoveResult F := ⟨.rejected, prob⟩
/-- MoveResult.hpp:80-83 `Impossible` -/
def mkImpossible : MoveResult F := ⟨.impossible, CxxFloat.zero⟩

end MoveResult

/-- include/bwsl/mcutils/MoveStats.hpp:167-186 -/
structure MoveStats (F : Type) where
  name : String
  proposedflag : Bool
  proposed : Nat
  accepted : Nat
  rejected : Nat
  impossible : Nat
  prob : Kahan F

namespace MoveStats
variable {F : Type} [CxxFloat F]

/-- MoveStats.hpp:214-216: constructor -/
def new (name : String) : MoveStats F := ⟨name, false, 0, 0, 0, 0, Kahan.new⟩

/-- MoveStats.hpp:94: default constructor -/
def newDefault : MoveStats F := new "Unknown"

/-- MoveStats.hpp:218-229 `UpdateIfProposed`; `incr` is `var += 1UL` -/
def updateIfProposed (checks : Bool) (s : MoveStats F) (incr : MoveStats F → MoveStats F) (prob : F) :
    Call (MoveStats F) Unit :=
  if s.proposedflag = false then ⟨s, .throws (.moveInvalidSequence s.name)⟩
  else
    let s := incr s
    let s := { s with proposedflag := false }
    let c := s.prob.add checks prob
    ⟨{ s with prob := c.state }, c.res⟩

/-- MoveStats.hpp:231-241 `UpdateIfNotProposed` -/
def updateIfNotProposed (s : MoveStats F) (incr : MoveStats F → MoveStats F) : Call (MoveStats F) Unit :=
  if s.proposedflag = true then ⟨s, .throws (.moveInvalidSequence s.name)⟩
  else
    let s := incr s
    ⟨{ s with proposedflag := true }, .ok ()⟩

/-- MoveStats.hpp:115 `Propose` -/
def propose (s : MoveStats F) : Call (MoveStats F) Unit :=
  updateIfNotProposed s (fun s => { s with proposed := succU s.proposed })

/-- MoveStats.hpp:118 `Accept` -/
def accept (checks : Bool) (s : MoveStats F) (prob : F) : Call (MoveStats F) Unit :=
  updateIfProposed checks s (fun s => { s with accepted := succU s.accepted }) prob

/-- MoveStats.hpp:121 `Reject` -/
def reject (checks : Bool) (s : MoveStats F) (prob : F) : Call (MoveStats F) Unit :=
  updateIfProposed checks s (fun s => { s with rejected := succU s.rejected }) prob

/-- MoveStats.hpp:124 `Impossible` -/
def setImpossible (checks : Bool) (s : MoveStats F) : Call (MoveStats F) Unit :=
  updateIfProposed checks s (fun s => { s with impossible := succU s.impossible }) CxxFloat.zero

/-- MoveStats.hpp:254-270 `Add` -/
def add (checks : Bool) (s : MoveStats F) (res : MoveResult F) : Call (MoveStats F) Unit :=
  let c := s.propose
  match c.res with
  | .ok () =>
    if res.getStatus = MoveStatus.accepted then accept checks c.state res.probability
    else if res.getStatus = MoveStatus.rejected then reject checks c.state res.probability
    else if res.getStatus = MoveStatus.impossible then setImpossible checks c.state
    else c
  | _ => c

/-- MoveStats.hpp:130 `GetName` -/
def getName (s : MoveStats F) : String := s.name

/-- MoveStats.hpp:133-136 `GetAcceptedRatio` -/
def getAcceptedRatio (s : MoveStats F) : F :=
  if s.proposed = 0 then CxxFloat.zero else CxxFloat.ofNat s.accepted / CxxFloat.ofNat s.proposed

/-- MoveStats.hpp:139-142 `GetRejectedRatio` -/
def getRejectedRatio (s : MoveStats F) : F := CxxFloat.ofNat s.rejected / CxxFloat.ofNat s.proposed

/-- MoveStats.hpp:145-148 `GetImpossibleRatio` -/
def getImpossibleRatio (s : MoveStats F) : F := CxxFloat.ofNat s.impossible / CxxFloat.ofNat s.proposed

/-- MoveStats.hpp:151-154 `GetAverageProbability` -/
def getAverageProbability (s : MoveStats F) : F := s.prob.mean

/-- MoveStats.hpp:243-252 `Reset` -/
def reset (s : MoveStats F) : MoveStats F := ⟨s.name, false, 0, 0, 0, 0, s.prob.reset⟩

/-- MoveStats.hpp:200-212 `serialize` -/
def serialize : Codec F (MoveStats F) := fun ar s => do
  let prob ← s.prob.serialize ar
  let proposed ← ar.ulong s.proposed
  let accepted ← ar.ulong s.accepted
  let rejected ← ar.ulong s.rejected
  let impossible ← ar.ulong s.impossible
  let proposedflag ← ar.bool s.proposedflag
  pure ⟨s.name, proposedflag, proposed, accepted, rejected, impossible, prob⟩

/-- MoveStats.hpp:272-284 `operator<<`; `fmtE` is what fmt writes for a `double` with the format `{:.3e}` -/
def print (fmtE : F → List Char) (s : MoveStats F) : List Char :=
  s.name.toList ++ "(accepted = ".toList ++ fmtE s.getAcceptedRatio ++ ", rejected = ".toList ++ fmtE s.getRejectedRatio ++
    ", impossible = ".toList ++ fmtE s.getImpossibleRatio ++ ", probability = ".toList ++
    fmtE s.getAverageProbability ++ ")".toList

/-- MoveStats.hpp:50-57 `MoveInvalidSequence::buildmessage` -/
def invalidSequenceMessage (name : String) : List Char :=
  name.toList ++ " move: invalid sequence of proposals, accpetances or rejections".toList

end MoveStats
end Bwsl
