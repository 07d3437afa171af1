import Verif.Cxx.Archive
import Verif.Cxx.Float

/-!
# Model of include/bwsl/accumulators

`Add` without BWSL_ACCUMULATORS_CHECKS is `addCore`; `add checks` is `Add` compiled with or without the
checks, and gives the object after the call together with the way the call ended.
-/

namespace Bwsl

/-- What a method call leaves behind: the object after the call and how the call ended. -/
structure Call (σ : Type u) (α : Type v) where
  state : σ
  res : Res α

/-- `count_ + 1UL` and `count_++` on an `unsigned long` -/
def succU (n : Nat) : Nat := (n + 1) % W64

/-- `Add` with the guard of BWSL_ACCUMULATORS_CHECKS in front: `count_` at its maximum throws before
anything is changed. -/
def guarded (checks : Bool) (count : Nat) (s s' : σ) : Call σ Unit :=
  if checks = true ∧ count = W64 - 1 then ⟨s, .throws .accumulatorOverflow⟩ else ⟨s', .ok ()⟩

/-! ## KahanAccumulator -/

/-- include/bwsl/accumulators/KahanAccumulator.hpp:71-77 -/
structure Kahan (F : Type) where
  sum : F
  c : F
  count : Nat

namespace Kahan
variable {F : Type} [CxxFloat F]

/-- KahanAccumulator.hpp:36, 71-77: default constructor -/
def new : Kahan F := ⟨CxxFloat.zero, CxxFloat.zero, 0⟩

/-- KahanAccumulator.hpp:94-98 -/
def addCore (s : Kahan F) (x : F) : Kahan F :=
  let y := x - s.c
  let t := s.sum + y
  ⟨t, (t - s.sum) - y, succU s.count⟩

/-- KahanAccumulator.hpp:85-99 `Add` -/
def add (checks : Bool) (s : Kahan F) (x : F) : Call (Kahan F) Unit :=
  guarded checks s.count s (s.addCore x)

/-- KahanAccumulator.hpp:57 `Sum` -/
def getSum (s : Kahan F) : F := s.sum

/-- KahanAccumulator.hpp:60 `Mean` -/
def mean (s : Kahan F) : F := s.sum / CxxFloat.ofNat s.count

/-- KahanAccumulator.hpp:63 `Count` -/
def getCount (s : Kahan F) : Nat := s.count

/-- KahanAccumulator.hpp:101-107 `Reset`; `count_ = 0.0` converts to 0 -/
def reset (_ : Kahan F) : Kahan F := ⟨CxxFloat.zero, CxxFloat.zero, 0⟩

/-- KahanAccumulator.hpp:109-118 `serialize` -/
def serialize [Monad m] (ar : Archive F m) (s : Kahan F) : m (Kahan F) := do
  let sum ← ar.dbl s.sum
  let c ← ar.dbl s.c
  let count ← ar.ulong s.count
  pure ⟨sum, c, count⟩

end Kahan

/-! ## NeumaierAccumulator -/

/-- include/bwsl/accumulators/NeumaierAccumulator.hpp:72-78 -/
structure Neumaier (F : Type) where
  sum : F
  c : F
  count : Nat

namespace Neumaier
variable {F : Type} [CxxFloat F]

/-- NeumaierAccumulator.hpp:36, 72-78: default constructor -/
def new : Neumaier F := ⟨CxxFloat.zero, CxxFloat.zero, 0⟩

/-- NeumaierAccumulator.hpp:96-103; `a >= b` is `b <= a` -/
def addCore (s : Neumaier F) (x : F) : Neumaier F :=
  let t := s.sum + x
  let c := if CxxFloat.le (CxxFloat.abs x) (CxxFloat.abs s.sum)
    then s.c + ((s.sum - t) + x)
    else s.c + ((x - t) + s.sum)
  ⟨t, c, succU s.count⟩

/-- NeumaierAccumulator.hpp:86-104 `Add` -/
def add (checks : Bool) (s : Neumaier F) (x : F) : Call (Neumaier F) Unit :=
  guarded checks s.count s (s.addCore x)

/-- NeumaierAccumulator.hpp:58 `Sum` -/
def getSum (s : Neumaier F) : F := s.sum + s.c

/-- NeumaierAccumulator.hpp:64 `Count` -/
def getCount (s : Neumaier F) : Nat := s.count

/-- NeumaierAccumulator.hpp:61 `Mean` -/
def mean (s : Neumaier F) : F := s.getSum / CxxFloat.ofNat s.getCount

/-- NeumaierAccumulator.hpp:106-112 `Reset` -/
def reset (_ : Neumaier F) : Neumaier F := ⟨CxxFloat.zero, CxxFloat.zero, 0⟩

/-- NeumaierAccumulator.hpp:114-123 `serialize` -/
def serialize [Monad m] (ar : Archive F m) (s : Neumaier F) : m (Neumaier F) := do
  let sum ← ar.dbl s.sum
  let c ← ar.dbl s.c
  let count ← ar.ulong s.count
  pure ⟨sum, c, count⟩

end Neumaier

/-! ## KnuthWelfordAccumulator -/

/-- include/bwsl/accumulators/KnuthWelfordAccumulator.hpp:87-93 -/
structure KnuthWelford (F : Type) where
  mean : F
  m2 : F
  count : Nat

namespace KnuthWelford
variable {F : Type} [CxxFloat F]

/-- KnuthWelfordAccumulator.hpp:38, 87-93: default constructor -/
def new : KnuthWelford F := ⟨CxxFloat.zero, CxxFloat.zero, 0⟩

/-- KnuthWelfordAccumulator.hpp:113-118 -/
def addCore (s : KnuthWelford F) (x : F) : KnuthWelford F :=
  let count := succU s.count
  let delta := x - s.mean
  let mean := s.mean + delta / CxxFloat.ofNat count
  let delta2 := x - mean
  ⟨mean, s.m2 + delta * delta2, count⟩

/-- KnuthWelfordAccumulator.hpp:103-119 `Add` -/
def add (checks : Bool) (s : KnuthWelford F) (x : F) : Call (KnuthWelford F) Unit :=
  guarded checks s.count s (s.addCore x)

/-- KnuthWelfordAccumulator.hpp:79 `Count` -/
def getCount (s : KnuthWelford F) : Nat := s.count

/-- KnuthWelfordAccumulator.hpp:61 `Sum` -/
def sum (s : KnuthWelford F) : F := s.mean * CxxFloat.ofNat s.getCount

/-- KnuthWelfordAccumulator.hpp:64 `Mean` -/
def getMean (s : KnuthWelford F) : F := s.mean

/-- KnuthWelfordAccumulator.hpp:121-131 `Variance` -/
def variance (s : KnuthWelford F) (corrected : Bool) : F :=
  if s.count < 2 then CxxFloat.nan
  else
    let ccount := if corrected then usub s.count 1 else s.count
    s.m2 / CxxFloat.ofNat ccount

/-- KnuthWelfordAccumulator.hpp:133-141 `ScaledVariance` -/
def scaledVariance (s : KnuthWelford F) : F := if s.count < 2 then CxxFloat.nan else s.m2

/-- KnuthWelfordAccumulator.hpp:143-147 `StandardDeviation` -/
def standardDeviation (s : KnuthWelford F) (corrected : Bool) : F := CxxFloat.sqrt (s.variance corrected)

/-- KnuthWelfordAccumulator.hpp:149-153 `Error`; `std::sqrt` of an `unsigned long` converts it to
`double` -/
def error (s : KnuthWelford F) (corrected : Bool) : F :=
  s.standardDeviation corrected / CxxFloat.sqrt (CxxFloat.ofNat s.getCount)

/-- KnuthWelfordAccumulator.hpp:155-161 `Reset` -/
def reset (_ : KnuthWelford F) : KnuthWelford F := ⟨CxxFloat.zero, CxxFloat.zero, 0⟩

/-- KnuthWelfordAccumulator.hpp:163-173 `serialize` -/
def serialize [Monad m] (ar : Archive F m) (s : KnuthWelford F) : m (KnuthWelford F) := do
  let mean ← ar.dbl s.mean
  let m2 ← ar.dbl s.m2
  let count ← ar.ulong s.count
  pure ⟨mean, m2, count⟩

end KnuthWelford

/-! ## WestAccumulator -/

/-- include/bwsl/accumulators/WestAccumulator.hpp:85-97 -/
structure West (F : Type) where
  sumWeights : F
  sumWeights2 : F
  mean : F
  m2 : F
  count : Nat

namespace West
variable {F : Type} [CxxFloat F]

/-- WestAccumulator.hpp:39, 85-97: default constructor -/
def new : West F := ⟨CxxFloat.zero, CxxFloat.zero, CxxFloat.zero, CxxFloat.zero, 0⟩

/-- WestAccumulator.hpp:118-124 -/
def addCore (s : West F) (m w : F) : West F :=
  let sumWeights := s.sumWeights + w
  let sumWeights2 := s.sumWeights2 + w * w
  let oldmean := s.mean
  let mean := s.mean + (w / sumWeights) * (m - oldmean)
  let m2 := s.m2 + w * (m - oldmean) * (m - mean)
  ⟨sumWeights, sumWeights2, mean, m2, succU s.count⟩

/-- WestAccumulator.hpp:107-126 `Add`; `w > 0.0` is `0.0 < w` -/
def add (checks : Bool) (s : West F) (m w : F) : Call (West F) Unit :=
  if CxxFloat.lt CxxFloat.zero w then guarded checks s.count s (s.addCore m w) else ⟨s, .ok ()⟩

/-- WestAccumulator.hpp:77 `Count` -/
def getCount (s : West F) : Nat := s.count

/-- WestAccumulator.hpp:60 `Sum` -/
def sum (s : West F) : F := s.mean * s.sumWeights

/-- WestAccumulator.hpp:63 `Mean` -/
def getMean (s : West F) : F := s.mean

/-- WestAccumulator.hpp:128-136 `PopulationVariance` -/
def populationVariance (s : West F) : F := if s.count < 2 then CxxFloat.nan else s.m2 / s.sumWeights

/-- WestAccumulator.hpp:138-146 `SampleFrequencyVariance` -/
def sampleFrequencyVariance (s : West F) : F :=
  if s.count < 2 then CxxFloat.nan else s.m2 / (s.sumWeights - CxxFloat.ofInt 1)

/-- WestAccumulator.hpp:148-156 `SampleReliabilityVariance` -/
def sampleReliabilityVariance (s : West F) : F :=
  if s.count < 2 then CxxFloat.nan else s.m2 / (s.sumWeights - s.sumWeights2 / s.sumWeights)

/-- WestAccumulator.hpp:158-166 `Reset` -/
def reset (_ : West F) : West F := ⟨CxxFloat.zero, CxxFloat.zero, CxxFloat.zero, CxxFloat.zero, 0⟩

/-- WestAccumulator.hpp:168-179 `serialize` -/
def serialize [Monad m] (ar : Archive F m) (s : West F) : m (West F) := do
  let sumWeights ← ar.dbl s.sumWeights
  let sumWeights2 ← ar.dbl s.sumWeights2
  let mean ← ar.dbl s.mean
  let m2 ← ar.dbl s.m2
  let count ← ar.ulong s.count
  pure ⟨sumWeights, sumWeights2, mean, m2, count⟩

end West

/-! ## NaiveInteger -/

/-- include/bwsl/accumulators/NaiveIntegerAccumulator.hpp:85-91 -/
structure NaiveInteger where
  sum : Int
  sum2 : Int
  count : Nat
  deriving DecidableEq

namespace NaiveInteger

/-- NaiveIntegerAccumulator.hpp:38, 85-91: default constructor -/
def new : NaiveInteger := ⟨0, 0, 0⟩

/-- NaiveIntegerAccumulator.hpp:117-120; the object after an undefined addition is not defined, so it is
part of the outcome -/
def addCore (s : NaiveInteger) (x : Int) : Res NaiveInteger := do
  let sum ← ladd s.sum x
  let x2 ← lmul x x
  let sum2 ← ladd s.sum2 x2
  .ok ⟨sum, sum2, succU s.count⟩

/-- NaiveIntegerAccumulator.hpp:106-114, the guard: whether it throws.  The second comparison is made in
`unsigned long`.  The third one is `(max() < sum2_) <= x * x`: a `bool` compared with a `long`. -/
def guard (s : NaiveInteger) (x : Int) : Res Bool := do
  if s.count = W64 - 1 then .ok true
  else if usub (W64 - 1) (toSize s.sum) ≤ toSize x then .ok true
  else do
    let x2 ← lmul x x
    let lhs : Int := if W64 - 1 < toSize s.sum2 then 1 else 0
    .ok (decide (lhs ≤ x2))

/-- NaiveIntegerAccumulator.hpp:101-121 `Add` -/
def add (checks : Bool) (s : NaiveInteger) (x : Int) : Res NaiveInteger := do
  if checks then
    let g ← guard s x
    if g then .throws .accumulatorOverflow else addCore s x
  else addCore s x

/-- NaiveIntegerAccumulator.hpp:59 `Sum` -/
def getSum (s : NaiveInteger) : Int := s.sum

/-- NaiveIntegerAccumulator.hpp:77 `Count` -/
def getCount (s : NaiveInteger) : Nat := s.count

variable {F : Type} [CxxFloat F]

/-- NaiveIntegerAccumulator.hpp:62-65 `Mean` -/
def mean (F : Type) [CxxFloat F] (s : NaiveInteger) : F :=
  CxxFloat.ofInt s.sum / CxxFloat.ofNat s.getCount

/-- `sum2_ - sum_ * sum_` in NaiveIntegerAccumulator.hpp:132, 142 -/
def numerator (s : NaiveInteger) : Res Int := do
  let p ← lmul s.sum s.sum
  lsub s.sum2 p

/-- NaiveIntegerAccumulator.hpp:123-133 `Variance` -/
def variance (F : Type) [CxxFloat F] (s : NaiveInteger) (corrected : Bool) : Res F :=
  if s.count < 2 then .ok CxxFloat.nan
  else do
    let ccount := if corrected then usub s.count 1 else s.count
    let n ← s.numerator
    .ok (CxxFloat.ofInt n / CxxFloat.ofNat (umul s.count ccount))

/-- NaiveIntegerAccumulator.hpp:135-143 `ScaledVariance` -/
def scaledVariance (F : Type) [CxxFloat F] (s : NaiveInteger) : Res F :=
  if s.count < 2 then .ok CxxFloat.nan
  else do
    let n ← s.numerator
    .ok (CxxFloat.ofInt n / CxxFloat.ofNat s.count)

/-- NaiveIntegerAccumulator.hpp:145-149 `StandardDeviation` -/
def standardDeviation (F : Type) [CxxFloat F] (s : NaiveInteger) (corrected : Bool) : Res F := do
  let v ← variance F s corrected
  .ok (CxxFloat.sqrt v)

/-- NaiveIntegerAccumulator.hpp:151-157 `Reset` -/
def reset (_ : NaiveInteger) : NaiveInteger := ⟨0, 0, 0⟩

/-- NaiveIntegerAccumulator.hpp:159-168 `serialize` -/
def serialize [Monad m] (ar : Archive F m) (s : NaiveInteger) : m NaiveInteger := do
  let sum ← ar.long s.sum
  let sum2 ← ar.long s.sum2
  let count ← ar.ulong s.count
  pure ⟨sum, sum2, count⟩

end NaiveInteger

/-- include/bwsl/Accumulators.hpp:24-32 `apply_accumulator`, for the `Add` of one of the accumulators: the loop
ends with the first call that does not return normally -/
def applyAccumulator (add : σ → F → Call σ Unit) : List F → σ → Call σ Unit
  | [], acc => ⟨acc, .ok ()⟩
  | x :: xs, acc =>
    let c := add acc x
    match c.res with
    | .ok () => applyAccumulator add xs c.state
    | _ => c

end Bwsl
