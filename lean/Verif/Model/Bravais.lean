import Verif.Cxx.Float
import Verif.Cxx.Outcome
import Verif.Model.Containers
import Verif.Model.MathFloat

/-!
# Model of include/bwsl/Bravais.hpp

A loop that fills a vector of known size component by component is `mapRange`; a loop that adds terms to a
variable is `accumulate`.
-/

namespace Bwsl

/-- `v[i]` for reading: undefined past the end. -/
def subscript (v : List α) (i : Nat) : Res α :=
  match v[i]? with
  | some x => .ok x
  | none => .ub .outOfBounds

/-- `for (i = k; i < k + n; i++) p.push_back(f(i))`, or `p[i] = f(i)` into a vector of that size. -/
def mapRangeFrom (f : Nat → Res α) (k : Nat) : Nat → Res (List α)
  | 0 => .ok []
  | n + 1 => do
    let x ← f k
    let xs ← mapRangeFrom f (k + 1) n
    .ok (x :: xs)

/-- `mapRangeFrom` for `i` from 0. -/
def mapRange (n : Nat) (f : Nat → Res α) : Res (List α) := mapRangeFrom f 0 n

/-- `for (j = k; j < k + n; j++) acc += f(j)` in `double`. -/
def accumulateFrom [CxxFloat F] (f : Nat → Res F) (acc : F) (k : Nat) : Nat → Res F
  | 0 => .ok acc
  | n + 1 => do
    let x ← f k
    accumulateFrom f (acc + x) (k + 1) n

/-- `acc = 0.0; for (j = 0; j < n; j++) acc += f(j)`. -/
def accumulate [CxxFloat F] (n : Nat) (f : Nat → Res F) : Res F := accumulateFrom f CxxFloat.zero 0 n

/-- include/bwsl/Bravais.hpp:100-114, the data members -/
structure Bravais (F : Type) where
  dim : Nat
  gamma : Nat
  pvectors : List F
  pivectors : List F
  neighbors : List Int

namespace Bravais
variable {F : Type} [CxxFloat F]

/-- include/bwsl/Bravais.hpp:117-131 constructor -/
def new (dim gamma : Nat) (pvectors pivectors : List F) (neighbors : List Int) : Res (Bravais F) :=
  if pvectors.length = squareU dim ∧ pivectors.length = squareU dim ∧ neighbors.length = umul (gamma / 2) dim then
    .ok ⟨dim, gamma, pvectors, pivectors, neighbors⟩
  else .ub .assertion

/-- include/bwsl/Bravais.hpp:133-144 `GetRealSpace` -/
def getRealSpace (b : Bravais F) (coords : List Int) : Res (List F) :=
  if coords.length = b.dim then
    mapRange b.dim (fun i => accumulate b.dim (fun j => do
      let c ← subscript coords j
      let p ← subscript b.pvectors (uadd i (umul j b.dim))
      .ok (CxxFloat.ofInt c * p)))
  else .ub .assertion

/-- include/bwsl/Bravais.hpp:146-158 `GetInverseVector` -/
def getInverseVector (b : Bravais F) (realspace : List F) : Res (List F) :=
  if realspace.length = b.dim then
    mapRange b.dim (fun i => accumulate b.dim (fun j => do
      let x ← subscript realspace i
      let p ← subscript b.pivectors (uadd (umul i b.dim) j)
      .ok (x * p)))
  else .ub .assertion

/-- include/bwsl/Bravais.hpp:160-171 `GetReciprocalSpace`; `coords[j] * 2` is computed in `long` -/
def getReciprocalSpace (b : Bravais F) (coords : List Int) : Res (List F) :=
  if coords.length = b.dim then
    mapRange b.dim (fun i => accumulate b.dim (fun j => do
      let c ← subscript coords j
      let c2 ← lmul c 2
      let p ← subscript b.pivectors (uadd i (umul j b.dim))
      .ok (CxxFloat.ofInt c2 * CxxFloat.pi * p)))
  else .ub .assertion

/-- include/bwsl/Bravais.hpp:173-183 `GetVector` -/
def getVector (b : Bravais F) (first second : List Int) : Res (List F) := do
  let p ← mapRange b.dim (fun i => do
    let y ← subscript second i
    let x ← subscript first i
    lsub y x)
  b.getRealSpace p

/-- include/bwsl/Bravais.hpp:198-209 `GetDistanceVector` -/
def getDistanceVector (b : Bravais F) (first second : List Int) : Res (F × List F) := do
  let p ← b.getVector first second
  let d ← accumulate b.dim (fun i => do
    let x ← subscript p i
    .ok (squareF x))
  .ok (CxxFloat.sqrt d, p)

/-- include/bwsl/Bravais.hpp:185-196 `GetDistance` -/
def getDistance (b : Bravais F) (first second : List Int) : Res F := do
  let p ← b.getVector first second
  let d ← accumulate b.dim (fun i => do
    let x ← subscript p i
    .ok (squareF x))
  .ok (CxxFloat.sqrt d)

/-- include/bwsl/Bravais.hpp:211-223 `GetNeighbor`: a copy of `point` whose first `dim` components are
displaced -/
def getNeighbor (b : Bravais F) (point : List Int) (idx : Nat) : Res (List Int) := do
  let aidx := idx / 2
  let sidx : Int := if idx % 2 = 0 then 1 else -1
  let n ← mapRange b.dim (fun i => do
    let c ← subscript point i
    let v ← subscript b.neighbors (uadd (umul aidx b.dim) i)
    let d ← lmul sidx v
    ladd c d)
  .ok (n ++ point.drop b.dim)

end Bravais

section
variable {F : Type} [CxxFloat F]

/-- include/bwsl/Bravais.hpp:226-232 `ChainLattice` -/
def chainLattice : Res (Bravais F) :=
  Bravais.new 1 2 [CxxFloat.lit 1] [CxxFloat.lit 1] [1]

/-- include/bwsl/Bravais.hpp:233-239 `SquareLattice` -/
def squareLattice : Res (Bravais F) :=
  Bravais.new 2 4 [CxxFloat.lit 1, CxxFloat.zero, CxxFloat.zero, CxxFloat.lit 1]
    [CxxFloat.lit 1, CxxFloat.zero, CxxFloat.zero, CxxFloat.lit 1] [1, 0, 0, 1]

/-- include/bwsl/Bravais.hpp:240-246 `CubicLattice` -/
def cubicLattice : Res (Bravais F) :=
  let one : F := CxxFloat.lit 1
  let zero : F := CxxFloat.zero
  Bravais.new 3 6 [one, zero, zero, zero, one, zero, zero, zero, one]
    [one, zero, zero, zero, one, zero, zero, zero, one] [1, 0, 0, 0, 1, 0, 0, 0, 1]

/-- include/bwsl/Bravais.hpp:247-253 `TriangularLattice` -/
def triangularLattice : Res (Bravais F) :=
  let sqrt3 : F := CxxFloat.sqrt (CxxFloat.lit 3)
  Bravais.new 2 6 [CxxFloat.lit 1, CxxFloat.zero, CxxFloat.lit (1 / 2), sqrt3 / CxxFloat.lit 2]
    [CxxFloat.lit 1, (-CxxFloat.lit 1) / sqrt3, CxxFloat.zero, CxxFloat.lit 2 / sqrt3] [1, 0, 0, 1, 1, -1]

end
end Bwsl
