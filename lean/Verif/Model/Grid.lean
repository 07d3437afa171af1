import Verif.Model.Containers

/-!
# Model of include/bwsl/HyperCubicGrid.hpp
-/

namespace Bwsl

/-- include/bwsl/HyperCubicGrid.hpp:42-46 `boundaries_t` -/
inductive Boundaries where
  | open
  | closed
  deriving DecidableEq, Repr

/-- include/bwsl/HyperCubicGrid.hpp:145-159, the data members -/
structure Grid where
  dim : Nat
  size : List Nat
  numsites : Nat
  numpairs : Nat
  boundaries : Boundaries
  deriving DecidableEq, Repr

namespace Grid

/-- include/bwsl/HyperCubicGrid.hpp:49 default constructor, with the initialisers of lines 147-159 -/
def default : Grid := ⟨0, [], 0, 0, .open⟩

/-- include/bwsl/HyperCubicGrid.hpp:162-170 constructor -/
def new (size : List Nat) (boundaries : Boundaries) : Grid :=
  let numsites := accumulateProduct size
  ⟨size.length, size, numsites, Pairs.getNumPairs numsites, boundaries⟩

/-- include/bwsl/HyperCubicGrid.hpp:73-76 -/
def hasOpenBoundaries (g : Grid) : Bool := g.boundaries == .open
/-- include/bwsl/HyperCubicGrid.hpp:79-82 -/
def hasClosedBoundaries (g : Grid) : Bool := g.boundaries == .closed

/-- include/bwsl/HyperCubicGrid.hpp:119-122 -/
def indexIsValid (g : Grid) (i : Nat) : Bool := decide (i < g.numsites)

/-- include/bwsl/HyperCubicGrid.hpp:172-176 -/
def getCoordinates (g : Grid) (offset : Nat) : Res (List Int) := indexToArray offset g.size

/-- include/bwsl/HyperCubicGrid.hpp:178-182 -/
def getIndex (g : Grid) (coords : List Int) : Res Nat := arrayToIndex coords g.size

/-- include/bwsl/HyperCubicGrid.hpp:209-214: the two `while` loops for one coordinate; `s` is a `long` -/
def enforceOne (s c : Int) : Res Int := do
  let c ← whileLoop (fun c => decide (c < 0)) (fun c => ladd c s) c
  whileLoop (fun c => decide (s ≤ c)) (fun c => lsub c s) c

/-- include/bwsl/HyperCubicGrid.hpp:207-215: the loop over the dimensions; the first argument is the number of the
remaining ones, as the loop runs to `dim_` and not to the end of `size_` -/
def enforceLoop : Nat → List Nat → List Int → Res (List Int)
  | 0, _, cs => .ok cs
  | _ + 1, [], _ => .ub .outOfBounds
  | _ + 1, _ :: _, [] => .ub .outOfBounds
  | n + 1, s :: ss, c :: cs => do
    let c ← enforceOne (toLong s) c
    let cs ← enforceLoop n ss cs
    .ok (c :: cs)

/-- include/bwsl/HyperCubicGrid.hpp:202-217 -/
def enforceBoundaries (g : Grid) (coords : List Int) : Res (List Int) :=
  if coords.length = g.dim then
    if g.hasClosedBoundaries then enforceLoop g.dim g.size coords else .ok coords
  else
    .ub .assertion

/-- include/bwsl/HyperCubicGrid.hpp:184-191 -/
def getMappedSite (g : Grid) (a b : Nat) : Res Nat := do
  let cb ← g.getCoordinates b
  let ca ← g.getCoordinates a
  let cb ← subtractInto cb ca
  let cb ← g.enforceBoundaries cb
  g.getIndex cb

/-- include/bwsl/HyperCubicGrid.hpp:193-200 -/
def getUnMappedSite (g : Grid) (i a : Nat) : Res Nat := do
  let ca ← g.getCoordinates a
  let ci ← g.getCoordinates i
  let ca ← sumInto ca ci
  let ca ← g.enforceBoundaries ca
  g.getIndex ca

/-- include/bwsl/HyperCubicGrid.hpp:223-227, the loop over the dimensions; the extent is not read if the coordinate is
negative -/
def isOnGridLoop : Nat → List Nat → List Int → Res Bool
  | 0, _, _ => .ok true
  | _ + 1, _, [] => .ub .outOfBounds
  | _ + 1, [], c :: _ => if c < 0 then .ok false else .ub .outOfBounds
  | n + 1, s :: ss, c :: cs =>
    if c < 0 ∨ s ≤ toSize c then .ok false else isOnGridLoop n ss cs

/-- include/bwsl/HyperCubicGrid.hpp:219-229 -/
def isOnGrid (g : Grid) (coords : List Int) : Res Bool :=
  if coords.length = g.dim then isOnGridLoop g.dim g.size coords else .ub .assertion

/-- include/bwsl/HyperCubicGrid.hpp:231-235 -/
def getPairIndex (g : Grid) (a b : Nat) : Nat := Pairs.getPairIndex a b g.numsites

/-- include/bwsl/HyperCubicGrid.hpp:237-242 -/
def getIndividualIndices (g : Grid) (pair : Nat) : Res (Nat × Nat) := Pairs.getPair pair g.numsites

/-- `static_cast<int>(n)` of a `size_t`: reduction modulo 2^32 into [-2^31, 2^31) -/
def toInt32 (n : Nat) : Int :=
  let m : Int := (n % 4294967296 : Nat)
  if m < 2147483648 then m else m - 4294967296

/-- `c -= s` for `long c` and `size_t s`: computed in `unsigned long`, converted back -/
def subMixed (c : Int) (s : Nat) : Int := toLong (usub (toSize c) s)
/-- `c += s` for `long c` and `size_t s` -/
def addMixed (c : Int) (s : Nat) : Int := toLong (uadd (toSize c) s)

/-- include/bwsl/HyperCubicGrid.hpp:253-263, body of the loop; `-si_half` is an `int` negation -/
def jumpOne (s : Nat) (c : Int) : Res Int :=
  let half := toInt32 (s / 2)
  let c := if c > half then subMixed c s else c
  if half = -2147483648 then .ub .signedOverflow
  else if c < -half ∨ (s % 2 = 0 ∧ c = -half) then .ok (addMixed c s) else .ok c

/-- include/bwsl/HyperCubicGrid.hpp:252-264 -/
def jumpLoop : Nat → List Nat → List Int → Res (List Int)
  | 0, _, cs => .ok cs
  | _ + 1, [], _ => .ub .outOfBounds
  | _ + 1, _ :: _, [] => .ub .outOfBounds
  | n + 1, s :: ss, c :: cs => do
    let c ← jumpOne s c
    let cs ← jumpLoop n ss cs
    .ok (c :: cs)

/-- include/bwsl/HyperCubicGrid.hpp:244-268 -/
def getJump (g : Grid) (a b : Nat) : Res (List Int) :=
  if g.indexIsValid a && g.indexIsValid b then do
    let cb ← g.getCoordinates b
    let ca ← g.getCoordinates a
    let cb ← subtractInto cb ca
    if g.hasClosedBoundaries then jumpLoop g.dim g.size cb else .ok cb
  else .ub .assertion

end Grid

namespace Lat

/-- include/bwsl/Lattice.hpp:241-245: `std::transform` with `std::divides<long>` over the sizes -/
def windingLoop : List Int → List Nat → Res (List Int)
  | [], _ => .ok []
  | _ :: _, [] => .ub .outOfBounds
  | j :: js, s :: ss => do
    let q ← ldiv j (toLong s)
    let qs ← windingLoop js ss
    .ok (q :: qs)

/-- include/bwsl/Lattice.hpp:236-248 `GetWinding` (a method of `Lattice` that only reads the grid) -/
def getWinding (g : Grid) (jumps : List Int) : Res (List Int) :=
  if jumps.length = g.dim then windingLoop jumps g.size else .ub .assertion

/-- include/bwsl/Lattice.hpp:203-209: the `while` loops of `Lattice::EnforceBoundaries` for one
coordinate; here `s` is a `size_t`, so the additions are unsigned -/
def enforceOne (s : Nat) (c : Int) : Res Int := do
  let c ← whileLoop (fun c => decide (c < 0)) (fun c => .ok (Grid.addMixed c s)) c
  whileLoop (fun c => decide (toLong s ≤ c)) (fun c => .ok (Grid.subMixed c s)) c

/-- include/bwsl/Lattice.hpp:202-210: the loop over the dimensions -/
def enforceLoop : Nat → List Nat → List Int → Res (List Int)
  | 0, _, cs => .ok cs
  | _ + 1, [], _ => .ub .outOfBounds
  | _ + 1, _ :: _, [] => .ub .outOfBounds
  | n + 1, s :: ss, c :: cs => do
    let c ← enforceOne s c
    let cs ← enforceLoop n ss cs
    .ok (c :: cs)

/-- include/bwsl/Lattice.hpp:199-211 `Lattice::EnforceBoundaries`: hides the method of the base class and
does not look at the boundary conditions.  No `assert`: short coordinates are read out of bounds. -/
def enforceBoundaries (g : Grid) (coords : List Int) : Res (List Int) := enforceLoop g.dim g.size coords

end Lat
end Bwsl
