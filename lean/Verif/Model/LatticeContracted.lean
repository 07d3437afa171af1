import Verif.Model.Contracted

/-!
# Lattices built with contraction

The constructor of `Lattice` with a choice, for each place where a product is added, of whether it is fused (see Contracted.lean).
The functions of `Bravais` are inline, so the choices may differ from one call to another.
-/

namespace Bwsl
variable {F : Type} [CxxFloat F] [CxxFma F]

/-- include/bwsl/Bravais.hpp:173-183 `GetVector` -/
def Bravais.getVectorContracted (fused : Bool) (b : Bravais F) (first second : List Int) : Res (List F) := do
  let p ← mapRange b.dim (fun i => do
    let y ← subscript second i
    let x ← subscript first i
    lsub y x)
  b.getRealSpaceContracted fused p

/-- include/bwsl/Bravais.hpp:198-209 `GetDistanceVector` -/
def Bravais.getDistanceVectorContracted (fused fused' : Bool) (b : Bravais F) (first second : List Int) : Res (F × List F) := do
  let p ← b.getVectorContracted fused first second
  let d ← dotFrom fused' (fun i => do
    let x ← subscript p i
    .ok (x, x)) CxxFloat.zero 0 b.dim
  .ok (CxxFloat.sqrt d, p)

/-- Where the products of the constructor of `Lattice` are fused: in `GetRealSpace` called by `ComputePositions`, in `GetRealSpace`
and the squares of `GetDistanceVector` called by `ComputeVectors` for the site itself and for its images, in `sum_squared` called
by `ComputeDistances`, and in `GetReciprocalSpace`. -/
structure LatticeFused where
  position : Bool
  vector : Bool
  square : Bool
  imageVector : Bool
  imageSquare : Bool
  distance : Bool
  momentum : Bool

namespace Lattice

/-- include/bwsl/Lattice.hpp:267-279 `ComputePositions` -/
def computePositionsContracted (c : LatticeFused) (g : Grid) (b : Bravais F) : Res (List (List F)) := do
  let c0 ← g.getCoordinates 0
  mapRange g.numsites (fun i => do
    let ci ← g.getCoordinates i
    b.getVectorContracted c.position c0 ci)

/-- include/bwsl/Lattice.hpp:312-323: the body of the loop over the images -/
def tryImageContracted (c : LatticeFused) (g : Grid) (b : Bravais F) (imgsize : List Nat) (c0 cs : List Int) (s : F × List F)
    (k : Nat) : Res (F × List F) := do
  let img ← indexToArray k imgsize
  let csm ← imageCoords g cs img
  let r ← b.getDistanceVectorContracted c.imageVector c.imageSquare c0 csm
  .ok (if CxxFloat.lt r.1 s.1 then r else s)

/-- include/bwsl/Lattice.hpp:295-330 `ComputeVectors` -/
def computeVectorsContracted (c : LatticeFused) (g : Grid) (b : Bravais F) : Res (List (List F)) := do
  let imgsize := List.replicate g.dim 3
  let nimg := accumulateProduct imgsize
  let c0 ← g.getCoordinates 0
  mapRange g.numsites (fun site => do
    let cs ← g.getCoordinates site
    let r ← b.getDistanceVectorContracted c.vector c.square c0 cs
    let r ← if g.hasClosedBoundaries then foldRange nimg (tryImageContracted c g b imgsize c0 cs) r else .ok r
    .ok r.2)

/-- include/bwsl/Lattice.hpp:281-293 `ComputeDistances`, with `sum_squared` of include/bwsl/MathUtils.hpp:107-116 -/
def computeDistancesContracted (c : LatticeFused) (vectors : List (List F)) : List F :=
  vectors.map (fun v => CxxFloat.sqrt (v.foldl (fun d x => mulAdd c.distance x x d) (CxxFloat.ofInt 0)))

/-- include/bwsl/Lattice.hpp:371-380: one momentum -/
def computeMomentumContracted (c : LatticeFused) (g : Grid) (b : Bravais F) (i : Nat) : Res (List F) := do
  let ci ← g.getCoordinates i
  let ci ← mapRange ci.length (fun k => do
    let s ← subscript g.size k
    let c ← subscript ci k
    .ok (Grid.subMixed c (s / 2)))
  let kappa ← b.getReciprocalSpaceContracted c.momentum ci
  mapRange kappa.length (fun k => do
    let s ← subscript g.size k
    let x ← subscript kappa k
    .ok (x / CxxFloat.ofNat s))

/-- include/bwsl/Lattice.hpp:357-384 `ComputeMomenta` -/
def computeMomentaContracted (c : LatticeFused) (g : Grid) (b : Bravais F) : Res (List (List F)) :=
  if g.hasOpenBoundaries then .ok [] else mapRange g.numsites (computeMomentumContracted c g b)

/-- include/bwsl/Lattice.hpp:187-197 constructor -/
def newContracted (c : LatticeFused) (b : Bravais F) (size : List Nat) (boundaries : Boundaries) : Res (Lattice F) := do
  let g := Grid.new size boundaries
  let position ← computePositionsContracted c g b
  let vectors ← computeVectorsContracted c g b
  let distance := computeDistancesContracted c vectors
  let neighbors ← computeNeighbors g b
  let momenta ← computeMomentaContracted c g b
  .ok ⟨g, position, vectors, distance, neighbors, momenta⟩

end Lattice
end Bwsl
