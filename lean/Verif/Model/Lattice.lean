import Verif.Model.Bravais
import Verif.Model.Grid
import Verif.Model.ObservableGroup
import Verif.Cxx.Text

/-!
# Model of include/bwsl/Lattice.hpp

`GetWinding` and `Lattice::EnforceBoundaries` are in `Verif.Model.Grid`.  Simplifications: files can always be
opened and written, and the text that `fmt` produces for a `double` is a parameter.
-/

namespace Bwsl

/-- `for (i = k; i < k + n; i++) s = f(s, i)`. -/
def foldRangeFrom (f : σ → Nat → Res σ) (s : σ) (k : Nat) : Nat → Res σ
  | 0 => .ok s
  | n + 1 => do
    let s ← f s k
    foldRangeFrom f s (k + 1) n

/-- `foldRangeFrom` for `i` from 0. -/
def foldRange (n : Nat) (f : σ → Nat → Res σ) (s : σ) : Res σ := foldRangeFrom f s 0 n

/-- include/bwsl/Lattice.hpp:170-184, the data members, with those of the base class in `grid` -/
structure Lattice (F : Type) where
  grid : Grid
  position : List (List F)
  vectors : List (List F)
  distance : List F
  neighbors : List (List Nat)
  momenta : List (List F)

namespace Lattice
variable {F : Type} [CxxFloat F]

/-- include/bwsl/Lattice.hpp:54 default constructor -/
def default : Lattice F := ⟨.default, [], [], [], [], []⟩

/-- include/bwsl/Lattice.hpp:267-279 `ComputePositions` -/
def computePositions (g : Grid) (b : Bravais F) : Res (List (List F)) := do
  let c0 ← g.getCoordinates 0
  mapRange g.numsites (fun i => do
    let c ← g.getCoordinates i
    b.getVector c0 c)

/-- include/bwsl/Lattice.hpp:314-317: the coordinates of an image; the product and the sum are computed in
`unsigned long` -/
def imageCoords (g : Grid) (cs img : List Int) : Res (List Int) := do
  let ds ← mapRange g.dim (fun m => do
    let i ← subscript img m
    let i1 ← lsub i 1
    let s ← subscript g.size m
    let c ← subscript cs m
    .ok (Grid.addMixed c (umul (toSize i1) s)))
  .ok (ds ++ cs.drop g.dim)

/-- include/bwsl/Lattice.hpp:312-323: the body of the loop over the images; the state is `mindist` and `minvec` -/
def tryImage (g : Grid) (b : Bravais F) (imgsize : List Nat) (c0 cs : List Int) (s : F × List F) (k : Nat) :
    Res (F × List F) := do
  let img ← indexToArray k imgsize
  let csm ← imageCoords g cs img
  let r ← b.getDistanceVector c0 csm
  .ok (if CxxFloat.lt r.1 s.1 then r else s)

/-- include/bwsl/Lattice.hpp:295-330 `ComputeVectors` -/
def computeVectors (g : Grid) (b : Bravais F) : Res (List (List F)) := do
  let imgsize := List.replicate g.dim 3
  let nimg := accumulateProduct imgsize
  let c0 ← g.getCoordinates 0
  mapRange g.numsites (fun site => do
    let cs ← g.getCoordinates site
    let r ← b.getDistanceVector c0 cs
    let r ← if g.hasClosedBoundaries then foldRange nimg (tryImage g b imgsize c0 cs) r else .ok r
    .ok r.2)

/-- include/bwsl/Lattice.hpp:281-293 `ComputeDistances` -/
def computeDistances (vectors : List (List F)) : List F := vectors.map (fun x => CxxFloat.sqrt (sumSquared x))

/-- include/bwsl/Lattice.hpp:339-349: the neighbours of one site from number `j` on -/
def neighborLoop (g : Grid) (b : Bravais F) (ci : List Int) (j : Nat) : Nat → Res (List Nat)
  | 0 => .ok []
  | n + 1 => do
    let cj ← b.getNeighbor ci j
    let on ← if g.hasClosedBoundaries then .ok true else g.isOnGrid cj
    if on then
      let cj ← Lat.enforceBoundaries g cj
      let x ← g.getIndex cj
      let xs ← neighborLoop g b ci (j + 1) n
      .ok (x :: xs)
    else neighborLoop g b ci (j + 1) n

/-- include/bwsl/Lattice.hpp:332-355 `ComputeNeighbors` -/
def computeNeighbors (g : Grid) (b : Bravais F) : Res (List (List Nat)) :=
  mapRange g.numsites (fun i => do
    let ci ← g.getCoordinates i
    neighborLoop g b ci 0 b.gamma)

/-- include/bwsl/Lattice.hpp:371-380: one momentum -/
def computeMomentum (g : Grid) (b : Bravais F) (i : Nat) : Res (List F) := do
  let ci ← g.getCoordinates i
  let ci ← mapRange ci.length (fun k => do
    let s ← subscript g.size k
    let c ← subscript ci k
    .ok (Grid.subMixed c (s / 2)))
  let kappa ← b.getReciprocalSpace ci
  mapRange kappa.length (fun k => do
    let s ← subscript g.size k
    let x ← subscript kappa k
    .ok (x / CxxFloat.ofNat s))

/-- include/bwsl/Lattice.hpp:357-384 `ComputeMomenta` -/
def computeMomenta (g : Grid) (b : Bravais F) : Res (List (List F)) :=
  if g.hasOpenBoundaries then .ok [] else mapRange g.numsites (computeMomentum g b)

/-- include/bwsl/Lattice.hpp:187-197 constructor -/
def new (b : Bravais F) (size : List Nat) (boundaries : Boundaries) : Res (Lattice F) := do
  let g := Grid.new size boundaries
  let position ← computePositions g b
  let vectors ← computeVectors g b
  let distance := computeDistances vectors
  let neighbors ← computeNeighbors g b
  let momenta ← computeMomenta g b
  .ok ⟨g, position, vectors, distance, neighbors, momenta⟩

/-- include/bwsl/Lattice.hpp:75-78 `GetNeighbors` -/
def getNeighbors (l : Lattice F) (i : Nat) : Res (List Nat) := subscript l.neighbors i

/-- include/bwsl/Lattice.hpp:213-219 `GetDistance` -/
def getDistance (l : Lattice F) (a b : Nat) : Res F :=
  if l.grid.indexIsValid a && l.grid.indexIsValid b then do
    let s ← l.grid.getMappedSite a b
    subscript l.distance s
  else .ub .assertion

/-- include/bwsl/Lattice.hpp:221-227 `GetVector` -/
def getVector (l : Lattice F) (a b : Nat) : Res (List F) :=
  if l.grid.indexIsValid a && l.grid.indexIsValid b then do
    let s ← l.grid.getMappedSite a b
    subscript l.vectors s
  else .ub .assertion

/-- include/bwsl/Lattice.hpp:229-234 `GetMomentum` -/
def getMomentum (l : Lattice F) (a : Nat) : Res (List F) :=
  if l.grid.indexIsValid a then subscript l.momenta a else .ub .assertion

/-- include/bwsl/Lattice.hpp:250-255 `GetPosition` -/
def getPosition (l : Lattice F) (a : Nat) : Res (List F) :=
  if l.grid.indexIsValid a then subscript l.position a else .ub .assertion

/-- include/bwsl/Lattice.hpp:257-265 `AreNeighbors` -/
def areNeighbors (l : Lattice F) (a b : Nat) : Res Bool :=
  if a < l.neighbors.length then do
    let ns ← subscript l.neighbors a
    .ok (ns.contains b)
  else .ub .assertion

/-- include/bwsl/Lattice.hpp:538-542 `GetCoordination` of a site -/
def getCoordinationOf (l : Lattice F) (a : Nat) : Res Nat := do
  let ns ← subscript l.neighbors a
  .ok ns.length

/-- include/bwsl/Lattice.hpp:544-548 `GetCoordination` -/
def getCoordination (l : Lattice F) : Res Nat := l.getCoordinationOf 0

/-- include/bwsl/Lattice.hpp:402-410: the loop over the sites for the momentum `k`; the state is `im` and `re`.
`conv` is the conversion of an occupation to `double` by the usual arithmetic conversions. -/
def fourier {T : Type} (conv : T → F) (l : Lattice F) (occupations : List T) (k : List F) : Res (F × F) :=
  foldRange l.grid.numsites (fun s j => do
    let x ← l.getVector 0 j
    let prod ← accumulate l.grid.dim (fun q => do
      let kq ← subscript k q
      let xq ← subscript x q
      .ok (kq * xq))
    let o ← subscript occupations j
    .ok (s.1 + CxxFloat.sin prod * conv o, s.2 + CxxFloat.cos prod * conv o)) (CxxFloat.zero, CxxFloat.zero)

/-- include/bwsl/Lattice.hpp:386-414 `AccumulateSk`: the new contents of `sk` -/
def accumulateSk {T : Type} (conv : T → F) (l : Lattice F) (occupations : List T) (sk : List F) (mult : F) :
    Res (List F) :=
  if l.grid.hasOpenBoundaries then .ok sk
  else do
    let n := l.grid.numsites
    let new ← mapRange n (fun i => do
      let k ← subscript l.momenta i
      let s ← l.fourier conv occupations k
      let old ← subscript sk i
      .ok (old + mult * (squareF s.1 + squareF s.2) / CxxFloat.ofNat (squareU n)))
    .ok (new ++ sk.drop n)

/-- include/bwsl/Lattice.hpp:416-429 `ComputeSk` -/
def computeSk {T : Type} (conv : T → F) (l : Lattice F) (occupations : List T) (mult : F) : Res (List F) :=
  let sk := List.replicate l.grid.numsites CxxFloat.zero
  if l.grid.hasOpenBoundaries then .ok sk else l.accumulateSk conv occupations sk mult

/-- `fmt::print(out, "{}", n)` of a `size_t` -/
def fmtSize (n : Nat) : List Char := printNat n

/-- `for (v : vec) fmt::print(out, ",{}", v)` -/
def fmtFields (fmt : F → List Char) (vec : List F) : List Char := vec.flatMap (fun v => ',' :: fmt v)

/-- `for (i = 0; i < n; i++) fmt::print(out, ",c{}", i)` -/
def fmtNames (c : Char) (n : Nat) : List Char := (List.range n).flatMap (fun i => ',' :: c :: fmtSize i)

/-- include/bwsl/Lattice.hpp:431-450 `SavePositions`: the text written to the file -/
def savePositionsText (fmt : F → List Char) (l : Lattice F) : Res (List Char) := do
  let rows ← mapRange l.grid.numsites (fun i => do
    let vec ← l.getPosition i
    .ok (fmtSize i ++ fmtFields fmt vec ++ ['\n']))
  .ok (['i'] ++ fmtNames 'x' l.grid.dim ++ ['\n'] ++ rows.flatten)

/-- include/bwsl/Lattice.hpp:452-471 `SaveDistances`: the text written to the file -/
def saveDistancesText (fmt : F → List Char) (l : Lattice F) : Res (List Char) := do
  let rows ← mapRange l.grid.numsites (fun i => do
    let vec ← l.getVector 0 i
    .ok (fmtSize i ++ fmtFields fmt vec ++ ['\n']))
  .ok (['i'] ++ fmtNames 'd' l.grid.dim ++ ['\n'] ++ rows.flatten)

/-- include/bwsl/Lattice.hpp:473-491 `SaveMomenta`: the text written to the file -/
def saveMomentaText (fmt : F → List Char) (l : Lattice F) : Res (List Char) := do
  let rows ← mapRange l.grid.numsites (fun i => do
    let k ← subscript l.momenta i
    .ok (fmtSize i ++ fmtFields fmt k ++ ['\n']))
  .ok (['i'] ++ fmtNames 'k' l.grid.dim ++ ['\n'] ++ rows.flatten)

/-- include/bwsl/Lattice.hpp:493-536 `SavePairs`: the text written to the file -/
def savePairsText (fmt : F → List Char) (l : Lattice F) : Res (List Char) := do
  let nsites := l.grid.numsites
  let rows ← mapRange (Pairs.getNumPairs nsites) (fun i => do
    let p ← Pairs.getPair i nsites
    let va ← l.getVector 0 p.1
    let vb ← l.getVector 0 p.2
    let vec ← l.getVector p.1 p.2
    .ok (fmtSize (Pairs.getPairIndex p.1 p.2 nsites) ++ [','] ++ fmtSize p.1 ++ [','] ++ fmtSize p.2 ++
      fmtFields fmt va ++ fmtFields fmt vb ++ fmtFields fmt vec ++ ['\n']))
  .ok ("i,a,b".toList ++ fmtNames 'x' l.grid.dim ++ fmtNames 'y' l.grid.dim ++ fmtNames 'd' l.grid.dim ++ ['\n'] ++
    rows.flatten)

/-- The four `Save…` functions: the file is replaced by the text. -/
def save (text : Lattice F → Res (List Char)) (l : Lattice F) (fname : String) (fs : Files) : Res Files := do
  let t ← text l
  .ok (fs.write fname t)

end Lattice
end Bwsl
