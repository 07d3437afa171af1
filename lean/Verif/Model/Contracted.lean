import Verif.Model.Accumulators
import Verif.Model.Lattice
import Verif.Model.Draw
import Verif.Model.Spaces
import Verif.Model.MathFloat

/-!
# Functions compiled with contraction

A compiler may contract a product and the sum it is added to into one fused operation that rounds once (GCC does so by
default where the processor has such an operation, `-ffp-contract`).  The definitions below are those of the other files
with a choice, made for each place of the source where a product is added, of whether it is fused there.  The functions with
no such place (Kahan, Neumaier, naive accumulators, LogSpace, ...) do not change.
-/

namespace Bwsl

/-- The fused multiply-add of the processor: x*y + z. -/
class CxxFma (F : Type) where
  fma : F → F → F → F

/-- The fused operation of IEEE 754: the exact value of x*y + z is rounded once.  With an infinity or NaN among the factors it
is what the two operations give; a product of finite numbers does not overflow before the sum. -/
def Num.fma {K : Type} [Field K] [LinearOrder K] {A : Arith K} : Num A → Num A → Num A → Num A
  | .fin x, .fin y, .fin z => Num.round A (x * y + z)
  | .fin _, .fin _, z => z
  | x, y, z => Num.add (Num.mul x y) z

instance {K : Type} [Field K] [LinearOrder K] {A : Arith K} : CxxFma (Num A) := ⟨Num.fma⟩

section
variable {F : Type} [CxxFloat F] [CxxFma F]

/-- `z + x * y`, fused or not -/
def mulAdd (fused : Bool) (x y z : F) : F := if fused then CxxFma.fma x y z else z + x * y

/-- include/bwsl/accumulators/KnuthWelfordAccumulator.hpp:113-118; the product is in line 118 -/
def KnuthWelford.addContracted (fused : Bool) (s : KnuthWelford F) (x : F) : KnuthWelford F :=
  let count := succU s.count
  let delta := x - s.mean
  let mean := s.mean + delta / CxxFloat.ofNat count
  let delta2 := x - mean
  ⟨mean, mulAdd fused delta delta2 s.m2, count⟩

/-- Where the products of `WestAccumulator::Add` are fused. -/
structure WestFused where
  squares : Bool
  mean : Bool
  deviations : Bool

/-- include/bwsl/accumulators/WestAccumulator.hpp:118-124; the products added are in lines 121, 123 and 124 -/
def West.addCoreContracted (c : WestFused) (s : West F) (m w : F) : West F :=
  let sumWeights := s.sumWeights + w
  let sumWeights2 := mulAdd c.squares w w s.sumWeights2
  let oldmean := s.mean
  let mean := mulAdd c.mean (w / sumWeights) (m - oldmean) s.mean
  let m2 := mulAdd c.deviations (w * (m - oldmean)) (m - mean) s.m2
  ⟨sumWeights, sumWeights2, mean, m2, succU s.count⟩

/-- include/bwsl/accumulators/WestAccumulator.hpp:107-126 `Add`, without the checks -/
def West.addContracted (c : WestFused) (s : West F) (p : F × F) : West F :=
  if CxxFloat.lt CxxFloat.zero p.2 then s.addCoreContracted c p.1 p.2 else s

/-- Which product of `(1 - t) * a + t * b` is fused with the sum. -/
inductive Fused where
  | neither
  | first
  | second

/-- include/bwsl/MathUtils.hpp:435 `lerp` -/
def lerpContracted : Fused → F → F → F → F
  | .neither, a, b, t => (CxxFloat.ofInt 1 - t) * a + t * b
  | .first, a, b, t => CxxFma.fma (CxxFloat.ofInt 1 - t) a (t * b)
  | .second, a, b, t => CxxFma.fma t b ((CxxFloat.ofInt 1 - t) * a)

/-- include/bwsl/LinSpace.hpp:104-111 `operator++` -/
def LinSpace.incrContracted (fused : Bool) (s : LinSpace F) : LinSpace F :=
  let step := (s.step + 1) % W64
  { s with step := step, current := mulAdd fused s.stepsize (CxxFloat.ofNat step) s.first }

/-- include/bwsl/MathUtils.hpp:121-130 `l2norm`, for a container of `double` -/
def l2normContracted (fused : Bool) (v : List F) : F :=
  CxxFloat.sqrt (v.foldl (fun d x => mulAdd fused x x d) CxxFloat.zero)

/-- `for (j = k; j < k + n; j++) acc += x * y` in `double`, where `f` gives the factors. -/
def dotFrom (fused : Bool) (f : Nat → Res (F × F)) (acc : F) (k : Nat) : Nat → Res F
  | 0 => .ok acc
  | n + 1 => do
    let xy ← f k
    dotFrom fused f (mulAdd fused xy.1 xy.2 acc) (k + 1) n

/-- include/bwsl/Bravais.hpp:133-144 `GetRealSpace` -/
def Bravais.getRealSpaceContracted (fused : Bool) (b : Bravais F) (coords : List Int) : Res (List F) :=
  if coords.length = b.dim then
    mapRange b.dim (fun i => dotFrom fused (fun j => do
      let c ← subscript coords j
      let p ← subscript b.pvectors (uadd i (umul j b.dim))
      .ok (CxxFloat.ofInt c, p)) CxxFloat.zero 0 b.dim)
  else .ub .assertion

/-- include/bwsl/Bravais.hpp:185-196 `GetDistance`, with the call of `GetVector` -/
def Bravais.getDistanceContracted (fused fused' : Bool) (b : Bravais F) (first second : List Int) : Res F := do
  let p ← mapRange b.dim (fun i => do
    let y ← subscript second i
    let x ← subscript first i
    lsub y x)
  let p ← b.getRealSpaceContracted fused p
  let d ← dotFrom fused' (fun i => do
    let x ← subscript p i
    .ok (x, x)) CxxFloat.zero 0 b.dim
  .ok (CxxFloat.sqrt d)

/-- include/bwsl/Bravais.hpp:146-158 `GetInverseVector` -/
def Bravais.getInverseVectorContracted (fused : Bool) (b : Bravais F) (realspace : List F) : Res (List F) :=
  if realspace.length = b.dim then
    mapRange b.dim (fun i => dotFrom fused (fun j => do
      let r ← subscript realspace i
      let p ← subscript b.pivectors (uadd (umul i b.dim) j)
      .ok (r, p)) CxxFloat.zero 0 b.dim)
  else .ub .assertion

/-- include/bwsl/Bravais.hpp:160-171 `GetReciprocalSpace`; the last of the three products is added -/
def Bravais.getReciprocalSpaceContracted (fused : Bool) (b : Bravais F) (coords : List Int) : Res (List F) :=
  if coords.length = b.dim then
    mapRange b.dim (fun i => dotFrom fused (fun j => do
      let c ← subscript coords j
      let c2 ← lmul c 2
      let p ← subscript b.pivectors (uadd i (umul j b.dim))
      .ok (CxxFloat.ofInt c2 * CxxFloat.pi, p)) CxxFloat.zero 0 b.dim)
  else .ub .assertion

/-- Where the products of `AccumulateSk` are fused. -/
structure SkFused where
  phase : Bool
  sine : Bool
  cosine : Bool
  squares : Fused

/-- include/bwsl/Lattice.hpp:402-410: the loop over the sites for the momentum `k` -/
def Lattice.fourierContracted {T : Type} (c : SkFused) (conv : T → F) (l : Lattice F) (occupations : List T) (k : List F) :
    Res (F × F) :=
  foldRange l.grid.numsites (fun s j => do
    let x ← l.getVector 0 j
    let prod ← dotFrom c.phase (fun q => do
      let kq ← subscript k q
      let xq ← subscript x q
      .ok (kq, xq)) CxxFloat.zero 0 l.grid.dim
    let o ← subscript occupations j
    .ok (mulAdd c.sine (CxxFloat.sin prod) (conv o) s.1, mulAdd c.cosine (CxxFloat.cos prod) (conv o) s.2))
    (CxxFloat.zero, CxxFloat.zero)

/-- include/bwsl/Lattice.hpp:412: `square(im) + square(re)` -/
def sumSquares : Fused → F → F → F
  | .neither, im, re => squareF im + squareF re
  | .first, im, re => CxxFma.fma im im (squareF re)
  | .second, im, re => CxxFma.fma re re (squareF im)

/-- include/bwsl/Lattice.hpp:386-414 `AccumulateSk` -/
def Lattice.accumulateSkContracted {T : Type} (c : SkFused) (conv : T → F) (l : Lattice F) (occupations : List T) (sk : List F)
    (mult : F) : Res (List F) :=
  if l.grid.hasOpenBoundaries then .ok sk
  else do
    let n := l.grid.numsites
    let new ← mapRange n (fun i => do
      let k ← subscript l.momenta i
      let s ← l.fourierContracted c conv occupations k
      let old ← subscript sk i
      .ok (old + mult * sumSquares c.squares s.1 s.2 / CxxFloat.ofNat (squareU n)))
    .ok (new ++ sk.drop n)

/-- include/bwsl/Lattice.hpp:416-429 `ComputeSk` -/
def Lattice.computeSkContracted {T : Type} (c : SkFused) (conv : T → F) (l : Lattice F) (occupations : List T) (mult : F) :
    Res (List F) :=
  let sk := List.replicate l.grid.numsites CxxFloat.zero
  if l.grid.hasOpenBoundaries then .ok sk else l.accumulateSkContracted c conv occupations sk mult

/-- The loop of `std::generate_canonical` (see Draw.lean); `sum += urng() * tmp` fused or not. -/
def canonicalLoopContracted (fused : Bool) (r : ℚ) : List Nat → F → F → F × F
  | [], sum, tmp => (sum, tmp)
  | x :: xs, sum, tmp => canonicalLoopContracted fused r xs (mulAdd fused (CxxFloat.ofNat x) tmp sum) (tmp * CxxFloat.lit r)

/-- `std::generate_canonical<double, 53>` -/
def canonicalContracted (fused : Bool) (r : ℚ) (xs : List Nat) : F :=
  let s := canonicalLoopContracted fused r xs CxxFloat.zero (CxxFloat.lit 1)
  let ret := s.1 / s.2
  if CxxFloat.le (CxxFloat.lit 1) ret then CxxFloat.lit (1 - 1 / 2 ^ 53) else ret

/-- `std::uniform_real_distribution<double>(a, b)` applied to an engine that returns `xs`: the loop of `generate_canonical` and
`canonical * (b - a) + a` fused or not -/
def uniformRealContracted (loop last : Bool) (r : ℚ) (xs : List Nat) (a b : F) : F :=
  mulAdd last (canonicalContracted loop r xs) (b - a) a

end
end Bwsl
