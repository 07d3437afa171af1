import Mathlib.Algebra.BigOperators.Group.Finset.Basic
import Mathlib.Algebra.Field.Defs
import Mathlib.Analysis.Real.Sqrt

/-!
# Specification vocabulary for Bravais lattices

Written without reference to the model.
-/

namespace Bwsl.Spec

open Finset

/-- The `j`-th coordinate. -/
def coord (c : List Int) (j : Nat) : Int := c.getD j 0

/-- The `i`-th component of the `j`-th of `d` vectors written one after the other. -/
def entry {K : Type} [Zero K] (d : Nat) (P : List K) (j i : Nat) : K := P.getD (i + j * d) 0

/-- The point with coordinates `c` in the basis `P`: the sum of `c_j` times the `j`-th basis vector. -/
def embed {K : Type} [Field K] (d : Nat) (P : List K) (c : List Int) : List K :=
  (List.range d).map (fun i => ∑ j ∈ range d, (coord c j : K) * entry d P j i)

/-- The vectors are linearly independent over the integers: only 0 is embedded at 0. -/
def Independent {K : Type} [Field K] (d : Nat) (P : List K) : Prop :=
  ∀ c : List Int, c.length = d → (∀ x ∈ embed d P c, x = 0) → ∀ x ∈ c, x = 0

/-- Euclidean length. -/
noncomputable def length (v : List ℝ) : ℝ := Real.sqrt ((v.map (fun x => x * x)).sum)

/-- Scalar product. -/
def dot {K : Type} [Field K] (u v : List K) : K := (List.zipWith (· * ·) u v).sum

/-- Differences and sums of coordinates. -/
def minus (b a : List Int) : List Int := List.zipWith (· - ·) b a
def plus (b a : List Int) : List Int := List.zipWith (· + ·) b a

/-- Two points with `d` coordinates whose differences are representable as `long`s. -/
def Near (d : Nat) (a b : List Int) : Prop :=
  a.length = d ∧ b.length = d ∧ ∀ x ∈ minus b a, -2 ^ 63 ≤ x ∧ x < 2 ^ 63

end Bwsl.Spec

namespace Bwsl.Spec

/-- The displacement to neighbour `k`: direction `k/2` of the list, forwards if `k` is even and backwards if odd. -/
def step (d : Nat) (N : List Int) (k : Nat) : List Int :=
  (List.range d).map (fun i => if k % 2 = 0 then coord N (k / 2 * d + i) else -coord N (k / 2 * d + i))

/-- The rows of `Q` are dual to those of `P`. -/
def Dual {K : Type} [Field K] (d : Nat) (P Q : List K) : Prop :=
  ∀ j k, j < d → k < d → ∑ i ∈ Finset.range d, entry d P j i * entry d Q k i = if j = k then 1 else 0

/-- The integer scalar product. -/
def intDot (m n : List Int) : Int := (List.zipWith (· * ·) m n).sum

end Bwsl.Spec
