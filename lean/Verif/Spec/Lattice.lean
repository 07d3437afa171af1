import Mathlib.Analysis.SpecialFunctions.Trigonometric.Basic
import Verif.Spec.Bravais
import Verif.Spec.Grid

/-!
# Specification vocabulary for finite lattices

Written without reference to the model.
-/

namespace Bwsl.Spec

/-- The extents of a lattice whose coordinates can be doubled without overflow. -/
def Buildable (size : List Nat) : Prop := Representable size ∧ ∀ s ∈ size, s ≤ 2 ^ 62

/-- Coordinates `c` belong to site `i`. -/
def SiteAt (size : List Nat) (i : Nat) (c : List Int) : Prop := OnGrid c size ∧ rowMajor c size = i

/-- The `k`-th extent. -/
def extent (size : List Nat) (k : Nat) : Int := ((size.getD k 0 : Nat) : Int)

/-- The periodic image of `c` displaced by `m` times the extents. -/
def image (size : List Nat) (c m : List Int) : List Int :=
  (List.range size.length).map (fun k => coord c k + coord m k * extent size k)

end Bwsl.Spec

namespace Bwsl.Spec

/-- The distance from `ca` to the image of `cb` displaced by `m` times the extents, in the basis `P`. -/
noncomputable def imageDistance (size : List Nat) (P : List ℝ) (ca cb m : List Int) : ℝ :=
  length (embed size.length P (minus (image size cb m) ca))

/-- The distances from `ca` to all periodic images of `cb`. -/
def imageDistances (size : List Nat) (P : List ℝ) (ca cb : List Int) : Set ℝ :=
  {r | ∃ m : List Int, m.length = size.length ∧ r = imageDistance size P ca cb m}

/-- The basis vectors are pairwise orthogonal. -/
def Orthogonal (d : Nat) (P : List ℝ) : Prop :=
  ∀ j k, j < d → k < d → j ≠ k → ∑ i ∈ Finset.range d, entry d P j i * entry d P k i = 0

end Bwsl.Spec

namespace Bwsl.Spec

/-- The vector to the next periodic image in direction `j`: `L_j a_j`. -/
noncomputable def period (size : List Nat) (P : List ℝ) (j : Nat) : List ℝ :=
  embed size.length P ((List.range size.length).map (fun i => if i = j then extent size j else 0))

/-- A momentum allowed by the boundary conditions: `k · L_j a_j` is a multiple of 2π in every direction. -/
def Allowed (size : List Nat) (P k : List ℝ) : Prop :=
  ∀ j, j < size.length → ∃ n : Int, dot k (period size P j) = 2 * Real.pi * n

end Bwsl.Spec
