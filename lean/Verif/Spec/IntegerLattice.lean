import Verif.Spec.Lattice

/-!
# Specification vocabulary for lattices with integer primitive vectors

Written without reference to the model.
-/

namespace Bwsl.Spec
open Finset

/-- The point with coordinates `c` in the integer basis `P`. -/
def point (d : Nat) (P : List Int) (c : List Int) : List Int :=
  (List.range d).map (fun i => ∑ j ∈ range d, coord c j * entry d P j i)

/-- Lattices so small that the squared length of every vector between images in adjacent cells is below 2^52. -/
def Modest (size : List Nat) (P : List Int) : Prop :=
  (∀ s ∈ size, 2 * s ≤ 2 ^ 53) ∧
  ∑ i ∈ range size.length, (∑ j ∈ range size.length, 2 * extent size j * |entry size.length P j i|) ^ 2 < 2 ^ 52

end Bwsl.Spec
