import Verif.Spec.Bravais

/-! Numbers of steps to neighbouring points of a lattice. -/

namespace Bwsl.Spec

/-- Reaching `z` from `x` in `n` steps of a relation. -/
inductive Hops (r : Nat → Nat → Prop) : Nat → Nat → Nat → Prop
  | zero (x : Nat) : Hops r 0 x x
  | succ {n x y z : Nat} : r x y → Hops r n y z → Hops r (n + 1) x z

/-- The sum of the absolute values of the components. -/
def manhattan (c : List Int) : Nat := (c.map Int.natAbs).sum

/-- The number of steps between points of the triangular lattice displaced by `c`. -/
def triangular (c : List Int) : Nat :=
  max (coord c 0).natAbs (max (coord c 1).natAbs (coord c 0 + coord c 1).natAbs)

end Bwsl.Spec
