import Verif.Model.Lattice

/-!
# The defaulted copy and move members of `HyperCubicGrid`, `Bravais` and `Lattice`

Copies are equal to the original, as values, so only moves have definitions here.  A moved vector is empty afterwards,
which the standard requires of the move constructor and libstdc++ also does in the move assignment of different objects
with the default allocator; numbers and enumerations are copied.  The standard does not say what the move assignment of a
vector to itself does; in libstdc++ it leaves the vector empty.
-/

namespace Bwsl

/-- include/bwsl/HyperCubicGrid.hpp:55 and 61: the new object and the one moved from -/
def Grid.move (g : Grid) : Grid × Grid := (g, { g with size := [] })

/-- include/bwsl/HyperCubicGrid.hpp:135 `GetGrid`: a copy of the part of the base class -/
def Grid.getGrid (g : Grid) : Grid := g

section
variable {F : Type}

/-- include/bwsl/Bravais.hpp:54 and 63: the new object and the one moved from -/
def Bravais.move (b : Bravais F) : Bravais F × Bravais F :=
  (b, { b with pvectors := [], pivectors := [], neighbors := [] })

/-- include/bwsl/Lattice.hpp:67 and 73: the new object and the one moved from -/
def Lattice.move (l : Lattice F) : Lattice F × Lattice F := (l, ⟨l.grid.move.2, [], [], [], [], []⟩)

end

/-- `std::swap(a, b)`: the new values of `a` and `b`, from the move operation of the type -/
def stdSwap {α : Type} (move : α → α × α) (a b : α) : α × α :=
  let (tmp, _) := move a
  let (a, _) := move b
  let (b, _) := move tmp
  (a, b)

/-- include/bwsl/HyperCubicGrid.hpp:61, include/bwsl/Bravais.hpp:63, include/bwsl/Lattice.hpp:73: `a = std::move(a)`; every
vector of the object is swapped with itself and then with an empty one -/
def moveToItself {α : Type} (move : α → α × α) (a : α) : α := (move a).2

/-- `std::swap(a, a)`: the move assignment to itself comes between the two moves to and from the temporary object -/
def swapWithItself {α : Type} (move : α → α × α) (a : α) : α :=
  let (tmp, a) := move a
  let _ := moveToItself move a
  let (a, _) := move tmp
  a

end Bwsl
