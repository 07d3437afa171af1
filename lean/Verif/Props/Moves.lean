import Verif.Model.Moves
import Verif.Props.Enforce

/-! Property C125: what copies, moves and swaps of grids, Bravais lattices and lattices leave behind. -/

namespace Bwsl
open Spec

/-- C125.  Moving a grid: the new grid is the old one; the one moved from has the old numbers of dimensions, sites and
pairs and the old boundaries, and still considers the old sites valid, but it has no extents. -/
theorem C125_grid (g : Grid) (i : Nat) :
    g.move.1 = g ∧ g.move.2.dim = g.dim ∧ g.move.2.numsites = g.numsites ∧ g.move.2.numpairs = g.numpairs ∧
    g.move.2.boundaries = g.boundaries ∧ g.move.2.indexIsValid i = g.indexIsValid i ∧ g.move.2.size = [] ∧
    g.move.2.getCoordinates i = .ok [] := ⟨rfl, rfl, rfl, rfl, rfl, rfl, rfl, rfl⟩

/-- C125.  On a grid of positive dimension that was moved from, the loops over the dimensions read extents that are not there:
testing a vector is undefined unless its first component is negative, folding a vector is undefined on a closed grid and leaves
it alone on an open one, and so for jumps; no vector has an index, and translations abort. -/
theorem C125_grid_moved (g : Grid) (hd : 0 < g.dim) (c : List Int) (hc : c.length = g.dim) (a b : Nat) :
    g.move.2.isOnGrid c = (if c.headD 0 < 0 then .ok false else .ub .outOfBounds) ∧
    g.move.2.enforceBoundaries c = (if g.boundaries = .closed then .ub .outOfBounds else .ok c) ∧
    Lat.enforceBoundaries g.move.2 c = .ub .outOfBounds ∧ g.move.2.getIndex c = .ub .assertion ∧
    g.move.2.getMappedSite a b = .ub .assertion ∧ g.move.2.getUnMappedSite a b = .ub .assertion ∧
    (g.indexIsValid a = true → g.indexIsValid b = true →
      g.move.2.getJump a b = if g.boundaries = .closed then .ub .outOfBounds else .ok []) := by
  obtain ⟨dim, size, ns, np, bd⟩ := g
  simp only at hd hc
  obtain ⟨n, rfl⟩ : ∃ n, dim = n + 1 := ⟨dim - 1, by omega⟩
  cases c with
  | nil => simp at hc
  | cons x xs =>
    refine ⟨?_, ?_, rfl, rfl, ?_, ?_, fun ha hb => ?_⟩
    · show (if (x :: xs).length = n + 1 then _ else _) = _
      rw [if_pos hc]; rfl
    · show (if (x :: xs).length = n + 1 then _ else _) = _
      rw [if_pos hc]; cases bd <;> rfl
    · rfl
    · rfl
    · have ha' : (Grid.mk (n + 1) size ns np bd).move.2.indexIsValid a = true := ha
      have hb' : (Grid.mk (n + 1) size ns np bd).move.2.indexIsValid b = true := hb
      unfold Grid.getJump
      rw [ha', hb']
      cases bd <;> rfl

variable {F : Type}

/-- C125.  Moving a lattice: the new lattice is the old one.  The one moved from still has the old sites, but of none of
them neighbours, position, momentum, coordination, or (in positive dimension) distances and vectors can be had. -/
theorem C125_lattice (l : Lattice F) (a b : Nat) :
    l.move.1 = l ∧ l.move.2.grid.numsites = l.grid.numsites ∧ l.move.2.grid.indexIsValid a = l.grid.indexIsValid a ∧
    l.move.2.getNeighbors a = .ub .outOfBounds ∧ l.move.2.getCoordinationOf a = .ub .outOfBounds ∧
    l.move.2.areNeighbors a b = .ub .assertion ∧
    (l.move.2.getPosition a = .ub (if a < l.grid.numsites then .outOfBounds else .assertion)) ∧
    (l.move.2.getMomentum a = .ub (if a < l.grid.numsites then .outOfBounds else .assertion)) ∧
    (0 < l.grid.dim → l.move.2.getDistance a b = .ub .assertion ∧ l.move.2.getVector a b = .ub .assertion) := by
  refine ⟨rfl, rfl, rfl, rfl, rfl, rfl, ?_, ?_, fun hd => ?_⟩
  · show (if decide (a < l.grid.numsites) = true then subscript [] a else _) = _
    by_cases h : a < l.grid.numsites
    · simp only [h, decide_true, if_true]; rfl
    · simp only [h, decide_false, if_false, Bool.false_eq_true]
  · show (if decide (a < l.grid.numsites) = true then subscript [] a else _) = _
    by_cases h : a < l.grid.numsites
    · simp only [h, decide_true, if_true]; rfl
    · simp only [h, decide_false, if_false, Bool.false_eq_true]
  · have hm : l.move.2.grid.getMappedSite a b = .ub .assertion :=
      (C125_grid_moved l.grid hd (List.replicate l.grid.dim 0) (by simp) a b).2.2.2.2.1
    constructor
    · unfold Lattice.getDistance
      split
      · rw [hm]; rfl
      · rfl
    · unfold Lattice.getVector
      split
      · rw [hm]; rfl
      · rfl

/-- C125.  The files saved from a lattice with sites that was moved from are undefined. -/
theorem C125_lattice_saved [CxxFloat F] (fmt : F → List Char) (l : Lattice F) (h : 0 < l.grid.numsites) (hd : 0 < l.grid.dim) :
    l.move.2.savePositionsText fmt = .ub .outOfBounds ∧ l.move.2.saveMomentaText fmt = .ub .outOfBounds ∧
    l.move.2.saveDistancesText fmt = .ub .assertion := by
  have hn : l.move.2.grid.numsites = l.grid.numsites := rfl
  obtain ⟨n, hk⟩ : ∃ n, l.grid.numsites = n + 1 := ⟨l.grid.numsites - 1, by omega⟩
  refine ⟨?_, ?_, ?_⟩
  · unfold Lattice.savePositionsText
    rw [hn, hk]
    have := (C125_lattice l 0 0).2.2.2.2.2.2.1
    rw [if_pos h] at this
    simp only [mapRange, mapRangeFrom, this]
    rfl
  · unfold Lattice.saveMomentaText
    rw [hn, hk]
    rfl
  · unfold Lattice.saveDistancesText
    rw [hn, hk]
    have := ((C125_lattice l 0 0).2.2.2.2.2.2.2.2 hd).2
    simp only [mapRange, mapRangeFrom, this]
    rfl

/-- C125.  A structure factor of a closed lattice with sites that was moved from is undefined. -/
theorem C125_lattice_sk [CxxFloat F] {T : Type} (conv : T → F) (l : Lattice F) (h : 0 < l.grid.numsites)
    (hb : l.grid.boundaries = .closed) (occ : List T) (sk : List F) (mult : F) :
    l.move.2.accumulateSk conv occ sk mult = .ub .outOfBounds := by
  obtain ⟨n, hk⟩ : ∃ n, l.grid.numsites = n + 1 := ⟨l.grid.numsites - 1, by omega⟩
  have ho : l.move.2.grid.hasOpenBoundaries = false := by
    show (l.grid.boundaries == .open) = false
    rw [hb]; rfl
  have hn : l.move.2.grid.numsites = n + 1 := hk
  unfold Lattice.accumulateSk
  rw [ho, hn]
  rfl

/-- C125.  Moving a Bravais lattice: the new one is the old one.  From the one moved from no point has a position or a
neighbour (in positive dimension). -/
theorem C125_bravais [CxxFloat F] (b : Bravais F) (hd : 0 < b.dim) (p : List Int) (hp : p.length = b.dim) (k : Nat) :
    b.move.1 = b ∧ b.move.2.dim = b.dim ∧ b.move.2.gamma = b.gamma ∧
    b.move.2.getRealSpace p = .ub .outOfBounds ∧ b.move.2.getNeighbor p k = .ub .outOfBounds := by
  obtain ⟨n, hk⟩ : ∃ n, b.dim = n + 1 := ⟨b.dim - 1, by omega⟩
  have hm : b.move.2.dim = n + 1 := hk
  cases p with
  | nil => simp at hp; omega
  | cons x xs =>
    refine ⟨rfl, rfl, rfl, ?_, ?_⟩
    · unfold Bravais.getRealSpace
      rw [if_pos (by rw [hp]; rfl), hm]
      rfl
    · unfold Bravais.getNeighbor
      rw [hm]
      rfl

/-- C125.  `std::swap` exchanges grids, Bravais lattices and lattices. -/
theorem C125_swap (g g' : Grid) (b b' : Bravais F) (l l' : Lattice F) :
    stdSwap Grid.move g g' = (g', g) ∧ stdSwap Bravais.move b b' = (b', b) ∧ stdSwap Lattice.move l l' = (l', l) :=
  ⟨rfl, rfl, rfl⟩

/-- C125.  `GetGrid` of a lattice gives its grid, whose `EnforceBoundaries` is another function: on an open lattice it
leaves vectors outside as they are, where that of the lattice folds them back. -/
theorem C125_getGrid (l : Lattice F) (size : List Nat) (hs : Small size) (hg : l.grid = Grid.new size .open)
    (c : List Int) (hc : Longs c) (hlen : c.length = size.length) (hoff : ¬ OnGrid c size) :
    l.grid.getGrid.enforceBoundaries c = .ok c ∧
    ∃ c', Lat.enforceBoundaries l.grid c = .ok c' ∧ OnGrid c' size ∧ c' ≠ c := by
  rw [hg]
  refine ⟨C06_enforce_open size c hlen, ?_⟩
  obtain ⟨c', h1, h2, -, -⟩ := C06_lattice_enforce size .open hs c hc hlen
  exact ⟨c', h1, h2, fun h => hoff (h ▸ h2)⟩

/-- C125.  Move assignment of an object to itself loses its vectors, as if it had been moved elsewhere; swapping an object with
itself does nothing. -/
theorem C125_itself (g : Grid) (b : Bravais F) (l : Lattice F) :
    moveToItself Grid.move g = g.move.2 ∧ moveToItself Bravais.move b = b.move.2 ∧ moveToItself Lattice.move l = l.move.2 ∧
    (g.size ≠ [] → moveToItself Grid.move g ≠ g) ∧ (l.position ≠ [] → moveToItself Lattice.move l ≠ l) ∧
    (b.pvectors ≠ [] → moveToItself Bravais.move b ≠ b) ∧
    swapWithItself Grid.move g = g ∧ swapWithItself Bravais.move b = b ∧ swapWithItself Lattice.move l = l := by
  refine ⟨rfl, rfl, rfl, fun h e => h ?_, fun h e => h ?_, fun h e => h ?_, rfl, rfl, rfl⟩
  · rw [← e]; rfl
  · rw [← e]; rfl
  · rw [← e]; rfl

example : Small [3, 4] ∧ Longs [-7, 9] ∧ ¬ OnGrid [-7, 9] [3, 4] ∧ 0 < (Grid.new [3, 4] .closed).dim ∧
    0 < (Grid.new [3, 4] .closed).numsites := by
  refine ⟨?_, ?_, ?_, ?_, ?_⟩ <;> decide

end Bwsl
