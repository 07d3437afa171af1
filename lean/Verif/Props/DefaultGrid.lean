import Verif.Lemmas.Grid
import Verif.Model.Grid

/-! Property C109: default-constructed grids. -/

namespace Bwsl
open Spec

/-- C109.  A default-constructed grid has no dimensions, no sites, no pairs and open boundaries; no index is valid, so
`GetJump` violates its assertions for every pair of sites, and splitting a pair index divides by zero. -/
theorem C109_empty :
    Grid.default.dim = 0 ∧ Grid.default.size = [] ∧ Grid.default.numsites = 0 ∧ Grid.default.numpairs = 0 ∧
    Grid.default.hasOpenBoundaries = true ∧ Grid.default.hasClosedBoundaries = false ∧
    (∀ i, Grid.default.indexIsValid i = false) ∧
    (∀ a b, Grid.default.getJump a b = .ub .assertion) ∧
    (∀ p, Grid.default.getIndividualIndices p = .ub .divByZero) := by
  refine ⟨rfl, rfl, rfl, rfl, rfl, rfl, fun i => decide_eq_false (Nat.not_lt_zero i), fun a b => ?_, fun p => rfl⟩
  unfold Grid.getJump
  rw [show Grid.default.indexIsValid a = false from decide_eq_false (Nat.not_lt_zero a)]
  rfl

/-- C109.  Coordinates are accepted exactly if there are none; they are then on the grid, although their index 0 is not
valid. -/
theorem C109_origin (c : List Int) :
    (Grid.default.isOnGrid c = if c = [] then .ok true else .ub .assertion) ∧
    (Grid.default.getIndex c = if c = [] then .ok 0 else .ub .assertion) ∧
    (Grid.default.enforceBoundaries c = if c = [] then .ok [] else .ub .assertion) ∧
    Grid.default.indexIsValid 0 = false ∧
    ∀ i, Grid.default.getCoordinates i = .ok [] := by
  cases c with
  | nil => exact ⟨rfl, rfl, rfl, rfl, fun _ => rfl⟩
  | cons x xs => exact ⟨rfl, rfl, rfl, rfl, fun _ => rfl⟩

/-- C109.  Every pair of indices, none of them valid, is translated to 0. -/
theorem C109_translations (a b : Nat) :
    Grid.default.getMappedSite a b = .ok 0 ∧ Grid.default.getUnMappedSite a b = .ok 0 := ⟨rfl, rfl⟩

/-- C109.  The grid constructed from no extents differs from it: it has one site and one pair, and `GetJump` of the site
to itself is empty. -/
theorem C109_point (b : Boundaries) :
    (Grid.new [] b).dim = 0 ∧ (Grid.new [] b).numsites = 1 ∧ (Grid.new [] b).numpairs = 1 ∧
    (∀ i, (Grid.new [] b).indexIsValid i = true ↔ i = 0) ∧
    (Grid.new [] b).getIndex [] = .ok 0 ∧ (Grid.new [] b).getCoordinates 0 = .ok [] ∧
    (Grid.new [] b).getJump 0 0 = .ok [] ∧ (Grid.new [] b).getIndividualIndices 0 = .ok (0, 0) := by
  refine ⟨rfl, rfl, rfl, fun i => ?_, rfl, rfl, ?_, by cases b <;> decide⟩
  · show decide (i < 1) = true ↔ i = 0
    rw [decide_eq_true_eq]; omega
  · cases b <;> rfl

end Bwsl
