import Mathlib.Algebra.BigOperators.Group.List.Basic

/-!
# Specification vocabulary for grids

Written without reference to the model.
-/

namespace Bwsl.Spec

/-- The grid is nonempty in every direction and its number of sites is a `size_t`. -/
def Representable (size : List Nat) : Prop := (∀ s ∈ size, 0 < s) ∧ size.prod < 2 ^ 64

/-- The extents are small enough for every coordinate to be a `long` (at most 2^63). -/
def FitsLong (size : List Nat) : Prop := ∀ s ∈ size, s ≤ 2 ^ 63

/-- One coordinate per direction, each in `[0, extent)`. -/
def OnGrid (c : List Int) (size : List Nat) : Prop :=
  List.Forall₂ (fun x s => 0 ≤ x ∧ x < ((s : Nat) : Int)) c size

/-- The row-major offset: `((c₀ s₁ + c₁) s₂ + c₂) …`, as the sum of `c_k · s_{k+1} ⋯ s_{d-1}`. -/
def rowMajor : List Int → List Nat → Int
  | c :: cs, _ :: ss => c * (ss.prod : Nat) + rowMajor cs ss
  | _, _ => 0

/-- Component-wise congruence modulo the extents. -/
def Congruent (c c' : List Int) (size : List Nat) : Prop :=
  c.length = size.length ∧ c'.length = size.length ∧
  ∀ (k : Nat) (x x' : Int) (s : Nat), c[k]? = some x → c'[k]? = some x' → size[k]? = some s →
    ((s : Nat) : Int) ∣ x - x'

instance (size : List Nat) : Decidable (Representable size) := inferInstanceAs (Decidable (_ ∧ _))
instance (size : List Nat) : Decidable (FitsLong size) := inferInstanceAs (Decidable (∀ s ∈ size, _))
instance (c : List Int) (size : List Nat) : Decidable (OnGrid c size) :=
  inferInstanceAs (Decidable (List.Forall₂ _ c size))

end Bwsl.Spec
