import Verif.Spec.Lattice
import Mathlib.Analysis.Complex.Trigonometric

/-!
# Specification vocabulary for structure factors

Written without reference to the model.
-/

namespace Bwsl.Spec

/-- The occupation of a site. -/
noncomputable def occupation (occ : List ℝ) (j : Nat) : ℝ := occ.getD j 0

/-- The Fourier transform at `k` of occupations `occ` of the sites at `x`. -/
noncomputable def transform (n : Nat) (occ : List ℝ) (x : Nat → List ℝ) (k : List ℝ) : ℂ :=
  ∑ j ∈ Finset.range n, (occupation occ j : ℂ) * Complex.exp ((dot k (x j) : ℝ) * Complex.I)

/-- The structure factor: the squared modulus of the Fourier transform, divided by the square of the number of sites. -/
noncomputable def structureFactor (n : Nat) (mult : ℝ) (occ : List ℝ) (x : Nat → List ℝ) (k : List ℝ) : ℝ :=
  mult * Complex.normSq (transform n occ x k) / (n : ℝ) ^ 2

end Bwsl.Spec
