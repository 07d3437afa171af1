import Verif.Props.Momenta
import Verif.Props.DoubleLattice

/-! C71: for which lattices `GetInverseVector` inverts `GetRealSpace`, and the orthogonal lattices in double precision. -/

namespace Bwsl
open Spec Finset

section
variable {A : Arith ℝ} {b : Bravais (Num A)} {d g : Nat} {P Q : List ℝ} {N : List Int}

/-- The j-th unit vector. -/
def Spec.unitCoords (d j : Nat) : List Int := (List.range d).map (fun i => if i = j then 1 else 0)

theorem coord_unit {d j k : Nat} (hk : k < d) : coord (unitCoords d j) k = if k = j then 1 else 0 := by
  unfold coord unitCoords
  rw [List.getD_eq_getElem?_getD, List.getElem?_map, List.getElem?_range hk]
  rfl

theorem embed_getD (c : List Int) {i : Nat} (hi : i < d) :
    (embed d P c).getD i 0 = ∑ j ∈ range d, (coord c j : ℝ) * entry d P j i := by
  unfold embed
  rw [List.getD_eq_getElem?_getD, List.getElem?_map, List.getElem?_range hi]
  rfl

/-- C71.  In exact arithmetic `GetInverseVector` inverts `GetRealSpace` at all coordinates exactly if the i-th component of the
j-th primitive vector times the sum of the components of the i-th inverse vector is 1 for i = j and 0 otherwise. -/
theorem C71_exactly_partial (hA : A.IsReal) (hb : Holds b d g P Q N) :
    (∀ c : List Int, c.length = d → ∃ v, b.getRealSpace c = .ok v ∧ b.getInverseVector v = .ok (c.map (fun x : Int => .fin (x : ℝ)))) ↔
      ∀ i j, i < d → j < d → entry d P j i * ∑ k ∈ range d, entry d Q i k = if i = j then 1 else 0 := by
  constructor
  · intro h i j hi hj
    obtain ⟨v, h1, h2⟩ := h (unitCoords d j) (by simp [unitCoords])
    rw [getRealSpace_ok hA.exact hb (by simp [unitCoords]), Res.ok.injEq] at h1
    subst h1
    rw [getInverseVector_ok hA hb (embed_length ..), Res.ok.injEq] at h2
    have h3 := congrArg (fun l => l[i]?) h2
    simp only [List.getElem?_map, List.getElem?_range hi, Option.map_some, unitCoords, Option.some.injEq, Num.fin.injEq] at h3
    rw [show (List.range d).map (fun i => if i = j then (1 : Int) else 0) = unitCoords d j from rfl, embed_getD _ hi,
      Finset.sum_eq_single j] at h3
    · rw [coord_unit hj, if_pos rfl] at h3
      push_cast at h3
      rw [one_mul] at h3
      rw [h3]
    · intro k hk hkj
      rw [coord_unit (Finset.mem_range.1 hk), if_neg hkj]
      simp
    · intro hn
      exact absurd (Finset.mem_range.2 hj) hn
  · intro h c hc
    refine ⟨_, getRealSpace_ok hA.exact hb hc, ?_⟩
    rw [getInverseVector_ok hA hb (embed_length ..), Res.ok.injEq]
    refine List.ext_getElem (by simp [hc]) (fun i h1 h2 => ?_)
    have hi : i < d := by simpa using h1
    simp only [List.getElem_map, List.getElem_range, Num.fin.injEq]
    rw [embed_getD _ hi, Finset.sum_mul, Finset.sum_congr rfl (fun j hj => by
      rw [mul_assoc, h i j hi (Finset.mem_range.1 hj)]), Finset.sum_eq_single i]
    · rw [if_pos rfl, mul_one]
      unfold coord
      rw [List.getD_eq_getElem?_getD, List.getElem?_eq_getElem (by omega)]
      rfl
    · intro k _ hk
      rw [if_neg (Ne.symm hk), mul_zero]
    · intro hn
      exact absurd (Finset.mem_range.2 hi) hn

/-- C71.  With inverse vectors dual to the primitive ones, `GetInverseVector` inverts `GetRealSpace` exactly if every primitive vector
points along its own axis. -/
theorem C71_diagonal_partial (hA : A.IsReal) (hb : Holds b d g P Q N) (hd : Dual d P Q) :
    (∀ c : List Int, c.length = d → ∃ v, b.getRealSpace c = .ok v ∧ b.getInverseVector v = .ok (c.map (fun x : Int => .fin (x : ℝ)))) ↔
      Diagonal d P := by
  rw [C71_exactly_partial hA hb]
  constructor
  · intro h j k hj hk hjk
    have h1 := h k k hk hk
    have h2 := h k j hk hj
    rw [if_pos rfl] at h1
    rw [if_neg (Ne.symm hjk)] at h2
    rcases mul_eq_zero.1 h2 with h3 | h3
    · exact h3
    · rw [h3, mul_zero] at h1
      norm_num at h1
  · intro h
    have key : ∀ j k, j < d → k < d → entry d P j j * entry d Q k j = if j = k then 1 else 0 := by
      intro j k hj hk
      rw [← hd j k hj hk, Finset.sum_eq_single j]
      · intro i hi hij
        rw [h j i hj (Finset.mem_range.1 hi) (Ne.symm hij), zero_mul]
      · intro hn
        exact absurd (Finset.mem_range.2 hj) hn
    intro i j hi hj
    by_cases hij : i = j
    · subst hij
      rw [if_pos rfl, Finset.sum_eq_single i]
      · rw [key i i hi hi, if_pos rfl]
      · intro k hk hki
        have h1 := key k k (Finset.mem_range.1 hk) (Finset.mem_range.1 hk)
        have h2 := key k i (Finset.mem_range.1 hk) hi
        rw [if_pos rfl] at h1
        rw [if_neg hki] at h2
        rcases mul_eq_zero.1 h2 with h3 | h3
        · rw [h3, zero_mul] at h1
          norm_num at h1
        · exact h3
      · intro hn
        exact absurd (Finset.mem_range.2 hi) hn
    · rw [if_neg hij, h j i hj hi (Ne.symm hij), zero_mul]

theorem zero_double (hA : A.IsBinary64) : Num.round A (0 : ℝ) = .fin 0 := by
  simpa using round_int (A := A) hA (n := 0) (by norm_num)

/-- C71.  On chains, square and cubic lattices in double precision, coordinates up to 2⁵³ come back exactly. -/
theorem C71_double_partial (hA : A.IsBinary64) (hb : chainLattice = .ok b ∨ squareLattice = .ok b ∨ cubicLattice = .ok b)
    (c : List Int) (hc : c.length = b.dim) (hc2 : ∀ x ∈ c, |x| ≤ 2 ^ 53) :
    ∃ v, b.getRealSpace c = .ok v ∧ b.getInverseVector v = .ok (c.map (fun x : Int => .fin (x : ℝ))) := by
  have h1 := lit_one hA
  have h0 := zero_double hA
  rcases hb with hb | hb | hb
  · cases hb
    obtain ⟨x, rfl⟩ := list_one hc
    have hx := round_int hA (hc2 x (by simp))
    refine ⟨[.fin x], ?_, ?_⟩
    all_goals simp [Bravais.getRealSpace, Bravais.getInverseVector, mapRange, mapRangeFrom, accumulate, accumulateFrom, subscript, uadd, umul,
      h1, Num.ofInt_eq, Num.zero_eq, Num.fin_mul, Num.fin_add, hx]
  · cases hb
    obtain ⟨x, y, rfl⟩ := list_two hc
    have hx := round_int hA (hc2 x (by simp))
    have hy := round_int hA (hc2 y (by simp))
    refine ⟨[.fin x, .fin y], ?_, ?_⟩
    all_goals simp [Bravais.getRealSpace, Bravais.getInverseVector, mapRange, mapRangeFrom, accumulate, accumulateFrom, subscript, uadd, umul,
      h1, Num.ofInt_eq, Num.zero_eq, Num.fin_mul, Num.fin_add, h0, hx, hy]
  · cases hb
    obtain ⟨x, y, z, rfl⟩ := list_three hc
    have hx := round_int hA (hc2 x (by simp))
    have hy := round_int hA (hc2 y (by simp))
    have hz := round_int hA (hc2 z (by simp))
    refine ⟨[.fin x, .fin y, .fin z], ?_, ?_⟩
    all_goals simp [Bravais.getRealSpace, Bravais.getInverseVector, mapRange, mapRangeFrom, accumulate, accumulateFrom, subscript, uadd, umul,
      h1, Num.ofInt_eq, Num.zero_eq, Num.fin_mul, Num.fin_add, h0, hx, hy, hz]

/-- C71: a lattice of 2 by 3 rectangles meets both sides, and the lattice along the diagonals of the squares neither. -/
example (A : Arith ℝ) : Holds (A := A) ⟨2, 4, [2, 0, 0, 3].map .fin, [1 / 2, 0, 0, 1 / 3].map .fin, [1, 0, 0, 1]⟩ 2 4
      [2, 0, 0, 3] [1 / 2, 0, 0, 1 / 3] [1, 0, 0, 1] ∧ Dual 2 ([2, 0, 0, 3] : List ℝ) [1 / 2, 0, 0, 1 / 3] ∧ Diagonal 2 [2, 0, 0, 3] ∧
    Holds (A := A) ⟨2, 4, [1, 1, 1, -1].map .fin, [1 / 2, 1 / 2, 1 / 2, -(1 / 2)].map .fin, [1, 0, 0, 1]⟩ 2 4
      [1, 1, 1, -1] [1 / 2, 1 / 2, 1 / 2, -(1 / 2)] [1, 0, 0, 1] ∧
    Dual 2 ([1, 1, 1, -1] : List ℝ) [1 / 2, 1 / 2, 1 / 2, -(1 / 2)] ∧ ¬ Diagonal 2 [1, 1, 1, -1] := by
  refine ⟨⟨rfl, by norm_num, rfl, rfl, rfl, by norm_num⟩, ?_, ?_, ⟨rfl, by norm_num, rfl, rfl, rfl, by norm_num⟩, ?_, ?_⟩
  · intro j k hj hk
    interval_cases j <;> interval_cases k <;> simp [entry, Finset.sum_range_succ]
  · intro j k hj hk h
    interval_cases j <;> interval_cases k <;> first | exact absurd rfl h | simp [entry]
  · intro j k hj hk
    interval_cases j <;> interval_cases k <;> norm_num [entry, Finset.sum_range_succ]
  · intro h
    have := h 0 1 (by norm_num) (by norm_num) (by norm_num)
    norm_num [entry] at this

end
end Bwsl
