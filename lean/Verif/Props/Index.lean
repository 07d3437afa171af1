import Verif.Lemmas.Enforce
import Verif.Lemmas.Grid

/-! Properties C01–C05: index ↔ coordinate conversion and pair indices. -/

namespace Bwsl
open Spec

/-- C01.  Every valid index survives a trip through coordinates (no condition on the single extents),
and the coordinates are on the grid when the extents are at most 2^63 (so that they are `long`s). -/
theorem C01_index_roundtrip (size : List Nat) (h : Representable size) (i : Nat) (hi : i < size.prod) :
    ∃ c, indexToArray i size = .ok c ∧ c.length = size.length ∧ arrayToIndex c size = .ok i ∧
      (FitsLong size → OnGrid c size) := by
  refine ⟨_, indexToArray_eq h i, by simp, ?_, ?_⟩
  · have hi' : i < W64 := lt_trans hi h.2
    rw [arrayToIndex_eq h _ (by simp),
      toSize_congr (rowMajor_map_mod _ _ (digits_lt size hi')), rowMajor_digits i size h.1 hi,
      toSize_natCast hi']
  · intro hf
    rw [map_toLong_eq hf (digits_onGrid h.1 hi)]
    exact digits_onGrid h.1 hi

/-- C01 for the methods of `HyperCubicGrid`. -/
theorem C01_grid_roundtrip (size : List Nat) (b : Boundaries) (h : Representable size) (i : Nat)
    (hi : (Grid.new size b).indexIsValid i) :
    ∃ c, (Grid.new size b).getCoordinates i = .ok c ∧ (Grid.new size b).getIndex c = .ok i := by
  have hi' : i < size.prod := by
    simpa [Grid.indexIsValid, Grid.new, accumulateProduct_rep h] using hi
  obtain ⟨c, h1, _, h2, _⟩ := C01_index_roundtrip size h i hi'
  exact ⟨c, h1, h2⟩

example : Representable [3, 4, 5] ∧ FitsLong [3, 4, 5] ∧ 37 < [3, 4, 5].prod ∧
    indexToArray 37 [3, 4, 5] = .ok [1, 3, 2] := by decide

/-- C02.  On-grid coordinates are mapped to the row-major offset, below the number of sites, and
`index_to_array` gives them back. -/
theorem C02_coords_roundtrip (size : List Nat) (h : Representable size) (c : List Int) (hl : Longs c)
    (hc : OnGrid c size) :
    ∃ i, arrayToIndex c size = .ok i ∧ (i : Int) = rowMajor c size ∧ i < size.prod ∧
      indexToArray i size = .ok c := by
  have hb := rowMajor_bounds hc
  have hp : size.prod < W64 := h.2
  refine ⟨(rowMajor c size).toNat, ?_, ?_, ?_, ?_⟩
  · rw [arrayToIndex_eq h c (onGrid_length hc), toSize_nonneg hb.1 (by omega)]
  · exact Int.toNat_of_nonneg hb.1
  · omega
  · have hi : (rowMajor c size).toNat < size.prod := by omega
    have e := rowMajor_inj (digits_onGrid h.1 hi) hc
      (by rw [rowMajor_digits _ _ h.1 hi, Int.toNat_of_nonneg hb.1])
    rw [indexToArray_eq h, ← List.map_congr_left (g := toLong) (f := (Nat.cast : Nat → Int)), e]
    intro x hx
    have := hl x (by rw [← e]; exact List.mem_map_of_mem hx)
    rw [toLong_of_lt (by unfold InLong at this; omega)]

/-- C02: distinct sites have distinct indices. -/
theorem C02_injective (size : List Nat) (h : Representable size) (c c' : List Int) (hl : Longs c)
    (hl' : Longs c') (hc : OnGrid c size) (hc' : OnGrid c' size)
    (e : arrayToIndex c size = arrayToIndex c' size) : c = c' := by
  obtain ⟨i, h1, _, _, h2⟩ := C02_coords_roundtrip size h c hl hc
  obtain ⟨i', h1', _, _, h2'⟩ := C02_coords_roundtrip size h c' hl' hc'
  rw [h1, h1'] at e
  cases e
  rw [h2] at h2'
  cases h2'
  rfl

/-- C02: every index below the number of sites is the index of exactly one site. -/
theorem C02_surjective (size : List Nat) (h : Representable size) (hf : FitsLong size) (i : Nat)
    (hi : i < size.prod) : ∃! c, OnGrid c size ∧ arrayToIndex c size = .ok i := by
  obtain ⟨c, _, _, h2, h3⟩ := C01_index_roundtrip size h i hi
  refine ⟨c, ⟨h3 hf, h2⟩, ?_⟩
  rintro c' ⟨hc', e⟩
  exact C02_injective size h c' c (onGrid_longs hf hc') (onGrid_longs hf (h3 hf)) hc' (h3 hf) (e.trans h2.symm)

/-- The hypotheses of C02 are also met with an extent that is no `long`. -/
example : Representable [2 ^ 63 + 5] ∧ Longs [2 ^ 63 - 1] ∧ OnGrid [2 ^ 63 - 1] [2 ^ 63 + 5] := by decide

example : Representable [3, 4, 5] ∧ OnGrid [1, 3, 2] [3, 4, 5] ∧ rowMajor [1, 3, 2] [3, 4, 5] = 37 := by
  decide

theorem rowMajor_lt_iff {c c' : List Int} {size : List Nat} (hc : OnGrid c size)
    (hc' : OnGrid c' size) : rowMajor c size < rowMajor c' size ↔ c < c' := by
  induction hc generalizing c' with
  | nil => cases hc'; simp [rowMajor]
  | @cons x s xs ss hx hxs ih =>
    cases hc' with
    | @cons x' _ xs' _ hx' hxs' =>
      have b := rowMajor_bounds hxs
      have b' := rowMajor_bounds hxs'
      rw [rowMajor, rowMajor, List.cons_lt_cons_iff, ← ih hxs']
      generalize ((ss.prod : Nat) : Int) = P at *
      have hP : 0 < P := by omega
      rcases lt_trichotomy x x' with hlt | heq | hgt
      · have : (x + 1) * P ≤ x' * P := mul_le_mul_of_nonneg_right (by omega) hP.le
        constructor
        · intro _; exact Or.inl hlt
        · intro _; linarith [b.2, b'.1]
      · subst heq; simp
      · have : (x' + 1) * P ≤ x * P := mul_le_mul_of_nonneg_right (by omega) hP.le
        constructor
        · intro h; linarith [b.1, b'.2]
        · rintro (h | ⟨h, _⟩) <;> omega

/-- C03.  Indices enumerate the sites in lexicographic order (`<` on lists is the lexicographic order). -/
theorem C03_lexicographic (size : List Nat) (h : Representable size)
    (c c' : List Int) (hc : OnGrid c size) (hc' : OnGrid c' size) (i i' : Nat)
    (hi : arrayToIndex c size = .ok i) (hi' : arrayToIndex c' size = .ok i') :
    i < i' ↔ c < c' := by
  have hp : size.prod < W64 := h.2
  have hb := rowMajor_bounds hc
  have hb' := rowMajor_bounds hc'
  rw [arrayToIndex_eq h c (onGrid_length hc), toSize_nonneg hb.1 (by omega)] at hi
  rw [arrayToIndex_eq h c' (onGrid_length hc'), toSize_nonneg hb'.1 (by omega)] at hi'
  cases hi; cases hi'
  rw [← rowMajor_lt_iff hc hc']
  omega

example : OnGrid [0, 3] [2, 4] ∧ OnGrid [1, 0] [2, 4] ∧ arrayToIndex [0, 3] [2, 4] = .ok 3 ∧
    arrayToIndex [1, 0] [2, 4] = .ok 4 ∧ ([0, 3] : List Int) < [1, 0] := by decide

/-- C04.  `index_to_array` is free of undefined behaviour exactly on representable extents, and the only
thing that can go wrong is a division by zero. -/
theorem C04_defined_iff (size : List Nat) (i : Nat) :
    ((indexToArray i size).IsOk ↔ size = [] ∨ Representable size) ∧
    ((indexToArray i size).IsOk ∨ indexToArray i size = .ub .divByZero) := by
  obtain ⟨h1, h2⟩ := indexToArrayLoop_isOk (accumulateProduct size) i size
  refine ⟨?_, h2⟩
  unfold indexToArray
  rw [h1, accumulateProduct_eq]
  have : size.prod ≤ size.prod % W64 ↔ size.prod < 2 ^ 64 := by
    constructor <;> intro h <;> omega
  rw [this]; rfl

/-- C04: a grid whose number of sites does not fit in `size_t` divides by zero for every index. -/
theorem C04_wrap (size : List Nat) (i : Nat) (h : 2 ^ 64 ≤ size.prod) :
    indexToArray i size = .ub .divByZero := by
  obtain ⟨h1, h2⟩ := C04_defined_iff size i
  rcases h2 with h2 | h2
  · rcases h1.1 h2 with rfl | hr
    · simp at h
    · have := hr.2; omega
  · exact h2

example : 2 ^ 64 ≤ [2 ^ 33, 2 ^ 33].prod ∧ ∀ s ∈ [2 ^ 33, 2 ^ 33], s < 2 ^ 64 := by decide

/-- C05.  Pairs survive a trip through the pair index. -/
theorem C05_pair_roundtrip (n : Nat) (hn : n ≤ 2 ^ 32) (a b : Nat) (ha : a < n) (hb : b < n) :
    Pairs.getPairIndex a b n < n * n ∧
    Pairs.getPair (Pairs.getPairIndex a b n) n = .ok (a, b) := by
  have h1 : b * n + a < n * n := by
    calc b * n + a < b * n + n := by omega
      _ = (b + 1) * n := by ring
      _ ≤ n * n := Nat.mul_le_mul_right _ (by omega)
  have h2 : n * n ≤ W64 := by
    calc n * n ≤ 2 ^ 32 * 2 ^ 32 := Nat.mul_le_mul hn hn
      _ = W64 := by norm_num
  have h3 : Pairs.getPairIndex a b n = b * n + a := by
    unfold Pairs.getPairIndex uadd umul
    rw [Nat.mod_eq_of_lt (a := b * n) (by omega), Nat.mod_eq_of_lt (by omega)]
  refine ⟨by omega, ?_⟩
  have hn0 : n ≠ 0 := by omega
  rw [h3]
  have e1 : (b * n + a) % n = a := by rw [Nat.mul_add_mod_self_right, Nat.mod_eq_of_lt ha]
  have e2 : (b * n + a) / n = b := by
    rw [Nat.mul_comm, Nat.mul_add_div (by omega), Nat.div_eq_of_lt ha, Nat.add_zero]
  simp only [Pairs.getPair, umod, udiv, if_neg hn0, Res.ok_bind, e1, e2]

/-- C05.  Pair indices survive a trip through pairs. -/
theorem C05_index_roundtrip (n : Nat) (hn : n ≤ 2 ^ 32) (k : Nat) (hk : k < n * n) :
    ∃ a b, Pairs.getPair k n = .ok (a, b) ∧ a < n ∧ b < n ∧ Pairs.getPairIndex a b n = k ∧
      Pairs.getPairIndexP (a, b) n = k := by
  have hn0 : n ≠ 0 := by rintro rfl; simp at hk
  have h2 : n * n ≤ W64 := by
    calc n * n ≤ 2 ^ 32 * 2 ^ 32 := Nat.mul_le_mul hn hn
      _ = W64 := by norm_num
  have h3 : Pairs.getPairIndex (k % n) (k / n) n = k := by
    have e : k / n * n + k % n = k := Nat.div_add_mod' k n
    unfold Pairs.getPairIndex uadd umul
    rw [Nat.mod_eq_of_lt (a := k / n * n) (by omega), e, Nat.mod_eq_of_lt (by omega)]
  refine ⟨k % n, k / n, ?_, Nat.mod_lt _ (by omega), ?_, h3, h3⟩
  · simp only [Pairs.getPair, umod, udiv, if_neg hn0, Res.ok_bind]
  · rw [Nat.div_lt_iff_lt_mul (by omega)]; exact hk

/-- C05.  The number of pairs is the square below 2^32; at 2^32 it wraps to 0. -/
theorem C05_num_pairs (n : Nat) (hn : n < 2 ^ 32) : Pairs.getNumPairs n = n * n := by
  have h2 : n * n ≤ (2 ^ 32 - 1) * (2 ^ 32 - 1) := Nat.mul_le_mul (by omega) (by omega)
  unfold Pairs.getNumPairs squareU umul
  exact Nat.mod_eq_of_lt (lt_of_le_of_lt h2 (by norm_num))

/-- C05 for the methods of `HyperCubicGrid`. -/
theorem C05_grid (size : List Nat) (bd : Boundaries) (h : Representable size)
    (hn : size.prod ≤ 2 ^ 32) (a b : Nat) (ha : a < size.prod) (hb : b < size.prod) :
    (Grid.new size bd).getIndividualIndices ((Grid.new size bd).getPairIndex a b) = .ok (a, b) ∧
    (size.prod < 2 ^ 32 →
      (Grid.new size bd).getPairIndex a b < (Grid.new size bd).numpairs ∧
      (Grid.new size bd).numpairs = size.prod * size.prod) := by
  unfold Grid.getIndividualIndices Grid.getPairIndex Grid.new
  simp only [accumulateProduct_rep h]
  obtain ⟨h1, h2⟩ := C05_pair_roundtrip size.prod hn a b ha hb
  refine ⟨h2, fun hlt => ?_⟩
  rw [C05_num_pairs _ hlt]
  exact ⟨h1, rfl⟩

example : Pairs.getPair (Pairs.getPairIndex 3 5 7) 7 = .ok (3, 5) ∧ Pairs.getNumPairs (2 ^ 32) = 0 := by
  decide

end Bwsl
