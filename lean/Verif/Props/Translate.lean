import Verif.Lemmas.Translate

/-! Properties C08–C10: translations on closed and open grids. -/

namespace Bwsl
open Spec

theorem small_of {size : List Nat} (h : Representable size) (hs : ∀ s ∈ size, s ≤ 2 ^ 62) :
    Small size := fun s hx => ⟨h.1 s hx, by have := hs s hx; omega⟩

/-- C08.  `GetMappedSite` gives a valid site, and `GetUnMappedSite` undoes it.  (`GetUnMappedSite`
adds coordinates in `long`, so it needs extents of at most 2^62; see `C08_unmapped_overflow`.) -/
theorem C08_unmap_map (size : List Nat) (h : Representable size) (hs : ∀ s ∈ size, s ≤ 2 ^ 62)
    (a b : Nat) (ha : a < size.prod) (hb : b < size.prod) :
    ∃ i, (Grid.new size .closed).getMappedSite a b = .ok i ∧ i < size.prod ∧
      (Grid.new size .closed).getUnMappedSite i a = .ok b := by
  have ga := crd_onGrid h.1 ha
  have gb := crd_onGrid h.1 hb
  have gm := csub_onGrid h.1 gb ga
  refine ⟨_, getMappedSite_eq h (small_of h hs) ha hb, idx_lt gm, ?_⟩
  rw [getUnMappedSite_eq h hs (idx_lt gm) ha, crd_idx h.1 gm, cadd_csub ga gb, idx_crd h.1 hb]

/-- C08, the other direction. -/
theorem C08_map_unmap (size : List Nat) (h : Representable size) (hs : ∀ s ∈ size, s ≤ 2 ^ 62)
    (a i : Nat) (ha : a < size.prod) (hi : i < size.prod) :
    ∃ b, (Grid.new size .closed).getUnMappedSite i a = .ok b ∧ b < size.prod ∧
      (Grid.new size .closed).getMappedSite a b = .ok i := by
  have ga := crd_onGrid h.1 ha
  have gi := crd_onGrid h.1 hi
  have gm := cadd_onGrid h.1 ga gi
  refine ⟨_, getUnMappedSite_eq h hs hi ha, idx_lt gm, ?_⟩
  rw [getMappedSite_eq h (small_of h hs) ha (idx_lt gm), crd_idx h.1 gm, csub_cadd ga gi, idx_crd h.1 hi]

/-- C08: valid site, `GetMappedSite(a,a) = 0` and `GetMappedSite(0,b) = b`, for extents below 2^63. -/
theorem C08_mapped_site (size : List Nat) (h : Representable size) (hs : Small size)
    (a b : Nat) (ha : a < size.prod) (hb : b < size.prod) :
    (∃ i, (Grid.new size .closed).getMappedSite a b = .ok i ∧ i < size.prod) ∧
    (Grid.new size .closed).getMappedSite a a = .ok 0 ∧
    (Grid.new size .closed).getMappedSite 0 b = .ok b := by
  have ga := crd_onGrid h.1 ha
  have gb := crd_onGrid h.1 hb
  have h0 : 0 < size.prod := by omega
  refine ⟨⟨_, getMappedSite_eq h hs ha hb, idx_lt (csub_onGrid h.1 gb ga)⟩, ?_, ?_⟩
  · rw [getMappedSite_eq h hs ha ha, csub_self ga]
  · rw [getMappedSite_eq h hs h0 hb, crd_zero, csub_zero gb, idx_crd h.1 hb]

/-- The bound on the extents in C08 is needed: the sum of two coordinates overflows `long`. -/
theorem C08_unmapped_overflow :
    (Grid.new [2 ^ 62 + 1] .closed).getUnMappedSite (2 ^ 62) (2 ^ 62) = .ub .signedOverflow := by
  decide

example : Representable [3, 4] ∧ (∀ s ∈ [3, 4], s ≤ 2 ^ 62) ∧ 11 < [3, 4].prod := by decide

/-- C09.  Translating both sites by the same `t` does not change the mapped site. -/
theorem C09_translation_invariant (size : List Nat) (h : Representable size)
    (hs : ∀ s ∈ size, s ≤ 2 ^ 62) (a b t a' b' : Nat) (ha : a < size.prod) (hb : b < size.prod)
    (ht : t < size.prod)
    (ea : (Grid.new size .closed).getUnMappedSite t a = .ok a')
    (eb : (Grid.new size .closed).getUnMappedSite t b = .ok b') :
    (Grid.new size .closed).getMappedSite a' b' = (Grid.new size .closed).getMappedSite a b := by
  have ga := crd_onGrid h.1 ha
  have gb := crd_onGrid h.1 hb
  have gt := crd_onGrid h.1 ht
  rw [getUnMappedSite_eq h hs ht ha] at ea
  rw [getUnMappedSite_eq h hs ht hb] at eb
  cases ea; cases eb
  have g1 := cadd_onGrid h.1 ga gt
  have g2 := cadd_onGrid h.1 gb gt
  rw [getMappedSite_eq h (small_of h hs) (idx_lt g1) (idx_lt g2), crd_idx h.1 g1, crd_idx h.1 g2,
    csub_shift ga gb gt, getMappedSite_eq h (small_of h hs) ha hb]

/-- C09.  `GetUnMappedSite` is commutative. -/
theorem C09_unmapped_comm (size : List Nat) (h : Representable size) (hs : ∀ s ∈ size, s ≤ 2 ^ 62)
    (a b : Nat) (ha : a < size.prod) (hb : b < size.prod) :
    (Grid.new size .closed).getUnMappedSite a b = (Grid.new size .closed).getUnMappedSite b a := by
  rw [getUnMappedSite_eq h hs ha hb, getUnMappedSite_eq h hs hb ha,
    cadd_comm (crd_onGrid h.1 hb) (crd_onGrid h.1 ha)]

/-- C09.  `GetUnMappedSite` is associative. -/
theorem C09_unmapped_assoc (size : List Nat) (h : Representable size) (hs : ∀ s ∈ size, s ≤ 2 ^ 62)
    (a b c ab bc : Nat) (ha : a < size.prod) (hb : b < size.prod) (hc : c < size.prod)
    (eab : (Grid.new size .closed).getUnMappedSite a b = .ok ab)
    (ebc : (Grid.new size .closed).getUnMappedSite b c = .ok bc) :
    (Grid.new size .closed).getUnMappedSite ab c = (Grid.new size .closed).getUnMappedSite a bc := by
  have ga := crd_onGrid h.1 ha
  have gb := crd_onGrid h.1 hb
  have gc := crd_onGrid h.1 hc
  rw [getUnMappedSite_eq h hs ha hb] at eab
  rw [getUnMappedSite_eq h hs hb hc] at ebc
  cases eab; cases ebc
  have g1 := cadd_onGrid h.1 gb ga
  have g2 := cadd_onGrid h.1 gc gb
  rw [getUnMappedSite_eq h hs (idx_lt g1) hc, getUnMappedSite_eq h hs ha (idx_lt g2), crd_idx h.1 g1,
    crd_idx h.1 g2, ← cadd_assoc gc gb ga]

/-- C09.  Displacements add up: (a → b) then (b → c) is (a → c). -/
theorem C09_mapped_chain (size : List Nat) (h : Representable size) (hs : ∀ s ∈ size, s ≤ 2 ^ 62)
    (a b c ab bc : Nat) (ha : a < size.prod) (hb : b < size.prod) (hc : c < size.prod)
    (eab : (Grid.new size .closed).getMappedSite a b = .ok ab)
    (ebc : (Grid.new size .closed).getMappedSite b c = .ok bc) :
    (Grid.new size .closed).getUnMappedSite ab bc = (Grid.new size .closed).getMappedSite a c := by
  have ga := crd_onGrid h.1 ha
  have gb := crd_onGrid h.1 hb
  have gc := crd_onGrid h.1 hc
  have hsm := small_of h hs
  rw [getMappedSite_eq h hsm ha hb] at eab
  rw [getMappedSite_eq h hsm hb hc] at ebc
  cases eab; cases ebc
  have g1 := csub_onGrid h.1 gb ga
  have g2 := csub_onGrid h.1 gc gb
  rw [getUnMappedSite_eq h hs (idx_lt g1) (idx_lt g2), crd_idx h.1 g1, crd_idx h.1 g2,
    cadd_comm g2 g1, csub_chain ga gb gc, getMappedSite_eq h hsm ha hc]

/-- C09.  Site 0 is the neutral element and every site has an inverse. -/
theorem C09_unit_inverse (size : List Nat) (h : Representable size) (hs : ∀ s ∈ size, s ≤ 2 ^ 62)
    (a : Nat) (ha : a < size.prod) :
    (Grid.new size .closed).getUnMappedSite 0 a = .ok a ∧
    ∃ i, (Grid.new size .closed).getMappedSite a 0 = .ok i ∧ i < size.prod ∧
      (Grid.new size .closed).getUnMappedSite i a = .ok 0 := by
  have h0 : 0 < size.prod := by omega
  refine ⟨?_, C08_unmap_map size h hs a 0 ha h0⟩
  obtain ⟨i, h1, _, h2⟩ := C08_unmap_map size h hs a a ha ha
  rw [(C08_mapped_site size h (small_of h hs) a a ha ha).2.1] at h1
  cases h1
  exact h2

example : (Grid.new [3, 4] .closed).getUnMappedSite 7 10 = .ok 1 ∧
    (Grid.new [3, 4] .closed).getMappedSite 10 1 = .ok 7 := by
  have h : Representable [3, 4] := by decide
  have hs : ∀ s ∈ [3, 4], s ≤ 2 ^ 62 := by decide
  rw [getUnMappedSite_eq h hs (by decide) (by decide),
    getMappedSite_eq h (small_of h hs) (by decide) (by decide)]
  decide

/-- C10.  What the code computes on an open grid: `b - a` modulo 2^64. -/
theorem C10_open_value (size : List Nat) (h : Representable size) (hf : FitsLong size) (a b : Nat)
    (ha : a < size.prod) (hb : b < size.prod) :
    (Grid.new size .open).getMappedSite a b = .ok (toSize ((b : Int) - a)) := by
  have ga := crd_onGrid h.1 ha
  have gb := crd_onGrid h.1 hb
  have hl : (zop (· - ·) (crd size b) (crd size a)).length = size.length := by
    rw [zop_length _ (by simp)]; simp
  rw [Grid.getMappedSite, getCoordinates_eq h hf _ hb, Res.ok_bind, getCoordinates_eq h hf _ ha,
    Res.ok_bind, subtractInto_eq hf gb ga, Res.ok_bind]
  have e : (Grid.new size .open).enforceBoundaries (zop (· - ·) (crd size b) (crd size a)) =
      .ok (zop (· - ·) (crd size b) (crd size a)) := by
    simp [Grid.enforceBoundaries, Grid.new, Grid.hasClosedBoundaries, hl]
  rw [e, Res.ok_bind]
  show arrayToIndex _ size = _
  rw [arrayToIndex_eq h _ hl, rowMajor_sub (by simp) (by simp)]
  unfold crd
  rw [rowMajor_digits _ _ h.1 ha, rowMajor_digits _ _ h.1 hb]

/-- C10 (partial: the property asks for a valid site for all pairs).  On an open grid the mapped site is
valid exactly when `a ≤ b` (for up to 2^63 sites; above that `b - a + 2^64` may again be valid). -/
theorem C10_open_valid_iff_partial (size : List Nat) (h : Representable size) (hf : FitsLong size)
    (hp2 : size.prod ≤ 2 ^ 63) (a b : Nat) (ha : a < size.prod) (hb : b < size.prod) :
    (∃ i, (Grid.new size .open).getMappedSite a b = .ok i ∧
      (Grid.new size .open).indexIsValid i = true) ↔ a ≤ b := by
  have hp : size.prod < W64 := h.2
  rw [C10_open_value size h hf a b ha hb]
  have e := toSize_eq ((b : Int) - a)
  simp only [Grid.indexIsValid, Grid.new, accumulateProduct_rep h, decide_eq_true_eq]
  constructor
  · rintro ⟨i, hi, hlt⟩
    cases hi
    omega
  · intro hab
    exact ⟨_, rfl, by omega⟩

/-- C10 is violated: on the open chain of 3 sites, GetMappedSite(1, 0) is 2^64 - 1. -/
theorem C10_violated :
    ¬ ∀ (size : List Nat), Representable size → FitsLong size →
      ∀ a b, a < size.prod → b < size.prod →
        ∃ i, (Grid.new size .open).getMappedSite a b = .ok i ∧ i < size.prod := by
  intro h
  obtain ⟨i, h1, h2⟩ := h [3] (by decide) (by decide) 1 0 (by decide) (by decide)
  have : (Grid.new [3] .open).getMappedSite 1 0 = .ok 18446744073709551615 := by decide
  rw [this] at h1
  cases h1
  simp at h2

end Bwsl
