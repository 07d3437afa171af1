import Verif.Props.Index
import Verif.Lemmas.Enforce

/-! Properties C06, C07, C13: folding coordinates into the grid, and the on-grid test. -/

namespace Bwsl
open Spec

/-- C06.  On a closed grid `EnforceBoundaries` returns the unique on-grid vector congruent to its
argument, and applying it again changes nothing. -/
theorem C06_enforce_closed (size : List Nat) (hs : Small size) (c : List Int) (hc : Longs c)
    (hlen : c.length = size.length) :
    ∃ c', (Grid.new size .closed).enforceBoundaries c = .ok c' ∧ OnGrid c' size ∧
      Congruent c' c size ∧ (∀ c'', OnGrid c'' size → Congruent c'' c size → c'' = c') ∧
      (Grid.new size .closed).enforceBoundaries c' = .ok c' := by
  have hg := wrap_onGrid (fun s h => (hs s h).1) hlen
  have e : ∀ d : List Int, Longs d → d.length = size.length →
      (Grid.new size .closed).enforceBoundaries d = .ok (wrap size d) := by
    intro d hd hl
    simp only [Grid.enforceBoundaries, Grid.new, Grid.hasClosedBoundaries, hl, if_true]
    exact enforceLoop_eq hs hd hl
  refine ⟨wrap size c, e c hc hlen, hg, wrap_congruent hlen, ?_, ?_⟩
  · intro c'' h1 h2
    exact congruent_onGrid_eq h1 hg (congruent_trans h2 (congruent_symm (wrap_congruent hlen)))
  · rw [e _ (onGrid_longs (small_fits hs) hg) (onGrid_length hg), wrap_of_onGrid hg]

/-- C06 on an open grid: nothing changes. -/
theorem C06_enforce_open (size : List Nat) (c : List Int) (hlen : c.length = size.length) :
    (Grid.new size .open).enforceBoundaries c = .ok c := by
  simp [Grid.enforceBoundaries, Grid.new, Grid.hasClosedBoundaries, hlen]

/-- C06, exact domain: on a closed grid the method completes if and only if every extent is in
[1, 2^63). -/
theorem C06_defined_iff (size : List Nat) (hs : ∀ s ∈ size, s < 2 ^ 64) (c : List Int) (hc : Longs c)
    (hlen : c.length = size.length) :
    ((Grid.new size .closed).enforceBoundaries c).IsOk ↔ Small size := by
  simp only [Grid.enforceBoundaries, Grid.new, Grid.hasClosedBoundaries, hlen, if_true]
  exact enforceLoop_isOk hs hc hlen

/-- C06 for the method of `Lattice`, which computes in `size_t`: the same folding, whatever the
boundary conditions. -/
theorem C06_lattice_enforce (size : List Nat) (bd : Boundaries) (hs : Small size) (c : List Int) (hc : Longs c)
    (hlen : c.length = size.length) :
    ∃ c', Lat.enforceBoundaries (Grid.new size bd) c = .ok c' ∧ OnGrid c' size ∧ Congruent c' c size ∧
      Lat.enforceBoundaries (Grid.new size bd) c' = .ok c' := by
  have hg := wrap_onGrid (fun s h => (hs s h).1) hlen
  refine ⟨_, latEnforce_eq hs hc hlen, hg, wrap_congruent hlen, ?_⟩
  show Lat.enforceLoop size.length size _ = _
  rw [latEnforce_eq hs (onGrid_longs (small_fits hs) hg) (onGrid_length hg), wrap_of_onGrid hg]

/-- C06 for the method of `Lattice`: it has no assertion, and reads past the end of coordinates that are too few. -/
theorem C06_lattice_short (size : List Nat) (bd : Boundaries) (hs : Small size) (c : List Int) (hc : Longs c)
    (hlen : c.length < size.length) : Lat.enforceBoundaries (Grid.new size bd) c = .ub .outOfBounds := by
  show Lat.enforceLoop size.length size c = _
  induction size generalizing c with
  | nil => simp at hlen
  | cons s ss ih =>
    cases c with
    | nil => rfl
    | cons x xs =>
      have h1 := hs s (by simp)
      rw [List.length_cons, Lat.enforceLoop, latEnforceOne_eq h1.1 h1.2 x (hc x (by simp)), Res.ok_bind,
        ih (fun y hy => hs y (by simp [hy])) xs (fun y hy => hc y (by simp [hy])) (by simpa using hlen)]
      rfl

/-- C06 for the method of `Lattice`: coordinates beyond the dimension are left as they are. -/
theorem C06_lattice_long (size : List Nat) (bd : Boundaries) (hs : Small size) (c d : List Int) (hc : Longs c)
    (hlen : c.length = size.length) :
    ∃ c', Lat.enforceBoundaries (Grid.new size bd) c = .ok c' ∧
      Lat.enforceBoundaries (Grid.new size bd) (c ++ d) = .ok (c' ++ d) := by
  show ∃ c', Lat.enforceLoop size.length size c = .ok c' ∧ Lat.enforceLoop size.length size (c ++ d) = .ok (c' ++ d)
  induction size generalizing c with
  | nil => exact ⟨c, by simp [Lat.enforceLoop], by simp [Lat.enforceLoop]⟩
  | cons s ss ih =>
    cases c with
    | nil => simp at hlen
    | cons x xs =>
      have h1 := hs s (by simp)
      obtain ⟨c', e1, e2⟩ := ih (fun y hy => hs y (by simp [hy])) xs (fun y hy => hc y (by simp [hy])) (by simpa using hlen)
      refine ⟨x % s :: c', ?_, ?_⟩
      · rw [List.length_cons, Lat.enforceLoop, latEnforceOne_eq h1.1 h1.2 x (hc x (by simp)), Res.ok_bind, e1]; rfl
      · rw [List.cons_append, List.length_cons, Lat.enforceLoop, latEnforceOne_eq h1.1 h1.2 x (hc x (by simp)), Res.ok_bind, e2]; rfl

example : Small [3, 4] ∧ Longs [-7, 9] ∧ OnGrid [2, 1] [3, 4] := by
  refine ⟨?_, ?_, ?_⟩ <;> decide

theorem enforceLoop_diverges (size : List Nat) (hs : ∀ s ∈ size, s < 2 ^ 63) (h0 : 0 ∈ size)
    (c : List Int) (hc : Longs c) (hlen : c.length = size.length) :
    Grid.enforceLoop size.length size c = .diverges := by
  induction size generalizing c with
  | nil => simp at h0
  | cons s ss ih =>
    cases c with
    | nil => simp at hlen
    | cons x xs =>
      have hx := hc x (by simp)
      have h1 := hs s (by simp)
      rw [List.length_cons, Grid.enforceLoop]
      by_cases hz : s = 0
      · subst hz
        have : toLong 0 = 0 := by decide
        rw [this, enforceOne_zero x hx, Res.diverges_bind]
      · rw [toLong_of_lt (by omega), enforceOne_eq (by omega) (by omega) x hx, Res.ok_bind,
          ih (fun t ht => hs t (by simp [ht])) (by
            rw [List.mem_cons] at h0
            rcases h0 with h | h
            · exact absurd h.symm hz
            · exact h) xs (fun t ht => hc t (by simp [ht])) (by simpa using hlen)]
        rfl

/-- C07.  On a closed grid with a zero extent (the others below 2^63) `EnforceBoundaries` does not
return, whatever the coordinates. -/
theorem C07_zero_extent_diverges (size : List Nat) (hs : ∀ s ∈ size, s < 2 ^ 63) (h0 : 0 ∈ size)
    (c : List Int) (hc : Longs c) (hlen : c.length = size.length) :
    (Grid.new size .closed).enforceBoundaries c = .diverges := by
  simp only [Grid.enforceBoundaries, Grid.new, Grid.hasClosedBoundaries, hlen, if_true]
  exact enforceLoop_diverges size hs h0 c hc hlen

example : (∀ s ∈ [3, 0, 4], s < 2 ^ 63) ∧ 0 ∈ [3, 0, 4] ∧ Longs [5, -2, 9] := by
  refine ⟨?_, ?_, ?_⟩ <;> decide

/-- C13.  `IsOnGrid` answers whether the coordinates are on the grid, for all `long` coordinates and
all `size_t` extents, and never fails for a vector of the right length. -/
theorem C13_isOnGrid (size : List Nat) (b : Boundaries) (c : List Int) (hc : Longs c)
    (hlen : c.length = size.length) :
    ∃ r, (Grid.new size b).isOnGrid c = .ok r ∧ (r = true ↔ OnGrid c size) := by
  simp only [Grid.isOnGrid, Grid.new, hlen, if_true]
  induction size generalizing c with
  | nil =>
    cases c with
    | nil => exact ⟨true, rfl, by simp [OnGrid]⟩
    | cons _ _ => simp at hlen
  | cons s ss ih =>
    cases c with
    | nil => simp at hlen
    | cons x xs =>
      have hx := hc x (by simp)
      have e : x < 0 ∨ s ≤ toSize x ↔ ¬ (0 ≤ x ∧ x < (s : Nat)) := by
        have := toSize_eq x
        comega
      rw [List.length_cons, Grid.isOnGridLoop]
      unfold OnGrid
      rw [List.forall₂_cons]
      by_cases h : 0 ≤ x ∧ x < (s : Nat)
      · rw [if_neg (by rw [e]; exact not_not.2 h)]
        obtain ⟨r, h1, h2⟩ := ih xs (fun t ht => hc t (by simp [ht])) (by simpa using hlen)
        exact ⟨r, h1, by rw [h2]; simp [h, OnGrid]⟩
      · rw [if_pos (e.2 h)]
        exact ⟨false, rfl, by simp [h]⟩

/-- C13: GetIndex after IsOnGrid is a valid site. -/
theorem C13_index_valid (size : List Nat) (b : Boundaries) (h : Representable size) (c : List Int)
    (hc : Longs c) (hlen : c.length = size.length)
    (ht : (Grid.new size b).isOnGrid c = .ok true) :
    ∃ i, (Grid.new size b).getIndex c = .ok i ∧ (Grid.new size b).indexIsValid i = true := by
  obtain ⟨r, h1, h2⟩ := C13_isOnGrid size b c hc hlen
  rw [ht] at h1; cases h1
  have hg := h2.1 rfl
  have hb := rowMajor_bounds hg
  have hp : size.prod < W64 := h.2
  refine ⟨_, arrayToIndex_eq h c hlen, ?_⟩
  simp only [Grid.indexIsValid, Grid.new, accumulateProduct_rep h, toSize_nonneg hb.1 (by omega), decide_eq_true_eq]
  omega

/-- C13.  The coordinate vectors on the grid are those of the valid indices. -/
theorem C13_iff (size : List Nat) (b : Boundaries) (h : Representable size) (hf : FitsLong size) (c : List Int)
    (hc : Longs c) (hlen : c.length = size.length) :
    (Grid.new size b).isOnGrid c = .ok true ↔
      ∃ i, (Grid.new size b).indexIsValid i = true ∧ (Grid.new size b).getCoordinates i = .ok c := by
  obtain ⟨r, h1, h2⟩ := C13_isOnGrid size b c hc hlen
  rw [h1, Res.ok.injEq, h2]
  have hv : ∀ i, (Grid.new size b).indexIsValid i = true ↔ i < size.prod := by
    intro i
    simp [Grid.indexIsValid, Grid.new, accumulateProduct_rep h]
  constructor
  · intro hg
    obtain ⟨i, _, _, h5, h6⟩ := C02_coords_roundtrip size h c hc hg
    exact ⟨i, (hv i).2 h5, h6⟩
  · rintro ⟨i, h3, h4⟩
    obtain ⟨c', h5, _, _, h6⟩ := C01_index_roundtrip size h i ((hv i).1 h3)
    have : Res.ok c' = Res.ok c := h5.symm.trans h4
    rw [← Res.ok.inj this]
    exact h6 hf

example : (Grid.new [3, 4] .open).isOnGrid [2, 3] = .ok true ∧
    (Grid.new [3, 4] .open).isOnGrid [2, -1] = .ok false := by decide

end Bwsl
