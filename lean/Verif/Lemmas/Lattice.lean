import Verif.Model.Lattice
import Verif.Lemmas.Bravais
import Verif.Lemmas.Translate
import Verif.Spec.Lattice
import Verif.Props.Index
import Verif.Props.Bravais

/-! Coordinates and neighbours on finite lattices. -/

namespace Bwsl
open Spec

set_option linter.unusedSectionVars false

/-! ### Coordinates, one by one -/

theorem extent_cons_zero (s : Nat) (ss : List Nat) : extent (s :: ss) 0 = (s : Nat) := rfl
theorem extent_cons_succ (s : Nat) (ss : List Nat) (k : Nat) : extent (s :: ss) (k + 1) = extent ss k := by
  simp [extent]
theorem coord_cons_zero (c : Int) (cs : List Int) : coord (c :: cs) 0 = c := rfl
theorem coord_cons_succ (c : Int) (cs : List Int) (k : Nat) : coord (c :: cs) (k + 1) = coord cs k := by
  simp [coord]

theorem extent_eq {size : List Nat} {k : Nat} (h : k < size.length) : extent size k = (size[k] : Nat) := by
  unfold extent; rw [List.getD_eq_getElem?_getD, List.getElem?_eq_getElem h]; rfl

theorem onGrid_iff {c : List Int} {size : List Nat} :
    OnGrid c size ↔ c.length = size.length ∧ ∀ k, k < size.length → 0 ≤ coord c k ∧ coord c k < extent size k := by
  induction c generalizing size with
  | nil =>
    cases size with
    | nil => exact ⟨fun _ => ⟨rfl, fun k hk => absurd hk (by simp)⟩, fun _ => List.Forall₂.nil⟩
    | cons s ss => exact ⟨fun h => (by cases h), fun h => by simp at h⟩
  | cons x xs ih =>
    cases size with
    | nil => exact ⟨fun h => (by cases h), fun h => by simp at h⟩
    | cons s ss =>
      constructor
      · intro h
        cases h with
        | cons hx hxs =>
          obtain ⟨h1, h2⟩ := ih.1 hxs
          refine ⟨by simp [h1], fun k hk => ?_⟩
          cases k with
          | zero => exact hx
          | succ k => rw [coord_cons_succ, extent_cons_succ]; exact h2 k (by simpa using hk)
      · rintro ⟨h1, h2⟩
        refine List.Forall₂.cons (h2 0 (by simp)) (ih.2 ⟨by simpa using h1, fun k hk => ?_⟩)
        have := h2 (k + 1) (by simpa using hk)
        rwa [coord_cons_succ, extent_cons_succ] at this

theorem coord_wrap {size : List Nat} {c : List Int} (h : c.length = size.length) {k : Nat} (hk : k < size.length) :
    coord (wrap size c) k = coord c k % extent size k := by
  induction size generalizing c k with
  | nil => simp at hk
  | cons s ss ih =>
    cases c with
    | nil => simp at h
    | cons x xs =>
      cases k with
      | zero => rfl
      | succ k =>
        rw [wrap, coord_cons_succ, coord_cons_succ, extent_cons_succ]
        exact ih (by simpa using h) (by simpa using hk)

theorem length_wrap {size : List Nat} {c : List Int} (h : c.length = size.length) :
    (wrap size c).length = size.length := by
  induction size generalizing c with
  | nil => rfl
  | cons s ss ih =>
    cases c with
    | nil => simp at h
    | cons x xs => rw [wrap, List.length_cons, ih (by simpa using h), List.length_cons]

theorem zop_eq_zipWith (f : Int → Int → Int) (a b : List Int) : zop f a b = List.zipWith f a b := by
  induction a generalizing b with
  | nil => cases b <;> rfl
  | cons x xs ih =>
    cases b with
    | nil => rfl
    | cons y ys => rw [zop, ih, List.zipWith_cons_cons]

theorem csub_eq (size : List Nat) (b a : List Int) : csub size b a = wrap size (minus b a) := by
  unfold csub minus; rw [zop_eq_zipWith]
theorem cadd_eq (size : List Nat) (a b : List Int) : cadd size a b = wrap size (plus a b) := by
  unfold cadd plus; rw [zop_eq_zipWith]

theorem congruent_iff {c c' : List Int} {size : List Nat} : Congruent c c' size ↔
    c.length = size.length ∧ c'.length = size.length ∧ ∀ k, k < size.length → extent size k ∣ coord c k - coord c' k := by
  constructor
  · rintro ⟨h1, h2, h3⟩
    refine ⟨h1, h2, fun k hk => ?_⟩
    rw [coord_eq (h1 ▸ hk), coord_eq (h2 ▸ hk), extent_eq hk]
    exact h3 k _ _ _ (List.getElem?_eq_getElem _) (List.getElem?_eq_getElem _) (List.getElem?_eq_getElem hk)
  · rintro ⟨h1, h2, h3⟩
    refine ⟨h1, h2, fun k x x' s hx hx' hs => ?_⟩
    obtain ⟨hk, rfl⟩ := List.getElem?_eq_some_iff.1 hs
    obtain ⟨hk1, rfl⟩ := List.getElem?_eq_some_iff.1 hx
    obtain ⟨hk2, rfl⟩ := List.getElem?_eq_some_iff.1 hx'
    have := h3 k hk
    rwa [coord_eq hk1, coord_eq hk2, extent_eq hk] at this

theorem siteAt_crd {size : List Nat} (h : ∀ s ∈ size, 0 < s) {i : Nat} (hi : i < size.prod) :
    SiteAt size i (crd size i) := ⟨crd_onGrid h hi, rowMajor_digits i size h hi⟩

theorem siteAt_unique {size : List Nat} {i : Nat} {c c' : List Int} (h : SiteAt size i c) (h' : SiteAt size i c') :
    c = c' := rowMajor_inj h.1 h'.1 (h.2.trans h'.2.symm)

theorem siteAt_idx {size : List Nat} {c : List Int} (h : OnGrid c size) : SiteAt size (idx size c) c := by
  have := rowMajor_bounds h
  refine ⟨h, ?_⟩
  unfold idx; omega

theorem numsites_eq {size : List Nat} (h : Representable size) (bd : Boundaries) :
    (Grid.new size bd).numsites = size.prod := accumulateProduct_rep h

/-- The coordinates `GetCoordinates` returns are those of the site. -/
theorem getCoordinates_siteAt {size : List Nat} (h : Buildable size) (bd : Boundaries) {i : Nat} (hi : i < size.prod) :
    ∃ c, (Grid.new size bd).getCoordinates i = .ok c ∧ SiteAt size i c :=
  ⟨_, getCoordinates_eq h.1 (fun s hs => by have := h.2 s hs; omega) bd hi, siteAt_crd h.1.1 hi⟩

theorem buildable_small {size : List Nat} (h : Buildable size) : Small size :=
  fun s hs => ⟨h.1.1 s hs, by have := h.2 s hs; omega⟩
theorem buildable_fits {size : List Nat} (h : Buildable size) : FitsLong size :=
  fun s hs => by have := h.2 s hs; omega

theorem extent_pos {size : List Nat} (h : ∀ s ∈ size, 0 < s) {k : Nat} (hk : k < size.length) : 0 < extent size k := by
  rw [extent_eq hk]; exact_mod_cast h _ (List.getElem_mem hk)
theorem extent_le {size : List Nat} (h : Buildable size) {k : Nat} (hk : k < size.length) : extent size k ≤ 2 ^ 62 := by
  rw [extent_eq hk]; exact_mod_cast h.2 _ (List.getElem_mem hk)

/-! ### Neighbours -/

/-- A `Bravais` object with a consistent list of directions: an even coordination number, and no direction so
long that it overflows. -/
structure Directed {F : Type} (b : Bravais F) (d : Nat) : Prop where
  dim : b.dim = d
  even : b.gamma % 2 = 0
  len : b.neighbors.length = b.gamma / 2 * d
  small : b.gamma / 2 * d < 2 ^ 64
  bound : ∀ v ∈ b.neighbors, -2 ^ 62 ≤ v ∧ v ≤ 2 ^ 62

section
variable {F : Type} [CxxFloat F] {b : Bravais F} {size : List Nat}

theorem Directed.coord_bound (hb : Directed b d) {k i : Nat} (hk : k < b.gamma) (hi : i < d) :
    -2 ^ 62 ≤ coord (step d b.neighbors k) i ∧ coord (step d b.neighbors k) i ≤ 2 ^ 62 := by
  have he := hb.even
  have hd : k / 2 * d + i < b.neighbors.length := hb.len ▸ dir_lt (by omega) hi
  have := hb.bound _ (List.getElem_mem hd)
  rw [← coord_eq hd] at this
  rw [coord_step hi]
  split <;> omega

/-- The point reached by `GetNeighbor` from a site. -/
theorem getNeighbor_site (hs : Buildable size) (hb : Directed b size.length) {c : List Int} (hc : OnGrid c size) {k : Nat}
    (hk : k < b.gamma) : b.getNeighbor c k = .ok (plus c (step size.length b.neighbors k)) ∧
      Longs (plus c (step size.length b.neighbors k)) := by
  have hl := onGrid_length hc
  have hlong : Longs (plus c (step size.length b.neighbors k)) := by
    intro x hx
    obtain ⟨j, hj, rfl⟩ := List.getElem_of_mem hx
    have hj' : j < size.length := by rwa [length_plus (length_step ..) hl] at hj
    rw [← coord_eq hj, coord_plus ((length_step ..).trans hl.symm)]
    have h1 := hb.coord_bound hk hj'
    have h2 := (onGrid_iff.1 hc).2 j hj'
    have h3 := extent_le hs hj'
    comega
  have he := hb.even
  refine ⟨(C68_neighbor b (by rw [hb.dim]; exact hb.len) (by rw [hb.dim]; exact hb.small) ?_ c (hb.dim ▸ hl) k
    (by omega) _).2 ⟨by rw [hb.dim], hlong⟩, hlong⟩
  intro v hv
  have := hb.bound v hv
  omega

theorem isOnGridLoop_eq {size : List Nat} {c : List Int} (h : c.length = size.length) (hs : ∀ s ∈ size, s ≤ 2 ^ 62)
    (hc : Longs c) : Grid.isOnGridLoop size.length size c = .ok (decide (OnGrid c size)) := by
  induction size generalizing c with
  | nil =>
    cases c with
    | nil => rfl
    | cons x xs => simp at h
  | cons s ss ih =>
    cases c with
    | nil => simp at h
    | cons x xs =>
      have hx : InLong x := hc x (by simp)
      have hs' := hs s (by simp)
      rw [List.length_cons, Grid.isOnGridLoop]
      by_cases h0 : x < 0 ∨ s ≤ toSize x
      · rw [if_pos h0]
        congr 1
        symm
        rw [decide_eq_false_iff_not]
        intro hg
        cases hg with
        | cons hg _ =>
          rcases h0 with h0 | h0
          · omega
          · rw [toSize_nonneg hg.1 (by comega)] at h0
            omega
      · rw [if_neg h0, ih (by simpa using h) (fun s hs' => hs s (by simp [hs'])) (fun x hx => hc x (by simp [hx]))]
        congr 1
        rw [decide_eq_decide]
        have : 0 ≤ x ∧ x < (s : Nat) := by
          by_cases hx0 : x < 0
          · exact absurd (.inl hx0) h0
          · refine ⟨by omega, ?_⟩
            by_contra hge
            apply h0
            right
            rw [toSize_nonneg (by omega) (by comega)]
            omega
        exact ⟨fun h => List.Forall₂.cons this h, fun h => by cases h; assumption⟩

/-- The neighbour in direction `k`, if there is one. -/
def target (size : List Nat) (N : List Int) (bd : Boundaries) (c : List Int) (k : Nat) : Option Nat :=
  let p := plus c (step size.length N k)
  match bd with
  | .closed => some (idx size (wrap size p))
  | .open => if OnGrid p size then some (idx size p) else none

theorem neighborLoop_eq (hs : Buildable size) (hb : Directed b size.length) (bd : Boundaries) {c : List Int}
    (hc : OnGrid c size) (j n : Nat) (hj : j + n ≤ b.gamma) :
    Lattice.neighborLoop (Grid.new size bd) b c j n =
      .ok ((List.range' j n).filterMap (target size b.neighbors bd c)) := by
  induction n generalizing j with
  | zero => rfl
  | succ n ih =>
    obtain ⟨h1, h2⟩ := getNeighbor_site hs hb hc (k := j) (by omega)
    have hl : (plus c (step size.length b.neighbors j)).length = size.length := length_plus (length_step ..) (onGrid_length hc)
    rw [Lattice.neighborLoop, h1, Res.ok_bind, ih (j + 1) (by omega), List.range'_succ, List.filterMap_cons]
    have hen := latEnforce_eq (buildable_small hs) h2 hl
    have hw := wrap_onGrid hs.1.1 hl
    have hgi : ∀ c, OnGrid c size → (Grid.new size bd).getIndex c = .ok (idx size c) := fun c hc => getIndex_eq hs.1 bd hc
    cases bd with
    | closed =>
      have : (Grid.new size .closed).hasClosedBoundaries = true := rfl
      simp only [this, if_true, Res.ok_bind]
      show (Lat.enforceLoop size.length size _ >>= _) = _
      rw [hen, Res.ok_bind, hgi _ hw]
      simp only [Res.ok_bind, target]
    | «open» =>
      have hon : (Grid.new size .open).isOnGrid (plus c (step size.length b.neighbors j)) =
          .ok (decide (OnGrid (plus c (step size.length b.neighbors j)) size)) := by
        refine (if_pos hl).trans ?_
        exact isOnGridLoop_eq hl hs.2 h2
      have hcl : (Grid.new size .open).hasClosedBoundaries = false := rfl
      rw [hcl, if_neg (by decide), hon, Res.ok_bind]
      by_cases hg : OnGrid (plus c (step size.length b.neighbors j)) size
      · rw [decide_eq_true hg]
        show (Lat.enforceLoop size.length size _ >>= _) = _
        rw [hen, Res.ok_bind, wrap_of_onGrid hg, hgi _ hg]
        simp only [Res.ok_bind, target, if_pos hg]
      · rw [decide_eq_false hg]
        simp only [target, if_neg hg]
        rfl

/-- What `ComputeNeighbors` computes. -/
theorem computeNeighbors_eq (hs : Buildable size) (hb : Directed b size.length) (bd : Boundaries) :
    Lattice.computeNeighbors (Grid.new size bd) b = .ok ((List.range size.prod).map (fun i =>
      (List.range b.gamma).filterMap (target size b.neighbors bd (crd size i)))) := by
  unfold Lattice.computeNeighbors
  rw [numsites_eq hs.1]
  refine mapRange_ok (fun i hi => ?_)
  rw [getCoordinates_eq hs.1 (buildable_fits hs) bd hi, Res.ok_bind,
    neighborLoop_eq hs hb bd (crd_onGrid hs.1.1 hi) 0 b.gamma (by omega), List.range_eq_range']

theorem new_parts {l : Lattice F} {bd : Boundaries} (h : Lattice.new b size bd = .ok l) :
    l.grid = Grid.new size bd ∧ Lattice.computePositions (Grid.new size bd) b = .ok l.position ∧
    Lattice.computeVectors (Grid.new size bd) b = .ok l.vectors ∧ l.distance = Lattice.computeDistances l.vectors ∧
    Lattice.computeNeighbors (Grid.new size bd) b = .ok l.neighbors ∧
    Lattice.computeMomenta (Grid.new size bd) b = .ok l.momenta := by
  unfold Lattice.new at h
  obtain ⟨p, hp, h⟩ := Res.bind_eq_ok.1 h
  obtain ⟨v, hv, h⟩ := Res.bind_eq_ok.1 h
  obtain ⟨n, hn, h⟩ := Res.bind_eq_ok.1 h
  obtain ⟨m, hm, h⟩ := Res.bind_eq_ok.1 h
  cases h
  exact ⟨rfl, hp, hv, rfl, hn, hm⟩

theorem getNeighbors_eq (hs : Buildable size) (hb : Directed b size.length) {bd : Boundaries} {l : Lattice F}
    (h : Lattice.new b size bd = .ok l) {i : Nat} (hi : i < size.prod) :
    l.getNeighbors i = .ok ((List.range b.gamma).filterMap (target size b.neighbors bd (crd size i))) := by
  have := (new_parts h).2.2.2.2.1
  rw [computeNeighbors_eq hs hb bd, Res.ok.injEq] at this
  unfold Lattice.getNeighbors
  rw [← this]
  apply subscript_ok
  rw [List.getElem?_map, List.getElem?_range hi]; rfl

end
end Bwsl
