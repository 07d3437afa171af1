import Verif.Props.Neighbors
import Verif.Props.OpenLattice

/-! Property C168: lattices and Bravais objects of different dimensions. -/

namespace Bwsl
open Spec

set_option linter.unusedSectionVars false

/-! ### Coordinates of a grid with more directions -/

theorem digits_append (s1 s2 : List Nat) (hs : ∀ s ∈ s1 ++ s2, 0 < s) {i : Nat} (hi : i < (s1 ++ s2).prod) :
    digits i (s1 ++ s2) = digits (i / s2.prod) s1 ++ digits (i % s2.prod) s2 := by
  induction s1 generalizing i with
  | nil =>
    rw [List.nil_append] at hi ⊢
    rw [Nat.mod_eq_of_lt hi]; rfl
  | cons s ss ih =>
    have hp : 0 < (ss ++ s2).prod := List.prod_pos (fun x hx => hs x (List.mem_cons_of_mem _ hx))
    rw [List.cons_append, digits, digits, ih (fun x hx => hs x (List.mem_cons_of_mem _ hx)) (Nat.mod_lt _ hp), List.prod_append,
      Nat.mod_mul_left_div_self, Nat.mod_mul_left_mod, List.cons_append, Nat.mul_comm, Nat.div_div_eq_div_mul]

theorem crd_append (s1 s2 : List Nat) (hs : ∀ s ∈ s1 ++ s2, 0 < s) {i : Nat} (hi : i < (s1 ++ s2).prod) :
    crd (s1 ++ s2) i = crd s1 (i / s2.prod) ++ crd s2 (i % s2.prod) := by
  unfold crd
  rw [digits_append s1 s2 hs hi, List.map_append]

theorem rowMajor_append {c1 c2 : List Int} {s1 s2 : List Nat} (h : c1.length = s1.length) :
    rowMajor (c1 ++ c2) (s1 ++ s2) = rowMajor c1 s1 * (s2.prod : Nat) + rowMajor c2 s2 := by
  induction s1 generalizing c1 with
  | nil =>
    cases c1 with
    | nil => simp [rowMajor]
    | cons x xs => simp at h
  | cons s ss ih =>
    cases c1 with
    | nil => simp at h
    | cons x xs =>
      rw [List.cons_append, List.cons_append, rowMajor, rowMajor, ih (by simpa using h), List.prod_append]
      push_cast
      ring

theorem onGrid_append {c1 c2 : List Int} {s1 s2 : List Nat} (h : c1.length = s1.length) :
    OnGrid (c1 ++ c2) (s1 ++ s2) ↔ OnGrid c1 s1 ∧ OnGrid c2 s2 := by
  unfold OnGrid
  induction s1 generalizing c1 with
  | nil =>
    cases c1 with
    | nil => simp
    | cons x xs => simp at h
  | cons s ss ih =>
    cases c1 with
    | nil => simp at h
    | cons x xs =>
      rw [List.cons_append, List.cons_append, List.forall₂_cons, List.forall₂_cons, ih (by simpa using h), and_assoc (a := 0 ≤ x ∧ _)]

theorem idx_append {c1 c2 : List Int} {s1 s2 : List Nat} (h1 : OnGrid c1 s1) (h2 : OnGrid c2 s2) :
    idx (s1 ++ s2) (c1 ++ c2) = idx s1 c1 * s2.prod + idx s2 c2 := by
  have b1 := rowMajor_bounds h1
  have b2 := rowMajor_bounds h2
  unfold idx
  rw [rowMajor_append (onGrid_length h1)]
  obtain ⟨m, hm⟩ := Int.eq_ofNat_of_zero_le b1.1
  obtain ⟨n, hn⟩ := Int.eq_ofNat_of_zero_le b2.1
  rw [hm, hn]
  norm_cast

section
variable {F : Type} [CxxFloat F] {b : Bravais F} {s1 s2 size : List Nat}

theorem buildable_left (hs : Buildable (s1 ++ s2)) : Buildable s1 := by
  refine ⟨⟨fun s h => hs.1.1 s (List.mem_append_left _ h), ?_⟩, fun s h => hs.2 s (List.mem_append_left _ h)⟩
  have h1 := hs.1.2
  have h2 : 0 < s2.prod := List.prod_pos fun s h => hs.1.1 s (List.mem_append_right _ h)
  rw [List.prod_append] at h1
  exact lt_of_le_of_lt (Nat.le_mul_of_pos_right _ h2) h1

theorem site_left (_ : Buildable (s1 ++ s2)) {i : Nat} (hi : i < (s1 ++ s2).prod) : i / s2.prod < s1.prod := by
  rw [List.prod_append] at hi
  exact Nat.div_lt_of_lt_mul (by rwa [Nat.mul_comm])

theorem site_right (hs : Buildable (s1 ++ s2)) (i : Nat) : i % s2.prod < s2.prod :=
  Nat.mod_lt _ (List.prod_pos fun s h => hs.1.1 s (List.mem_append_right _ h))

theorem subscript_append {v w : List α} {i : Nat} (h : i < v.length) : subscript (v ++ w) i = subscript v i := by
  unfold subscript
  rw [List.getElem?_append_left h]

/-- `GetVector` reads as many coordinates as the Bravais object has dimensions. -/
theorem getVector_append {x y x' y' : List Int} (hx : x.length = b.dim) (hy : y.length = b.dim) :
    b.getVector (x ++ x') (y ++ y') = b.getVector x y := by
  unfold Bravais.getVector
  rw [mapRange_congr (fun i hi => by rw [subscript_append (hy ▸ hi), subscript_append (hx ▸ hi)])]

theorem getDistanceVector_append {x y x' y' : List Int} (hx : x.length = b.dim) (hy : y.length = b.dim) :
    b.getDistanceVector (x ++ x') (y ++ y') = b.getDistanceVector x y := by
  unfold Bravais.getDistanceVector
  rw [getVector_append hx hy]

theorem getNeighbor_append {c c' p : List Int} {k : Nat} (hc : c.length = b.dim) (h : b.getNeighbor c k = .ok p) :
    b.getNeighbor (c ++ c') k = .ok (p ++ c') := by
  unfold Bravais.getNeighbor at h ⊢
  obtain ⟨n, hn, e⟩ := Res.bind_eq_ok.1 h
  have e' : n = p := by
    rw [← hc, List.drop_length, List.append_nil, Res.ok.injEq] at e
    exact e
  show (mapRange b.dim _ >>= _) = _
  rw [mapRange_congr (fun i hi => by rw [subscript_append (hc ▸ hi)]), hn, Res.ok_bind, e', ← hc, List.drop_left]

theorem crd_zero_append (s1 s2 : List Nat) : crd (s1 ++ s2) 0 = crd s1 0 ++ crd s2 0 := by
  rw [crd_zero, crd_zero, crd_zero, List.length_append, List.replicate_add]

/-- The neighbours of a site: those that the first directions have, with the other coordinates unchanged. -/
theorem neighborLoop_append (hs : Buildable (s1 ++ s2)) (hb : Directed b s1.length) (bd : Boundaries) {c c' : List Int}
    (hc : OnGrid c s1) (hc' : OnGrid c' s2) (j n : Nat) (hj : j + n ≤ b.gamma) :
    Lattice.neighborLoop (Grid.new (s1 ++ s2) bd) b (c ++ c') j n =
      .ok (((List.range' j n).filterMap (target s1 b.neighbors bd c)).map (fun x => x * s2.prod + idx s2 c')) := by
  have hs1 := buildable_left hs
  induction n generalizing j with
  | zero => rfl
  | succ n ih =>
    obtain ⟨h1, h2⟩ := getNeighbor_site hs1 hb hc (k := j) (by omega)
    have hl : (plus c (step s1.length b.neighbors j)).length = s1.length := length_plus (length_step ..) (onGrid_length hc)
    generalize hp : plus c (step s1.length b.neighbors j) = p at h1 h2 hl
    have hlc : (p ++ c').length = (s1 ++ s2).length := by rw [List.length_append, List.length_append, hl, onGrid_length hc']
    have h2' : Longs (p ++ c') := by
      intro x hx
      rcases List.mem_append.1 hx with h | h
      · exact h2 x h
      · obtain ⟨k, hk, rfl⟩ := List.getElem_of_mem h
        have hk' : k < s2.length := onGrid_length hc' ▸ hk
        have h3 := (onGrid_iff.1 hc').2 k hk'
        rw [coord_eq hk, extent_eq hk'] at h3
        have h4 := hs.2 _ (List.mem_append_right _ (List.getElem_mem hk'))
        comega
    rw [Lattice.neighborLoop, getNeighbor_append (hb.dim ▸ onGrid_length hc) h1, Res.ok_bind, ih (j + 1) (by omega), List.range'_succ,
      List.filterMap_cons]
    have hen := latEnforce_eq (buildable_small hs) h2' hlc
    have hw := wrap_onGrid hs.1.1 hlc
    have hgi : ∀ c, OnGrid c (s1 ++ s2) → (Grid.new (s1 ++ s2) bd).getIndex c = .ok (idx (s1 ++ s2) c) :=
      fun c hc => getIndex_eq hs.1 bd hc
    cases bd with
    | closed =>
      have : (Grid.new (s1 ++ s2) .closed).hasClosedBoundaries = true := rfl
      simp only [this, if_true, Res.ok_bind]
      have hw1 : wrap (s1 ++ s2) (p ++ c') = wrap s1 p ++ c' := by
        have hg := (onGrid_append (c2 := c') (s2 := s2) (length_wrap hl)).2 ⟨wrap_onGrid hs1.1.1 hl, hc'⟩
        rw [wrap_eq_iff hs.1.1 hlc hg]
        refine congruent_iff.2 ⟨onGrid_length hg, hlc, fun k hk => ?_⟩
        have hlw := length_wrap hl
        rw [extent_eq hk, coord_eq (by rw [onGrid_length hg]; exact hk), coord_eq (by rw [hlc]; exact hk)]
        by_cases hk1 : k < s1.length
        · rw [List.getElem_append_left (as := s1) hk1, List.getElem_append_left (as := wrap s1 p) (by omega),
            List.getElem_append_left (as := p) (by omega)]
          have := (congruent_iff.1 (wrap_congruent (size := s1) hl)).2.2 k hk1
          rwa [extent_eq hk1, coord_eq (by omega), coord_eq (by omega)] at this
        · rw [List.getElem_append_right (as := wrap s1 p) (by omega), List.getElem_append_right (as := p) (by omega)]
          simp only [hlw, hl, sub_self, dvd_zero]
      show (Lat.enforceLoop (s1 ++ s2).length (s1 ++ s2) _ >>= _) = _
      rw [hen, Res.ok_bind, hgi _ hw, hw1, idx_append (wrap_onGrid hs1.1.1 hl) hc']
      simp only [Res.ok_bind, target, hp, List.map_cons]
    | «open» =>
      have hon : (Grid.new (s1 ++ s2) .open).isOnGrid (p ++ c') = .ok (decide (OnGrid (p ++ c') (s1 ++ s2))) := by
        refine (if_pos hlc).trans ?_
        exact isOnGridLoop_eq hlc hs.2 h2'
      have hcl : (Grid.new (s1 ++ s2) .open).hasClosedBoundaries = false := rfl
      rw [hcl, if_neg (by decide), hon, Res.ok_bind]
      by_cases hg : OnGrid p s1
      · have hg' := (onGrid_append (c2 := c') (s2 := s2) hl).2 ⟨hg, hc'⟩
        rw [decide_eq_true hg']
        show (Lat.enforceLoop (s1 ++ s2).length (s1 ++ s2) _ >>= _) = _
        rw [hen, Res.ok_bind, wrap_of_onGrid hg', hgi _ hg', idx_append hg hc']
        simp only [Res.ok_bind, target, hp, if_pos hg, List.map_cons]
      · rw [decide_eq_false (fun h => hg ((onGrid_append hl).1 h).1)]
        simp only [target, hp, if_neg hg]
        rfl

theorem computeNeighbors_append (hs : Buildable (s1 ++ s2)) (hb : Directed b s1.length) (bd : Boundaries) :
    Lattice.computeNeighbors (Grid.new (s1 ++ s2) bd) b = .ok ((List.range (s1 ++ s2).prod).map (fun i =>
      ((List.range b.gamma).filterMap (target s1 b.neighbors bd (crd s1 (i / s2.prod)))).map
        (fun x => x * s2.prod + i % s2.prod))) := by
  unfold Lattice.computeNeighbors
  rw [numsites_eq hs.1]
  refine mapRange_ok (fun i hi => ?_)
  have hr : ∀ s ∈ s2, 0 < s := fun s h => hs.1.1 s (List.mem_append_right _ h)
  rw [getCoordinates_eq hs.1 (buildable_fits hs) bd hi, Res.ok_bind, crd_append s1 s2 hs.1.1 hi,
    neighborLoop_append hs hb bd (crd_onGrid (buildable_left hs).1.1 (site_left hs hi)) (crd_onGrid hr (site_right hs i)) 0 b.gamma
      (by omega), List.range_eq_range', idx_crd hr (site_right hs i)]

theorem computePositions_append (hs : Buildable (s1 ++ s2)) (hb : Regular b s1.length) (bd : Boundaries) :
    ∃ ps, Lattice.computePositions (Grid.new (s1 ++ s2) bd) b = .ok ps ∧ ps.length = (s1 ++ s2).prod ∧
      ∀ i x, ps[i]? = some x → i / s2.prod < s1.prod ∧ b.getRealSpace (crd s1 (i / s2.prod)) = .ok x := by
  have h0 : 0 < (s1 ++ s2).prod := List.prod_pos hs.1.1
  unfold Lattice.computePositions
  rw [getCoordinates_eq hs.1 (buildable_fits hs) bd h0, Res.ok_bind, numsites_eq hs.1]
  refine mapRange_exists _ (fun i hi => ?_)
  have hs1 := buildable_left hs
  have hc := crd_onGrid hs1.1.1 (site_left hs hi)
  obtain ⟨v, hv, -⟩ := hb.vector (site_near hs1 hc)
  refine ⟨v, ?_, site_left hs hi, ?_⟩
  · rw [getCoordinates_eq hs.1 (buildable_fits hs) bd hi, Res.ok_bind, crd_append s1 s2 hs.1.1 hi, crd_zero_append,
      getVector_append (by rw [hb.dim, crd_length]) (by rw [hb.dim, crd_length]), hv]
  · rw [getVector_eq (hb.dim ▸ site_near hs1 hc), minus_origin (onGrid_length hc)] at hv
    exact hv

theorem computeVectors_append (hs : Buildable (s1 ++ s2)) (hb : Regular b s1.length) :
    ∃ vs, Lattice.computeVectors (Grid.new (s1 ++ s2) .open) b = .ok vs ∧ vs.length = (s1 ++ s2).prod ∧
      ∀ i x, vs[i]? = some x → b.getRealSpace (crd s1 (i / s2.prod)) = .ok x := by
  have h0 : 0 < (s1 ++ s2).prod := List.prod_pos hs.1.1
  unfold Lattice.computeVectors
  rw [getCoordinates_eq hs.1 (buildable_fits hs) .open h0, Res.ok_bind, numsites_eq hs.1]
  refine mapRange_exists _ (fun i hi => ?_)
  have hs1 := buildable_left hs
  have hc := crd_onGrid hs1.1.1 (site_left hs hi)
  obtain ⟨r, v, hv, -⟩ := hb.distanceVector (site_near hs1 hc)
  have hcl : (Grid.new (s1 ++ s2) .open).hasClosedBoundaries = false := rfl
  refine ⟨v, ?_, ?_⟩
  · rw [getCoordinates_eq hs.1 (buildable_fits hs) .open hi, Res.ok_bind, crd_append s1 s2 hs.1.1 hi, crd_zero_append,
      getDistanceVector_append (by rw [hb.dim, crd_length]) (by rw [hb.dim, crd_length]), hv, Res.ok_bind, hcl]
    rfl
  · unfold Bravais.getDistanceVector at hv
    obtain ⟨w, hw, hv⟩ := Res.bind_eq_ok.1 hv
    obtain ⟨a, _, hv⟩ := Res.bind_eq_ok.1 hv
    rw [Res.ok.injEq, Prod.mk.injEq] at hv
    rw [getVector_eq (hb.dim ▸ site_near hs1 hc), minus_origin (onGrid_length hc), hv.2] at hw
    exact hw

/-- C168 is violated: an open lattice whose grid has more directions than the Bravais object is accepted.  It consists of copies of the
lattice on the first directions, one for each site of the remaining ones: the copies lie on top of each other, and every neighbour
of a site is in the same copy. -/
theorem C168_open_violated (hs : Buildable (s1 ++ s2)) (hb : Regular b s1.length) :
    ∃ l l1 : Lattice F, Lattice.new b (s1 ++ s2) .open = .ok l ∧ Lattice.new b s1 .open = .ok l1 ∧
      ∀ i, i < (s1 ++ s2).prod →
        l.getPosition i = l1.getPosition (i / s2.prod) ∧
        l.getVector 0 i = l1.getVector 0 (i / s2.prod) ∧
        l.getDistance 0 i = l1.getDistance 0 (i / s2.prod) ∧
        ∃ ns, l1.getNeighbors (i / s2.prod) = .ok ns ∧ l.getNeighbors i = .ok (ns.map fun x => x * s2.prod + i % s2.prod) := by
  have hs1 := buildable_left hs
  obtain ⟨l1, hl1, -, -⟩ := C73_defined hs1 hb .open (by nofun)
  obtain ⟨ps, hp, hpl, hpp⟩ := computePositions_append hs hb .open
  obtain ⟨vs, hv, hvl, hvv⟩ := computeVectors_append hs hb
  obtain ⟨ns, hns⟩ : ∃ ns, ns = (List.range (s1 ++ s2).prod).map (fun i =>
      ((List.range b.gamma).filterMap (target s1 b.neighbors .open (crd s1 (i / s2.prod)))).map
        (fun x => x * s2.prod + i % s2.prod)) := ⟨_, rfl⟩
  have hn := computeNeighbors_append hs hb.toDirected .open
  rw [← hns] at hn
  have hm : Lattice.computeMomenta (Grid.new (s1 ++ s2) .open) b = .ok [] := rfl
  have hl : Lattice.new b (s1 ++ s2) .open = .ok ⟨Grid.new (s1 ++ s2) .open, ps, vs, Lattice.computeDistances vs, ns, []⟩ := by
    unfold Lattice.new
    simp only [hp, hv, hn, hm, Res.ok_bind]
  refine ⟨_, l1, hl, hl1, fun i hi => ?_⟩
  have hi1 := site_left hs hi
  have h0 : 0 < (s1 ++ s2).prod := by omega
  have h01 : 0 < s1.prod := lt_of_le_of_lt (Nat.zero_le _) hi1
  obtain ⟨v, hv1, hv2⟩ := (vectors_open_eq hs1 hb hl1).2 _ hi1
  have hvi : vs[i]? = some v := by
    have hlt : i < vs.length := hvl ▸ hi
    have e := hvv i _ (List.getElem?_eq_getElem hlt)
    rw [hv2, Res.ok.injEq] at e
    rw [List.getElem?_eq_getElem hlt, ← e]
  obtain ⟨w, h4, h5⟩ := C76_position hs1 hb .open l1 hl1 (i / s2.prod) hi1 (crd s1 (i / s2.prod)) (by
    rw [(new_parts hl1).1, getCoordinates_eq hs1.1 (buildable_fits hs1) .open hi1])
  rw [hv2, Res.ok.injEq] at h5
  subst h5
  have hpi : ps[i]? = some v := by
    have hlt : i < ps.length := hpl ▸ hi
    have e := (hpp i _ (List.getElem?_eq_getElem hlt)).2
    rw [hv2, Res.ok.injEq] at e
    rw [List.getElem?_eq_getElem hlt, ← e]
  refine ⟨?_, ?_, ?_, ?_⟩
  · rw [h4]
    unfold Lattice.getPosition
    rw [indexIsValid_eq hs hl hi, if_pos rfl]
    exact subscript_ok hpi
  · unfold Lattice.getVector
    rw [indexIsValid_eq hs hl hi, indexIsValid_eq hs hl h0, indexIsValid_eq hs1 hl1 hi1, indexIsValid_eq hs1 hl1 h01,
      Bool.and_self, if_pos rfl, if_pos rfl, (new_parts hl1).1, mapped_open_le hs1 h01 hi1 (Nat.zero_le _)]
    show ((Grid.new (s1 ++ s2) .open).getMappedSite 0 i >>= _) = _
    rw [mapped_open_le hs h0 hi (Nat.zero_le _), Res.ok_bind, Res.ok_bind, Nat.sub_zero, Nat.sub_zero, subscript_ok hv1]
    exact subscript_ok hvi
  · unfold Lattice.getDistance
    rw [indexIsValid_eq hs hl hi, indexIsValid_eq hs hl h0, indexIsValid_eq hs1 hl1 hi1, indexIsValid_eq hs1 hl1 h01,
      Bool.and_self, if_pos rfl, if_pos rfl, (new_parts hl1).1, mapped_open_le hs1 h01 hi1 (Nat.zero_le _)]
    show ((Grid.new (s1 ++ s2) .open).getMappedSite 0 i >>= _) = _
    rw [mapped_open_le hs h0 hi (Nat.zero_le _), Res.ok_bind, Res.ok_bind, Nat.sub_zero, Nat.sub_zero, (new_parts hl1).2.2.2.1]
    unfold Lattice.computeDistances
    have e1 : subscript (l1.vectors.map fun x => CxxFloat.sqrt (sumSquared x)) (i / s2.prod) = .ok (CxxFloat.sqrt (sumSquared v)) :=
      subscript_ok (by rw [List.getElem?_map, hv1]; rfl)
    rw [e1]
    exact subscript_ok (by rw [List.getElem?_map, hvi]; rfl)
  · have hn1 := (new_parts hl1).2.2.2.2.1
    rw [computeNeighbors_eq hs1 hb.toDirected .open, Res.ok.injEq] at hn1
    unfold Lattice.getNeighbors
    rw [← hn1, hns]
    refine ⟨_, subscript_ok (by rw [List.getElem?_map, List.getElem?_range hi1]; rfl), ?_⟩
    exact subscript_ok (by rw [List.getElem?_map, List.getElem?_range hi]; rfl)

/-- C168 is violated: if the additional directions have more than one site, different sites are at the same position, at distance 0, and
no steps between neighbours lead from one to the other. -/
theorem C168_apart_violated (hs : Buildable (s1 ++ s2)) (hb : Regular b s1.length) (h2 : 2 ≤ s2.prod) (l : Lattice F)
    (hl : Lattice.new b (s1 ++ s2) .open = .ok l) :
    l.getPosition 1 = l.getPosition 0 ∧ l.getVector 0 1 = l.getVector 0 0 ∧ l.getDistance 0 1 = l.getDistance 0 0 ∧
    (∀ i ns x, i < (s1 ++ s2).prod → l.getNeighbors i = .ok ns → x ∈ ns → x % s2.prod = i % s2.prod) ∧
    ¬ Relation.ReflTransGen (fun i x => i < (s1 ++ s2).prod ∧ ∃ ns, l.getNeighbors i = .ok ns ∧ x ∈ ns) 0 1 := by
  obtain ⟨l', l1, e, -, h⟩ := C168_open_violated hs hb
  rw [hl, Res.ok.injEq] at e
  subst e
  have hp : 1 < (s1 ++ s2).prod := by
    have : 0 < s1.prod := List.prod_pos (buildable_left hs).1.1
    rw [List.prod_append]
    nlinarith
  have e0 : 0 / s2.prod = 0 := Nat.zero_div _
  have e1 : 1 / s2.prod = 0 := Nat.div_eq_of_lt (by omega)
  obtain ⟨p0, v0, d0, -⟩ := h 0 (by omega)
  obtain ⟨p1, v1, d1, -⟩ := h 1 hp
  rw [e0] at p0 v0 d0
  rw [e1] at p1 v1 d1
  have hstep : ∀ i ns x, i < (s1 ++ s2).prod → l.getNeighbors i = .ok ns → x ∈ ns → x % s2.prod = i % s2.prod := by
    intro i ns x hi hn hx
    obtain ⟨-, -, -, ms, -, hm⟩ := h i hi
    rw [hm, Res.ok.injEq] at hn
    subst hn
    obtain ⟨y, -, rfl⟩ := List.mem_map.1 hx
    rw [Nat.mul_add_mod_self_right, Nat.mod_mod]
  refine ⟨by rw [p0, p1], by rw [v0, v1], by rw [d0, d1], hstep, fun hr => ?_⟩
  have key : ∀ x, Relation.ReflTransGen (fun i x => i < (s1 ++ s2).prod ∧ ∃ ns, l.getNeighbors i = .ok ns ∧ x ∈ ns) 0 x →
      x % s2.prod = 0 := by
    intro x hx
    induction hx with
    | refl => exact Nat.zero_mod _
    | tail _ hab ih =>
      obtain ⟨hi, ns, h1, h3⟩ := hab
      rw [hstep _ ns _ hi h1 h3, ih]
  have := key 1 hr
  rw [Nat.mod_eq_of_lt (by omega)] at this
  omega

theorem mapRangeFrom_ub {f : Nat → Res α} {k j n : Nat} {u : UB} (hok : ∀ i, k ≤ i → i < k + j → (f i).IsOk) (hu : f (k + j) = .ub u)
    (hn : j < n) : mapRangeFrom f k n = .ub u := by
  induction j generalizing k n with
  | zero =>
    obtain ⟨m, rfl⟩ := Nat.exists_eq_succ_of_ne_zero (by omega : n ≠ 0)
    rw [mapRangeFrom, show f k = _ from hu]; rfl
  | succ j ih =>
    obtain ⟨m, rfl⟩ := Nat.exists_eq_succ_of_ne_zero (by omega : n ≠ 0)
    obtain ⟨x, hx⟩ := hok k le_rfl (by omega)
    rw [mapRangeFrom, hx, Res.ok_bind, ih (fun i h1 h2 => hok i (by omega) (by omega)) (by rw [← hu]; congr 1; omega) (by omega)]
    rfl

theorem mapRange_ub {f : Nat → Res α} {j n : Nat} {u : UB} (hok : ∀ i, i < j → (f i).IsOk) (hu : f j = .ub u) (hn : j < n) :
    mapRange n f = .ub u :=
  mapRangeFrom_ub (fun i _ h => hok i (by omega)) (by rw [Nat.zero_add]; exact hu) hn

/-- C168, what holds.  With a Bravais object of more dimensions than the grid the constructor reads coordinates that do not exist. -/
theorem C168_larger_partial (hs : Buildable size) (bd : Boundaries) (hd : size.length < b.dim) :
    Lattice.new b size bd = .ub .outOfBounds := by
  have h0 : 0 < size.prod := List.prod_pos hs.1.1
  have hv : b.getVector (crd size 0) (crd size 0) = .ub .outOfBounds := by
    unfold Bravais.getVector
    rw [mapRange_ub (j := size.length) (u := .outOfBounds) ?_ ?_ hd]
    · rfl
    · intro i hi
      rw [subscript_isOk (by rw [crd_length]; exact hi), Res.ok_bind, Res.ok_bind, ← coord_eq (by rw [crd_length]; exact hi), coord_crd_zero]
      exact ⟨0, by decide⟩
    · rw [subscript_none (by rw [crd_length])]; rfl
  have hp : Lattice.computePositions (Grid.new size bd) b = .ub .outOfBounds := by
    unfold Lattice.computePositions
    rw [getCoordinates_eq hs.1 (buildable_fits hs) bd h0, Res.ok_bind, numsites_eq hs.1]
    refine mapRange_ub (j := 0) (by intro i hi; omega) ?_ h0
    rw [getCoordinates_eq hs.1 (buildable_fits hs) bd h0, Res.ok_bind, hv]
  unfold Lattice.new
  simp only [hp]; rfl

theorem near_take {d n : Nat} {x y : List Int} (h : Near n x y) (hd : d ≤ n) : Near d (x.take d) (y.take d) := by
  have hx := h.1
  have hy := h.2.1
  refine near_of (by rw [List.length_take]; omega) (by rw [List.length_take]; omega) (fun j hj => ?_)
  have := near_inLong h (by omega : j < n)
  rw [coord_eq (by omega), coord_eq (by omega)] at this
  rw [coord_eq (by rw [List.length_take]; omega), coord_eq (by rw [List.length_take]; omega), List.getElem_take, List.getElem_take]
  exact this

theorem distanceVector_take (hb : Regular b s1.length) {x y : List Int} (h : Near (s1 ++ s2).length x y) :
    (b.getDistanceVector x y).IsOk := by
  rw [List.length_append] at h
  have hx := h.1
  have hy := h.2.1
  obtain ⟨r, v, hv, -⟩ := hb.distanceVector (near_take h (Nat.le_add_right _ _))
  refine ⟨(r, v), ?_⟩
  rw [← List.take_append_drop s1.length x, ← List.take_append_drop s1.length y,
    getDistanceVector_append (by rw [hb.dim, List.length_take]; omega) (by rw [hb.dim, List.length_take]; omega), hv]

/-- C168, what holds.  A closed lattice whose grid has more directions than the Bravais object violates the assertion of
`GetReciprocalSpace`. -/
theorem C168_closed_partial (hs : Buildable (s1 ++ s2)) (hb : Regular b s1.length) (h2 : s2 ≠ []) (hd : (s1 ++ s2).length ≤ 40) :
    Lattice.new b (s1 ++ s2) .closed = .ub .assertion := by
  have h0 : 0 < (s1 ++ s2).prod := List.prod_pos hs.1.1
  have h3 : 3 ^ (s1 ++ s2).length < 2 ^ 64 := lt_of_le_of_lt (Nat.pow_le_pow_right (by decide) hd) (by decide)
  obtain ⟨ps, hp, -⟩ := computePositions_append hs hb .closed
  have hv : ∃ vs, Lattice.computeVectors (Grid.new (s1 ++ s2) .closed) b = .ok vs := by
    unfold Lattice.computeVectors
    rw [getCoordinates_eq hs.1 (buildable_fits hs) .closed h0, Res.ok_bind, numsites_eq hs.1]
    refine (mapRange_isOk (fun i hi => ?_)).imp (fun _ h => h.1)
    have hc := crd_onGrid hs.1.1 hi
    obtain ⟨r, hr⟩ := distanceVector_take hb (site_near hs hc)
    have hcl : (Grid.new (s1 ++ s2) .closed).hasClosedBoundaries = true := rfl
    rw [getCoordinates_eq hs.1 (buildable_fits hs) .closed hi, Res.ok_bind, hr, Res.ok_bind, hcl, if_pos rfl]
    have : ∃ s', foldRange (accumulateProduct (List.replicate (s1 ++ s2).length 3))
        (Lattice.tryImage (Grid.new (s1 ++ s2) .closed) b (List.replicate (s1 ++ s2).length 3) (crd (s1 ++ s2) 0)
          (crd (s1 ++ s2) i)) r = .ok s' ∧ True := by
      rw [accumulateProduct_three h3]
      refine foldRange_inv (fun _ _ => True) trivial (fun k s hk _ => ?_)
      obtain ⟨r', h1⟩ := distanceVector_take hb (image_near hs hc (shell_mem hk))
      exact ⟨_, tryImage_eq hs h3 .closed hc hk s h1, trivial⟩
    obtain ⟨s', hs', -⟩ := this
    refine ⟨s'.2, ?_⟩
    show (foldRange _ _ _ >>= _) = _
    exact (congrArg (· >>= _) hs').trans rfl
  obtain ⟨vs, hv⟩ := hv
  have hn := computeNeighbors_append hs hb.toDirected .closed
  have hm : Lattice.computeMomenta (Grid.new (s1 ++ s2) .closed) b = .ub .assertion := by
    have ho : (Grid.new (s1 ++ s2) .closed).hasOpenBoundaries = false := rfl
    unfold Lattice.computeMomenta
    rw [ho, if_neg (by decide), numsites_eq hs.1]
    refine mapRange_ub (j := 0) (by intro i hi; omega) ?_ h0
    unfold Lattice.computeMomentum
    rw [getCoordinates_eq hs.1 (buildable_fits hs) .closed h0, Res.ok_bind]
    obtain ⟨xs, hx, hxl⟩ := mapRange_isOk (n := (crd (s1 ++ s2) 0).length) (f := fun k => do
      let s ← subscript (s1 ++ s2) k
      let c ← subscript (crd (s1 ++ s2) 0) k
      .ok (Grid.subMixed c (s / 2))) (fun k hk => by
        rw [crd_length] at hk
        rw [subscript_isOk hk, Res.ok_bind, subscript_isOk (by rw [crd_length]; exact hk)]
        exact ⟨_, rfl⟩)
    have hne : b.getReciprocalSpace xs = .ub .assertion := by
      unfold Bravais.getReciprocalSpace
      have := List.length_pos_iff.2 h2
      rw [if_neg (by rw [hxl, crd_length, hb.dim, List.length_append]; omega)]
    show (mapRange _ _ >>= _) = _
    refine (congrArg (· >>= _) hx).trans ?_
    rw [Res.ok_bind, hne]; rfl
  unfold Lattice.new
  simp only [hp, hv, hn, hm, Res.ok_bind]; rfl

/-- The cases occur: a chain on grids with two directions, and a square lattice on a ring. -/
example : Buildable ([3] ++ [2]) ∧ (∃ b : Bravais F, chainLattice = .ok b ∧ Regular b [3].length) ∧ 2 ≤ [2].prod ∧
    ∃ b : Bravais F, squareLattice = .ok b ∧ [3].length < b.dim := by
  refine ⟨⟨⟨by decide, by decide⟩, by decide⟩, chain_regular, by decide, ?_⟩
  obtain ⟨b, h, hr⟩ := square_regular (F := F)
  exact ⟨b, h, by rw [hr.dim]; decide⟩

end
end Bwsl
