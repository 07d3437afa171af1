import Verif.Lemmas.Images
import Mathlib.Data.List.Perm.Basic
import Mathlib.Data.List.Nodup

/-! Properties C72 and C73: neighbours on finite lattices. -/

namespace Bwsl
open Spec

set_option linter.unusedSectionVars false

/-- The number of the opposite direction. -/
def flip (k : Nat) : Nat := if k % 2 = 0 then k + 1 else k - 1

theorem flip_flip (k : Nat) : flip (flip k) = k := by unfold flip; split <;> split <;> omega
theorem flip_lt {k g : Nat} (hg : g % 2 = 0) (h : k < g) : flip k < g := by unfold flip; split <;> omega

theorem coord_step_flip {d : Nat} {N : List Int} {k i : Nat} (hi : i < d) :
    coord (step d N (flip k)) i = -coord (step d N k) i := by
  rw [coord_step hi, coord_step hi]
  unfold flip
  by_cases hk : k % 2 = 0
  · rw [if_pos hk, if_neg (by omega), if_pos hk, show (k + 1) / 2 = k / 2 by omega]
  · rw [if_neg hk, if_pos (by omega), if_neg hk, show (k - 1) / 2 = k / 2 by omega, Int.neg_neg]

theorem range_flip {g : Nat} (hg : g % 2 = 0) : ((List.range g).map flip).Perm (List.range g) := by
  refine (List.perm_ext_iff_of_nodup ?_ List.nodup_range).2 (fun k => ?_)
  · exact List.Nodup.map (fun a b h => by rw [← flip_flip a, ← flip_flip b, h]) List.nodup_range
  · rw [List.mem_map, List.mem_range]
    constructor
    · rintro ⟨j, hj, rfl⟩; exact flip_lt hg (List.mem_range.1 hj)
    · intro h; exact ⟨flip k, List.mem_range.2 (flip_lt hg h), flip_flip k⟩

section
variable {F : Type} [CxxFloat F] {b : Bravais F} {size : List Nat}

theorem wrap_eq_iff {size : List Nat} (hs : ∀ s ∈ size, 0 < s) {p c : List Int} (hp : p.length = size.length)
    (hc : OnGrid c size) : wrap size p = c ↔ Congruent c p size := by
  constructor
  · rintro rfl
    exact wrap_congruent hp
  · intro h
    refine congruent_onGrid_eq (wrap_onGrid hs hp) hc ?_
    have hw := congruent_iff.1 (wrap_congruent (size := size) hp)
    have h := congruent_iff.1 h
    refine congruent_iff.2 ⟨hw.1, h.1, fun k hk => ?_⟩
    have := dvd_sub (hw.2.2 k hk) (h.2.2 k hk)
    rwa [sub_sub_sub_cancel_right] at this

theorem idx_eq_iff {size : List Nat} (hs : ∀ s ∈ size, 0 < s) {p : List Int} (hp : OnGrid p size) {y : Nat}
    (hy : y < size.prod) : idx size p = y ↔ p = crd size y := by
  constructor
  · intro h
    exact siteAt_unique (h ▸ siteAt_idx hp) (siteAt_crd hs hy)
  · rintro rfl
    exact idx_crd hs hy

/-- What it means for `y` to be the neighbour in direction `k`. -/
theorem target_iff (hs : Buildable size) {N : List Int} {bd : Boundaries} {c : List Int} (hc : c.length = size.length)
    {k y : Nat} (hy : y < size.prod) : target size N bd c k = some y ↔
      (match bd with
       | .closed => Congruent (crd size y) (plus c (step size.length N k)) size
       | .open => crd size y = plus c (step size.length N k)) := by
  have hl : (plus c (step size.length N k)).length = size.length := length_plus (length_step ..) hc
  have hg := crd_onGrid hs.1.1 hy
  cases bd with
  | closed =>
    simp only [target, Option.some.injEq]
    rw [idx_eq_iff hs.1.1 (wrap_onGrid hs.1.1 hl) hy, wrap_eq_iff hs.1.1 hl hg]
  | «open» =>
    simp only [target]
    constructor
    · intro h
      split at h
      · rename_i ho
        rw [Option.some.injEq, idx_eq_iff hs.1.1 ho hy] at h
        exact h.symm
      · cases h
    · intro h
      rw [← h, if_pos hg, idx_crd hs.1.1 hy]

theorem target_flip (hs : Buildable size) {N : List Int} {bd : Boundaries} {k x y : Nat} (hx : x < size.prod)
    (hy : y < size.prod) : target size N bd (crd size x) k = some y ↔ target size N bd (crd size y) (flip k) = some x := by
  have hlx := onGrid_length (crd_onGrid hs.1.1 hx)
  have hly := onGrid_length (crd_onGrid hs.1.1 hy)
  rw [target_iff hs hlx hy, target_iff hs hly hx]
  have h1 : ∀ i, i < size.length → coord (plus (crd size x) (step size.length N k)) i =
      coord (crd size x) i + coord (step size.length N k) i :=
    fun i hi => coord_plus ((length_step ..).trans hlx.symm) i
  have h2 : ∀ i, i < size.length → coord (plus (crd size y) (step size.length N (flip k))) i =
      coord (crd size y) i - coord (step size.length N k) i :=
    fun i hi => by rw [coord_plus ((length_step ..).trans hly.symm), coord_step_flip hi]; rfl
  have l1 : (plus (crd size x) (step size.length N k)).length = size.length := length_plus (length_step ..) hlx
  have l2 : (plus (crd size y) (step size.length N (flip k))).length = size.length := length_plus (length_step ..) hly
  cases bd with
  | closed =>
    simp only
    rw [congruent_iff, congruent_iff]
    constructor
    · rintro ⟨-, -, h⟩
      refine ⟨hlx, l2, fun i hi => ?_⟩
      have := h i hi
      rw [h1 i hi] at this
      rw [h2 i hi, ← dvd_neg]
      refine this.trans (dvd_of_eq (by ring))
    · rintro ⟨-, -, h⟩
      refine ⟨hly, l1, fun i hi => ?_⟩
      have := h i hi
      rw [h2 i hi] at this
      rw [h1 i hi, ← dvd_neg]
      refine this.trans (dvd_of_eq (by ring))
  | «open» =>
    simp only
    constructor
    · intro h
      refine ext_coord (hlx.trans l2.symm) (fun i hi => ?_)
      rw [hlx] at hi
      rw [h2 i hi, h, h1 i hi]; omega
    · intro h
      refine ext_coord (hly.trans l1.symm) (fun i hi => ?_)
      rw [hly] at hi
      rw [h1 i hi, h, h2 i hi]; omega

theorem count_filterMap (t : Nat → Option Nat) (y : Nat) (ks : List Nat) :
    (ks.filterMap t).count y = ks.countP (fun k => decide (t k = some y)) := by
  induction ks with
  | nil => rfl
  | cons k ks ih =>
    rw [List.filterMap_cons, List.countP_cons]
    cases h : t k with
    | none => simp [ih]
    | some z =>
      rw [List.count_cons, ih]
      simp [beq_iff_eq]

/-! ### C72 -/

/-- C72.  Each site is listed among the neighbours of another as many times as the other way round. -/
theorem C72_symmetric (hs : Buildable size) (hb : Directed b size.length) (bd : Boundaries) (l : Lattice F)
    (hl : Lattice.new b size bd = .ok l) (x y : Nat) (hx : x < size.prod) (hy : y < size.prod) :
    ∃ nx ny, l.getNeighbors x = .ok nx ∧ l.getNeighbors y = .ok ny ∧ nx.count y = ny.count x := by
  refine ⟨_, _, getNeighbors_eq hs hb hl hx, getNeighbors_eq hs hb hl hy, ?_⟩
  rw [count_filterMap, count_filterMap, ← (range_flip hb.even).countP_eq, List.countP_map]
  refine List.countP_congr (fun k _ => ?_)
  simp only [Function.comp, decide_eq_true_eq]
  rw [target_flip hs hx hy, flip_flip]

theorem areNeighbors_eq (hs : Buildable size) (hb : Directed b size.length) {bd : Boundaries} {l : Lattice F}
    (hl : Lattice.new b size bd = .ok l) {x : Nat} (hx : x < size.prod) (y : Nat) {nx : List Nat}
    (h : l.getNeighbors x = .ok nx) : l.areNeighbors x y = .ok (nx.contains y) := by
  unfold Lattice.areNeighbors
  have hn := (new_parts hl).2.2.2.2.1
  rw [computeNeighbors_eq hs hb bd, Res.ok.injEq] at hn
  rw [if_pos (by rw [← hn]; simpa using hx)]
  unfold Lattice.getNeighbors at h
  rw [h]; rfl

/-- C72.  `AreNeighbors` is symmetric. -/
theorem C72_are_neighbors (hs : Buildable size) (hb : Directed b size.length) (bd : Boundaries) (l : Lattice F)
    (hl : Lattice.new b size bd = .ok l) (x y : Nat) (hx : x < size.prod) (hy : y < size.prod) :
    ∃ r, l.areNeighbors x y = .ok r ∧ l.areNeighbors y x = .ok r := by
  obtain ⟨nx, ny, h1, h2, h3⟩ := C72_symmetric hs hb bd l hl x y hx hy
  refine ⟨_, areNeighbors_eq hs hb hl hx y h1, ?_⟩
  rw [areNeighbors_eq hs hb hl hy x h2]
  congr 1
  rw [Bool.eq_iff_iff, List.contains_iff_mem, List.contains_iff_mem, ← List.count_pos_iff, ← List.count_pos_iff, h3]

/-! ### C73 -/

theorem target_lt (hs : Buildable size) {N : List Int} {bd : Boundaries} {c : List Int} (hc : c.length = size.length)
    {k y : Nat} (h : target size N bd c k = some y) : y < size.prod := by
  have hl : (plus c (step size.length N k)).length = size.length := length_plus (length_step ..) hc
  cases bd with
  | closed =>
    simp only [target, Option.some.injEq] at h
    rw [← h]; exact idx_lt (wrap_onGrid hs.1.1 hl)
  | «open» =>
    simp only [target] at h
    split at h
    · rename_i ho
      rw [Option.some.injEq] at h
      rw [← h]; exact idx_lt ho
    · cases h

/-- C73.  Every neighbour is a valid site. -/
theorem C73_valid (hs : Buildable size) (hb : Directed b size.length) (bd : Boundaries) (l : Lattice F)
    (hl : Lattice.new b size bd = .ok l) (x : Nat) (hx : x < size.prod) :
    ∃ nx, l.getNeighbors x = .ok nx ∧ ∀ y ∈ nx, y < size.prod ∧ l.grid.indexIsValid y = true := by
  refine ⟨_, getNeighbors_eq hs hb hl hx, fun y hy => ?_⟩
  obtain ⟨k, -, h⟩ := List.mem_filterMap.1 hy
  have := target_lt hs (onGrid_length (crd_onGrid hs.1.1 hx)) h
  refine ⟨this, ?_⟩
  rw [(new_parts hl).1]
  unfold Grid.indexIsValid
  rw [numsites_eq hs.1]
  exact decide_eq_true this

/-- C73.  On a closed lattice neighbour `k` is the site reached in direction `k`, and there is one for each. -/
theorem C73_closed (hs : Buildable size) (hb : Directed b size.length) (l : Lattice F)
    (hl : Lattice.new b size .closed = .ok l) (x : Nat) (hx : x < size.prod) (cx : List Int)
    (hcx : l.grid.getCoordinates x = .ok cx) :
    ∃ nx, l.getNeighbors x = .ok nx ∧ nx.length = b.gamma ∧ l.getCoordinationOf x = .ok b.gamma ∧
      ∀ k, k < b.gamma → ∃ y cy, nx[k]? = some y ∧ l.grid.getCoordinates y = .ok cy ∧
        OnGrid cy size ∧ Congruent cy (plus cx (step size.length b.neighbors k)) size := by
  have hg := (new_parts hl).1
  have hf := buildable_fits hs
  rw [hg, getCoordinates_eq hs.1 hf .closed hx, Res.ok.injEq] at hcx
  subst hcx
  have hlen := onGrid_length (crd_onGrid hs.1.1 hx)
  have hlist := getNeighbors_eq hs hb hl hx
  have e : (List.range b.gamma).filterMap (target size b.neighbors .closed (crd size x)) =
      (List.range b.gamma).map (fun k => idx size (wrap size (plus (crd size x) (step size.length b.neighbors k)))) := by
    rw [← List.filterMap_eq_map]; rfl
  rw [e] at hlist
  refine ⟨_, hlist, by simp, ?_, fun k hk => ?_⟩
  · unfold Lattice.getCoordinationOf
    unfold Lattice.getNeighbors at hlist
    rw [hlist, Res.ok_bind]; simp
  · have hl' : (plus (crd size x) (step size.length b.neighbors k)).length = size.length := length_plus (length_step ..) hlen
    have hw := wrap_onGrid hs.1.1 hl'
    refine ⟨idx size (wrap size (plus (crd size x) (step size.length b.neighbors k))), _, ?_, ?_, hw, wrap_congruent hl'⟩
    · rw [List.getElem?_map, List.getElem?_range hk]; rfl
    · rw [hg, getCoordinates_eq hs.1 hf .closed (idx_lt hw), crd_idx hs.1.1 hw]

/-- C73.  `GetCoordination` is the number of neighbours of site 0; on a closed lattice it is the coordination number of
the Bravais lattice. -/
theorem C73_coordination (hs : Buildable size) (hb : Directed b size.length) (bd : Boundaries) (l : Lattice F)
    (hl : Lattice.new b size bd = .ok l) :
    ∃ n0, l.getNeighbors 0 = .ok n0 ∧ l.getCoordination = .ok n0.length ∧ (bd = .closed → l.getCoordination = .ok b.gamma) := by
  have h0 : 0 < size.prod := List.prod_pos hs.1.1
  obtain ⟨n0, h⟩ : ∃ n0, l.getNeighbors 0 = .ok n0 := ⟨_, getNeighbors_eq hs hb hl h0⟩
  have h' := h
  unfold Lattice.getNeighbors at h'
  have hc : l.getCoordination = .ok n0.length := by
    unfold Lattice.getCoordination Lattice.getCoordinationOf
    rw [h', Res.ok_bind]
  refine ⟨_, h, hc, ?_⟩
  rintro rfl
  obtain ⟨nx, h1, h2, -⟩ := C73_closed hs hb l hl 0 h0 _ (by
    rw [(new_parts hl).1]; exact getCoordinates_eq hs.1 (buildable_fits hs) .closed h0)
  rw [h, Res.ok.injEq] at h1
  rw [hc, h1, h2]

/-- C73.  On an open lattice `y` is a neighbour of `x` exactly when its coordinates are those of `x` displaced in
one of the directions. -/
theorem C73_open (hs : Buildable size) (hb : Directed b size.length) (l : Lattice F)
    (hl : Lattice.new b size .open = .ok l) (x y : Nat) (hx : x < size.prod) (hy : y < size.prod) (cx cy : List Int)
    (hcx : l.grid.getCoordinates x = .ok cx) (hcy : l.grid.getCoordinates y = .ok cy) :
    ∃ nx, l.getNeighbors x = .ok nx ∧ (y ∈ nx ↔ ∃ k, k < b.gamma ∧ cy = plus cx (step size.length b.neighbors k)) := by
  have hg := (new_parts hl).1
  have hf := buildable_fits hs
  rw [hg, getCoordinates_eq hs.1 hf .open hx, Res.ok.injEq] at hcx
  rw [hg, getCoordinates_eq hs.1 hf .open hy, Res.ok.injEq] at hcy
  subst hcx hcy
  have hlen := onGrid_length (crd_onGrid hs.1.1 hx)
  refine ⟨_, getNeighbors_eq hs hb hl hx, ?_⟩
  rw [List.mem_filterMap]
  refine exists_congr (fun k => ?_)
  rw [List.mem_range, target_iff hs hlen hy]

/-! ### Construction -/

/-- C73.  A lattice can be built on every grid with extents of at most 2^62 (in at most 40 dimensions, if closed). -/
theorem C73_defined (hs : Buildable size) (hb : Regular b size.length) (bd : Boundaries)
    (hd : bd = .closed → size.length ≤ 40) : ∃ l, Lattice.new b size bd = .ok l ∧ l.grid = Grid.new size bd ∧
      l.neighbors.length = size.prod := by
  obtain ⟨l, hl⟩ := new_isOk hs hb bd (fun h => lt_of_le_of_lt (Nat.pow_le_pow_right (by decide) (hd h)) (by decide))
  have hn := (new_parts hl).2.2.2.2.1
  rw [computeNeighbors_eq hs hb.toDirected bd, Res.ok.injEq] at hn
  exact ⟨l, hl, (new_parts hl).1, by rw [← hn]; simp⟩

theorem three_pow_mod_pos (d : Nat) : 0 < 3 ^ d % W64 := by
  rcases Nat.eq_zero_or_pos (3 ^ d % W64) with h | h
  · have h2 : 2 ∣ 3 ^ d := Nat.dvd_trans (by decide : 2 ∣ W64) (Nat.dvd_of_mod_eq_zero h)
    exact absurd (Nat.prime_two.dvd_of_dvd_pow h2) (by decide)
  · exact h

/-- C84.  A closed lattice in more than 40 dimensions cannot be built: the number of images wraps around. -/
theorem C84_dimensions (hs : Buildable size) (hb : Regular b size.length) (hd : 41 ≤ size.length) :
    Lattice.new b size .closed = .ub .divByZero := by
  have h0 : 0 < size.prod := List.prod_pos hs.1.1
  obtain ⟨ps, hp, -⟩ := computePositions_ok hs hb .closed
  have hw : ∀ k, indexToArray k (List.replicate size.length 3) = .ub .divByZero := fun k => C04_wrap _ _ (by
    rw [List.prod_replicate]
    exact le_trans (by decide : 2 ^ 64 ≤ 3 ^ 41) (Nat.pow_le_pow_right (by decide) hd))
  have hpos : 0 < accumulateProduct (List.replicate size.length 3) := by
    rw [accumulateProduct_eq, List.prod_replicate]
    exact three_pow_mod_pos _
  obtain ⟨n, hn⟩ := Nat.exists_eq_succ_of_ne_zero hpos.ne'
  obtain ⟨m, hm⟩ := Nat.exists_eq_succ_of_ne_zero h0.ne'
  obtain ⟨r, v, hv, -⟩ := hb.distanceVector (site_near hs (crd_zero_onGrid hs))
  have hcv : Lattice.computeVectors (Grid.new size .closed) b = .ub .divByZero := by
    unfold Lattice.computeVectors
    rw [getCoordinates_eq hs.1 (buildable_fits hs) .closed h0, Res.ok_bind, numsites_eq hs.1, hm, mapRange, mapRangeFrom,
      getCoordinates_eq hs.1 (buildable_fits hs) .closed h0, Res.ok_bind, hv, Res.ok_bind]
    have hf : foldRange (accumulateProduct (List.replicate size.length 3)) (Lattice.tryImage (Grid.new size .closed) b
        (List.replicate size.length 3) (crd size 0) (crd size 0)) (r, v) = .ub .divByZero := by
      rw [hn, foldRange, foldRangeFrom]
      unfold Lattice.tryImage
      rw [hw]; rfl
    have hcl : (Grid.new size .closed).hasClosedBoundaries = true := rfl
    rw [hcl, if_pos rfl]
    exact (congrArg (fun z => (z >>= _) >>= _) hf).trans rfl
  unfold Lattice.new
  simp only [hp, hcv, Res.ok_bind]; rfl

/-! ### Odd coordination numbers -/

theorem neighborLoop_gamma (g : Grid) (c : List Int) (m j n : Nat) :
    Lattice.neighborLoop g { b with gamma := m } c j n = Lattice.neighborLoop g b c j n := by
  induction n generalizing j with
  | zero => rfl
  | succ n ih => rw [Lattice.neighborLoop, Lattice.neighborLoop, ih]; rfl

theorem neighborLoop_ub {g : Grid} {c : List Int} {u : UB} {j n : Nat} {xs : List Nat}
    (h : Lattice.neighborLoop g b c j n = .ok xs) (hu : Lattice.neighborLoop g b c (j + n) 1 = .ub u) :
    Lattice.neighborLoop g b c j (n + 1) = .ub u := by
  induction n generalizing j xs with
  | zero => exact hu
  | succ n ih =>
    rw [Lattice.neighborLoop] at h ⊢
    obtain ⟨cj, h1, h⟩ := Res.bind_eq_ok.1 h
    rw [h1, Res.ok_bind]
    have hu' : Lattice.neighborLoop g b c (j + 1 + n) 1 = .ub u := by rwa [show j + 1 + n = j + (n + 1) by omega]
    have key : ∀ {on : Bool}, (if on = true then do
          let cj ← Lat.enforceBoundaries g cj
          let x ← g.getIndex cj
          let xs ← Lattice.neighborLoop g b c (j + 1) n
          Res.ok (x :: xs)
        else Lattice.neighborLoop g b c (j + 1) n) = .ok xs → (if on = true then do
          let cj ← Lat.enforceBoundaries g cj
          let x ← g.getIndex cj
          let xs ← Lattice.neighborLoop g b c (j + 1) (n + 1)
          Res.ok (x :: xs)
        else Lattice.neighborLoop g b c (j + 1) (n + 1)) = .ub u := by
      intro on h
      cases on with
      | false =>
        simp only [Bool.false_eq_true, if_false] at h ⊢
        exact ih h hu'
      | true =>
        simp only [if_true] at h ⊢
        obtain ⟨cj', h3, h⟩ := Res.bind_eq_ok.1 h
        obtain ⟨x, h4, h⟩ := Res.bind_eq_ok.1 h
        obtain ⟨ys, h5, h⟩ := Res.bind_eq_ok.1 h
        rw [h3, Res.ok_bind, h4, Res.ok_bind, ih h5 hu']; rfl
    cases hc : g.hasClosedBoundaries with
    | true =>
      simp only [hc, if_true, Res.ok_bind] at h ⊢
      exact key (on := true) h
    | false =>
      simp only [hc, Bool.false_eq_true, if_false] at h ⊢
      obtain ⟨on, h2, h⟩ := Res.bind_eq_ok.1 h
      rw [h2, Res.ok_bind]
      exact key h

/-- C85.  An odd coordination number is accepted by the constructor of `Bravais`, but a lattice built from it reads
past the end of the list of directions. -/
theorem C85_odd_violated (hs : Buildable size) (bd : Boundaries) (hd : bd = .closed → size.length ≤ 40)
    (h0 : 0 < size.length) (g : Nat) (hg : g % 2 = 1) (P Q : List F) (N : List Int)
    (hb : Bravais.new size.length g P Q N = .ok b) (hsq : size.length * size.length < 2 ^ 64)
    (hgd : (g / 2 + 1) * size.length < 2 ^ 64) (hN : ∀ v ∈ N, -2 ^ 62 ≤ v ∧ v ≤ 2 ^ 62) :
    Lattice.new b size bd = .ub .outOfBounds := by
  have hgd' : g / 2 * size.length < 2 ^ 64 := by rw [Nat.add_mul] at hgd; omega
  rw [C66_constructor _ _ _ _ _ hsq hgd'] at hb
  split at hb
  case isFalse => cases hb
  case isTrue hlen =>
  cases hb
  have hreg : Regular (⟨size.length, g - 1, P, Q, N⟩ : Bravais F) size.length :=
    ⟨⟨rfl, by show (g - 1) % 2 = 0; omega, by show N.length = (g - 1) / 2 * _; rw [hlen.2.2, show (g - 1) / 2 = g / 2 by omega],
      by show (g - 1) / 2 * _ < _; rw [show (g - 1) / 2 = g / 2 by omega]; exact hgd', hN⟩, hsq, hlen.1, hlen.2.1⟩
  set b' : Bravais F := ⟨size.length, g - 1, P, Q, N⟩ with hb'
  obtain ⟨ps, hp, -⟩ := computePositions_ok hs hreg bd
  have hv : ∃ vs, Lattice.computeVectors (Grid.new size bd) b' = .ok vs := by
    obtain ⟨l, hl⟩ := new_isOk hs hreg bd (fun h => lt_of_le_of_lt (Nat.pow_le_pow_right (by decide) (hd h)) (by decide))
    exact ⟨_, (new_parts hl).2.2.1⟩
  obtain ⟨vs, hv⟩ := hv
  have hn : Lattice.computeNeighbors (Grid.new size bd) (⟨size.length, g, P, Q, N⟩ : Bravais F) = .ub .outOfBounds := by
    have hp0 : 0 < size.prod := List.prod_pos hs.1.1
    obtain ⟨m, hm⟩ := Nat.exists_eq_succ_of_ne_zero hp0.ne'
    unfold Lattice.computeNeighbors
    rw [numsites_eq hs.1, hm, mapRange, mapRangeFrom, getCoordinates_eq hs.1 (buildable_fits hs) bd hp0, Res.ok_bind]
    have h1 := neighborLoop_eq hs hreg.toDirected bd (crd_zero_onGrid hs) 0 (g - 1) (by show 0 + (g - 1) ≤ g - 1; omega)
    have h1' := (neighborLoop_gamma (b := b') (Grid.new size bd) (crd size 0) g 0 (g - 1)).trans h1
    have h2 : Lattice.neighborLoop (Grid.new size bd) { b' with gamma := g } (crd size 0) (0 + (g - 1)) 1 =
        .ub .outOfBounds := by
      obtain ⟨e, he⟩ := Nat.exists_eq_succ_of_ne_zero h0.ne'
      rw [Lattice.neighborLoop]
      unfold Bravais.getNeighbor
      show ((mapRange size.length _ >>= _) >>= _) = _
      have hb0 : size.length * (g / 2) < 2 ^ 64 := by rwa [Nat.mul_comm]
      have hoff : uadd (umul ((0 + (g - 1)) / 2) size.length) 0 = g / 2 * size.length := by
        unfold uadd umul
        rw [show (0 + (g - 1)) / 2 = g / 2 by omega, Nat.add_zero, Nat.mod_eq_of_lt (a := _ * _) (by omega),
          Nat.mod_eq_of_lt (by omega)]
      have : mapRange size.length (fun i => do
          let c ← subscript (crd size 0) i
          let v ← subscript N (uadd (umul ((0 + (g - 1)) / 2) size.length) i)
          let d ← lmul (if (0 + (g - 1)) % 2 = 0 then 1 else -1) v
          ladd c d) = .ub .outOfBounds := by
        have hcl : (crd size 0).length = size.length := crd_length ..
        rw [he, mapRange, mapRangeFrom, subscript_isOk (by omega), Res.ok_bind, ← he, hoff, subscript_none (by rw [hlen.2.2])]
        rfl
      exact (congrArg (fun z => (z >>= _) >>= _) this).trans rfl
    have h3 := neighborLoop_ub h1' h2
    rw [show g - 1 + 1 = g by omega] at h3
    exact (congrArg (· >>= _) h3).trans rfl
  unfold Lattice.new
  have hp' : Lattice.computePositions (Grid.new size bd) (⟨size.length, g, P, Q, N⟩ : Bravais F) = .ok ps := hp
  have hv' : Lattice.computeVectors (Grid.new size bd) (⟨size.length, g, P, Q, N⟩ : Bravais F) = .ok vs := hv
  simp only [hp', hv', hn, Res.ok_bind]; rfl

/-- C85.  With an even coordination number a lattice can be built.  Missing: odd ones, for which it is false. -/
theorem C85_even_partial (hs : Buildable size) (bd : Boundaries) (hd : bd = .closed → size.length ≤ 40)
    (g : Nat) (hg : g % 2 = 0) (P Q : List F) (N : List Int)
    (hb : Bravais.new size.length g P Q N = .ok b) (hsq : size.length * size.length < 2 ^ 64)
    (hgd : g / 2 * size.length < 2 ^ 64) (hN : ∀ v ∈ N, -2 ^ 62 ≤ v ∧ v ≤ 2 ^ 62) :
    ∃ l, Lattice.new b size bd = .ok l := by
  rw [C66_constructor _ _ _ _ _ hsq hgd] at hb
  split at hb
  case isFalse => cases hb
  case isTrue hlen =>
  cases hb
  obtain ⟨l, hl, -⟩ := C73_defined hs (b := ⟨size.length, g, P, Q, N⟩)
    ⟨⟨rfl, hg, hlen.2.2, hgd, hN⟩, hsq, hlen.1, hlen.2.1⟩ bd hd
  exact ⟨l, hl⟩

/-! ### The hypotheses hold of the predefined lattices -/

theorem chain_regular : ∃ b : Bravais F, chainLattice = .ok b ∧ Regular b 1 :=
  ⟨_, rfl, ⟨⟨rfl, by norm_num, by norm_num, by norm_num, by intro v hv; fin_cases hv; decide⟩, by decide, rfl, rfl⟩⟩
theorem square_regular : ∃ b : Bravais F, squareLattice = .ok b ∧ Regular b 2 :=
  ⟨_, rfl, ⟨⟨rfl, by norm_num, by norm_num, by norm_num, by intro v hv; fin_cases hv <;> decide⟩, by decide, rfl, rfl⟩⟩
theorem cubic_regular : ∃ b : Bravais F, cubicLattice = .ok b ∧ Regular b 3 :=
  ⟨_, rfl, ⟨⟨rfl, by norm_num, by norm_num, by norm_num, by intro v hv; fin_cases hv <;> decide⟩, by decide, rfl, rfl⟩⟩
theorem triangular_regular : ∃ b : Bravais F, triangularLattice = .ok b ∧ Regular b 2 :=
  ⟨_, rfl, ⟨⟨rfl, by norm_num, by norm_num, by norm_num, by intro v hv; fin_cases hv <;> decide⟩, by decide, rfl, rfl⟩⟩

/-- C72, C73: an open triangular lattice of 3 by 5 sites. -/
example : ∃ (b : Bravais F) (l : Lattice F), triangularLattice = .ok b ∧ Buildable [3, 5] ∧ Directed b [3, 5].length ∧
    Lattice.new b [3, 5] .open = .ok l := by
  obtain ⟨b, h1, h2⟩ := triangular_regular (F := F)
  have hs : Buildable [3, 5] := ⟨by decide, by decide⟩
  obtain ⟨l, hl, -⟩ := C73_defined hs (b := b) h2 .open (fun h => by cases h)
  exact ⟨b, l, h1, hs, h2.toDirected, hl⟩

/-- C84: a grid with 41 directions. -/
example : Buildable (List.replicate 41 1) ∧ 41 ≤ (List.replicate 41 1).length := ⟨⟨by decide, by decide⟩, by decide⟩

/-- C85: three neighbours on a chain. -/
example (x : F) : ∃ b : Bravais F, Bravais.new 1 3 [x] [x] [1] = .ok b := ⟨_, rfl⟩

end
end Bwsl
