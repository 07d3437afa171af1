import Verif.Props.Nearest
import Verif.Props.Translate
import Mathlib.Logic.Relation

/-! Properties C95 to C97: symmetry, nearest neighbours and connectedness of finite lattices. -/

namespace Bwsl
open Spec

set_option linter.unusedSectionVars false

section
variable {F : Type} [CxxFloat F] {b : Bravais F} {size : List Nat}

/-! ### C95: translations -/

/-- C95.  Vectors and distances on a closed lattice do not change when both sites are translated. -/
theorem C95_distance (hs : Buildable size) (l : Lattice F) (hl : Lattice.new b size .closed = .ok l) (t x y x' y' : Nat)
    (ht : t < size.prod) (hx : x < size.prod) (hy : y < size.prod) (ex : l.grid.getUnMappedSite t x = .ok x')
    (ey : l.grid.getUnMappedSite t y = .ok y') :
    l.getDistance x' y' = l.getDistance x y ∧ l.getVector x' y' = l.getVector x y := by
  have hg := (new_parts hl).1
  rw [hg] at ex ey
  have hm := C09_translation_invariant size hs.1 hs.2 x y t x' y' hx hy ht ex ey
  rw [getUnMappedSite_eq hs.1 hs.2 ht hx, Res.ok.injEq] at ex
  rw [getUnMappedSite_eq hs.1 hs.2 ht hy, Res.ok.injEq] at ey
  have ct := crd_onGrid hs.1.1 ht
  have hx' : x' < size.prod := by rw [← ex]; exact idx_lt (cadd_onGrid hs.1.1 (crd_onGrid hs.1.1 hx) ct)
  have hy' : y' < size.prod := by rw [← ey]; exact idx_lt (cadd_onGrid hs.1.1 (crd_onGrid hs.1.1 hy) ct)
  unfold Lattice.getDistance Lattice.getVector
  simp only [indexIsValid_eq hs hl hx, indexIsValid_eq hs hl hy, indexIsValid_eq hs hl hx', indexIsValid_eq hs hl hy']
  rw [hg, hm]
  exact ⟨rfl, rfl⟩

/-- C95.  The neighbours of a translated site are the translated neighbours, in the same order. -/
theorem C95_neighbors (hs : Buildable size) (hb : Directed b size.length) (l : Lattice F)
    (hl : Lattice.new b size .closed = .ok l) (t x x' : Nat) (ht : t < size.prod) (hx : x < size.prod)
    (ex : l.grid.getUnMappedSite t x = .ok x') :
    ∃ nx nx', l.getNeighbors x = .ok nx ∧ l.getNeighbors x' = .ok nx' ∧
      List.Forall₂ (fun y y' => l.grid.getUnMappedSite t y = .ok y') nx nx' := by
  have hg := (new_parts hl).1
  rw [hg, getUnMappedSite_eq hs.1 hs.2 ht hx, Res.ok.injEq] at ex
  have ct := crd_onGrid hs.1.1 ht
  have cx := crd_onGrid hs.1.1 hx
  have lt := onGrid_length ct
  have lx := onGrid_length cx
  have gx := cadd_onGrid hs.1.1 cx ct
  have hx' : x' < size.prod := by rw [← ex]; exact idx_lt gx
  have e : ∀ z, (List.range b.gamma).filterMap (target size b.neighbors .closed (crd size z)) =
      (List.range b.gamma).map (fun k => idx size (wrap size (plus (crd size z) (step size.length b.neighbors k)))) :=
    fun z => by rw [← List.filterMap_eq_map]; rfl
  refine ⟨_, _, getNeighbors_eq hs hb hl hx, getNeighbors_eq hs hb hl hx', ?_⟩
  rw [e, e, List.forall₂_map_left_iff, List.forall₂_map_right_iff, List.forall₂_same]
  intro k _
  have ls := length_step size.length b.neighbors k
  have l1 := length_plus ls lx
  have w1 := wrap_onGrid hs.1.1 l1
  rw [hg, getUnMappedSite_eq hs.1 hs.2 ht (idx_lt w1), crd_idx hs.1.1 w1, ← ex, crd_idx hs.1.1 gx, cadd_eq, cadd_eq]
  refine congrArg (fun c => Res.ok (idx size c)) ?_
  have lw := onGrid_length w1
  have l2 := length_plus lt lx
  have lw2 := length_wrap (size := size) l2
  refine ext_coord ((length_wrap (length_plus lt lw)).trans (length_wrap (length_plus ls lw2)).symm) (fun i hi => ?_)
  rw [length_wrap (length_plus lt lw)] at hi
  rw [coord_wrap (length_plus lt lw) hi, coord_wrap (length_plus ls lw2) hi, coord_plus (lt.trans lw.symm),
    coord_plus (ls.trans lw2.symm), coord_wrap l1 hi, coord_wrap l2 hi, coord_plus (ls.trans lx.symm),
    coord_plus (lt.trans lx.symm), Int.emod_add_emod, Int.emod_add_emod]
  congr 1; ring

/-! ### C97: connectedness -/

/-- `y` is in the list of neighbours of `x`. -/
def Adjacent (l : Lattice F) (x y : Nat) : Prop := ∃ nx, l.getNeighbors x = .ok nx ∧ y ∈ nx

/-- Every coordinate direction is one of the directions to a neighbour. -/
def Axes (d g : Nat) (N : List Int) : Prop :=
  ∀ j, j < d → ∃ k, k < g ∧ ∀ i, i < d → coord (step d N k) i = if i = j then 1 else 0

theorem adjacent_iff (hs : Buildable size) (hb : Directed b size.length) {bd : Boundaries} {l : Lattice F}
    (hl : Lattice.new b size bd = .ok l) {x y : Nat} (hx : x < size.prod) :
    Adjacent l x y ↔ ∃ k, k < b.gamma ∧ target size b.neighbors bd (crd size x) k = some y := by
  unfold Adjacent
  rw [getNeighbors_eq hs hb hl hx]
  simp only [Res.ok.injEq, exists_eq_left', List.mem_filterMap, List.mem_range]

theorem adjacent_symm (hs : Buildable size) (hb : Directed b size.length) {bd : Boundaries} {l : Lattice F}
    (hl : Lattice.new b size bd = .ok l) {x y : Nat} (hx : x < size.prod) (hy : y < size.prod) (h : Adjacent l x y) :
    Adjacent l y x := by
  obtain ⟨k, hk, h⟩ := (adjacent_iff hs hb hl hx).1 h
  exact (adjacent_iff hs hb hl hy).2 ⟨flip k, flip_lt hb.even hk, (target_flip hs hx hy).1 h⟩

/-- Every site is connected with site 0, in both directions. -/
theorem connected_zero (hs : Buildable size) (hb : Directed b size.length) (ha : Axes size.length b.gamma b.neighbors)
    {bd : Boundaries} {l : Lattice F} (hl : Lattice.new b size bd = .ok l) (n : Nat) :
    ∀ x, x < size.prod → ∑ i ∈ Finset.range size.length, coord (crd size x) i = (n : Int) →
      Relation.ReflTransGen (Adjacent l) x 0 ∧ Relation.ReflTransGen (Adjacent l) 0 x := by
  induction n with
  | zero =>
    intro x hx h
    have hc := onGrid_iff.1 (crd_onGrid hs.1.1 hx)
    have h0 : 0 < size.prod := List.prod_pos hs.1.1
    have hz : crd size x = crd size 0 := by
      refine ext_coord (by simp) (fun i hi => ?_)
      rw [hc.1] at hi
      rw [coord_crd_zero]
      exact (Finset.sum_eq_zero_iff_of_nonneg (fun i hi => (hc.2 i (Finset.mem_range.1 hi)).1)).1 h i (Finset.mem_range.2 hi)
    have : x = 0 := by rw [← idx_crd hs.1.1 hx, hz, idx_crd hs.1.1 h0]
    rw [this]
    exact ⟨.refl, .refl⟩
  | succ n ih =>
    intro x hx h
    have cx := crd_onGrid hs.1.1 hx
    have hc := onGrid_iff.1 cx
    obtain ⟨j, hj, hpos⟩ : ∃ j, j < size.length ∧ 0 < coord (crd size x) j := by
      by_contra hne
      have : ∑ i ∈ Finset.range size.length, coord (crd size x) i ≤ 0 := Finset.sum_nonpos (fun i hi => by
        by_contra hp
        exact hne ⟨i, Finset.mem_range.1 hi, by omega⟩)
      omega
    obtain ⟨k, hk, hstep⟩ := ha j hj
    have ls := length_step size.length b.neighbors (flip k)
    have hlp := length_plus ls hc.1
    have hco : ∀ i, i < size.length → coord (plus (crd size x) (step size.length b.neighbors (flip k))) i =
        coord (crd size x) i - if i = j then 1 else 0 := fun i hi => by
      rw [coord_plus (ls.trans hc.1.symm), coord_step_flip hi, hstep i hi]; rfl
    have hg : OnGrid (plus (crd size x) (step size.length b.neighbors (flip k))) size := by
      refine onGrid_iff.2 ⟨hlp, fun i hi => ?_⟩
      have := hc.2 i hi
      rw [hco i hi]
      split
      · rename_i e; subst e; omega
      · omega
    have hy := idx_lt hg
    have cy := crd_idx hs.1.1 hg
    have hadj : Adjacent l x (idx size (plus (crd size x) (step size.length b.neighbors (flip k)))) := by
      refine (adjacent_iff hs hb hl hx).2 ⟨flip k, flip_lt hb.even hk, (target_iff hs hc.1 hy).2 ?_⟩
      rw [cy]
      cases bd with
      | «open» => rfl
      | closed => exact congruent_iff.2 ⟨hlp, hlp, fun i _ => by rw [Int.sub_self]; exact dvd_zero _⟩
    have hsum : ∑ i ∈ Finset.range size.length,
        coord (crd size (idx size (plus (crd size x) (step size.length b.neighbors (flip k))))) i = (n : Int) := by
      rw [cy, Finset.sum_congr rfl (fun i hi => hco i (Finset.mem_range.1 hi)), Finset.sum_sub_distrib, h,
        Finset.sum_ite_eq' (Finset.range size.length) j, if_pos (Finset.mem_range.2 hj)]
      push_cast; ring
    obtain ⟨h1, h2⟩ := ih _ hy hsum
    exact ⟨.head hadj h1, h2.tail (adjacent_symm hs hb hl hx hy hadj)⟩

/-- C97.  The graph of neighbours is connected, with open and with closed boundaries, if the coordinate directions are
among the directions to the neighbours. -/
theorem C97_connected (hs : Buildable size) (hb : Directed b size.length) (ha : Axes size.length b.gamma b.neighbors)
    (bd : Boundaries) (l : Lattice F) (hl : Lattice.new b size bd = .ok l) (x y : Nat) (hx : x < size.prod)
    (hy : y < size.prod) : Relation.ReflTransGen (Adjacent l) x y := by
  have key : ∀ z, z < size.prod → Relation.ReflTransGen (Adjacent l) z 0 ∧ Relation.ReflTransGen (Adjacent l) 0 z := by
    intro z hz
    have hc := onGrid_iff.1 (crd_onGrid hs.1.1 hz)
    obtain ⟨n, hn⟩ := Int.eq_ofNat_of_zero_le
      (Finset.sum_nonneg (fun i hi => (hc.2 i (Finset.mem_range.1 hi)).1) :
        0 ≤ ∑ i ∈ Finset.range size.length, coord (crd size z) i)
    exact connected_zero hs hb ha hl n z hz hn
  exact (key x hx).1.trans (key y hy).2

theorem axes_chain : Axes 1 2 [1] := fun j hj => ⟨2 * j, by omega, fun i hi => by
  interval_cases j; interval_cases i; decide⟩
theorem axes_square : Axes 2 4 [1, 0, 0, 1] := fun j hj => ⟨2 * j, by omega, fun i hi => by
  interval_cases j <;> interval_cases i <;> decide⟩
theorem axes_cubic : Axes 3 6 [1, 0, 0, 0, 1, 0, 0, 0, 1] := fun j hj => ⟨2 * j, by omega, fun i hi => by
  interval_cases j <;> interval_cases i <;> decide⟩
theorem axes_triangular : Axes 2 6 [1, 0, 0, 1, 1, -1] := fun j hj => ⟨2 * j, by omega, fun i hi => by
  interval_cases j <;> interval_cases i <;> decide⟩

/-- C97.  So on the chain, square, cubic and triangular lattices of any extents. -/
theorem C97_predefined (h : chainLattice = .ok b ∨ squareLattice = .ok b ∨ cubicLattice = .ok b ∨ triangularLattice = .ok b)
    (hs : Buildable size) (hd : size.length = b.dim) (bd : Boundaries) (l : Lattice F)
    (hl : Lattice.new b size bd = .ok l) (x y : Nat) (hx : x < size.prod) (hy : y < size.prod) :
    Relation.ReflTransGen (Adjacent l) x y := by
  have key : Directed b b.dim ∧ Axes b.dim b.gamma b.neighbors := by
    rcases h with h | h | h | h
    · obtain ⟨b', e, hr⟩ := chain_regular (F := F)
      rw [e] at h; cases h
      have e' := e.symm; cases e'
      exact ⟨hr.toDirected, axes_chain⟩
    · obtain ⟨b', e, hr⟩ := square_regular (F := F)
      rw [e] at h; cases h
      have e' := e.symm; cases e'
      exact ⟨hr.toDirected, axes_square⟩
    · obtain ⟨b', e, hr⟩ := cubic_regular (F := F)
      rw [e] at h; cases h
      have e' := e.symm; cases e'
      exact ⟨hr.toDirected, axes_cubic⟩
    · obtain ⟨b', e, hr⟩ := triangular_regular (F := F)
      rw [e] at h; cases h
      have e' := e.symm; cases e'
      exact ⟨hr.toDirected, axes_triangular⟩
  rw [← hd] at key
  exact C97_connected hs key.1 key.2 bd l hl x y hx hy

end

section
variable {A : Arith ℝ} {b : Bravais (Num A)} {size : List Nat} {g : Nat} {P Q : List ℝ} {N : List Int}

theorem predefined_regular (hb : Predefined b) : Regular b b.dim := by
  rcases hb with h | h | h | h
  · obtain ⟨b', e, hr⟩ := chain_regular (F := Num A)
    rw [e] at h; cases h; rw [hr.dim]; exact hr
  · obtain ⟨b', e, hr⟩ := square_regular (F := Num A)
    rw [e] at h; cases h; rw [hr.dim]; exact hr
  · obtain ⟨b', e, hr⟩ := cubic_regular (F := Num A)
    rw [e] at h; cases h; rw [hr.dim]; exact hr
  · obtain ⟨b', e, hr⟩ := triangular_regular (F := Num A)
    rw [e] at h; cases h; rw [hr.dim]; exact hr

/-! ### C96: nearest neighbours -/

theorem reach_eq {d : Nat} {f : List Int → Int} (hf : Form d g P N f) (hd : size.length = d) (c m : List Int) :
    reach size P c m = √(f (image size c m) : ℝ) := by
  unfold reach Spec.length
  rw [hd, hf.sq _ ((length_image ..).trans hd)]

theorem sqrt_int_eq_one {n : Int} : √(n : ℝ) = 1 ↔ n = 1 := by
  rw [Real.sqrt_eq_one]
  exact_mod_cast Iff.rfl

theorem small_entry {d : Nat} (hN : ∀ v ∈ N, -1 ≤ v ∧ v ≤ 1) (k i : Nat) (hi : i < d) :
    -1 ≤ coord (step d N k) i ∧ coord (step d N k) i ≤ 1 := by
  have h : ∀ j, -1 ≤ coord N j ∧ coord N j ≤ 1 := fun j => by
    unfold coord
    rw [List.getD_eq_getElem?_getD]
    cases h : N[j]? with
    | none => exact ⟨by decide, by decide⟩
    | some v => exact hN v (List.mem_of_getElem? h)
  rw [coord_step hi]
  have := h (k / 2 * d + i)
  split <;> omega

/-- Sites are neighbours exactly if their distance is 1. -/
theorem adjacent_distance (hA : A.IsReal) (hs : Buildable size) (h2 : ∀ s ∈ size, 2 ≤ s)
    (hb : Holds b size.length g P Q N) (hr : Regular b size.length) {f : List Int → Int} (hf : Form size.length g P N f)
    (hN : ∀ v ∈ N, -1 ≤ v ∧ v ≤ 1) (hf0 : f (List.replicate size.length 0) = 0) {l : Lattice (Num A)}
    (hl : Lattice.new b size .closed = .ok l) {x y : Nat}
    (hx : x < size.prod) (hy : y < size.prod) : Adjacent l x y ↔ l.getDistance x y = .ok (.fin 1) := by
  obtain ⟨m, hm, -, hD, hmin⟩ := closed_eq hA hs hb hr hl hx hy
  have gam : b.gamma = g := by rw [hb.eq]
  have nei : b.neighbors = N := by rw [hb.eq]
  have lx := onGrid_length (crd_onGrid hs.1.1 hx)
  have ly := onGrid_length (crd_onGrid hs.1.1 hy)
  have lm := length_minus lx ly
  have hw := onGrid_iff.1 (wrap_onGrid hs.1.1 lm)
  have he : ∀ i, i < size.length → 2 ≤ extent size i := fun i hi => by
    rw [extent_eq hi]; exact_mod_cast h2 _ (List.getElem_mem hi)
  rw [adjacent_iff hs hr.toDirected hl hx, hD, Res.ok.injEq, Num.fin.injEq, reach_eq hf rfl, sqrt_int_eq_one, gam, nei]
  have hcw : ∀ i, i < size.length → coord (wrap size (minus (crd size y) (crd size x))) i =
      (coord (crd size y) i - coord (crd size x) i) % extent size i := fun i hi => by
    rw [coord_wrap lm hi, coord_minus (lx.trans ly.symm)]
  constructor
  · rintro ⟨k, hk, h⟩
    rw [target_iff hs lx hy] at h
    have h := (congruent_iff.1 h).2.2
    have hse := fun i hi => small_entry (N := N) hN k i (d := size.length) hi
    -- the relative position is the step modulo the extents
    have hmod : ∀ i, i < size.length → coord (wrap size (minus (crd size y) (crd size x))) i =
        coord (step size.length N k) i % extent size i := fun i hi => by
      have := h i hi
      rw [coord_plus ((length_step ..).trans lx.symm)] at this
      rw [hcw i hi]
      exact Int.emod_eq_emod_iff_emod_sub_eq_zero.2 (Int.emod_eq_zero_of_dvd (by convert this using 1; ring))
    -- an image in the first shell is the step itself
    have hshell : ∃ m', Shell size.length m' ∧
        image size (wrap size (minus (crd size y) (crd size x))) m' = step size.length N k := by
      refine ⟨tab size.length (fun i => if coord (step size.length N k) i = -1 then -1 else 0), ⟨length_tab .., ?_⟩, ?_⟩
      · intro v hv
        obtain ⟨i, -, rfl⟩ := List.mem_map.1 hv
        split <;> omega
      · refine ext_coord ((length_image ..).trans (length_step ..).symm) (fun i hi => ?_)
        rw [length_image] at hi
        rw [coord_image hi, coord_tab hi, hmod i hi]
        have h1 := hse i hi
        have h2 := he i hi
        obtain e | e | e : coord (step size.length N k) i = -1 ∨ coord (step size.length N k) i = 0 ∨
            coord (step size.length N k) i = 1 := by omega
        · rw [e, if_pos rfl, show (-1 : Int) = -1 + extent size i - extent size i by ring, Int.sub_emod_right,
            Int.emod_eq_of_lt (by omega) (by omega)]; ring
        · rw [e, if_neg (by decide)]; simp
        · rw [e, if_neg (by decide), Int.emod_eq_of_lt (by omega) (by omega)]; simp
    obtain ⟨m', hm', e'⟩ := hshell
    have h1 := (hf.one _ (length_step ..)).2 ⟨k, hk, rfl⟩
    have hle := hmin m' hm'
    rw [reach_eq hf rfl, reach_eq hf rfl, e', h1, Int.cast_one, Real.sqrt_one] at hle
    have hle' : f (image size (wrap size (minus (crd size y) (crd size x))) m) ≤ 1 := by
      have := Real.sqrt_le_one.1 hle
      exact_mod_cast this
    have hnn := hf.nonneg _ (length_image size (wrap size (minus (crd size y) (crd size x))) m)
    by_contra hne
    have h0 := hf.zero _ (length_image ..) (show f (image size (wrap size (minus (crd size y) (crd size x))) m) = 0 by omega)
    -- then the step is zero modulo the extents, hence zero
    have hz : step size.length N k = List.replicate size.length 0 := by
      refine ext_coord (by simp [length_step]) (fun i hi => ?_)
      rw [length_step] at hi
      have hi0 : coord (image size (wrap size (minus (crd size y) (crd size x))) m) i = 0 := by
        refine h0 _ ?_
        unfold coord
        rw [List.getD_eq_getElem?_getD, List.getElem?_eq_getElem (by rw [length_image]; exact hi)]
        exact List.getElem_mem _
      rw [coord_image hi, hmod i hi] at hi0
      have h1 := hse i hi
      have h2 := he i hi
      have h3 : extent size i ∣ coord (step size.length N k) i := by
        have : coord (step size.length N k) i % extent size i = -coord m i * extent size i := by linarith
        rw [Int.dvd_iff_emod_eq_zero, ← Int.emod_emod, this, Int.mul_emod_left]
      have h4 : coord (step size.length N k) i = 0 := by
        refine Int.eq_zero_of_abs_lt_dvd h3 ?_
        rw [abs_lt]; omega
      rw [h4]
      simp [coord, List.getD_eq_getElem?_getD, hi]
    rw [hz, hf0] at h1
    exact absurd h1 (by decide)
  · intro h
    obtain ⟨k, hk, e⟩ := (hf.one _ (length_image ..)).1 h
    refine ⟨k, hk, (target_iff hs lx hy).2 (congruent_iff.2 ⟨ly, length_plus (length_step ..) lx, fun i hi => ?_⟩)⟩
    have : coord (image size (wrap size (minus (crd size y) (crd size x))) m) i = coord (step size.length N k) i := by rw [e]
    rw [coord_image hi, hcw i hi] at this
    rw [coord_plus ((length_step ..).trans lx.symm), ← this]
    have hd := Int.emod_add_mul_ediv (coord (crd size y) i - coord (crd size x) i) (extent size i)
    refine ⟨(coord (crd size y) i - coord (crd size x) i) / extent size i - coord m i, ?_⟩
    linarith

/-- C96.  On a closed chain, square, cubic or triangular lattice with at least two sites in each direction the
neighbours of a site are exactly the sites at distance 1. -/
theorem C96_distance (hA : A.IsReal) (hb : Predefined b) (hs : Buildable size) (hd : size.length = b.dim)
    (h2 : ∀ s ∈ size, 2 ≤ s) (l : Lattice (Num A)) (hl : Lattice.new b size .closed = .ok l) (x y : Nat)
    (hx : x < size.prod) (hy : y < size.prod) :
    (∃ nx, l.getNeighbors x = .ok nx ∧ (y ∈ nx ↔ l.getDistance x y = .ok (.fin 1))) ∧
    (l.areNeighbors x y = .ok true ↔ l.getDistance x y = .ok (.fin 1)) := by
  have hr := predefined_regular hb
  obtain ⟨d, g, P, Q, N, f, hb, hg, hN, hf⟩ := predefined_form hA hb
  have e : b.dim = d := by rw [hb.eq]
  obtain rfl : size.length = d := hd.trans e
  rw [e] at hr
  have hf0 : f (List.replicate size.length 0) = 0 := by
    have := hf.sq (List.replicate size.length 0) (by simp)
    have hz := embed_zero (d := size.length) (P := P) (c := List.replicate size.length 0)
      (fun x hx => List.eq_of_mem_replicate hx)
    have h0 : ((embed size.length P (List.replicate size.length 0)).map (fun x => x * x)).sum = 0 :=
      List.sum_eq_zero (fun v hv => by
        obtain ⟨w, hw, rfl⟩ := List.mem_map.1 hv
        simp [hz w hw])
    rw [h0] at this
    exact_mod_cast this.symm
  have key := adjacent_distance hA hs h2 hb hr hf hN hf0 hl hx hy
  have hn := getNeighbors_eq hs hr.toDirected hl hx
  unfold Adjacent at key
  rw [hn] at key
  simp only [Res.ok.injEq, exists_eq_left'] at key
  refine ⟨⟨_, hn, key⟩, ?_⟩
  rw [areNeighbors_eq hs hr.toDirected hl hx y hn, Res.ok.injEq, List.contains_iff_mem, key]

/-- C95 to C97: a closed triangular lattice of 2 by 12 sites. -/
example : ∃ (b : Bravais (Num A)) (l : Lattice (Num A)), Predefined b ∧ Buildable [2, 12] ∧ [2, 12].length = b.dim ∧
    (∀ s ∈ [2, 12], 2 ≤ s) ∧ Lattice.new b [2, 12] .closed = .ok l ∧ ∃ x', l.grid.getUnMappedSite 17 3 = .ok x' := by
  obtain ⟨b, h1, h2⟩ := triangular_regular (F := Num A)
  have hs : Buildable [2, 12] := ⟨by decide, by decide⟩
  obtain ⟨l, hl, -⟩ := C73_defined hs (b := b) h2 .closed (fun _ => by decide)
  refine ⟨b, l, .inr (.inr (.inr h1)), hs, h2.dim.symm, by decide, hl, ?_⟩
  rw [(new_parts hl).1]
  exact ⟨_, getUnMappedSite_eq hs.1 hs.2 (by decide) (by decide)⟩

/-- C96 without the condition on the extents: a chain of one site is its own neighbour, at distance 0. -/
theorem C96_single (hA : A.IsReal) (hb : chainLattice = .ok b) (l : Lattice (Num A))
    (hl : Lattice.new b [1] .closed = .ok l) : l.areNeighbors 0 0 = .ok true ∧ l.getDistance 0 0 = .ok (.fin 0) := by
  obtain ⟨b', e, hr⟩ := chain_regular (F := Num A)
  obtain ⟨b'', e', hh⟩ := chain_holds hA
  rw [e] at hb; cases hb
  rw [e] at e'; cases e'
  have hs : Buildable [1] := ⟨by decide, by decide⟩
  have hd : [1].length = b.dim := hr.dim.symm
  refine ⟨?_, ?_⟩
  · rw [areNeighbors_eq hs hr.toDirected hl (by decide) 0 (getNeighbors_eq hs hr.toDirected hl (by decide)), Res.ok.injEq,
      List.contains_iff_mem, List.mem_filterMap]
    refine ⟨0, List.mem_range.2 (by rw [hh.eq]; exact Nat.zero_lt_two), ?_⟩
    rw [hh.eq]; rfl
  · have h := C74_predefined hA (.inl e) hs hd l hl
    have hc : l.grid.getCoordinates 0 = .ok (crd [1] 0) := by
      rw [(new_parts hl).1]; exact getCoordinates_eq hs.1 (buildable_fits hs) .closed (i := 0) (by decide)
    obtain ⟨D, hD, -⟩ := h.least 0 0 _ _ (by decide) (by decide) hc hc
    rw [(h.definite 0 0 D (by decide) (by decide) hD).2 rfl] at hD
    exact hD

end
end Bwsl
