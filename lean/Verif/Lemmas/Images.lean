import Verif.Lemmas.Lattice

/-! Periodic images, and the construction of a lattice. -/

namespace Bwsl
open Spec

set_option linter.unusedSectionVars false

theorem Res.IsOk.bind {x : Res α} {f : α → Res β} (h : ∃ a, x = .ok a ∧ (f a).IsOk) : (x >>= f).IsOk := by
  obtain ⟨a, rfl, h⟩ := h
  rwa [Res.ok_bind]

/-- The invariant rule for `foldRange`. -/
theorem foldRange_inv {f : σ → Nat → Res σ} (I : Nat → σ → Prop) {n : Nat} {s : σ} (h0 : I 0 s)
    (hstep : ∀ k s, k < n → I k s → ∃ s', f s k = .ok s' ∧ I (k + 1) s') : ∃ s', foldRange n f s = .ok s' ∧ I n s' := by
  have key : ∀ m k s, k + m = n → I k s → ∃ s', foldRangeFrom f s k m = .ok s' ∧ I n s' := by
    intro m
    induction m with
    | zero => intro k s hk hI; exact ⟨s, rfl, by rwa [← hk]⟩
    | succ m ih =>
      intro k s hk hI
      obtain ⟨s', h1, h2⟩ := hstep k s (by omega) hI
      obtain ⟨s'', h3, h4⟩ := ih (k + 1) s' (by omega) h2
      exact ⟨s'', by rw [foldRangeFrom, h1, Res.ok_bind, h3], h4⟩
  exact key n 0 s (by omega) h0

theorem mapRange_exists {f : Nat → Res α} {n : Nat} (P : Nat → α → Prop) (h : ∀ i, i < n → ∃ x, f i = .ok x ∧ P i x) :
    ∃ xs, mapRange n f = .ok xs ∧ xs.length = n ∧ ∀ i x, xs[i]? = some x → P i x := by
  have key : ∀ m k, (∀ i, k ≤ i → i < k + m → ∃ x, f i = .ok x ∧ P i x) →
      ∃ xs, mapRangeFrom f k m = .ok xs ∧ xs.length = m ∧ ∀ i x, xs[i]? = some x → P (k + i) x := by
    intro m
    induction m with
    | zero => intro k _; exact ⟨[], rfl, rfl, fun i x h => by simp at h⟩
    | succ m ih =>
      intro k h
      obtain ⟨x, h1, h2⟩ := h k le_rfl (by omega)
      obtain ⟨xs, h3, h4, h5⟩ := ih (k + 1) (fun i h1 h2 => h i (by omega) (by omega))
      refine ⟨x :: xs, by rw [mapRangeFrom, h1, Res.ok_bind, h3, Res.ok_bind], by simp [h4], fun i y hy => ?_⟩
      cases i with
      | zero => cases hy; exact h2
      | succ i =>
        have := h5 i y (by simpa using hy)
        rwa [show k + 1 + i = k + (i + 1) by omega] at this
  obtain ⟨xs, h1, h2, h3⟩ := key n 0 (fun i _ h2 => h i (by omega))
  exact ⟨xs, h1, h2, fun i x hx => by simpa using h3 i x hx⟩

theorem accumulate_isOk {F : Type} [CxxFloat F] {f : Nat → Res F} {n : Nat} (h : ∀ i, i < n → (f i).IsOk) :
    (accumulate n f).IsOk := by
  have key : ∀ m k (a : F), (∀ i, k ≤ i → i < k + m → (f i).IsOk) → (accumulateFrom f a k m).IsOk := by
    intro m
    induction m with
    | zero => intro k a _; exact ⟨a, rfl⟩
    | succ m ih =>
      intro k a h
      obtain ⟨x, hx⟩ := h k le_rfl (by omega)
      rw [accumulateFrom, hx, Res.ok_bind]
      exact ih _ _ (fun i h1 h2 => h i (by omega) (by omega))
  exact key n 0 _ (fun i _ h2 => h i (by omega))

theorem mapRange_isOk {f : Nat → Res α} {n : Nat} (h : ∀ i, i < n → (f i).IsOk) :
    ∃ xs, mapRange n f = .ok xs ∧ xs.length = n := by
  obtain ⟨xs, h1, h2, -⟩ := mapRange_exists (fun _ _ => True) (fun i hi => (h i hi).imp (fun x hx => ⟨hx, trivial⟩))
  exact ⟨xs, h1, h2⟩

theorem subscript_isOk {v : List α} {i : Nat} (h : i < v.length) : subscript v i = .ok v[i] :=
  subscript_ok (List.getElem?_eq_getElem h)

/-- A `Bravais` object as its constructor builds it, whose directions are `Directed`. -/
structure Regular {F : Type} (b : Bravais F) (d : Nat) : Prop extends Directed b d where
  sq : d * d < 2 ^ 64
  lenP : b.pvectors.length = d * d
  lenQ : b.pivectors.length = d * d

section
variable {F : Type} [CxxFloat F] {b : Bravais F} {size : List Nat} {d : Nat}

theorem Regular.realSpace (hb : Regular b d) {c : List Int} (hc : c.length = d) :
    ∃ v, b.getRealSpace c = .ok v ∧ v.length = d := by
  have hd := hb.dim
  unfold Bravais.getRealSpace
  rw [if_pos (hc.trans hd.symm), hd]
  refine mapRange_isOk (fun i hi => accumulate_isOk (fun j hj => ?_))
  rw [subscript_isOk (by omega), offset_eq hb.sq hi hj,
    subscript_isOk (by rw [hb.lenP]; exact offset_lt hi hj)]
  exact ⟨_, rfl⟩

theorem Regular.vector (hb : Regular b d) {x y : List Int} (h : Near d x y) :
    ∃ v, b.getVector x y = .ok v ∧ v.length = d := by
  rw [getVector_eq (hb.dim ▸ h)]
  exact hb.realSpace (length_minus h.1 h.2.1)

theorem Regular.distanceVector (hb : Regular b d) {x y : List Int} (h : Near d x y) :
    ∃ r v, b.getDistanceVector x y = .ok (r, v) ∧ v.length = d := by
  obtain ⟨v, h1, h2⟩ := hb.vector h
  obtain ⟨a, ha⟩ := accumulate_isOk (n := b.dim) (f := fun i => do let x ← subscript v i; .ok (squareF x))
    (fun i hi => by rw [subscript_isOk (by rw [h2, ← hb.dim]; exact hi)]; exact ⟨_, rfl⟩)
  refine ⟨CxxFloat.sqrt a, v, ?_, h2⟩
  unfold Bravais.getDistanceVector
  rw [h1, Res.ok_bind, ha, Res.ok_bind]

theorem Regular.reciprocal (hb : Regular b d) {c : List Int} (hc : c.length = d)
    (h : ∀ x ∈ c, InLong (x * 2)) : ∃ v, b.getReciprocalSpace c = .ok v ∧ v.length = d := by
  have hd := hb.dim
  unfold Bravais.getReciprocalSpace
  rw [if_pos (hc.trans hd.symm), hd]
  refine mapRange_isOk (fun i hi => accumulate_isOk (fun j hj => ?_))
  rw [subscript_isOk (by omega), Res.ok_bind]
  have : lmul c[j] 2 = .ok (c[j] * 2) := long_ok (h _ (List.getElem_mem _))
  rw [this, Res.ok_bind, offset_eq hb.sq hi hj,
    subscript_isOk (by rw [hb.lenQ]; exact offset_lt hi hj)]
  exact ⟨_, rfl⟩

/-! ### Images -/

theorem length_image (size : List Nat) (c m : List Int) : (image size c m).length = size.length := by simp [image]

theorem coord_image {size : List Nat} {c m : List Int} {k : Nat} (hk : k < size.length) :
    coord (image size c m) k = coord c k + coord m k * extent size k := by
  rw [coord_eq (by rw [length_image]; exact hk)]
  unfold image
  rw [List.getElem_map, List.getElem_range]

/-- The displacements tried by `ComputeVectors`. -/
def Shell (d : Nat) (m : List Int) : Prop := m.length = d ∧ ∀ x ∈ m, -1 ≤ x ∧ x ≤ 1

theorem Shell.coord {m : List Int} (h : Shell d m) (k : Nat) : -1 ≤ coord m k ∧ coord m k ≤ 1 := by
  by_cases hk : k < m.length
  · rw [coord_eq hk]; exact h.2 _ (List.getElem_mem hk)
  · unfold Spec.coord
    rw [List.getD_eq_getElem?_getD, List.getElem?_eq_none (by omega)]
    exact ⟨by decide, by decide⟩

/-- The `k`-th displacement. -/
def shell (d k : Nat) : List Int := (crd (List.replicate d 3) k).map (· - 1)

theorem replicate_pos {d : Nat} : ∀ s ∈ List.replicate d 3, 0 < s := fun s hs => by
  rw [List.eq_of_mem_replicate hs]; decide

theorem shell_mem {k : Nat} (hk : k < 3 ^ d) : Shell d (shell d k) := by
  refine ⟨by simp [shell], fun x hx => ?_⟩
  obtain ⟨y, hy, rfl⟩ := List.mem_map.1 hx
  have hg := crd_onGrid (replicate_pos (d := d)) (i := k) (by rwa [List.prod_replicate])
  obtain ⟨i, hi, rfl⟩ := List.getElem_of_mem hy
  have hi' : i < (List.replicate d 3).length := by rw [← onGrid_length hg]; exact hi
  have := (onGrid_iff.1 hg).2 i hi'
  rw [coord_eq hi, extent_eq hi', List.getElem_replicate] at this
  show -1 ≤ _ - 1 ∧ _ - 1 ≤ 1
  omega

theorem shell_surj {m : List Int} (h : Shell d m) : ∃ k, k < 3 ^ d ∧ shell d k = m := by
  have hg : OnGrid (m.map (· + 1)) (List.replicate d 3) := by
    refine onGrid_iff.2 ⟨by simp [h.1], fun k hk => ?_⟩
    rw [coord_eq (by simpa [h.1] using hk), extent_eq hk, List.getElem_replicate, List.getElem_map]
    have := h.2 _ (List.getElem_mem (l := m) (n := k) (by simpa [h.1] using hk))
    omega
  refine ⟨idx (List.replicate d 3) (m.map (· + 1)), ?_, ?_⟩
  · have := idx_lt hg
    rwa [List.prod_replicate] at this
  · unfold shell
    rw [crd_idx replicate_pos hg, List.map_map]
    refine (List.map_congr_left (fun x _ => ?_)).trans (List.map_id m)
    show x + 1 - 1 = x
    omega

theorem replicate_representable (h : 3 ^ d < 2 ^ 64) : Representable (List.replicate d 3) :=
  ⟨replicate_pos, by rwa [List.prod_replicate]⟩

theorem crd_zero_onGrid {size : List Nat} (hs : Buildable size) : OnGrid (crd size 0) size :=
  crd_onGrid hs.1.1 (by
    have := List.prod_pos hs.1.1
    omega)

theorem coord_crd_zero (size : List Nat) (k : Nat) : coord (crd size 0) k = 0 := by
  rw [crd_zero]
  unfold coord
  rw [List.getD_eq_getElem?_getD]
  by_cases hk : k < size.length
  · rw [List.getElem?_replicate, if_pos hk]; rfl
  · rw [List.getElem?_replicate, if_neg hk]; rfl

theorem minus_origin {size : List Nat} {c : List Int} (h : c.length = size.length) : minus c (crd size 0) = c := by
  have h0 : (crd size 0).length = size.length := crd_length ..
  refine ext_coord ((length_minus h0 h).trans h.symm) (fun k hk => ?_)
  rw [coord_minus (h0.trans h.symm), coord_crd_zero, sub_zero]

/-- A first-shell image of a site is near the origin. -/
theorem image_bounds (hs : Buildable size) {c m : List Int} (hc : OnGrid c size) (hm : Shell size.length m) {k : Nat}
    (hk : k < size.length) : -2 ^ 62 ≤ coord (image size c m) k ∧ coord (image size c m) k < 2 ^ 63 := by
  rw [coord_image hk]
  have h1 := (onGrid_iff.1 hc).2 k hk
  have h2 := extent_le hs hk
  have h3 := hm.coord k
  have : coord m k = -1 ∨ coord m k = 0 ∨ coord m k = 1 := by omega
  rcases this with h | h | h <;> rw [h] <;> omega

theorem near_origin {c : List Int} (hl : c.length = size.length)
    (h : ∀ k, k < size.length → -2 ^ 62 ≤ coord c k ∧ coord c k < 2 ^ 63) : Near size.length (crd size 0) c := by
  refine near_of (crd_length ..) hl (fun j hj => ?_)
  rw [coord_crd_zero]
  have := h j hj
  comega

theorem image_near (hs : Buildable size) {c m : List Int} (hc : OnGrid c size) (hm : Shell size.length m) :
    Near size.length (crd size 0) (image size c m) :=
  near_origin (length_image ..) (fun _ hk => image_bounds hs hc hm hk)

theorem site_near (hs : Buildable size) {c : List Int} (hc : OnGrid c size) : Near size.length (crd size 0) c :=
  near_origin (onGrid_length hc) (fun k hk => by
    have := (onGrid_iff.1 hc).2 k hk
    have := extent_le hs hk
    omega)

theorem toSize_neg_one : toSize (-1) = W64 - 1 := by decide

theorem umul_toSize {c i : Int} {s : Nat} (hs : s ≤ 2 ^ 62) (hc : 0 ≤ c ∧ c < (s : Nat)) (hi : -1 ≤ i ∧ i ≤ 1) :
    Grid.addMixed c (umul (toSize i) s) = c + i * (s : Nat) := by
  have : i = -1 ∨ i = 0 ∨ i = 1 := by omega
  have hc' := toSize_eq c
  rcases this with rfl | rfl | rfl
  · have e : umul (toSize (-1)) s = (W64 - s) % W64 := by
      unfold umul
      rw [toSize_neg_one]
      have : (W64 - 1) * s = (W64 - s) + W64 * (s - 1) := by
        cases s with
        | zero => omega
        | succ s => rw [Nat.add_sub_cancel]; omega
      rw [this, Nat.add_mul_mod_self_left]
    rw [e]
    unfold Grid.addMixed uadd toLong
    split <;> comega
  · have e : umul (toSize 0) s = 0 := by
      have : toSize 0 = 0 := by decide
      unfold umul; rw [this, Nat.zero_mul, Nat.zero_mod]
    rw [e, zero_mul]
    exact addMixed_eq (by comega)
  · have e : umul (toSize 1) s = s := by
      have : toSize 1 = 1 := by decide
      unfold umul; rw [this, Nat.one_mul, Nat.mod_eq_of_lt (by omega)]
    rw [e, one_mul]
    exact addMixed_eq (by comega)

theorem imageCoords_eq (hs : Buildable size) (bd : Boundaries) {c : List Int} (hc : OnGrid c size) {k : Nat}
    (hk : k < 3 ^ size.length) :
    Lattice.imageCoords (Grid.new size bd) c (crd (List.replicate size.length 3) k) =
      .ok (image size c (shell size.length k)) := by
  have hl := onGrid_length hc
  have hg := crd_onGrid (replicate_pos (d := size.length)) (i := k) (by rwa [List.prod_replicate])
  unfold Lattice.imageCoords
  show (mapRange size.length _ >>= _) = _
  rw [mapRange_ok (g := fun j => coord c j + coord (shell size.length k) j * extent size j)]
  · rw [Res.ok_bind]
    congr 1
    show _ ++ c.drop size.length = _
    rw [← hl, List.drop_length, List.append_nil, hl]; rfl
  · intro j hj
    have hlr : (crd (List.replicate size.length 3) k).length = size.length := by simp
    have hcj := (onGrid_iff.1 hc).2 j hj
    have hsh := (shell_mem hk).coord j
    have e : coord (shell size.length k) j = (crd (List.replicate size.length 3) k)[j] - 1 := by
      rw [coord_eq (by simpa [shell] using hj)]; simp [shell]
    rw [subscript_isOk (by omega), Res.ok_bind]
    have hls : lsub (crd (List.replicate size.length 3) k)[j] 1 = .ok (coord (shell size.length k) j) := by
      rw [e]
      refine long_ok ?_
      rw [← e]; comega
    rw [hls, Res.ok_bind]
    show (subscript size j >>= _) = _
    rw [subscript_isOk hj, Res.ok_bind, subscript_isOk (by omega), Res.ok_bind]
    refine congrArg Res.ok ?_
    rw [← coord_eq (c := c) (by omega), extent_eq hj]
    refine umul_toSize (hs.2 _ (List.getElem_mem hj)) ?_ hsh
    rwa [extent_eq hj] at hcj

theorem tryImage_eq (hs : Buildable size) (hd : 3 ^ size.length < 2 ^ 64) (bd : Boundaries) {c : List Int}
    (hc : OnGrid c size) {k : Nat} (hk : k < 3 ^ size.length) (s : F × List F) {r : F × List F}
    (hr : b.getDistanceVector (crd size 0) (image size c (shell size.length k)) = .ok r) :
    Lattice.tryImage (Grid.new size bd) b (List.replicate size.length 3) (crd size 0) c s k =
      .ok (if CxxFloat.lt r.1 s.1 then r else s) := by
  unfold Lattice.tryImage
  have hf : FitsLong (List.replicate size.length 3) := fun s hs => by
    rw [List.eq_of_mem_replicate hs]; decide
  have := getCoordinates_eq (replicate_representable hd) hf bd (i := k) (by rwa [List.prod_replicate])
  have : indexToArray k (List.replicate size.length 3) = .ok (crd (List.replicate size.length 3) k) := by
    rw [indexToArray_eq (replicate_representable hd), map_toLong_eq hf (digits_onGrid replicate_pos (by rwa [List.prod_replicate]))]
    rfl
  rw [this, Res.ok_bind, imageCoords_eq hs bd hc hk, Res.ok_bind, hr, Res.ok_bind]

theorem accumulateProduct_three (h : 3 ^ d < 2 ^ 64) : accumulateProduct (List.replicate d 3) = 3 ^ d := by
  rw [accumulateProduct_rep (replicate_representable h), List.prod_replicate]

/-- The loop over the images, by an invariant. -/
theorem images_inv (hs : Buildable size) (hb : Regular b size.length) (hd : 3 ^ size.length < 2 ^ 64) {c : List Int}
    (hc : OnGrid c size) (I : Nat → F × List F → Prop) {s : F × List F} (h0 : I 0 s)
    (hstep : ∀ k s r, k < 3 ^ size.length → I k s →
      b.getDistanceVector (crd size 0) (image size c (shell size.length k)) = .ok r →
      I (k + 1) (if CxxFloat.lt r.1 s.1 then r else s)) :
    ∃ s', foldRange (accumulateProduct (List.replicate size.length 3))
        (Lattice.tryImage (Grid.new size .closed) b (List.replicate size.length 3) (crd size 0) c) s = .ok s' ∧
      I (3 ^ size.length) s' := by
  rw [accumulateProduct_three hd]
  refine foldRange_inv I h0 (fun k s hk hI => ?_)
  obtain ⟨r, v, h1, h2⟩ := hb.distanceVector (image_near hs hc (shell_mem hk))
  exact ⟨_, tryImage_eq hs hd .closed hc hk s h1, hstep k s _ hk hI h1⟩

theorem computePositions_ok (hs : Buildable size) (hb : Regular b size.length) (bd : Boundaries) :
    ∃ ps, Lattice.computePositions (Grid.new size bd) b = .ok ps ∧ ps.length = size.prod ∧
      ∀ i x, ps[i]? = some x → b.getRealSpace (crd size i) = .ok x := by
  have h0 : 0 < size.prod := List.prod_pos hs.1.1
  unfold Lattice.computePositions
  rw [getCoordinates_eq hs.1 (buildable_fits hs) bd h0, Res.ok_bind, numsites_eq hs.1]
  refine mapRange_exists _ (fun i hi => ?_)
  have hc := crd_onGrid hs.1.1 hi
  obtain ⟨v, hv, -⟩ := hb.vector (site_near hs hc)
  refine ⟨v, ?_, ?_⟩
  · rw [getCoordinates_eq hs.1 (buildable_fits hs) bd hi, Res.ok_bind, hv]
  · rw [getVector_eq (hb.dim ▸ site_near hs hc), minus_origin (onGrid_length hc)] at hv
    exact hv

theorem computeVectors_open (hs : Buildable size) (hb : Regular b size.length) :
    ∃ vs, Lattice.computeVectors (Grid.new size .open) b = .ok vs ∧ vs.length = size.prod ∧
      ∀ i x, vs[i]? = some x → b.getRealSpace (crd size i) = .ok x := by
  have h0 : 0 < size.prod := List.prod_pos hs.1.1
  unfold Lattice.computeVectors
  rw [getCoordinates_eq hs.1 (buildable_fits hs) .open h0, Res.ok_bind, numsites_eq hs.1]
  refine mapRange_exists _ (fun i hi => ?_)
  have hc := crd_onGrid hs.1.1 hi
  obtain ⟨r, v, hv, -⟩ := hb.distanceVector (site_near hs hc)
  have hcl : (Grid.new size .open).hasClosedBoundaries = false := rfl
  refine ⟨v, ?_, ?_⟩
  · rw [getCoordinates_eq hs.1 (buildable_fits hs) .open hi, Res.ok_bind, hv, Res.ok_bind, hcl]
    rfl
  · unfold Bravais.getDistanceVector at hv
    obtain ⟨p, hp, hv⟩ := Res.bind_eq_ok.1 hv
    obtain ⟨q, -, hv⟩ := Res.bind_eq_ok.1 hv
    cases hv
    rw [getVector_eq (hb.dim ▸ site_near hs hc), minus_origin (onGrid_length hc)] at hp
    exact hp

/-- The rule for `ComputeVectors` on a closed lattice: what holds of the vector to the site and is kept by each
image holds of the result. -/
theorem computeVectors_closed (hs : Buildable size) (hb : Regular b size.length) (hd : 3 ^ size.length < 2 ^ 64)
    (I : Nat → Nat → F × List F → Prop)
    (h0 : ∀ i r, i < size.prod → b.getDistanceVector (crd size 0) (crd size i) = .ok r → I i 0 r)
    (hstep : ∀ i k s r, i < size.prod → k < 3 ^ size.length → I i k s →
      b.getDistanceVector (crd size 0) (image size (crd size i) (shell size.length k)) = .ok r →
      I i (k + 1) (if CxxFloat.lt r.1 s.1 then r else s)) :
    ∃ vs, Lattice.computeVectors (Grid.new size .closed) b = .ok vs ∧ vs.length = size.prod ∧
      ∀ i x, vs[i]? = some x → ∃ D, I i (3 ^ size.length) (D, x) := by
  have hp : 0 < size.prod := List.prod_pos hs.1.1
  unfold Lattice.computeVectors
  rw [getCoordinates_eq hs.1 (buildable_fits hs) .closed hp, Res.ok_bind, numsites_eq hs.1]
  refine mapRange_exists _ (fun i hi => ?_)
  have hc := crd_onGrid hs.1.1 hi
  obtain ⟨r, v, hv, -⟩ := hb.distanceVector (site_near hs hc)
  obtain ⟨s', h1, h2⟩ := images_inv hs hb hd hc (I i) (h0 i _ hi hv) (fun k s r hk hI hr => hstep i k s r hi hk hI hr)
  refine ⟨s'.2, ?_, s'.1, h2⟩
  have hcl : (Grid.new size .closed).hasClosedBoundaries = true := rfl
  rw [getCoordinates_eq hs.1 (buildable_fits hs) .closed hi, Res.ok_bind, hv, Res.ok_bind, hcl, if_pos rfl]
  show (foldRange _ _ _ >>= _) = _
  exact (congrArg (· >>= _) h1).trans rfl

/-! ### Momenta -/

/-- The integer label of a momentum. -/
def label (size : List Nat) (i : Nat) : List Int :=
  (List.range size.length).map (fun k => coord (crd size i) k - extent size k / 2)

theorem coord_label {i k : Nat} (hk : k < size.length) : coord (label size i) k = coord (crd size i) k - extent size k / 2 := by
  rw [coord_eq (by simpa [label] using hk)]
  unfold label
  rw [List.getElem_map, List.getElem_range]

theorem label_bounds (hs : Buildable size) {i : Nat} (hi : i < size.prod) : ∀ x ∈ label size i, InLong (x * 2) := by
  intro x hx
  obtain ⟨k, hk, rfl⟩ := List.getElem_of_mem hx
  have hk' : k < size.length := by simpa [label] using hk
  rw [← coord_eq hk, coord_label hk']
  have := (onGrid_iff.1 (crd_onGrid hs.1.1 hi)).2 k hk'
  have := extent_le hs hk'
  comega

theorem computeMomentum_eq (hs : Buildable size) (hb : Regular b size.length) (bd : Boundaries) {i : Nat}
    (hi : i < size.prod) : ∃ v, b.getReciprocalSpace (label size i) = .ok v ∧ v.length = size.length ∧
      Lattice.computeMomentum (Grid.new size bd) b i =
        mapRange size.length (fun k => do
          let s ← subscript size k
          let x ← subscript v k
          .ok (x / CxxFloat.ofNat s)) := by
  have hg := crd_onGrid hs.1.1 hi
  have hl := onGrid_length hg
  obtain ⟨v, h1, h2⟩ := hb.reciprocal (c := label size i) (by simp [label]) (label_bounds hs hi)
  refine ⟨v, h1, h2, ?_⟩
  unfold Lattice.computeMomentum
  rw [getCoordinates_eq hs.1 (buildable_fits hs) bd hi, Res.ok_bind, hl,
    mapRange_ok (g := fun k => coord (crd size i) k - extent size k / 2), Res.ok_bind]
  · show (b.getReciprocalSpace (label size i) >>= _) = _
    rw [h1, Res.ok_bind, h2]; rfl
  · intro k hk
    show (subscript size k >>= _) = _
    rw [subscript_isOk hk, Res.ok_bind, subscript_isOk (by omega), Res.ok_bind, ← coord_eq (c := crd size i) (by omega)]
    have h1 := (onGrid_iff.1 hg).2 k hk
    have h2 := extent_le hs hk
    rw [extent_eq hk] at h1 h2 ⊢
    refine congrArg Res.ok ?_
    rw [subMixed_eq (by omega) (by comega)]
    omega

theorem computeMomenta_ok (hs : Buildable size) (hb : Regular b size.length) (bd : Boundaries) :
    ∃ ms, Lattice.computeMomenta (Grid.new size bd) b = .ok ms := by
  cases bd with
  | «open» => exact ⟨[], rfl⟩
  | closed =>
    have ho : (Grid.new size .closed).hasOpenBoundaries = false := rfl
    unfold Lattice.computeMomenta
    rw [ho, if_neg (by decide), numsites_eq hs.1]
    refine (mapRange_isOk (fun i hi => ?_)).imp (fun _ h => h.1)
    obtain ⟨v, -, h2, h3⟩ := computeMomentum_eq hs hb .closed hi
    rw [h3]
    refine (mapRange_isOk (fun k hk => ?_)).imp (fun _ h => h.1)
    rw [subscript_isOk hk, Res.ok_bind, subscript_isOk (by omega)]
    exact ⟨_, rfl⟩

/-- The constructor succeeds. -/
theorem new_isOk (hs : Buildable size) (hb : Regular b size.length) (bd : Boundaries)
    (hd : bd = .closed → 3 ^ size.length < 2 ^ 64) : ∃ l, Lattice.new b size bd = .ok l := by
  unfold Lattice.new
  obtain ⟨ps, hp, -⟩ := computePositions_ok hs hb bd
  obtain ⟨ms, hm⟩ := computeMomenta_ok hs hb bd
  have hv : ∃ vs, Lattice.computeVectors (Grid.new size bd) b = .ok vs := by
    cases bd with
    | «open» => obtain ⟨vs, h, -⟩ := computeVectors_open hs hb; exact ⟨vs, h⟩
    | closed =>
      obtain ⟨vs, h, -⟩ := computeVectors_closed hs hb (hd rfl) (fun _ _ _ => True) (fun _ _ _ _ => trivial)
        (fun _ _ _ _ _ _ _ _ => trivial)
      exact ⟨vs, h⟩
  obtain ⟨vs, hv⟩ := hv
  simp only [hp, hv, hm, computeNeighbors_eq hs hb.toDirected bd, Res.ok_bind]
  exact ⟨_, rfl⟩

end
end Bwsl
