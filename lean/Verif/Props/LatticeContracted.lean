import Verif.Model.LatticeContracted
import Verif.Lemmas.Related
import Verif.Props.SkContracted
import Verif.Props.DoubleLattice

/-! Property C184: lattices built with fused products. -/

namespace Bwsl
open Spec Finset

set_option linter.unusedSectionVars false

/-! ## Lattices of any kind -/

section
variable {F : Type} [CxxFloat F] [CxxFma F] {b : Bravais F}

/-- Lists of the same length. -/
abbrev Alike {α β : Type} (u : List α) (v : List β) : Prop := u.length = v.length

theorem rel_subscript_alike {α β : Type} {u : List α} {v : List β} (h : Alike u v) (i : Nat) :
    RelRes (fun _ _ => True) (subscript u i) (subscript v i) := by
  refine (rel_subscript (R := fun _ _ => True) ?_ i)
  induction u generalizing v with
  | nil => cases v with
    | nil => exact .nil
    | cons _ _ => cases h
  | cons x xs ih => cases v with
    | nil => cases h
    | cons y ys => exact .cons trivial (ih (Nat.succ.inj h))

theorem rel_mapRange_alike {α β : Type} {f : Nat → Res α} {g : Nat → Res β} (n : Nat)
    (h : ∀ i, i < n → RelRes (fun _ _ => True) (f i) (g i)) : RelRes (fun u v => u.length = n ∧ v.length = n) (mapRange n f) (mapRange n g) :=
  (rel_mapRange n h).mono fun _ _ hu hv _ => ⟨(mapRange_eq_ok hu).1, (mapRange_eq_ok hv).1⟩

theorem rel_dot_alike (fused : Bool) {f : Nat → Res (F × F)} {g : Nat → Res F} (h : ∀ i, RelRes (fun _ _ => True) (g i) (f i)) (k n : Nat)
    (x y : F) : RelRes (fun _ _ => True) (accumulateFrom g x k n) (dotFrom fused f y k n) := by
  induction n generalizing k x y with
  | zero => trivial
  | succ n ih => exact RelRes.bind (h k) fun _ _ _ _ _ => ih _ _ _

theorem alike_realSpace (fused : Bool) (c : List Int) :
    RelRes (fun u v => u.length = b.dim ∧ v.length = b.dim) (b.getRealSpace c) (b.getRealSpaceContracted fused c) := by
  unfold Bravais.getRealSpace Bravais.getRealSpaceContracted
  split
  · refine rel_mapRange_alike _ fun i _ => rel_dot_alike fused (fun j => ?_) _ _ _ _
    refine RelRes.bind (RelRes.refl (R' := Eq) (fun _ => rfl) _) fun x y _ _ _ => ?_
    exact RelRes.bind (RelRes.refl (R' := Eq) (fun _ => rfl) _) fun x y _ _ _ => trivial
  · rfl

theorem alike_reciprocal (fused : Bool) (c : List Int) :
    RelRes (fun u v => u.length = b.dim ∧ v.length = b.dim) (b.getReciprocalSpace c) (b.getReciprocalSpaceContracted fused c) := by
  unfold Bravais.getReciprocalSpace Bravais.getReciprocalSpaceContracted
  split
  · refine rel_mapRange_alike _ fun i _ => rel_dot_alike fused (fun j => ?_) _ _ _ _
    refine RelRes.bind (RelRes.refl (R' := Eq) (fun _ => rfl) _) fun x y _ _ hxy => ?_
    subst hxy
    refine RelRes.bind (RelRes.refl (R' := Eq) (fun _ => rfl) _) fun x y _ _ _ => ?_
    exact RelRes.bind (RelRes.refl (R' := Eq) (fun _ => rfl) _) fun x y _ _ _ => trivial
  · rfl

theorem alike_vector (fused : Bool) (x y : List Int) :
    RelRes (fun u v => u.length = b.dim ∧ v.length = b.dim) (b.getVector x y) (b.getVectorContracted fused x y) := by
  unfold Bravais.getVector Bravais.getVectorContracted
  refine RelRes.bind (RelRes.refl (R' := Eq) (fun _ => rfl) _) fun p q _ _ hpq => ?_
  subst hpq
  exact alike_realSpace fused _

theorem alike_distanceVector (fused fused' : Bool) (x y : List Int) :
    RelRes (fun u v => u.2.length = b.dim ∧ v.2.length = b.dim) (b.getDistanceVector x y) (b.getDistanceVectorContracted fused fused' x y) := by
  unfold Bravais.getDistanceVector Bravais.getDistanceVectorContracted
  refine RelRes.bind (alike_vector fused x y) fun p q _ _ hpq => ?_
  refine RelRes.bind (rel_dot_alike fused' (fun i => ?_) _ _ _ _) fun d e _ _ _ => RelRes.ok hpq
  exact RelRes.bind (rel_subscript_alike (hpq.1.trans hpq.2.symm) i) fun _ _ _ _ _ => trivial

/-- The parts of a lattice that hold no `double`, and the numbers of `double`s. -/
structure Spec.SameShape {F F' : Type} (l : Lattice F) (l' : Lattice F') : Prop where
  grid : l'.grid = l.grid
  neighbors : l'.neighbors = l.neighbors
  position : List.Forall₂ Alike l.position l'.position
  vectors : List.Forall₂ Alike l.vectors l'.vectors
  distance : l.distance.length = l'.distance.length
  momenta : List.Forall₂ Alike l.momenta l'.momenta

/-- C184.  Whatever is fused, a lattice can be built exactly when it can be built without fusing, and it has the same sites,
neighbours, and numbers of components; this is so for every Bravais lattice and in every arithmetic. -/
theorem C184_shape (c : LatticeFused) (b : Bravais F) (size : List Nat) (bd : Boundaries) :
    RelRes SameShape (Lattice.new b size bd) (Lattice.newContracted c b size bd) := by
  unfold Lattice.new Lattice.newContracted
  refine RelRes.bind (R := List.Forall₂ Alike) ?_ fun p p' _ _ hp => ?_
  · unfold Lattice.computePositions Lattice.computePositionsContracted
    refine RelRes.bind (RelRes.refl (R' := Eq) (fun _ => rfl) _) fun x y _ _ hxy => ?_
    subst hxy
    refine rel_mapRange _ fun i _ => ?_
    refine RelRes.bind (RelRes.refl (R' := Eq) (fun _ => rfl) _) fun x y _ _ hxy => ?_
    subst hxy
    exact (alike_vector _ _ _).mono fun u v _ _ h => h.1.trans h.2.symm
  refine RelRes.bind (R := List.Forall₂ Alike) ?_ fun v v' _ _ hv => ?_
  · unfold Lattice.computeVectors Lattice.computeVectorsContracted
    refine RelRes.bind (RelRes.refl (R' := Eq) (fun _ => rfl) _) fun x y _ _ hxy => ?_
    subst hxy
    refine rel_mapRange _ fun i _ => ?_
    refine RelRes.bind (RelRes.refl (R' := Eq) (fun _ => rfl) _) fun cs y _ _ hxy => ?_
    subst hxy
    refine RelRes.bind (alike_distanceVector _ _ _ _) fun r s _ _ hrs => ?_
    dsimp only
    split
    · refine RelRes.bind (R := fun r s : F × List F => r.2.length = b.dim ∧ s.2.length = b.dim) ?_
        fun r s _ _ hrs => RelRes.ok (hrs.1.trans hrs.2.symm)
      refine rel_foldRange _ (fun j r s _ hrs => ?_) hrs
      unfold Lattice.tryImage Lattice.tryImageContracted
      refine RelRes.bind (RelRes.refl (R' := Eq) (fun _ => rfl) _) fun img y _ _ hxy => ?_
      subst hxy
      refine RelRes.bind (RelRes.refl (R' := Eq) (fun _ => rfl) _) fun csm y _ _ hxy => ?_
      subst hxy
      refine RelRes.bind (alike_distanceVector _ _ _ _) fun r' s' _ _ hrs' => RelRes.ok ?_
      constructor
      · split
        · exact hrs'.1
        · exact hrs.1
      · split
        · exact hrs'.2
        · exact hrs.2
    · exact RelRes.ok (hrs.1.trans hrs.2.symm)
  refine RelRes.bind (RelRes.refl (R' := Eq) (fun _ => rfl) _) fun n n' _ _ hn => ?_
  subst hn
  refine RelRes.bind (R := List.Forall₂ Alike) ?_ fun m m' _ _ hm => RelRes.ok ⟨rfl, rfl, hp, hv, ?_, hm⟩
  · unfold Lattice.computeMomenta Lattice.computeMomentaContracted
    split
    · exact RelRes.ok .nil
    · refine rel_mapRange _ fun i _ => ?_
      unfold Lattice.computeMomentum Lattice.computeMomentumContracted
      refine RelRes.bind (RelRes.refl (R' := Eq) (fun _ => rfl) _) fun x y _ _ hxy => ?_
      subst hxy
      refine RelRes.bind (RelRes.refl (R' := Eq) (fun _ => rfl) _) fun x y _ _ hxy => ?_
      subst hxy
      refine RelRes.bind (alike_reciprocal _ _) fun u v _ _ huv => ?_
      rw [huv.1, huv.2]
      refine (rel_mapRange_alike _ fun j _ => ?_).mono fun u v _ _ h => h.1.trans h.2.symm
      refine RelRes.bind (RelRes.refl (R' := Eq) (fun _ => rfl) _) fun s y _ _ hxy => ?_
      exact RelRes.bind (rel_subscript_alike (huv.1.trans huv.2.symm) j) fun _ _ _ _ _ => trivial
  · unfold Lattice.computeDistances Lattice.computeDistancesContracted
    rw [List.length_map, List.length_map]
    exact hv.length_eq

/-- C184.  With nothing fused it is the constructor of the other properties. -/
theorem C184_plain (b : Bravais F) (size : List Nat) (bd : Boundaries) :
    Lattice.newContracted ⟨false, false, false, false, false, false, false⟩ b size bd = Lattice.new b size bd := by
  have dot : ∀ (f : Nat → Res (F × F)) (g : Nat → Res F) (k n : Nat) (acc : F),
      (∀ i, g i = f i >>= fun xy => .ok (xy.1 * xy.2)) → dotFrom false f acc k n = accumulateFrom g acc k n := by
    intro f g k n acc h
    induction n generalizing k acc with
    | zero => rfl
    | succ n ih =>
      rw [dotFrom, accumulateFrom, h k]
      cases f k with
      | ok xy => rw [Res.ok_bind, Res.ok_bind, Res.ok_bind]; exact ih _ _
      | _ => rfl
  have pos : b.getRealSpaceContracted false = b.getRealSpace := by
    funext c
    unfold Bravais.getRealSpaceContracted Bravais.getRealSpace accumulate
    split
    · refine mapRange_congr (fun i _ => dot _ _ _ _ _ (fun j => ?_))
      cases subscript c j with
      | ok c =>
        rw [Res.ok_bind, Res.ok_bind]
        cases subscript b.pvectors (uadd i (umul j b.dim)) <;> rfl
      | _ => rfl
    · rfl
  have recip : b.getReciprocalSpaceContracted false = b.getReciprocalSpace := by
    funext c
    unfold Bravais.getReciprocalSpaceContracted Bravais.getReciprocalSpace accumulate
    split
    · refine mapRange_congr (fun i _ => dot _ _ _ _ _ (fun j => ?_))
      cases subscript c j with
      | ok c =>
        rw [Res.ok_bind, Res.ok_bind]
        cases lmul c 2 with
        | ok c2 =>
          rw [Res.ok_bind, Res.ok_bind]
          cases subscript b.pivectors (uadd i (umul j b.dim)) <;> rfl
        | _ => rfl
      | _ => rfl
    · rfl
  have vec : b.getVectorContracted false = b.getVector := by
    funext x y
    unfold Bravais.getVectorContracted Bravais.getVector
    rw [pos]
  have dist : b.getDistanceVectorContracted false false = b.getDistanceVector := by
    funext x y
    unfold Bravais.getDistanceVectorContracted Bravais.getDistanceVector accumulate
    rw [vec]
    congr 1
    funext p
    rw [dot _ (fun i => do
      let x ← subscript p i
      .ok (squareF x))]
    intro i
    cases subscript p i <;> rfl
  unfold Lattice.newContracted Lattice.new Lattice.computePositionsContracted Lattice.computePositions Lattice.computeVectorsContracted
    Lattice.computeVectors Lattice.computeMomentaContracted Lattice.computeMomenta
  have try' : Lattice.tryImageContracted ⟨false, false, false, false, false, false, false⟩ (Grid.new size bd) b =
      Lattice.tryImage (Grid.new size bd) b := by
    funext a c d s k
    unfold Lattice.tryImageContracted Lattice.tryImage
    simp only [dist]
  have mom : Lattice.computeMomentumContracted ⟨false, false, false, false, false, false, false⟩ (Grid.new size bd) b =
      Lattice.computeMomentum (Grid.new size bd) b := by
    funext i
    unfold Lattice.computeMomentumContracted Lattice.computeMomentum
    simp only [recip]
  simp only [vec, dist, try', mom]
  rfl

end

/-! ## Integer primitive vectors -/

section
variable {A : Arith ℝ} {b : Bravais (Num A)} {size : List Nat} {g : Nat} {P : List Int} {Q : List ℝ} {N : List Int}

theorem realSpace_fused (hA : A.IsBinary64) (hb : Holds b size.length g (P.map (fun x : Int => (x : ℝ))) Q N) (hS : Modest size P)
    (fused : Bool) {c : List Int} (hc : Within size c) : b.getRealSpaceContracted fused c = b.getRealSpace c := by
  have hsp := fun i hi => span_le hS (i := i) hi
  have hab := abs_terms (P := P) hc
  obtain ⟨rfl, hs, hP, hQ, -, -⟩ := hb
  unfold Bravais.getRealSpaceContracted Bravais.getRealSpace accumulate
  simp only
  rw [if_pos hc.1, if_pos hc.1]
  refine mapRange_congr (fun i hi => dotFrom_eq fused _ _ _ (fun j => ?_) (fun j xy hxy z => ?_))
  · cases subscript c j with
    | ok c =>
      rw [Res.ok_bind, Res.ok_bind]
      cases subscript (List.map (Num.fin (A := A)) (P.map (fun x : Int => (x : ℝ)))) (uadd i (umul j size.length)) <;> rfl
    | _ => rfl
  · obtain ⟨x, hx, hxy⟩ := Res.bind_eq_ok.1 hxy
    obtain ⟨p, hp, hxy⟩ := Res.bind_eq_ok.1 hxy
    rw [Res.ok.injEq] at hxy
    subst hxy
    have hj : j < size.length := hc.1 ▸ (List.getElem?_eq_some_iff.1 (getElem_of_subscript hx)).1
    rw [subscript_getD (by have := hc.1; omega) 0, Res.ok.injEq] at hx
    rw [offset_eq hs hi hj, subscript_fin (by rw [hP]; exact offset_lt hi hj), Res.ok.injEq] at hp
    have hcj : |coord c j| ≤ 2 ^ 53 := by
      refine (hc.2 j hj).trans ?_
      have := hS.1 _ (List.getElem_mem hj)
      rw [extent_eq hj]
      exact_mod_cast this
    have ht : |coord c j * entry size.length P j i| ≤ 2 ^ 53 := by
      have h1 := Finset.single_le_sum (f := fun j => |coord c j * entry size.length P j i|) (fun j _ => abs_nonneg _)
        (Finset.mem_range.2 hj)
      exact h1.trans ((hab i).trans ((hsp i hi).le.trans (by norm_num)))
    have he := entry_cast size.length P j i
    unfold entry at he
    subst hp hx
    rw [he]
    have : (coord c j : Int) = c.getD j 0 := rfl
    rw [← this, Num.ofInt_eq, round_int hA hcj]
    refine C146_exact ?_ fused z
    rw [← Int.cast_mul]
    exact Num.round_eq_fin (round_int hA ht)

theorem getVector_fused (hA : A.IsBinary64) (hb : Holds b size.length g (P.map (fun x : Int => (x : ℝ))) Q N) (hS : Modest size P)
    (fused : Bool) {c : List Int} (hc : Within size c) (hn : Near size.length (crd size 0) c) :
    b.getVectorContracted fused (crd size 0) c = b.getVector (crd size 0) c := by
  have hd : b.dim = size.length := by rw [hb.eq]
  have hn : Near b.dim (crd size 0) c := hd ▸ hn
  have e := range_map_minus hn.1 hn.2.1
  rw [minus_origin hc.1] at e
  unfold Bravais.getVectorContracted Bravais.getVector
  rw [mapRange_ok (g := fun i => coord c i - coord (crd size 0) i), Res.ok_bind, Res.ok_bind, e, realSpace_fused hA hb hS fused hc]
  intro i hi
  rw [subscript_getD (by rw [hn.2.1]; exact hi) 0, subscript_getD (by rw [hn.1]; exact hi) 0]
  exact long_ok (near_inLong hn hi)

/-- A component of a point and its square. -/
theorem square_le {c : List Int} {x : Int} (hx : x ∈ point size.length P c) : x * x ≤ sqlen size.length P c := by
  refine List.single_le_sum (fun y hy => ?_) _ (List.mem_map_of_mem (f := fun x => x * x) hx)
  obtain ⟨z, -, rfl⟩ := List.mem_map.1 hy
  exact mul_self_nonneg z

theorem square_fused (hA : A.IsBinary64) (hS : Modest size P) (fused : Bool) {c : List Int} (hc : Within size c) {x : Num A}
    (hx : x ∈ (embed size.length (P.map (fun x : Int => (x : ℝ))) c).map (Num.fin (A := A))) (z : Num A) :
    mulAdd fused x x z = z + x * x := by
  rw [embed_cast] at hx
  obtain ⟨y, hy, rfl⟩ := List.mem_map.1 hx
  obtain ⟨n, hn, rfl⟩ := List.mem_map.1 hy
  refine C146_exact ?_ fused z
  rw [← Int.cast_mul]
  refine Num.round_eq_fin (round_int hA ?_)
  have h1 := square_le hn
  have h2 := sqlen_lt hS hc
  rw [abs_mul_self]
  omega

theorem getDistanceVector_fused (hA : A.IsBinary64) (hb : Holds b size.length g (P.map (fun x : Int => (x : ℝ))) Q N)
    (hS : Modest size P) (fused fused' : Bool) {c : List Int} (hc : Within size c) (hn : Near size.length (crd size 0) c) :
    b.getDistanceVectorContracted fused fused' (crd size 0) c = b.getDistanceVector (crd size 0) c := by
  have hd : b.dim = size.length := by rw [hb.eq]
  unfold Bravais.getDistanceVectorContracted Bravais.getDistanceVector accumulate
  rw [getVector_fused hA hb hS fused hc hn, getVector_eq (hd ▸ hn), minus_origin hc.1, getRealSpace_int hA hb hS hc, Res.ok_bind,
    Res.ok_bind]
  rw [dotFrom_eq fused' (g := fun i => do
    let x ← subscript ((embed size.length (P.map (fun x : Int => (x : ℝ))) c).map (Num.fin (A := A))) i
    .ok (squareF x))]
  · intro i
    cases subscript ((embed size.length (P.map (fun x : Int => (x : ℝ))) c).map (Num.fin (A := A))) i <;> rfl
  · intro i xy hxy z
    obtain ⟨x, hx, hxy⟩ := Res.bind_eq_ok.1 hxy
    rw [Res.ok.injEq] at hxy
    subst hxy
    exact square_fused hA hS fused' hc (subscript_mem' hx) z

/-- C184.  With integer primitive vectors, extents and components not so large that a square reaches 2^52, and reciprocal vectors of
0, 1 and -1, as those of the chain, the square and the cubic lattice, fusing changes nothing: the constructor gives the very same
lattice, whatever the compiler fuses, so C105, C106 and C130 hold for it too. -/
theorem C184_same (hA : A.IsBinary64) (hq : A.sqrt = Real.sqrt) (hs : Buildable size)
    (hb : Holds b size.length g (P.map (fun x : Int => (x : ℝ))) Q N) (hr : Regular b size.length) (hS : Modest size P)
    (hQ : ∀ p ∈ b.pivectors, p = .fin 0 ∨ p = .fin 1 ∨ p = .fin (-1)) (c : LatticeFused) (bd : Boundaries) :
    Lattice.newContracted c b size bd = Lattice.new b size bd := by
  have shape := C184_shape c b size bd
  cases hl : Lattice.new b size bd with
  | throws e => rw [hl] at shape; cases hn : Lattice.newContracted c b size bd <;> rw [hn] at shape <;> first | cases shape; rfl | cases shape
  | ub e => rw [hl] at shape; cases hn : Lattice.newContracted c b size bd <;> rw [hn] at shape <;> first | cases shape; rfl | cases shape
  | diverges => rw [hl] at shape; cases hn : Lattice.newContracted c b size bd <;> rw [hn] at shape <;> first | rfl | cases shape
  | ok l =>
  have hp : 0 < size.prod := List.prod_pos hs.1.1
  have c0 := getCoordinates_eq hs.1 (buildable_fits hs) bd hp
  have ci := fun i (hi : i < size.prod) => getCoordinates_eq hs.1 (buildable_fits hs) bd hi
  have hsites := numsites_eq hs.1 (bd := bd)
  rw [← hl]
  have pos : Lattice.computePositionsContracted c (Grid.new size bd) b = Lattice.computePositions (Grid.new size bd) b := by
    unfold Lattice.computePositionsContracted Lattice.computePositions
    rw [c0, Res.ok_bind, Res.ok_bind, hsites]
    refine mapRange_congr fun i hi => ?_
    have hg := crd_onGrid hs.1.1 hi
    rw [ci i hi, Res.ok_bind, Res.ok_bind, getVector_fused hA hb hS _ (within_site hg) (site_near hs hg)]
  let Good : List (Num A) → Prop := fun v => ∃ c, Within size c ∧ v = (embed size.length (P.map (fun x : Int => (x : ℝ))) c).map .fin
  have vec : RelRes (List.Forall₂ fun u v => u = v ∧ Good u) (Lattice.computeVectors (Grid.new size bd) b)
      (Lattice.computeVectorsContracted c (Grid.new size bd) b) := by
    unfold Lattice.computeVectors Lattice.computeVectorsContracted
    rw [c0, Res.ok_bind, Res.ok_bind, hsites]
    refine rel_mapRange _ fun i hi => ?_
    have hg := crd_onGrid hs.1.1 hi
    rw [ci i hi, Res.ok_bind, Res.ok_bind, getDistanceVector_fused hA hb hS _ _ (within_site hg) (site_near hs hg),
      getDistanceVector_int hA hq hb hS (within_site hg) (site_near hs hg), Res.ok_bind, Res.ok_bind]
    have start : Good ((embed size.length (P.map (fun x : Int => (x : ℝ))) (crd size i)).map .fin) := ⟨_, within_site hg, rfl⟩
    dsimp only
    split
    · rename_i hclosed
      obtain rfl : bd = .closed := by cases bd <;> first | rfl | cases hclosed
      have hd := dims_of_ok hs hr hl
      refine RelRes.bind (R := fun r s : Num A × List (Num A) => r = s ∧ Good r.2) ?_ fun r s _ _ hrs => RelRes.ok ⟨congrArg _ hrs.1, hrs.2⟩
      refine rel_foldRange _ (fun k r s hk hrs => ?_) ⟨rfl, start⟩
      obtain ⟨rfl, hgood⟩ := hrs
      have hk : k < 3 ^ size.length := by
        refine lt_of_lt_of_eq hk ?_
        show accumulateProduct (List.replicate size.length 3) = _
        exact accumulateProduct_three hd
      have hm := shell_mem hk
      have hr := getDistanceVector_int hA hq hb hS (within_image hg hm) (image_near hs hg hm)
      have e := tryImage_eq hs hd .closed hg hk r hr
      have e' : Lattice.tryImageContracted c (Grid.new size .closed) b (List.replicate size.length 3) (crd size 0) (crd size i) r k =
          Lattice.tryImage (Grid.new size .closed) b (List.replicate size.length 3) (crd size 0) (crd size i) r k := by
        have hf : FitsLong (List.replicate size.length 3) := fun s hs => by
          rw [List.eq_of_mem_replicate hs]; decide
        have ha : indexToArray k (List.replicate size.length 3) = .ok (crd (List.replicate size.length 3) k) :=
          getCoordinates_eq (replicate_representable hd) hf .closed (i := k) (by rwa [List.prod_replicate])
        unfold Lattice.tryImageContracted Lattice.tryImage
        rw [ha, Res.ok_bind, Res.ok_bind, imageCoords_eq hs .closed hg hk, Res.ok_bind, Res.ok_bind,
          getDistanceVector_fused hA hb hS _ _ (within_image hg hm) (image_near hs hg hm)]
      show RelRes _ (Lattice.tryImage (Grid.new size .closed) b (List.replicate size.length 3) (crd size 0) (crd size i) r k)
        (Lattice.tryImageContracted c (Grid.new size .closed) b (List.replicate size.length 3) (crd size 0) (crd size i) r k)
      rw [e', e]
      refine RelRes.ok ⟨rfl, ?_⟩
      split
      · exact ⟨_, within_image hg hm, rfl⟩
      · exact hgood
    · exact RelRes.ok ⟨rfl, start⟩
  have mom : Lattice.computeMomentaContracted c (Grid.new size bd) b = Lattice.computeMomenta (Grid.new size bd) b := by
    unfold Lattice.computeMomentaContracted Lattice.computeMomenta
    split
    · rfl
    · refine mapRange_congr fun i _ => ?_
      unfold Lattice.computeMomentumContracted Lattice.computeMomentum
      simp only [fun x => (C151_reciprocal hA c.momentum hQ x [] (fun _ h => absurd h List.not_mem_nil)).1]
  refine (RelRes.eq.1 ?_).symm
  unfold Lattice.new Lattice.newContracted
  dsimp only
  rw [pos, mom]
  refine RelRes.bind (RelRes.refl (R' := Eq) (fun _ => rfl) _) fun p p' _ _ hpp => ?_
  subst hpp
  refine RelRes.bind vec fun v v' _ _ hv => ?_
  obtain rfl : v = v' := by
    clear * - hv
    induction hv with
    | nil => rfl
    | cons h _ ih => rw [h.1, ih]
  have dist : Lattice.computeDistancesContracted c v = Lattice.computeDistances v := by
    unfold Lattice.computeDistancesContracted Lattice.computeDistances
    refine List.map_congr_left fun u hu => congrArg CxxFloat.sqrt ?_
    have hgood : Good u := by
      clear * - hv hu
      obtain ⟨w, h, h'⟩ : ∃ w, w = v ∧ List.Forall₂ (fun u v => u = v ∧ Good u) v w := ⟨v, rfl, hv⟩
      clear h hv
      induction h' with
      | nil => cases hu
      | cons h _ ih =>
        rcases List.mem_cons.1 hu with rfl | hu
        · exact h.2
        · exact ih hu
    obtain ⟨x, hx, rfl⟩ := hgood
    unfold sumSquared
    have : ∀ (w : List (Num A)) (z : Num A),
        (∀ y ∈ w, y ∈ (embed size.length (P.map (fun x : Int => (x : ℝ))) x).map (Num.fin (A := A))) →
        w.foldl (fun d x => mulAdd c.distance x x d) z = w.foldl (fun d x => d + squareF x) z := by
      intro w
      induction w with
      | nil => intro z _; rfl
      | cons y ys ih =>
        intro z h
        rw [List.foldl_cons, List.foldl_cons, square_fused hA hS c.distance hx (h y List.mem_cons_self) z]
        exact ih _ (fun y hy => h y (List.mem_cons_of_mem _ hy))
    exact this _ _ (fun _ h => h)
  rw [dist]
  exact RelRes.refl (R' := Eq) (fun _ => rfl) _

/-- C184.  The predefined chain, square and cubic lattice: for all extents whose doubled squares add up to less than 2^52 and any
boundaries, the compiler's choices have no effect on the lattice built. -/
theorem C184_predefined (hA : A.IsBinary64) (hq : A.sqrt = Real.sqrt)
    (hb : chainLattice = .ok b ∨ squareLattice = .ok b ∨ cubicLattice = .ok b) (hd : size.length = b.dim) (hs : Buildable size)
    (hz : (size.map (fun s => (2 * s) ^ 2)).sum < 2 ^ 52) (c : LatticeFused) (bd : Boundaries) :
    Lattice.newContracted c b size bd = Lattice.new b size bd := by
  obtain ⟨Z, g, N, hZ, hb', hr, -, hS⟩ := integer_cases hA hb hd hz
  refine C184_same hA hq hs hb' hr hS (fun p hp => ?_) c bd
  have : b.pivectors = (reals Z).map .fin := by rw [hb'.eq]
  rw [this, hZ] at hp
  obtain ⟨x, hx, rfl⟩ := List.mem_map.1 hp
  unfold unit at hx
  obtain ⟨i, -, rfl⟩ := List.mem_map.1 hx
  split
  · exact Or.inr (Or.inl rfl)
  · exact Or.inl rfl

/-- The hypotheses hold: a square lattice of 1000 by 2000 sites in binary64, which can be built. -/
example : ∃ b : Bravais (Num doubleArith), squareLattice = .ok b ∧ [1000, 2000].length = b.dim ∧ Buildable [1000, 2000] ∧
    ([1000, 2000].map (fun s => (2 * s) ^ 2)).sum < 2 ^ 52 ∧ doubleArith.sqrt = Real.sqrt ∧
    ∃ l, Lattice.newContracted ⟨true, true, true, true, true, true, true⟩ b [1000, 2000] .closed = .ok l := by
  obtain ⟨b, h1, h2⟩ := square_regular (F := Num doubleArith)
  have hs : Buildable [1000, 2000] := ⟨⟨by decide, by norm_num⟩, by norm_num⟩
  obtain ⟨l, hl, -⟩ := C73_defined hs (b := b) h2 .closed (fun _ => by decide)
  refine ⟨b, h1, h2.dim.symm, hs, by norm_num, doubleArith_sqrt, l, ?_⟩
  rw [C184_predefined (size := [1000, 2000]) doubleArith_isBinary64 doubleArith_sqrt (Or.inr (Or.inl h1)) h2.dim.symm hs (by norm_num), hl]

/-- In any arithmetic: if the lattice can be built without fusing, it can be built with fusing. -/
example {F : Type} [CxxFloat F] [CxxFma F] {b : Bravais F} {size : List Nat} {bd : Boundaries} {l : Lattice F}
    (hl : Lattice.new b size bd = .ok l) (c : LatticeFused) :
    ∃ l', Lattice.newContracted c b size bd = .ok l' ∧ l'.neighbors = l.neighbors := by
  have h := C184_shape c b size bd
  rw [hl] at h
  obtain ⟨l', h1, h2⟩ := h.left
  exact ⟨l', h1, h2.neighbors⟩

end
end Bwsl
