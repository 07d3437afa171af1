import Verif.Props.Neighbors
import Mathlib.Order.WellFounded
import Mathlib.Order.Bounds.Basic

/-! Distances to periodic images. -/

namespace Bwsl
open Spec Finset

set_option linter.unusedSectionVars false

/-! ### Images of images -/

theorem image_eq_of {size : List Nat} {c c' m m' : List Int}
    (h : ∀ k, k < size.length → coord c k + coord m k * extent size k = coord c' k + coord m' k * extent size k) :
    image size c m = image size c' m' := by
  unfold Spec.image
  exact List.map_congr_left (fun k hk => h k (List.mem_range.1 hk))

/-- Coordinates given by a function. -/
def tab (d : Nat) (f : Nat → Int) : List Int := (List.range d).map f
theorem length_tab (d : Nat) (f : Nat → Int) : (tab d f).length = d := by simp [tab]
theorem coord_tab {d : Nat} {f : Nat → Int} {k : Nat} (hk : k < d) : coord (tab d f) k = f k := by
  rw [coord_eq (by rw [length_tab]; exact hk)]; unfold tab; rw [List.getElem_map, List.getElem_range]

theorem image_of_coord {size : List Nat} {c c' m : List Int} (hl : c.length = size.length)
    (h : ∀ k, k < size.length → coord c k = coord c' k + coord m k * extent size k) : image size c' m = c := by
  refine ext_coord ((length_image ..).trans hl.symm) (fun k hk => ?_)
  rw [length_image] at hk
  rw [coord_image hk, h k hk]

theorem minus_image {size : List Nat} {ca cb m : List Int} (ha : ca.length = size.length) (hb : cb.length = size.length) :
    minus (image size cb m) ca = image size (minus cb ca) m := by
  symm
  refine image_of_coord (length_minus ha (length_image ..)) (fun k hk => ?_)
  rw [coord_minus (ha.trans (length_image ..).symm), coord_image hk, coord_minus (ha.trans hb.symm)]
  ring

/-- Every image of `c` is an image of `wrap c`, and conversely. -/
theorem image_wrap {size : List Nat} {c : List Int} (hc : c.length = size.length) (m : List Int) :
    image size c m = image size (wrap size c) (tab size.length (fun k => coord m k + coord c k / extent size k)) := by
  refine image_eq_of (fun k hk => ?_)
  rw [coord_tab hk, coord_wrap hc hk]
  have := Int.emod_add_mul_ediv (coord c k) (extent size k)
  linear_combination -this

theorem wrap_image {size : List Nat} {c : List Int} (hc : c.length = size.length) (m : List Int) :
    image size (wrap size c) m = image size c (tab size.length (fun k => coord m k - coord c k / extent size k)) := by
  refine image_eq_of (fun k hk => ?_)
  rw [coord_tab hk, coord_wrap hc hk]
  have := Int.emod_add_mul_ediv (coord c k) (extent size k)
  linear_combination this

theorem image_zero {size : List Nat} {c : List Int} (hc : c.length = size.length) :
    image size c (List.replicate size.length 0) = c := by
  refine image_of_coord hc (fun k hk => ?_)
  rw [coord_eq (c := List.replicate _ _) (by simpa using hk), List.getElem_replicate]; ring

theorem shell_zero (d : Nat) : Shell d (List.replicate d 0) :=
  ⟨by simp, fun x hx => by rw [List.eq_of_mem_replicate hx]; decide⟩

/-- The distance between `a` and an image of `b`, from the other end. -/
theorem imageDistance_swap {size : List Nat} (P : List ℝ) {ca cb m : List Int} (ha : ca.length = size.length)
    (hb : cb.length = size.length) :
    imageDistance size P ca cb m = imageDistance size P cb ca (tab size.length (fun k => -coord m k)) := by
  unfold imageDistance
  rw [minus_image ha hb, minus_image hb ha]
  have : embed size.length P (image size (minus cb ca) m) =
      (embed size.length P (image size (minus ca cb) (tab size.length (fun k => -coord m k)))).map (- ·) := by
    unfold embed
    rw [List.map_map]
    refine List.map_congr_left (fun i _ => ?_)
    show _ = -_
    rw [← Finset.sum_neg_distrib]
    refine Finset.sum_congr rfl (fun k hk => ?_)
    have hk := Finset.mem_range.1 hk
    rw [coord_image hk, coord_image hk, coord_tab hk, coord_minus (ha.trans hb.symm), coord_minus (hb.trans ha.symm)]
    push_cast; ring
  rw [this, length_neg]

theorem imageDistances_symm {size : List Nat} (P : List ℝ) {ca cb : List Int} (ha : ca.length = size.length)
    (hb : cb.length = size.length) : imageDistances size P ca cb = imageDistances size P cb ca := by
  ext r
  constructor
  · rintro ⟨m, hm, rfl⟩; exact ⟨_, length_tab .., imageDistance_swap P ha hb⟩
  · rintro ⟨m, hm, rfl⟩; exact ⟨_, length_tab .., imageDistance_swap P hb ha⟩

theorem imageDistance_triangle {size : List Nat} (P : List ℝ) {ca cb cc m n : List Int} (ha : ca.length = size.length)
    (hb : cb.length = size.length) (hc : cc.length = size.length) :
    imageDistance size P ca cc (tab size.length (fun k => coord m k + coord n k)) ≤
      imageDistance size P ca cb m + imageDistance size P cb cc n := by
  unfold imageDistance
  have : embed size.length P (minus (image size cc (tab size.length (fun k => coord m k + coord n k))) ca) =
      List.zipWith (· + ·) (embed size.length P (minus (image size cb m) ca)) (embed size.length P (minus (image size cc n) cb)) := by
    rw [minus_image ha hb, minus_image hb hc, minus_image ha hc]
    rw [← embed_plus P ((length_image ..).trans (length_image ..).symm)]
    congr 1
    refine image_of_coord (length_plus (length_image ..) (length_image ..)) (fun k hk => ?_)
    rw [coord_plus ((length_image ..).trans (length_image ..).symm), coord_image hk, coord_image hk, coord_tab hk,
      coord_minus (ha.trans hb.symm), coord_minus (hb.trans hc.symm), coord_minus (ha.trans hc.symm)]
    ring
  rw [this]
  exact length_add_le (by rw [embed_length, embed_length])

/-! ### The lattice -/

section
variable {A : Arith ℝ} {b : Bravais (Num A)} {size : List Nat} {g : Nat} {P Q : List ℝ} {N : List Int}

theorem dims_of_ok {F : Type} [CxxFloat F] {b : Bravais F} (hs : Buildable size) (hb : Regular b size.length) {l : Lattice F}
    (hl : Lattice.new b size .closed = .ok l) : 3 ^ size.length < 2 ^ 64 := by
  by_cases h : size.length ≤ 40
  · exact lt_of_le_of_lt (Nat.pow_le_pow_right (by decide) h) (by decide)
  · rw [C84_dimensions hs hb (by omega)] at hl; cases hl

/-- The length of an image of a site, seen from the origin. -/
noncomputable def reach (size : List Nat) (P : List ℝ) (c m : List Int) : ℝ :=
  Spec.length (embed size.length P (image size c m))

/-- The vector `ComputeVectors` finds is a shortest one among the first shell of images. -/
theorem vectors_closed (hA : A.IsReal) (hs : Buildable size) (hb : Holds b size.length g P Q N) (hr : Regular b size.length)
    {l : Lattice (Num A)} (hl : Lattice.new b size .closed = .ok l) {i : Nat} (hi : i < size.prod) :
    ∃ m, Shell size.length m ∧ l.vectors[i]? = some ((embed size.length P (image size (crd size i) m)).map .fin) ∧
      ∀ m', Shell size.length m' → reach size P (crd size i) m ≤ reach size P (crd size i) m' := by
  have hd := dims_of_ok hs hr hl
  obtain ⟨vs, h1, h2, h3⟩ := computeVectors_closed hs hr hd
    (fun i k s => ∃ m, Shell size.length m ∧
      s = (.fin (reach size P (crd size i) m), (embed size.length P (image size (crd size i) m)).map .fin) ∧
      ∀ j, j < k → reach size P (crd size i) m ≤ reach size P (crd size i) (shell size.length j))
    (fun i r hi hr => by
      have hc := crd_onGrid hs.1.1 hi
      rw [getDistanceVector_ok hA hb (site_near hs hc), minus_origin (onGrid_length hc), Res.ok.injEq] at hr
      refine ⟨_, shell_zero _, ?_, fun j hj => absurd hj (by omega)⟩
      unfold reach
      rw [image_zero (onGrid_length hc), ← hr])
    (fun i k s r hi hk hI hr => by
      have hc := crd_onGrid hs.1.1 hi
      rw [getDistanceVector_ok hA hb (image_near hs hc (shell_mem hk)), minus_origin (length_image ..), Res.ok.injEq] at hr
      obtain ⟨m, hm, rfl, hmin⟩ := hI
      subst hr
      simp only [Num.lt_fin, decide_eq_true_eq]
      by_cases hlt : Spec.length (embed size.length P (image size (crd size i) (shell size.length k))) < reach size P (crd size i) m
      · rw [if_pos hlt]
        refine ⟨_, shell_mem hk, rfl, fun j hj => ?_⟩
        rcases Nat.lt_succ_iff_lt_or_eq.1 hj with h | rfl
        · exact le_trans hlt.le (hmin j h)
        · exact le_rfl
      · rw [if_neg hlt]
        refine ⟨m, hm, rfl, fun j hj => ?_⟩
        rcases Nat.lt_succ_iff_lt_or_eq.1 hj with h | rfl
        · exact hmin j h
        · exact not_lt.1 hlt)
  have hv := (new_parts hl).2.2.1
  rw [h1, Res.ok.injEq] at hv
  have hi' : i < vs.length := h2 ▸ hi
  obtain ⟨D, m, hm, he, hmin⟩ := h3 i _ (List.getElem?_eq_getElem hi')
  refine ⟨m, hm, ?_, fun m' hm' => ?_⟩
  · rw [← hv, List.getElem?_eq_getElem hi']
    simp only [Prod.mk.injEq] at he
    rw [he.2]
  · obtain ⟨k, hk, rfl⟩ := shell_surj hm'
    exact hmin k hk

theorem sumSquared_ok (hA : A.IsExact) (v : List ℝ) :
    sumSquared (v.map (Num.fin (A := A))) = .fin ((v.map (fun x => x * x)).sum) := by
  unfold sumSquared
  have : ∀ (v : List ℝ) (a : ℝ), (v.map (Num.fin (A := A))).foldl (fun d x => d + squareF x) (.fin a) =
      .fin (a + (v.map (fun x => x * x)).sum) := by
    intro v
    induction v with
    | nil => intro a; simp
    | cons x xs ih =>
      intro a
      rw [List.map_cons, List.foldl_cons]
      unfold squareF
      rw [Num.fin_mul, Num.round_exact hA, Num.fin_add, Num.round_exact hA]
      refine (ih _).trans ?_
      rw [List.map_cons, List.sum_cons, add_assoc]
  rw [Num.ofInt_eq, Num.round_exact hA, this, Int.cast_zero, zero_add]

theorem sqrt_sumSquared (hA : A.IsReal) (v : List ℝ) :
    CxxFloat.sqrt (sumSquared (v.map (Num.fin (A := A)))) = .fin (Spec.length v) := by
  rw [sumSquared_ok hA.exact, real_sqrt hA]
  · rfl
  · refine List.sum_nonneg (fun x hx => ?_)
    obtain ⟨y, -, rfl⟩ := List.mem_map.1 hx
    exact mul_self_nonneg y

theorem indexIsValid_eq (hs : Buildable size) {bd : Boundaries} {F : Type} [CxxFloat F] {b : Bravais F} {l : Lattice F}
    (hl : Lattice.new b size bd = .ok l) {x : Nat} (hx : x < size.prod) : l.grid.indexIsValid x = true := by
  rw [(new_parts hl).1]
  unfold Grid.indexIsValid
  rw [numsites_eq hs.1]
  exact decide_eq_true hx

/-- The site at the relative position of two sites. -/
theorem mapped_closed (hs : Buildable size) {x y : Nat} (hx : x < size.prod) (hy : y < size.prod) :
    ∃ s, s < size.prod ∧ (Grid.new size .closed).getMappedSite x y = .ok s ∧
      crd size s = wrap size (minus (crd size y) (crd size x)) := by
  have hcx := crd_onGrid hs.1.1 hx
  have hcy := crd_onGrid hs.1.1 hy
  have hg : OnGrid (csub size (crd size y) (crd size x)) size := by
    rw [csub_eq]; exact wrap_onGrid hs.1.1 (length_minus (onGrid_length hcx) (onGrid_length hcy))
  exact ⟨_, idx_lt hg, getMappedSite_eq hs.1 (buildable_small hs) hx hy, by rw [crd_idx hs.1.1 hg, csub_eq]⟩

/-- `GetVector` and `GetDistance` on a closed lattice. -/
theorem closed_eq (hA : A.IsReal) (hs : Buildable size) (hb : Holds b size.length g P Q N) (hr : Regular b size.length)
    {l : Lattice (Num A)} (hl : Lattice.new b size .closed = .ok l) {x y : Nat} (hx : x < size.prod) (hy : y < size.prod) :
    ∃ m, Shell size.length m ∧
      l.getVector x y = .ok ((embed size.length P (image size (wrap size (minus (crd size y) (crd size x))) m)).map .fin) ∧
      l.getDistance x y = .ok (.fin (reach size P (wrap size (minus (crd size y) (crd size x))) m)) ∧
      ∀ m', Shell size.length m' → reach size P (wrap size (minus (crd size y) (crd size x))) m ≤
        reach size P (wrap size (minus (crd size y) (crd size x))) m' := by
  obtain ⟨s, h1, h2, h3⟩ := mapped_closed hs hx hy
  obtain ⟨m, hm, hv, hmin⟩ := vectors_closed hA hs hb hr hl h1
  have hg := (new_parts hl).1
  rw [h3] at hv hmin
  refine ⟨m, hm, ?_, ?_, hmin⟩
  · unfold Lattice.getVector
    rw [indexIsValid_eq hs hl hx, indexIsValid_eq hs hl hy, Bool.and_self, if_pos rfl, hg, h2, Res.ok_bind, subscript_ok hv]
  · unfold Lattice.getDistance
    rw [indexIsValid_eq hs hl hx, indexIsValid_eq hs hl hy, Bool.and_self, if_pos rfl, hg, h2, Res.ok_bind,
      (new_parts hl).2.2.2.1]
    refine subscript_ok ?_
    unfold Lattice.computeDistances
    rw [List.getElem?_map, hv, Option.map_some, sqrt_sumSquared hA]; rfl

/-- The first shell contains a nearest image of every site. -/
def ShellSuffices (size : List Nat) (P : List ℝ) : Prop :=
  ∀ c, OnGrid c size → ∀ m : List Int, m.length = size.length →
    ∃ m', Shell size.length m' ∧ reach size P c m' ≤ reach size P c m

theorem least_of_shell (hA : A.IsReal) (hs : Buildable size) (hb : Holds b size.length g P Q N) (hr : Regular b size.length)
    (hS : ShellSuffices size P) {l : Lattice (Num A)} (hl : Lattice.new b size .closed = .ok l) {x y : Nat}
    (hx : x < size.prod) (hy : y < size.prod) :
    ∃ D, l.getDistance x y = .ok (.fin D) ∧ IsLeast (imageDistances size P (crd size x) (crd size y)) D := by
  obtain ⟨m, hm, -, hD, hmin⟩ := closed_eq hA hs hb hr hl hx hy
  have hlx := onGrid_length (crd_onGrid hs.1.1 hx)
  have hly := onGrid_length (crd_onGrid hs.1.1 hy)
  have hlm := length_minus hlx hly
  refine ⟨_, hD, ⟨tab size.length (fun k => coord m k - coord (minus (crd size y) (crd size x)) k / extent size k),
    length_tab .., ?_⟩, ?_⟩
  · unfold imageDistance reach
    rw [minus_image hlx hly, wrap_image hlm]
  · rintro r ⟨n, hn, rfl⟩
    unfold imageDistance
    rw [minus_image hlx hly, image_wrap hlm]
    obtain ⟨m', hm', hle⟩ := hS _ (wrap_onGrid hs.1.1 hlm) _ (length_tab size.length
      (fun k => coord n k + coord (minus (crd size y) (crd size x)) k / extent size k))
    exact le_trans (hmin m' hm') hle

end
end Bwsl
