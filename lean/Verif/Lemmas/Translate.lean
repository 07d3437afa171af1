import Verif.Lemmas.Enforce
import Mathlib.Data.Int.ModEq

/-! Lemmas about translations on a grid. -/

namespace Bwsl
open Spec

/-- Coordinates of a site. -/
def crd (size : List Nat) (i : Nat) : List Int := (digits i size).map (Nat.cast : Nat → Int)

/-- Index of a site. -/
def idx (size : List Nat) (c : List Int) : Nat := (rowMajor c size).toNat

@[simp] theorem crd_length (size : List Nat) (i : Nat) : (crd size i).length = size.length := by
  simp [crd]

theorem crd_onGrid {size : List Nat} (h : ∀ s ∈ size, 0 < s) {i : Nat} (hi : i < size.prod) :
    OnGrid (crd size i) size := digits_onGrid h hi

theorem idx_crd {size : List Nat} (h : ∀ s ∈ size, 0 < s) {i : Nat} (hi : i < size.prod) :
    idx size (crd size i) = i := by
  unfold idx crd; rw [rowMajor_digits i size h hi, Int.toNat_natCast]

theorem idx_lt {size : List Nat} {c : List Int} (h : OnGrid c size) : idx size c < size.prod := by
  have := rowMajor_bounds h; unfold idx; omega

theorem crd_idx {size : List Nat} (h : ∀ s ∈ size, 0 < s) {c : List Int} (hc : OnGrid c size) :
    crd size (idx size c) = c := by
  apply rowMajor_inj (crd_onGrid h (idx_lt hc)) hc
  have := rowMajor_bounds hc
  unfold crd; rw [rowMajor_digits _ _ h (idx_lt hc)]; unfold idx; omega

theorem getCoordinates_eq {size : List Nat} (h : Representable size) (hf : FitsLong size)
    (b : Boundaries) {i : Nat} (hi : i < size.prod) :
    (Grid.new size b).getCoordinates i = .ok (crd size i) := by
  show indexToArray i size = _
  rw [indexToArray_eq h, map_toLong_eq hf (digits_onGrid h.1 hi)]; rfl

theorem getIndex_eq {size : List Nat} (h : Representable size) (b : Boundaries) {c : List Int}
    (hc : OnGrid c size) : (Grid.new size b).getIndex c = .ok (idx size c) := by
  show arrayToIndex c size = _
  have hb := rowMajor_bounds hc
  have hp : size.prod < W64 := h.2
  rw [arrayToIndex_eq h c (onGrid_length hc), toSize_nonneg hb.1 (by omega)]; rfl

/-- Component-wise operation. -/
def zop (op : Int → Int → Int) : List Int → List Int → List Int
  | a :: as, b :: bs => op a b :: zop op as bs
  | _, _ => []

theorem zop_length (op : Int → Int → Int) {a b : List Int} (h : a.length = b.length) :
    (zop op a b).length = a.length := by
  induction a generalizing b with
  | nil => cases b <;> rfl
  | cons x xs ih =>
    cases b with
    | nil => simp at h
    | cons y ys => simp [zop, ih (by simpa using h : xs.length = ys.length)]

theorem transformInto_eq {op : Int → Int → Res Int} {f : Int → Int → Int} {a b : List Int}
    (hlen : a.length = b.length)
    (h : ∀ (k : Nat) (x y : Int), a[k]? = some x → b[k]? = some y → op x y = .ok (f x y)) :
    transformInto op a b = .ok (zop f a b) := by
  induction a generalizing b with
  | nil => cases b <;> rfl
  | cons x xs ih =>
    cases b with
    | nil => simp at hlen
    | cons y ys =>
      rw [transformInto, h 0 x y rfl rfl, Res.ok_bind,
        ih (by simpa using hlen) (fun k u v hu hv => h (k + 1) u v (by simpa using hu) (by simpa using hv))]
      rfl

theorem onGrid_getElem {c : List Int} {size : List Nat} (h : OnGrid c size) {k : Nat} {x : Int}
    (hx : c[k]? = some x) : ∃ s, size[k]? = some s ∧ 0 ≤ x ∧ x < (s : Nat) := by
  induction h generalizing k with
  | nil => simp at hx
  | @cons y s ys ss hy hys ih =>
    cases k with
    | zero => simp at hx; subst hx; exact ⟨s, rfl, hy⟩
    | succ k => simpa using ih (by simpa using hx)

theorem subtractInto_eq {size : List Nat} (hs : FitsLong size) {a b : List Int} (ha : OnGrid a size)
    (hb : OnGrid b size) : subtractInto a b = .ok (zop (· - ·) a b) := by
  apply transformInto_eq ((onGrid_length ha).trans (onGrid_length hb).symm)
  intro k x y hx hy
  obtain ⟨s, e1, h1⟩ := onGrid_getElem ha hx
  obtain ⟨s', e2, h2⟩ := onGrid_getElem hb hy
  rw [e1] at e2; cases e2
  have : s ≤ 2 ^ 63 := hs s (List.mem_of_getElem? e1)
  exact long_ok (by comega)

theorem sumInto_eq {size : List Nat} (hs : ∀ s ∈ size, s ≤ 2 ^ 62) {a b : List Int}
    (ha : OnGrid a size) (hb : OnGrid b size) : sumInto a b = .ok (zop (· + ·) a b) := by
  apply transformInto_eq ((onGrid_length ha).trans (onGrid_length hb).symm)
  intro k x y hx hy
  obtain ⟨s, e1, h1⟩ := onGrid_getElem ha hx
  obtain ⟨s', e2, h2⟩ := onGrid_getElem hb hy
  rw [e1] at e2; cases e2
  have : s ≤ 2 ^ 62 := hs s (List.mem_of_getElem? e1)
  exact long_ok (by comega)

theorem zop_longs {a b : List Int} {f : Int → Int → Int}
    (h : ∀ (k : Nat) (x y : Int), a[k]? = some x → b[k]? = some y → InLong (f x y)) :
    Longs (zop f a b) := by
  induction a generalizing b with
  | nil => intro y hy; cases hy
  | cons x xs ih =>
    cases b with
    | nil => intro y hy; cases hy
    | cons y ys =>
      intro z hz
      rw [zop, List.mem_cons] at hz
      rcases hz with rfl | hz
      · exact h 0 x y rfl rfl
      · exact ih (fun k u v hu hv => h (k + 1) u v (by simpa using hu) (by simpa using hv)) z hz

theorem sub_longs {size : List Nat} (hs : FitsLong size) {a b : List Int} (ha : OnGrid a size)
    (hb : OnGrid b size) : Longs (zop (· - ·) a b) := by
  apply zop_longs
  intro k x y hx hy
  obtain ⟨s, e1, h1⟩ := onGrid_getElem ha hx
  obtain ⟨s', e2, h2⟩ := onGrid_getElem hb hy
  rw [e1] at e2; cases e2
  have : s ≤ 2 ^ 63 := hs s (List.mem_of_getElem? e1)
  comega

theorem add_longs {size : List Nat} (hs : ∀ s ∈ size, s ≤ 2 ^ 62) {a b : List Int}
    (ha : OnGrid a size) (hb : OnGrid b size) : Longs (zop (· + ·) a b) := by
  apply zop_longs
  intro k x y hx hy
  obtain ⟨s, e1, h1⟩ := onGrid_getElem ha hx
  obtain ⟨s', e2, h2⟩ := onGrid_getElem hb hy
  rw [e1] at e2; cases e2
  have : s ≤ 2 ^ 62 := hs s (List.mem_of_getElem? e1)
  comega

theorem enforceBoundaries_closed {size : List Nat} (hs : Small size) {c : List Int} (hc : Longs c)
    (hlen : c.length = size.length) :
    (Grid.new size .closed).enforceBoundaries c = .ok (wrap size c) := by
  simp only [Grid.enforceBoundaries, Grid.new, Grid.hasClosedBoundaries, hlen, if_true]
  exact enforceLoop_eq hs hc hlen

/-- Coordinates of `b` minus coordinates of `a`, folded. -/
def csub (size : List Nat) (b a : List Int) : List Int := wrap size (zop (· - ·) b a)
/-- Coordinates of `a` plus coordinates of `b`, folded. -/
def cadd (size : List Nat) (a b : List Int) : List Int := wrap size (zop (· + ·) a b)

theorem csub_onGrid {size : List Nat} (hs : ∀ s ∈ size, 0 < s) {a b : List Int} (ha : OnGrid a size)
    (hb : OnGrid b size) : OnGrid (csub size a b) size := by
  have hab := (onGrid_length ha).trans (onGrid_length hb).symm
  exact wrap_onGrid hs (by rw [zop_length _ hab]; exact onGrid_length ha)

theorem cadd_onGrid {size : List Nat} (hs : ∀ s ∈ size, 0 < s) {a b : List Int} (ha : OnGrid a size)
    (hb : OnGrid b size) : OnGrid (cadd size a b) size := by
  have hab := (onGrid_length ha).trans (onGrid_length hb).symm
  exact wrap_onGrid hs (by rw [zop_length _ hab]; exact onGrid_length ha)

theorem getMappedSite_eq {size : List Nat} (h : Representable size) (hs : Small size) {a b : Nat}
    (ha : a < size.prod) (hb : b < size.prod) :
    (Grid.new size .closed).getMappedSite a b =
      .ok (idx size (csub size (crd size b) (crd size a))) := by
  have hf := small_fits hs
  have ga := crd_onGrid h.1 ha
  have gb := crd_onGrid h.1 hb
  rw [Grid.getMappedSite, getCoordinates_eq h hf _ hb, Res.ok_bind, getCoordinates_eq h hf _ ha,
    Res.ok_bind, subtractInto_eq hf gb ga, Res.ok_bind,
    enforceBoundaries_closed hs (sub_longs hf gb ga) (by rw [zop_length _ (by simp)]; simp),
    Res.ok_bind, ← csub, getIndex_eq h _ (csub_onGrid h.1 gb ga)]

theorem getUnMappedSite_eq {size : List Nat} (h : Representable size) (hs : ∀ s ∈ size, s ≤ 2 ^ 62)
    {i a : Nat} (hi : i < size.prod) (ha : a < size.prod) :
    (Grid.new size .closed).getUnMappedSite i a =
      .ok (idx size (cadd size (crd size a) (crd size i))) := by
  have hsm : Small size := fun s hx => ⟨h.1 s hx, by have := hs s hx; omega⟩
  have hf := small_fits hsm
  have ga := crd_onGrid h.1 ha
  have gi := crd_onGrid h.1 hi
  rw [Grid.getUnMappedSite, getCoordinates_eq h hf _ ha, Res.ok_bind, getCoordinates_eq h hf _ hi,
    Res.ok_bind, sumInto_eq hs ga gi, Res.ok_bind,
    enforceBoundaries_closed hsm (add_longs hs ga gi) (by rw [zop_length _ (by simp)]; simp),
    Res.ok_bind, ← cadd, getIndex_eq h _ (cadd_onGrid h.1 ga gi)]

/-! Group laws for folded coordinates. -/

theorem cadd_csub {size : List Nat} {a b : List Int} (ha : OnGrid a size) (hb : OnGrid b size) :
    cadd size a (csub size b a) = b := by
  unfold cadd csub
  induction ha generalizing b with
  | nil => cases hb; rfl
  | @cons x s xs ss hx hxs ih =>
    cases hb with
    | @cons y _ ys _ hy hys =>
      simp only [zop, wrap]
      rw [ih hys, Int.add_emod_emod, add_sub_cancel, Int.emod_eq_of_lt hy.1 hy.2]

theorem csub_cadd {size : List Nat} {a b : List Int} (ha : OnGrid a size) (hb : OnGrid b size) :
    csub size (cadd size a b) a = b := by
  unfold cadd csub
  induction ha generalizing b with
  | nil => cases hb; rfl
  | @cons x s xs ss hx hxs ih =>
    cases hb with
    | @cons y _ ys _ hy hys =>
      simp only [zop, wrap]
      rw [ih hys, Int.emod_sub_emod, add_sub_cancel_left, Int.emod_eq_of_lt hy.1 hy.2]

theorem cadd_comm {size : List Nat} {a b : List Int} (ha : OnGrid a size) (hb : OnGrid b size) :
    cadd size a b = cadd size b a := by
  unfold cadd
  induction ha generalizing b with
  | nil => cases hb; rfl
  | cons hx hxs ih =>
    cases hb with
    | cons hy hys => simp only [zop, wrap]; rw [ih hys, add_comm]

theorem cadd_assoc {size : List Nat} {a b c : List Int} (ha : OnGrid a size) (hb : OnGrid b size)
    (hc : OnGrid c size) : cadd size (cadd size a b) c = cadd size a (cadd size b c) := by
  unfold cadd
  induction ha generalizing b c with
  | nil => cases hb; cases hc; rfl
  | cons hx hxs ih =>
    cases hb with
    | cons hy hys =>
      cases hc with
      | cons hz hzs =>
        simp only [zop, wrap]
        rw [ih hys hzs, Int.emod_add_emod, Int.add_emod_emod, add_assoc]

theorem csub_shift {size : List Nat} {a b t : List Int} (ha : OnGrid a size) (hb : OnGrid b size)
    (ht : OnGrid t size) : csub size (cadd size b t) (cadd size a t) = csub size b a := by
  unfold cadd csub
  induction ha generalizing b t with
  | nil => cases hb; cases ht; rfl
  | cons hx hxs ih =>
    cases hb with
    | cons hy hys =>
      cases ht with
      | cons hz hzs =>
        simp only [zop, wrap]
        rw [ih hys hzs, Int.emod_sub_emod, Int.sub_emod_emod]
        congr 2; ring

theorem csub_chain {size : List Nat} {a b c : List Int} (ha : OnGrid a size) (hb : OnGrid b size)
    (hc : OnGrid c size) :
    cadd size (csub size b a) (csub size c b) = csub size c a := by
  unfold cadd csub
  induction ha generalizing b c with
  | nil => cases hb; cases hc; rfl
  | cons hx hxs ih =>
    cases hb with
    | cons hy hys =>
      cases hc with
      | cons hz hzs =>
        simp only [zop, wrap]
        rw [ih hys hzs, Int.emod_add_emod, Int.add_emod_emod]
        congr 2; ring

theorem csub_self {size : List Nat} {a : List Int} (ha : OnGrid a size) :
    idx size (csub size a a) = 0 := by
  have : rowMajor (csub size a a) size = 0 := by
    unfold csub
    induction ha with
    | nil => rfl
    | cons hx hxs ih => simp only [zop, wrap, rowMajor, ih]; simp
  rw [idx, this]; rfl

theorem crd_zero (size : List Nat) : crd size 0 = List.replicate size.length 0 := by
  unfold crd
  induction size with
  | nil => rfl
  | cons s ss ih => simp only [digits, Nat.zero_div, Nat.zero_mod, List.map_cons, ih]; rfl

theorem csub_zero {size : List Nat} {b : List Int} (hb : OnGrid b size) :
    csub size b (List.replicate size.length 0) = b := by
  unfold csub
  induction hb with
  | nil => rfl
  | cons hx hxs ih =>
    simp only [List.length_cons, List.replicate_succ, zop, wrap, ih, sub_zero]
    rw [Int.emod_eq_of_lt hx.1 hx.2]

theorem rowMajor_sub {size : List Nat} {a b : List Int} (ha : a.length = size.length)
    (hb : b.length = size.length) :
    rowMajor (zop (· - ·) b a) size = rowMajor b size - rowMajor a size := by
  induction size generalizing a b with
  | nil => cases a <;> cases b <;> simp_all [zop, rowMajor]
  | cons s ss ih =>
    cases a with
    | nil => simp at ha
    | cons x xs =>
      cases b with
      | nil => simp at hb
      | cons y ys =>
        simp only [zop, rowMajor]
        rw [ih (by simpa using ha) (by simpa using hb)]; ring

end Bwsl
