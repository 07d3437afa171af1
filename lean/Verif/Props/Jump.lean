import Verif.Lemmas.Translate

/-! Properties C11–C12: minimum-image jumps and winding numbers. -/

namespace Bwsl
open Spec

/-- `r` is in (-s/2, s/2]. -/
def Spec.Centered (r : Int) (s : Nat) : Prop := -(s : Int) < 2 * r ∧ 2 * r ≤ s

/-- A centered value has the least absolute value among the integers congruent to it. -/
theorem Spec.centered_least {r : Int} {s : Nat} (h : Centered r s) (y : Int) (hy : (s : Int) ∣ y - r) :
    |r| ≤ |y| := by
  obtain ⟨q, hq⟩ := hy
  obtain ⟨h1, h2⟩ := h
  have hy : y = r + s * q := by omega
  subst hy
  have hs : (0 : Int) ≤ s := by omega
  rcases lt_trichotomy q 0 with hq | hq | hq
  · have : (s : Int) * q ≤ s * (-1) := mul_le_mul_of_nonneg_left (by omega) hs
    rw [abs_le]; constructor
    · rw [abs_of_nonpos (by omega)]; omega
    · rw [abs_of_nonpos (by omega)]; omega
  · subst hq; simp
  · have : (s : Int) * 1 ≤ s * q := mul_le_mul_of_nonneg_left (by omega) hs
    rw [abs_le]; constructor
    · rw [abs_of_nonneg (by omega)]; omega
    · rw [abs_of_nonneg (by omega)]; omega

theorem jumpOne_spec {s : Nat} (hs : s < 2 ^ 32) {d : Int} (h1 : -(s : Int) < d)
    (h2 : d < s) : ∃ r, Grid.jumpOne s d = .ok r ∧ (s : Int) ∣ r - d ∧ Centered r s := by
  have hh : Grid.toInt32 (s / 2) = ((s / 2 : Nat) : Int) := by
    unfold Grid.toInt32; simp only; split <;> omega
  have hsub : Grid.subMixed d s = d - s := subMixed_eq (by omega) (by comega)
  unfold Grid.jumpOne Centered
  simp only [hh, hsub]
  rw [if_neg (by omega)]
  by_cases hc : d > ((s / 2 : Nat) : Int)
  · simp only [if_pos hc]
    have hadd : Grid.addMixed (d - s) s = d - s + s := addMixed_eq (by comega)
    rw [hadd]
    split
    · omega
    · exact ⟨_, rfl, ⟨-1, by ring⟩, by omega⟩
  · simp only [if_neg hc]
    have hadd : Grid.addMixed d s = d + s := addMixed_eq (by comega)
    rw [hadd]
    split
    · exact ⟨_, rfl, ⟨1, by ring⟩, by omega⟩
    · exact ⟨_, rfl, ⟨0, by ring⟩, by omega⟩

/-- The components of `r` are centered. -/
def Spec.AllCentered (r : List Int) (size : List Nat) : Prop := List.Forall₂ Centered r size

theorem jumpLoop_spec {size : List Nat} (hs : ∀ s ∈ size, s < 2 ^ 32) {a b : List Int}
    (ha : OnGrid a size) (hb : OnGrid b size) :
    ∃ r, Grid.jumpLoop size.length size (zop (· - ·) b a) = .ok r ∧ Congruent r (zop (· - ·) b a) size ∧
      AllCentered r size := by
  induction ha generalizing b with
  | nil => cases hb; exact ⟨[], rfl, ⟨rfl, rfl, by simp⟩, .nil⟩
  | @cons x s xs ss hx hxs ih =>
    cases hb with
    | @cons y _ ys _ hy hys =>
      obtain ⟨rs, e, h1, h2⟩ := ih (fun t ht => hs t (by simp [ht])) hys
      obtain ⟨r, er, h3, h4⟩ := jumpOne_spec (hs s (by simp)) (d := y - x) (by omega) (by omega)
      refine ⟨r :: rs, ?_, ?_, .cons h4 h2⟩
      · simp only [zop, List.length_cons, Grid.jumpLoop, er, e, Res.ok_bind]
      · simp only [zop]; rw [congruent_cons]; exact ⟨h3, h1⟩

theorem fits_of_32 {size : List Nat} (hs : ∀ s ∈ size, s < 2 ^ 32) : FitsLong size :=
  fun s h => by have := hs s h; omega

theorem isValid_iff {size : List Nat} (h : Representable size) (b : Boundaries) {i : Nat}
    (hi : i < size.prod) : (Grid.new size b).indexIsValid i = true := by
  simp [Grid.indexIsValid, Grid.new, accumulateProduct_rep h, hi]

theorem getJump_closed {size : List Nat} (h : Representable size) (hs : ∀ s ∈ size, s < 2 ^ 32)
    {a b : Nat} (ha : a < size.prod) (hb : b < size.prod) :
    ∃ j, (Grid.new size .closed).getJump a b = .ok j ∧
      Congruent j (zop (· - ·) (crd size b) (crd size a)) size ∧ AllCentered j size := by
  have hf := fits_of_32 hs
  have ga := crd_onGrid h.1 ha
  have gb := crd_onGrid h.1 hb
  obtain ⟨r, e, h1, h2⟩ := jumpLoop_spec hs ga gb
  refine ⟨r, ?_, h1, h2⟩
  rw [Grid.getJump, isValid_iff h _ ha, isValid_iff h _ hb]
  simp only [Bool.and_self, if_true]
  rw [getCoordinates_eq h hf _ hb, Res.ok_bind, getCoordinates_eq h hf _ ha,
    Res.ok_bind, subtractInto_eq hf gb ga, Res.ok_bind]
  exact e

theorem getJump_open {size : List Nat} (h : Representable size) (hf : FitsLong size)
    {a b : Nat} (ha : a < size.prod) (hb : b < size.prod) :
    (Grid.new size .open).getJump a b = .ok (zop (· - ·) (crd size b) (crd size a)) := by
  have ga := crd_onGrid h.1 ha
  have gb := crd_onGrid h.1 hb
  rw [Grid.getJump, isValid_iff h _ ha, isValid_iff h _ hb]
  simp only [Bool.and_self, if_true]
  rw [getCoordinates_eq h hf _ hb, Res.ok_bind, getCoordinates_eq h hf _ ha,
    Res.ok_bind, subtractInto_eq hf gb ga, Res.ok_bind]
  rfl

theorem zop_getElem (op : Int → Int → Int) {a b : List Int} {k : Nat} {x y : Int}
    (hx : a[k]? = some x) (hy : b[k]? = some y) : (zop op a b)[k]? = some (op x y) := by
  induction a generalizing b k with
  | nil => simp at hx
  | cons u us ih =>
    cases b with
    | nil => simp at hy
    | cons v vs =>
      cases k with
      | zero => simp at hx hy; subst hx hy; rfl
      | succ k => simpa [zop] using ih (by simpa using hx) (by simpa using hy)

theorem allCentered_getElem {r : List Int} {size : List Nat} (h : AllCentered r size) {k : Nat}
    {x : Int} {s : Nat} (hx : r[k]? = some x) (hs : size[k]? = some s) : Centered x s := by
  induction h generalizing k with
  | nil => simp at hx
  | cons h _ ih =>
    cases k with
    | zero => simp at hx hs; subst hx hs; exact h
    | succ k => exact ih (by simpa using hx) (by simpa using hs)

/-- C11.  On a closed grid with extents below 2^32, every component of `GetJump(a, b)` is congruent to the
difference of the coordinates, lies in (-s/2, s/2], and has the least absolute value among all integers
congruent to the difference. -/
theorem C11_jump_closed (size : List Nat) (h : Representable size) (hs : ∀ s ∈ size, s < 2 ^ 32)
    (a b : Nat) (ha : a < size.prod) (hb : b < size.prod) :
    ∃ ca cb j, (Grid.new size .closed).getCoordinates a = .ok ca ∧
      (Grid.new size .closed).getCoordinates b = .ok cb ∧
      (Grid.new size .closed).getJump a b = .ok j ∧ j.length = size.length ∧
      ∀ (k s : Nat) (x y z : Int), size[k]? = some s → ca[k]? = some x → cb[k]? = some y →
        j[k]? = some z →
        (s : Int) ∣ z - (y - x) ∧ Centered z s ∧ ∀ w, (s : Int) ∣ w - (y - x) → |z| ≤ |w| := by
  obtain ⟨j, e, h1, h2⟩ := getJump_closed h hs ha hb
  refine ⟨_, _, j, getCoordinates_eq h (fits_of_32 hs) _ ha, getCoordinates_eq h (fits_of_32 hs) _ hb, e,
    h1.1, ?_⟩
  intro k s x y z es ex ey ez
  have hd := h1.2.2 k z (y - x) s ez (zop_getElem _ ey ex) es
  have hc := allCentered_getElem h2 ez es
  refine ⟨hd, hc, fun w hw => centered_least hc w ?_⟩
  have := Int.dvd_sub hw hd
  rwa [sub_sub_sub_cancel_right] at this

/-- C11 on an open grid: the plain difference of the coordinates. -/
theorem C11_jump_open (size : List Nat) (h : Representable size) (hf : FitsLong size)
    (a b : Nat) (ha : a < size.prod) (hb : b < size.prod) :
    ∃ ca cb j, (Grid.new size .open).getCoordinates a = .ok ca ∧
      (Grid.new size .open).getCoordinates b = .ok cb ∧
      (Grid.new size .open).getJump a b = .ok j ∧ j.length = size.length ∧
      ∀ (k : Nat) (x y : Int), ca[k]? = some x → cb[k]? = some y → j[k]? = some (y - x) := by
  refine ⟨_, _, _, getCoordinates_eq h hf _ ha, getCoordinates_eq h hf _ hb, getJump_open h hf ha hb, ?_, ?_⟩
  · rw [zop_length _ (by simp)]; simp
  · intro k x y ex ey; exact zop_getElem (· - ·) ey ex

/-- The bound 2^32 in C11 is needed: `int` truncation of half the extent. -/
theorem C11_large_extent : (Grid.new [2 ^ 33] .closed).getJump 0 (2 ^ 32 + 5) = .ok [2 ^ 32 + 5] := by
  decide +kernel

example : (Grid.new [4, 5] .closed).getJump 0 18 = .ok [-1, -2] ∧
    (Grid.new [4, 5] .closed).getJump 0 10 = .ok [2, 0] ∧
    (Grid.new [4, 5] .closed).getJump 10 0 = .ok [2, 0] := by decide +kernel

/-! ### Winding numbers -/

/-- Accumulating the jumps of a walk with `sum_into`, as a Monte Carlo simulation does with
`GetJump` (include/bwsl/HyperCubicGrid.hpp:244-268) and `sum_into` (include/bwsl/MathUtils.hpp:245-255). -/
def Spec.walk (g : Grid) (acc : List Int) (a : Nat) : List Nat → Res (List Int)
  | [] => .ok acc
  | b :: bs => do
    let j ← g.getJump a b
    let acc ← sumInto acc j
    walk g acc b bs

theorem transformInto_ok {op : Int → Int → Res Int} {f : Int → Int → Int}
    (hop : ∀ x y z, op x y = .ok z → z = f x y) {a b c : List Int} (h : transformInto op a b = .ok c) :
    c = zop f a b := by
  induction a generalizing b c with
  | nil => rw [transformInto] at h; cases h; cases b <;> rfl
  | cons x xs ih =>
    cases b with
    | nil => rw [transformInto] at h; cases h
    | cons y ys =>
      rw [transformInto] at h
      obtain ⟨z, h1, h⟩ := Res.bind_eq_ok.1 h
      obtain ⟨zs, h2, h⟩ := Res.bind_eq_ok.1 h
      cases h
      rw [zop, ih h2, hop x y z h1]

theorem sumInto_ok {a b c : List Int} (h : sumInto a b = .ok c) : c = zop (· + ·) a b :=
  transformInto_ok (fun _ _ _ h => (long_eq_ok.1 h).2) h

theorem congruent_step {size : List Nat} {acc c0 ca cb j : List Int}
    (h : Congruent (zop (· + ·) acc c0) ca size) (hj : Congruent j (zop (· - ·) cb ca) size)
    (hacc : acc.length = size.length) (hc0 : c0.length = size.length) (hca : ca.length = size.length)
    (hcb : cb.length = size.length) :
    Congruent (zop (· + ·) (zop (· + ·) acc j) c0) cb size := by
  induction size generalizing acc c0 ca cb j with
  | nil => cases acc <;> cases c0 <;> cases ca <;> cases cb <;> cases j <;> simp_all [zop]
  | cons s ss ih =>
    cases acc with | nil => simp at hacc | cons x xs =>
    cases c0 with | nil => simp at hc0 | cons y ys =>
    cases ca with | nil => simp at hca | cons u us =>
    cases cb with | nil => simp at hcb | cons v vs =>
    cases j with
    | nil => have := hj.1; simp at this
    | cons t ts =>
    simp only [zop] at h hj ⊢
    rw [congruent_cons] at h hj ⊢
    refine ⟨?_, ih h.2 hj.2 (by simpa using hacc) (by simpa using hc0) (by simpa using hca)
      (by simpa using hcb)⟩
    have := Int.dvd_add h.1 hj.1
    have e : x + y - u + (t - (v - u)) = x + t + y - v := by ring
    rwa [e] at this

theorem walk_congruent {size : List Nat} (h : Representable size) (hs : ∀ s ∈ size, s < 2 ^ 32)
    {c0 acc res : List Int} {a : Nat} {w : List Nat} (hc0 : c0.length = size.length)
    (hacc : acc.length = size.length) (ha : a < size.prod) (hw : ∀ b ∈ w, b < size.prod)
    (hinv : Congruent (zop (· + ·) acc c0) (crd size a) size)
    (hres : walk (Grid.new size .closed) acc a w = .ok res) :
    res.length = size.length ∧
    Congruent (zop (· + ·) res c0) (crd size ((a :: w).getLast (by simp))) size := by
  induction w generalizing acc a with
  | nil =>
    cases hres
    exact ⟨hacc, by simpa using hinv⟩
  | cons b bs ih =>
    rw [walk] at hres
    have hb := hw b (by simp)
    obtain ⟨j, e, h1, _⟩ := getJump_closed h hs ha hb
    rw [e, Res.ok_bind] at hres
    obtain ⟨acc', h2, hres⟩ := Res.bind_eq_ok.1 hres
    have h3 := sumInto_ok h2
    subst h3
    have := ih (by rw [zop_length _ (hacc.trans h1.1.symm)]; exact hacc) hb
      (fun t ht => hw t (by simp [ht]))
      (congruent_step hinv h1 hacc hc0 (by simp) (by simp)) hres
    simpa using this

theorem divisible_of_congruent {size : List Nat} {acc c : List Int} (hacc : acc.length = size.length)
    (h : Congruent (zop (· + ·) acc c) c size) :
    List.Forall₂ (fun (x : Int) (s : Nat) => (s : Int) ∣ x) acc size := by
  induction size generalizing acc c with
  | nil => cases acc <;> simp_all
  | cons s ss ih =>
    cases acc with | nil => simp at hacc | cons x xs =>
    cases c with
    | nil => have := h.2.1; simp at this
    | cons y ys =>
    simp only [zop] at h
    rw [congruent_cons] at h
    refine .cons ?_ (ih (by simpa using hacc) h.2)
    have := h.1
    rwa [add_sub_cancel_right] at this

theorem windingLoop_eq {size : List Nat} (hs : ∀ s ∈ size, 0 < s ∧ s < 2 ^ 32) {acc : List Int}
    (hl : Longs acc) (h : List.Forall₂ (fun (x : Int) (s : Nat) => (s : Int) ∣ x) acc size) :
    ∃ w, Lat.windingLoop acc size = .ok w ∧ w.length = size.length ∧
      zop (· * ·) w (size.map (Nat.cast : Nat → Int)) = acc := by
  induction h with
  | nil => exact ⟨[], rfl, rfl, rfl⟩
  | @cons x s xs ss hx hxs ih =>
    obtain ⟨w, h1, h2, h3⟩ := ih (fun t ht => hs t (by simp [ht])) (fun t ht => hl t (by simp [ht]))
    have h0 := hs s (by simp)
    have hxl := hl x (by simp)
    obtain ⟨q, rfl⟩ := hx
    have hne : (s : Int) ≠ 0 := by omega
    refine ⟨q :: w, ?_, by simp [h2], ?_⟩
    · have hq : InLong q := by
        have h4 : (1 : Int) ≤ s := by omega
        rcases le_or_gt 0 q with hq | hq
        · have : 1 * q ≤ s * q := mul_le_mul_of_nonneg_right h4 hq
          comega
        · have : s * q ≤ 1 * q := mul_le_mul_of_nonpos_right h4 hq.le
          comega
      rw [Lat.windingLoop, toLong_of_lt (by omega), ldiv, if_neg hne,
        Int.mul_tdiv_cancel_left _ hne, long_ok hq, Res.ok_bind, h1]
      rfl
    · simp only [List.map_cons, zop, h3]
      rw [mul_comm]

theorem sumInto_longs {acc j acc' : List Int} (h2 : sumInto acc j = .ok acc') : Longs acc' := by
  unfold sumInto at h2
  induction acc generalizing j acc' with
  | nil => cases j <;> (rw [transformInto] at h2; cases h2; intro y hy; cases hy)
  | cons x xs ihx =>
    cases j with
    | nil => rw [transformInto] at h2; cases h2
    | cons y ys =>
      rw [transformInto] at h2
      obtain ⟨z, h3, h2⟩ := Res.bind_eq_ok.1 h2
      obtain ⟨zs, h4, h2⟩ := Res.bind_eq_ok.1 h2
      cases h2
      intro t ht
      rw [List.mem_cons] at ht
      rcases ht with rfl | ht
      · obtain ⟨h5, h6⟩ := long_eq_ok.1 h3; subst h6; exact h5
      · exact ihx h4 t ht

theorem walk_longs {g : Grid} {acc res : List Int} {a : Nat} {w : List Nat} (hl : Longs acc)
    (hres : walk g acc a w = .ok res) : Longs res := by
  induction w generalizing acc a with
  | nil => cases hres; exact hl
  | cons b bs ih =>
    rw [walk] at hres
    obtain ⟨j, hj, hres⟩ := Res.bind_eq_ok.1 hres
    obtain ⟨acc', h2, hres⟩ := Res.bind_eq_ok.1 hres
    exact ih (sumInto_longs h2) hres

theorem zop_add_zeros (c : List Int) (n : Nat) (h : c.length = n) :
    zop (· + ·) (List.replicate n 0) c = c := by
  induction c generalizing n with
  | nil => subst h; rfl
  | cons x xs ih => subst h; simp [List.replicate_succ, zop, ih]

/-- C12.  For every closed walk on a closed grid whose accumulated jump does not overflow, the accumulated
jump is divisible by the extents and `GetWinding` times the extents gives it back. -/
theorem C12_winding (size : List Nat) (h : Representable size) (hs : ∀ s ∈ size, s < 2 ^ 32)
    (a : Nat) (w : List Nat) (ha : a < size.prod) (hw : ∀ b ∈ w, b < size.prod)
    (hclosed : (a :: w).getLast (by simp) = a) (total : List Int)
    (hres : walk (Grid.new size .closed) (List.replicate size.length 0) a w = .ok total) :
    List.Forall₂ (fun (x : Int) (s : Nat) => (s : Int) ∣ x) total size ∧
    ∃ n, Lat.getWinding (Grid.new size .closed) total = .ok n ∧ n.length = size.length ∧
      zop (· * ·) n (size.map (Nat.cast : Nat → Int)) = total := by
  obtain ⟨h1, h2⟩ := walk_congruent h hs (c0 := crd size a) (by simp) (by simp) ha hw
    (by rw [zop_add_zeros _ _ (by simp)]; exact congruent_refl (by simp)) hres
  rw [hclosed] at h2
  have hd := divisible_of_congruent h1 h2
  refine ⟨hd, ?_⟩
  have hl : Longs total := walk_longs (fun y hy => by
    rw [List.mem_replicate] at hy; rw [hy.2]; decide) hres
  simp only [Lat.getWinding, Grid.new, h1, if_true]
  exact windingLoop_eq (fun s hx => ⟨h.1 s hx, hs s hx⟩) hl hd

theorem walk_bounded {size : List Nat} (h : Representable size) (hs : ∀ s ∈ size, s < 2 ^ 32)
    {acc : List Int} {a : Nat} {w : List Nat} (B : Nat) (hB : B + w.length * 2 ^ 31 < 2 ^ 63)
    (hacc : acc.length = size.length) (hb : ∀ x ∈ acc, |x| ≤ B) (ha : a < size.prod)
    (hw : ∀ b ∈ w, b < size.prod) :
    ∃ res, walk (Grid.new size .closed) acc a w = .ok res := by
  induction w generalizing acc a B with
  | nil => exact ⟨acc, rfl⟩
  | cons b bs ih =>
    rw [walk]
    have hb' := hw b (by simp)
    obtain ⟨j, e, h1, h2⟩ := getJump_closed h hs ha hb'
    rw [e, Res.ok_bind]
    have hlen := hacc.trans h1.1.symm
    have key : ∀ (k : Nat) (x y : Int), acc[k]? = some x → j[k]? = some y →
        |x + y| ≤ B + 2 ^ 31 := by
      intro k x y hx hy
      have b1 := hb x (List.mem_of_getElem? hx)
      have hk : k < size.length := by
        have := (List.getElem?_eq_some_iff.1 hx).1; omega
      have hsz := List.getElem?_eq_getElem hk
      have b2 := allCentered_getElem h2 hy hsz
      have b3 := hs _ (List.mem_of_getElem? hsz)
      unfold Centered at b2
      rw [abs_le] at b1 ⊢
      omega
    have hsum : sumInto acc j = .ok (zop (· + ·) acc j) := by
      apply transformInto_eq hlen
      intro k x y hx hy
      have := key k x y hx hy
      rw [abs_le] at this
      rw [List.length_cons] at hB
      exact long_ok (by comega)
    rw [hsum, Res.ok_bind]
    refine ih (B + 2 ^ 31) (by rw [List.length_cons] at hB; omega)
      (by rw [zop_length _ hlen]; exact hacc) ?_ hb' (fun t ht => hw t (by simp [ht]))
    intro x hx
    obtain ⟨k, hk, rfl⟩ := List.getElem_of_mem hx
    have hk' : k < acc.length := by rw [zop_length _ hlen] at hk; exact hk
    have e1 := List.getElem?_eq_getElem hk'
    have e2 := List.getElem?_eq_getElem (hlen ▸ hk')
    have e3 := zop_getElem (· + ·) e1 e2
    rw [List.getElem?_eq_getElem hk] at e3
    have := key k _ _ e1 e2
    rw [Option.some.injEq] at e3
    rw [e3]
    exact_mod_cast this

/-- C12: walks of fewer than 2^32 steps never overflow, so `C12_winding` applies to all of them. -/
theorem C12_no_overflow (size : List Nat) (h : Representable size) (hs : ∀ s ∈ size, s < 2 ^ 32)
    (a : Nat) (w : List Nat) (ha : a < size.prod) (hw : ∀ b ∈ w, b < size.prod)
    (hlen : w.length < 2 ^ 32) :
    ∃ res, walk (Grid.new size .closed) (List.replicate size.length 0) a w = .ok res := by
  apply walk_bounded h hs 0 (by omega) (by simp) _ ha hw
  intro x hx
  rw [List.mem_replicate] at hx
  simp [hx.2]

/-- A walk once around the ring of 3 sites has winding number 1. -/
example : walk (Grid.new [3] .closed) [0] 0 [1, 2, 0] = .ok [3] ∧
    Lat.getWinding (Grid.new [3] .closed) [3] = .ok [1] := by decide +kernel

end Bwsl
