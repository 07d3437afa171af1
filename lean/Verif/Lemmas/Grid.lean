import Verif.Model.Grid
import Verif.Spec.Grid
import Mathlib.Tactic.Linarith
import Mathlib.Tactic.Ring

/-! Lemmas about index/coordinate conversion. -/

namespace Bwsl
open Spec

theorem foldl_umul (v : List Nat) (acc : Nat) :
    v.foldl umul acc % W64 = (acc * v.prod) % W64 ∧ (acc < W64 → v.foldl umul acc < W64) := by
  induction v generalizing acc with
  | nil => simp
  | cons a v ih =>
    refine ⟨?_, fun h => (ih _).2 (Nat.mod_lt _ (by omega))⟩
    rw [List.foldl_cons, (ih _).1, List.prod_cons, umul, ← mul_assoc, Nat.mul_mod, Nat.mod_mod,
      ← Nat.mul_mod]

theorem accumulateProduct_eq (v : List Nat) : accumulateProduct v = v.prod % W64 := by
  have h := foldl_umul v 1
  unfold accumulateProduct
  rw [← Nat.mod_eq_of_lt (h.2 (by omega)), h.1, one_mul]

theorem foldl_uadd (v : List Nat) (acc : Nat) :
    v.foldl uadd acc % W64 = (acc + v.sum) % W64 ∧ (acc < W64 → v.foldl uadd acc < W64) := by
  induction v generalizing acc with
  | nil => simp
  | cons a v ih =>
    refine ⟨?_, fun h => (ih _).2 (Nat.mod_lt _ (by omega))⟩
    rw [List.foldl_cons, (ih _).1, List.sum_cons, uadd]; omega

theorem accumulateSum_eq (v : List Nat) : accumulateSum v = v.sum % W64 := by
  have h := foldl_uadd v 0
  unfold accumulateSum
  rw [← Nat.mod_eq_of_lt (h.2 (by omega)), h.1, zero_add]

theorem accumulateProduct_rep {v : List Nat} (h : Representable v) : accumulateProduct v = v.prod := by
  rw [accumulateProduct_eq, Nat.mod_eq_of_lt]; exact h.2

theorem prod_pos {v : List Nat} (h : ∀ s ∈ v, 0 < s) : 0 < v.prod := by
  induction v with
  | nil => simp
  | cons a v ih =>
    rw [List.prod_cons]
    exact Nat.mul_pos (h a (by simp)) (ih fun s hs => h s (by simp [hs]))

/-- Success of the `index_to_array` loop. -/
theorem indexToArrayLoop_isOk (p i : Nat) (size : List Nat) :
    ((indexToArrayLoop p i size).IsOk ↔ size = [] ∨ ((∀ s ∈ size, 0 < s) ∧ size.prod ≤ p)) ∧
    ((indexToArrayLoop p i size).IsOk ∨ indexToArrayLoop p i size = .ub .divByZero) := by
  induction size generalizing p i with
  | nil => simp [indexToArrayLoop]
  | cons s ss ih =>
    rw [indexToArrayLoop]
    by_cases hs : s = 0
    · subst hs; simp [udiv]
    by_cases hp : p / s = 0
    · have hlt : p < s := by
        rcases Nat.div_eq_zero_iff.1 hp with h | h <;> omega
      simp only [udiv, if_neg hs, Res.ok_bind, hp, if_true, Res.ub_bind, Res.not_isOk_ub, or_true,
        and_true, false_iff, List.mem_cons, List.cons_ne_nil, false_or, not_and, not_le]
      intro hpos
      have h1 : 0 < ss.prod := prod_pos (fun x hx => hpos x (Or.inr hx))
      rw [List.prod_cons]
      calc p < s * 1 := by omega
        _ ≤ s * ss.prod := Nat.mul_le_mul_left _ h1
    · obtain ⟨ih1, ih2⟩ := ih (p / s) (i % (p / s))
      simp only [udiv, umod, if_neg hs, if_neg hp, Res.ok_bind]
      have key : (do let rest ← indexToArrayLoop (p / s) (i % (p / s)) ss
                     Res.ok (toLong (i / (p / s)) :: rest)).IsOk ↔
          (indexToArrayLoop (p / s) (i % (p / s)) ss).IsOk := by
        cases indexToArrayLoop (p / s) (i % (p / s)) ss <;> simp [Res.IsOk]
      refine ⟨?_, ?_⟩
      · rw [key, ih1]
        simp only [List.mem_cons, List.cons_ne_nil, false_or, forall_eq_or_imp, List.prod_cons]
        rw [Nat.le_div_iff_mul_le (by omega), mul_comm ss.prod s]
        constructor
        · rintro (h | ⟨h1, h2⟩)
          · subst h
            refine ⟨⟨by omega, by simp⟩, ?_⟩
            have : 1 ≤ p / s := Nat.one_le_iff_ne_zero.2 hp
            rw [Nat.le_div_iff_mul_le (by omega)] at this
            simpa using this
          · exact ⟨⟨by omega, h1⟩, h2⟩
        · rintro ⟨⟨_, h1⟩, h2⟩; exact Or.inr ⟨h1, h2⟩
      · rw [key]
        rcases ih2 with h | h
        · exact Or.inl h
        · right; rw [h]; rfl

/-- The digits of an index in the mixed radix `size`. -/
def digits (i : Nat) : List Nat → List Nat
  | [] => []
  | _ :: ss => i / ss.prod :: digits (i % ss.prod) ss

@[simp] theorem digits_length (i : Nat) (size : List Nat) : (digits i size).length = size.length := by
  induction size generalizing i with
  | nil => rfl
  | cons s ss ih => simp [digits, ih]

theorem indexToArrayLoop_eq (i : Nat) (size : List Nat) (h : ∀ s ∈ size, 0 < s) :
    indexToArrayLoop size.prod i size = .ok ((digits i size).map toLong) := by
  induction size generalizing i with
  | nil => rfl
  | cons s ss ih =>
    have hs : s ≠ 0 := by have := h s (by simp); omega
    have hss : ∀ x ∈ ss, 0 < x := fun x hx => h x (by simp [hx])
    have hp : ss.prod ≠ 0 := by have := prod_pos hss; omega
    rw [indexToArrayLoop, List.prod_cons]
    simp only [udiv, umod, if_neg hs, Res.ok_bind, Nat.mul_div_cancel_left _ (Nat.pos_of_ne_zero hs),
      if_neg hp, ih _ hss, digits, List.map_cons]

theorem indexToArray_eq {size : List Nat} (h : Representable size) (i : Nat) :
    indexToArray i size = .ok ((digits i size).map toLong) := by
  rw [indexToArray, accumulateProduct_rep h, indexToArrayLoop_eq i size h.1]

theorem toSize_add_mul (idx p : Nat) (a r : Int) :
    toSize ((uadd idx (umul p (toSize a)) : Nat) + r) = toSize (idx + a * p + r) := by
  unfold toSize uadd umul
  congr 1
  push_cast
  rw [Int.toNat_of_nonneg (Int.emod_nonneg _ (by omega))]
  have : ((p : Int) * (a % Z64)) % Z64 = (a * p) % Z64 := by
    rw [mul_comm a, Int.mul_emod, Int.emod_emod_of_dvd _ (dvd_refl _), ← Int.mul_emod]
  omega

theorem uadd_lt (a b : Nat) : uadd a b < W64 := Nat.mod_lt _ (by omega)

theorem arrayToIndexLoop_eq (idx : Nat) (hidx : idx < W64) (a : List Int) (size : List Nat)
    (hlen : a.length = size.length) (h : ∀ s ∈ size, 0 < s) :
    arrayToIndexLoop idx size.prod a size = .ok (toSize (idx + rowMajor a size)) := by
  induction size generalizing idx a with
  | nil =>
    cases a with
    | nil => simp [arrayToIndexLoop, rowMajor, toSize_natCast hidx]
    | cons _ _ => simp at hlen
  | cons s ss ih =>
    cases a with
    | nil => simp at hlen
    | cons a as =>
      have hs : s ≠ 0 := by have := h s (by simp); omega
      have hss : ∀ x ∈ ss, 0 < x := fun x hx => h x (by simp [hx])
      rw [arrayToIndexLoop, List.prod_cons]
      simp only [udiv, if_neg hs, Res.ok_bind, Nat.mul_div_cancel_left _ (Nat.pos_of_ne_zero hs)]
      rw [ih _ (uadd_lt _ _) as (by simpa using hlen) hss, toSize_add_mul, rowMajor]
      congr 2; ring

theorem arrayToIndex_eq {size : List Nat} (h : Representable size) (a : List Int)
    (hlen : a.length = size.length) :
    arrayToIndex a size = .ok (toSize (rowMajor a size)) := by
  rw [arrayToIndex, if_pos hlen, accumulateProduct_rep h,
    arrayToIndexLoop_eq 0 (by omega) a size hlen h.1]; simp

theorem onGrid_length {c : List Int} {size : List Nat} (h : OnGrid c size) : c.length = size.length :=
  List.Forall₂.length_eq h

theorem rowMajor_bounds {c : List Int} {size : List Nat} (h : OnGrid c size) :
    0 ≤ rowMajor c size ∧ rowMajor c size < (size.prod : Nat) := by
  induction h with
  | nil => simp [rowMajor]
  | @cons x s xs ss hx hxs ih =>
    rw [rowMajor, List.prod_cons]
    obtain ⟨h0, h1⟩ := hx
    push_cast at ih ⊢
    constructor
    · have := mul_nonneg h0 (Int.natCast_nonneg ss.prod); omega
    · have : (x + 1) * (ss.prod : Int) ≤ s * ss.prod :=
        mul_le_mul_of_nonneg_right (by omega) (Int.natCast_nonneg _)
      linarith [ih.2]

theorem digits_onGrid {i : Nat} {size : List Nat} (h : ∀ s ∈ size, 0 < s) (hi : i < size.prod) :
    OnGrid ((digits i size).map (Nat.cast : Nat → Int)) size := by
  induction size generalizing i with
  | nil => exact List.Forall₂.nil
  | cons s ss ih =>
    have hss : ∀ x ∈ ss, 0 < x := fun x hx => h x (by simp [hx])
    rw [digits, List.map_cons]
    refine List.Forall₂.cons ⟨Int.natCast_nonneg _, ?_⟩ (ih hss (Nat.mod_lt _ (prod_pos hss)))
    have : i / ss.prod < s := by
      rw [Nat.div_lt_iff_lt_mul (prod_pos hss)]; simpa using hi
    exact_mod_cast this

theorem rowMajor_digits (i : Nat) (size : List Nat) (h : ∀ s ∈ size, 0 < s) (hi : i < size.prod) :
    rowMajor ((digits i size).map (Nat.cast : Nat → Int)) size = i := by
  induction size generalizing i with
  | nil => simp at hi; simp [digits, rowMajor, hi]
  | cons s ss ih =>
    have hss : ∀ x ∈ ss, 0 < x := fun x hx => h x (by simp [hx])
    rw [digits, List.map_cons, rowMajor, ih _ hss (Nat.mod_lt _ (prod_pos hss))]
    have := Nat.div_add_mod i ss.prod
    have h2 : ((ss.prod * (i / ss.prod) + i % ss.prod : Nat) : Int) = i := by rw [this]
    push_cast at h2 ⊢
    linarith [mul_comm (ss.prod : Int) (i / ss.prod)]

/-- Reduction modulo 2^64 of one coordinate does not change the offset modulo 2^64. -/
theorem rowMajor_map_mod (c : List Nat) (size : List Nat) (hc : ∀ x ∈ c, x < W64) :
    (rowMajor (c.map toLong) size - rowMajor (c.map (Nat.cast : Nat → Int)) size) % Z64 = 0 := by
  induction c generalizing size with
  | nil => simp [rowMajor]
  | cons x xs ih =>
    cases size with
    | nil => simp [rowMajor]
    | cons s ss =>
      simp only [List.map_cons, rowMajor]
      have h1 := ih ss (fun y hy => hc y (by simp [hy]))
      have h2 : Z64 ∣ toLong x - x := by
        unfold toLong; split
        · simp
        · exact ⟨-1, by ring⟩
      have h3 : Z64 ∣ (toLong x - x) * (ss.prod : Nat) := Dvd.dvd.mul_right h2 _
      rw [sub_mul] at h3
      have h4 := Int.emod_eq_zero_of_dvd h3
      omega

theorem toSize_congr {x y : Int} (h : (x - y) % Z64 = 0) : toSize x = toSize y := by
  unfold toSize; congr 1; omega

theorem digits_lt {i : Nat} (size : List Nat) (hi : i < W64) : ∀ x ∈ digits i size, x < W64 := by
  induction size generalizing i with
  | nil => simp [digits]
  | cons s ss ih =>
    intro x hx
    rw [digits, List.mem_cons] at hx
    rcases hx with rfl | hx
    · exact lt_of_le_of_lt (Nat.div_le_self _ _) hi
    · exact ih (lt_of_le_of_lt (Nat.mod_le _ _) hi) x hx

theorem map_toLong_eq {c : List Nat} {size : List Nat} (hf : FitsLong size)
    (h : OnGrid (c.map (Nat.cast : Nat → Int)) size) :
    c.map toLong = c.map (Nat.cast : Nat → Int) := by
  induction c generalizing size with
  | nil => simp only [List.map_nil]
  | cons x xs ih =>
    cases h with
    | @cons _ s _ ss hx hxs =>
      have h1 : s ≤ 2 ^ 63 := hf s (by simp)
      simp only [List.map_cons]
      rw [ih (fun y hy => hf y (by simp [hy])) hxs, toLong_of_lt (by omega)]

/-- Offset determines on-grid coordinates. -/
theorem rowMajor_inj {c c' : List Int} {size : List Nat} (h : OnGrid c size) (h' : OnGrid c' size)
    (e : rowMajor c size = rowMajor c' size) : c = c' := by
  induction h generalizing c' with
  | nil => cases h'; rfl
  | @cons x s xs ss hx hxs ih =>
    cases h' with
    | @cons x' _ xs' _ hx' hxs' =>
      rw [rowMajor, rowMajor] at e
      have b := rowMajor_bounds hxs
      have b' := rowMajor_bounds hxs'
      have hP : 0 < ((ss.prod : Nat) : Int) := by omega
      generalize ((ss.prod : Nat) : Int) = P at *
      have hxx : x = x' := by
        have e1 : (x * P + rowMajor xs ss) / P = x := by
          rw [add_comm, Int.add_mul_ediv_right _ _ (by omega), Int.ediv_eq_zero_of_lt b.1 b.2, zero_add]
        have e2 : (x' * P + rowMajor xs' ss) / P = x' := by
          rw [add_comm, Int.add_mul_ediv_right _ _ (by omega), Int.ediv_eq_zero_of_lt b'.1 b'.2, zero_add]
        rw [← e1, e, e2]
      subst hxx
      rw [ih hxs' (by omega)]

end Bwsl
