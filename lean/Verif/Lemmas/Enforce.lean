import Verif.Lemmas.Grid
import Verif.Lemmas.Loop

/-! Lemmas about folding coordinates into the grid. -/

namespace Bwsl
open Spec

theorem upLoop_eq {s : Int} (hs : 0 < s) (hs2 : s < H63) (c : Int) (hc : InLong c) :
    whileLoop (fun c => decide (c < 0)) (fun c => ladd c s) c =
      .ok (if c < 0 then c % s else c) := by
  generalize hn : (-c).toNat = n
  induction n using Nat.strongRecOn generalizing c with
  | _ n ih =>
    by_cases h : c < 0
    · refine Eq.trans (whileLoop_step (s := c) (s' := c + s) (by simpa using h) (long_ok (by comega))) ?_
      rw [ih _ (by omega) (c + s) (by comega) rfl, if_pos h]
      split
      · rw [Int.add_emod_right]
      · rw [← Int.add_emod_right, Int.emod_eq_of_lt (by omega) (by omega)]
    · rw [whileLoop_done (by simpa using h), if_neg h]

theorem downLoop_eq {s : Int} (hs : 0 < s) (c : Int) (hc : InLong c) (h0 : 0 ≤ c) :
    whileLoop (fun c => decide (s ≤ c)) (fun c => lsub c s) c = .ok (c % s) := by
  generalize hn : c.toNat = n
  induction n using Nat.strongRecOn generalizing c with
  | _ n ih =>
    by_cases h : s ≤ c
    · refine Eq.trans (whileLoop_step (s := c) (s' := c - s) (by simpa using h) (long_ok (by comega))) ?_
      rw [ih _ (by omega) (c - s) (by comega) (by omega) rfl, Int.sub_emod_right]
    · rw [whileLoop_done (by simpa using h), Int.emod_eq_of_lt h0 (by omega)]

theorem emod_inLong {s : Int} (hs : 0 < s) (hs2 : s < H63) (c : Int) : InLong (c % s) := by
  have h1 := Int.emod_nonneg c (by omega : s ≠ 0)
  have h2 := Int.emod_lt_of_pos c hs
  comega

theorem enforceOne_eq {s : Int} (hs : 0 < s) (hs2 : s < H63) (c : Int) (hc : InLong c) :
    Grid.enforceOne s c = .ok (c % s) := by
  rw [Grid.enforceOne, upLoop_eq hs hs2 c hc, Res.ok_bind]
  split
  · rw [downLoop_eq hs _ (emod_inLong hs hs2 c) (Int.emod_nonneg c (by omega)),
      Int.emod_emod_of_dvd _ (dvd_refl s)]
  · rw [downLoop_eq hs _ hc (by omega)]

theorem enforceOne_zero (c : Int) (hc : InLong c) : Grid.enforceOne 0 c = .diverges := by
  rw [Grid.enforceOne]
  by_cases h : c < 0
  · rw [whileLoop_diverges (fun x => x = c) (by rintro _ rfl; simpa using h)
      (by rintro _ rfl; exact ⟨_, long_ok (by comega), by omega⟩) c rfl]
    rfl
  · rw [whileLoop_done (by simpa using h), Res.ok_bind]
    exact whileLoop_diverges (fun x => x = c) (by rintro _ rfl; simpa using h)
      (by rintro _ rfl; exact ⟨_, long_ok (by comega), by omega⟩) c rfl

theorem upLoop_neg {s : Int} (hs : s < 0) (c : Int) (hc : InLong c) (h : c < 0) :
    whileLoop (fun c => decide (c < 0)) (fun c => ladd c s) c = .ub .signedOverflow := by
  generalize hn : (c + H63).toNat = n
  induction n using Nat.strongRecOn generalizing c with
  | _ n ih =>
    by_cases h2 : InLong (c + s)
    · refine Eq.trans (whileLoop_step (s := c) (s' := c + s) (by simpa using h) (long_ok h2)) ?_
      rw [ih _ (by comega) (c + s) h2 (by omega) rfl]
    · exact whileLoop_ub (by simpa using h) (if_neg h2)

theorem downLoop_neg {s : Int} (hs : s < 0) (c : Int) (hc : InLong c) (h : 0 ≤ c) :
    whileLoop (fun c => decide (s ≤ c)) (fun c => lsub c s) c = .ub .signedOverflow := by
  generalize hn : (H63 - c).toNat = n
  induction n using Nat.strongRecOn generalizing c with
  | _ n ih =>
    have hd : decide (s ≤ c) = true := by simp; omega
    by_cases h2 : InLong (c - s)
    · refine Eq.trans (whileLoop_step (s := c) (s' := c - s) hd (long_ok h2)) ?_
      rw [ih _ (by comega) (c - s) h2 (by omega) rfl]
    · exact whileLoop_ub hd (if_neg h2)

theorem enforceOne_neg {s : Int} (hs : s < 0) (c : Int) (hc : InLong c) :
    Grid.enforceOne s c = .ub .signedOverflow := by
  rw [Grid.enforceOne]
  by_cases h : c < 0
  · rw [upLoop_neg hs c hc h, Res.ub_bind]
  · rw [whileLoop_done (by simpa using h), Res.ok_bind, downLoop_neg hs c hc (by omega)]

/-- Every extent is positive and below 2^63. -/
abbrev Small (size : List Nat) : Prop := ∀ s ∈ size, 0 < s ∧ s < 2 ^ 63

abbrev Longs (c : List Int) : Prop := ∀ x ∈ c, InLong x

/-- Component-wise remainder. -/
def wrap : List Nat → List Int → List Int
  | s :: ss, c :: cs => c % (s : Nat) :: wrap ss cs
  | _, _ => []

theorem enforceLoop_eq {size : List Nat} (hs : Small size) {c : List Int} (hc : Longs c)
    (hlen : c.length = size.length) : Grid.enforceLoop size.length size c = .ok (wrap size c) := by
  induction size generalizing c with
  | nil => cases c <;> simp_all [Grid.enforceLoop, wrap]
  | cons s ss ih =>
    cases c with
    | nil => simp at hlen
    | cons x xs =>
      have h1 := hs s (by simp)
      rw [List.length_cons, Grid.enforceLoop, toLong_of_lt (by omega),
        enforceOne_eq (by omega) (by omega) x (hc x (by simp)), Res.ok_bind,
        ih (fun y hy => hs y (by simp [hy])) (fun y hy => hc y (by simp [hy])) (by simpa using hlen)]
      rfl

theorem wrap_onGrid {size : List Nat} (hs : ∀ s ∈ size, 0 < s) {c : List Int}
    (hlen : c.length = size.length) : OnGrid (wrap size c) size := by
  induction size generalizing c with
  | nil => exact List.Forall₂.nil
  | cons s ss ih =>
    cases c with
    | nil => simp at hlen
    | cons x xs =>
      have h1 := hs s (by simp)
      exact List.Forall₂.cons ⟨Int.emod_nonneg _ (by omega), Int.emod_lt_of_pos _ (by omega)⟩
        (ih (fun y hy => hs y (by simp [hy])) (by simpa using hlen))

theorem wrap_of_onGrid {size : List Nat} {c : List Int} (h : OnGrid c size) : wrap size c = c := by
  induction h with
  | nil => rfl
  | cons hx hxs ih => rw [wrap, ih, Int.emod_eq_of_lt hx.1 hx.2]

theorem congruent_cons {x x' : Int} {s : Nat} {xs xs' : List Int} {ss : List Nat} :
    Congruent (x :: xs) (x' :: xs') (s :: ss) ↔ ((s : Nat) : Int) ∣ x - x' ∧ Congruent xs xs' ss := by
  constructor
  · rintro ⟨h1, h2, h3⟩
    refine ⟨h3 0 x x' s rfl rfl rfl, by simpa using h1, by simpa using h2, fun k y y' t hy hy' ht => ?_⟩
    exact h3 (k + 1) y y' t (by simpa using hy) (by simpa using hy') (by simpa using ht)
  · rintro ⟨h0, h1, h2, h3⟩
    refine ⟨by simpa using h1, by simpa using h2, fun k y y' t hy hy' ht => ?_⟩
    cases k with
    | zero => simp at hy hy' ht; subst hy hy' ht; exact h0
    | succ k => exact h3 k y y' t (by simpa using hy) (by simpa using hy') (by simpa using ht)

theorem wrap_congruent {size : List Nat} {c : List Int} (hlen : c.length = size.length) :
    Congruent (wrap size c) c size := by
  induction size generalizing c with
  | nil =>
    cases c with
    | nil => exact ⟨rfl, rfl, by simp⟩
    | cons _ _ => simp at hlen
  | cons s ss ih =>
    cases c with
    | nil => simp at hlen
    | cons x xs =>
      rw [wrap, congruent_cons]
      refine ⟨?_, ih (by simpa using hlen)⟩
      exact ⟨-(x / s), by rw [Int.emod_def]; ring⟩

/-- Congruent on-grid coordinates are equal. -/
theorem congruent_onGrid_eq {size : List Nat} {c c' : List Int} (h : OnGrid c size)
    (h' : OnGrid c' size) (hc : Congruent c c' size) : c = c' := by
  induction h generalizing c' with
  | nil => cases h'; rfl
  | cons hx hxs ih =>
    cases h' with
    | cons hx' hxs' =>
      rw [congruent_cons] at hc
      have := Int.emod_eq_emod_iff_emod_sub_eq_zero.2 (Int.emod_eq_zero_of_dvd hc.1)
      rw [Int.emod_eq_of_lt hx.1 hx.2, Int.emod_eq_of_lt hx'.1 hx'.2] at this
      rw [this, ih hxs' hc.2]

end Bwsl

namespace Bwsl
open Spec

theorem congruent_symm {c c' : List Int} {size : List Nat} (h : Congruent c c' size) :
    Congruent c' c size :=
  ⟨h.2.1, h.1, fun k x x' s hx hx' hs => by
    have := h.2.2 k x' x s hx' hx hs
    rw [← neg_sub]; exact Int.dvd_neg.2 this⟩

theorem congruent_trans {c c' c'' : List Int} {size : List Nat} (h : Congruent c c' size)
    (h' : Congruent c' c'' size) : Congruent c c'' size :=
  ⟨h.1, h'.2.1, fun k x x'' s hx hx'' hs => by
    obtain ⟨x', hx'⟩ : ∃ x', c'[k]? = some x' := by
      have : k < c'.length := by
        have := (List.getElem?_eq_some_iff.1 hs).1
        rw [h.2.1]; exact this
      exact ⟨_, List.getElem?_eq_getElem this⟩
    have := Int.dvd_add (h.2.2 k x x' s hx hx' hs) (h'.2.2 k x' x'' s hx' hx'' hs)
    simpa using this⟩

theorem congruent_refl {c : List Int} {size : List Nat} (h : c.length = size.length) :
    Congruent c c size :=
  ⟨h, h, fun k x x' s hx hx' hs => by rw [hx] at hx'; cases hx'; simp⟩

theorem onGrid_longs {size : List Nat} (hs : FitsLong size) {c : List Int} (h : OnGrid c size) :
    Longs c := by
  induction h with
  | nil => intro y hy; cases hy
  | @cons x s xs ss hx hxs ih =>
    have h1 : s ≤ 2 ^ 63 := hs s (by simp)
    intro y hy
    rw [List.mem_cons] at hy
    rcases hy with rfl | hy
    · comega
    · exact ih (fun t ht => hs t (by simp [ht])) y hy

theorem small_fits {size : List Nat} (h : Small size) : FitsLong size := fun s hs => (h s hs).2.le

theorem toSize_eq (x : Int) : ((toSize x : Nat) : Int) = x % Z64 := by
  unfold toSize; omega

theorem addMixed_eq {c : Int} {s : Nat} (h : InLong (c + s)) :
    Grid.addMixed c s = c + s := by
  have := toSize_eq c
  unfold Grid.addMixed uadd toLong
  split <;> comega

theorem subMixed_eq {c : Int} {s : Nat} (hs : s ≤ W64) (h : InLong (c - s)) :
    Grid.subMixed c s = c - s := by
  have := toSize_eq c
  unfold Grid.subMixed usub toLong
  split <;> comega

theorem latEnforceOne_eq {s : Nat} (hs : 0 < s) (hs2 : s < 2 ^ 63) (c : Int) (hc : InLong c) :
    Lat.enforceOne s c = .ok (c % (s : Nat)) := by
  have hup : ∀ c, InLong c → whileLoop (fun c => decide (c < 0)) (fun c => .ok (Grid.addMixed c s)) c =
      .ok (if c < 0 then c % (s : Nat) else c) := by
    intro c hc
    generalize hn : (-c).toNat = n
    induction n using Nat.strongRecOn generalizing c with
    | _ n ih =>
      by_cases h : c < 0
      · refine Eq.trans (whileLoop_step (s := c) (s' := c + s) (by simpa using h)
          (by rw [addMixed_eq (by comega)])) ?_
        rw [ih _ (by omega) (c + s) (by comega) rfl, if_pos h]
        split
        · rw [Int.add_emod_right]
        · rw [← Int.add_emod_right, Int.emod_eq_of_lt (by omega) (by omega)]
      · rw [whileLoop_done (by simpa using h), if_neg h]
  have hdown : ∀ c, InLong c → 0 ≤ c →
      whileLoop (fun c => decide (toLong s ≤ c)) (fun c => .ok (Grid.subMixed c s)) c =
      .ok (c % (s : Nat)) := by
    intro c hc h0
    rw [toLong_of_lt (by omega)]
    generalize hn : c.toNat = n
    induction n using Nat.strongRecOn generalizing c with
    | _ n ih =>
      by_cases h : (s : Int) ≤ c
      · refine Eq.trans (whileLoop_step (s := c) (s' := c - s) (by simpa using h)
          (by rw [subMixed_eq (by omega) (by comega)])) ?_
        rw [ih _ (by omega) (c - s) (by comega) (by omega) rfl, Int.sub_emod_right]
      · rw [whileLoop_done (by simpa using h), Int.emod_eq_of_lt h0 (by omega)]
  rw [Lat.enforceOne, hup c hc, Res.ok_bind]
  have hs0 : (0 : Int) < s := by omega
  split
  · rw [hdown _ (emod_inLong hs0 (by omega) c) (Int.emod_nonneg c (by omega)),
      Int.emod_emod_of_dvd _ (dvd_refl _)]
  · rw [hdown _ hc (by omega)]

theorem latEnforce_eq {size : List Nat} (hs : Small size) {c : List Int} (hc : Longs c)
    (hlen : c.length = size.length) : Lat.enforceLoop size.length size c = .ok (wrap size c) := by
  induction size generalizing c with
  | nil => cases c <;> simp_all [Lat.enforceLoop, wrap]
  | cons s ss ih =>
    cases c with
    | nil => simp at hlen
    | cons x xs =>
      have h1 := hs s (by simp)
      rw [List.length_cons, Lat.enforceLoop, latEnforceOne_eq h1.1 h1.2 x (hc x (by simp)), Res.ok_bind,
        ih (fun y hy => hs y (by simp [hy])) (fun y hy => hc y (by simp [hy])) (by simpa using hlen)]
      rfl

/-- The folding loops succeed only if all extents are positive and below 2^63. -/
theorem enforceLoop_isOk {size : List Nat} (hs : ∀ s ∈ size, s < 2 ^ 64) {c : List Int} (hc : Longs c)
    (hlen : c.length = size.length) : (Grid.enforceLoop size.length size c).IsOk ↔ Small size := by
  induction size generalizing c with
  | nil => simp [Grid.enforceLoop, Small]
  | cons s ss ih =>
    cases c with
    | nil => simp at hlen
    | cons x xs =>
      have h1 := hs s (by simp)
      rw [List.length_cons, Grid.enforceLoop]
      have ihh := ih (fun y hy => hs y (by simp [hy])) (c := xs) (fun y hy => hc y (by simp [hy]))
        (by simpa using hlen)
      have hx := hc x (by simp)
      by_cases h0 : s = 0
      · subst h0
        have : toLong 0 = 0 := by decide
        rw [this, enforceOne_zero x hx, Res.diverges_bind]
        constructor
        · rintro ⟨_, h⟩; cases h
        · intro h; have := h 0 (by simp); omega
      by_cases h2 : s < 2 ^ 63
      · rw [toLong_of_lt (by omega), enforceOne_eq (by omega) (by omega) x hx, Res.ok_bind]
        have : (do let cs ← Grid.enforceLoop ss.length ss xs; Res.ok (x % (s : Int) :: cs)).IsOk ↔
            (Grid.enforceLoop ss.length ss xs).IsOk := by
          cases Grid.enforceLoop ss.length ss xs <;> simp [Res.IsOk]
        rw [this, ihh]
        constructor
        · intro h t ht
          rw [List.mem_cons] at ht
          rcases ht with rfl | ht
          · omega
          · exact h t ht
        · intro h t ht; exact h t (by simp [ht])
      · have h3 : toLong s < 0 := by unfold toLong; split <;> omega
        rw [enforceOne_neg h3 x hx, Res.ub_bind]
        constructor
        · intro h; simp at h
        · intro h; have := h s (by simp); omega

end Bwsl
