import Verif.Model.StdMap
import Mathlib.Order.Basic

/-! Facts about maps with increasing keys. -/

namespace Bwsl.StdMap

variable {ι α : Type} [LinearOrder ι]

/-- The keys, in the order of iteration. -/
def keys (m : StdMap ι α) : List ι := m.map Prod.fst

/-- The keys increase. -/
def Sorted (m : StdMap ι α) : Prop := (keys m).Pairwise (· < ·)

theorem sorted_nil : Sorted ([] : StdMap ι α) := List.Pairwise.nil

theorem sorted_cons {k : ι} {v : α} {m : StdMap ι α} :
    Sorted ((k, v) :: m) ↔ (∀ j ∈ keys m, k < j) ∧ Sorted m := List.pairwise_cons

theorem mem_keys {m : StdMap ι α} {k : ι} : k ∈ keys m ↔ (find k m).isSome := by
  induction m with
  | nil => simp [keys, find]
  | cons p m ih =>
    obtain ⟨j, v⟩ := p
    simp only [keys, List.map_cons, List.mem_cons] at ih ⊢
    unfold find
    by_cases h : k = j
    · simp [h]
    · rw [if_neg h, ← ih]; simp [h]

theorem find_none {m : StdMap ι α} {k : ι} : find k m = none ↔ k ∉ keys m := by
  rw [mem_keys]; cases find k m <;> simp

theorem mem_of_find {m : StdMap ι α} {k : ι} {v : α} (h : find k m = some v) : (k, v) ∈ m := by
  induction m with
  | nil => simp [find] at h
  | cons p m ih =>
    obtain ⟨j, w⟩ := p
    unfold find at h
    by_cases hk : k = j
    · rw [if_pos hk] at h; simp only [Option.some.injEq] at h; subst hk h; exact List.mem_cons_self
    · rw [if_neg hk] at h; exact List.mem_cons_of_mem _ (ih h)

theorem find_of_mem {m : StdMap ι α} (hs : Sorted m) {k : ι} {v : α} (h : (k, v) ∈ m) : find k m = some v := by
  induction m with
  | nil => simp at h
  | cons p m ih =>
    obtain ⟨j, w⟩ := p
    rw [sorted_cons] at hs
    unfold find
    rcases List.mem_cons.1 h with h | h
    · simp only [Prod.mk.injEq] at h; rw [if_pos h.1, h.2]
    · have : k ∈ keys m := List.mem_map.2 ⟨(k, v), h, rfl⟩
      rw [if_neg (hs.1 k this).ne']
      exact ih hs.2 h

theorem tryEmplace_known {m : StdMap ι α} (hs : Sorted m) {k : ι} (h : k ∈ keys m) (v : α) :
    tryEmplace k v m = m := by
  induction m with
  | nil => simp [keys] at h
  | cons p m ih =>
    obtain ⟨j, w⟩ := p
    rw [sorted_cons] at hs
    unfold tryEmplace
    rcases List.mem_cons.1 h with h | h
    · simp only at h; rw [if_neg (by simp [h]), if_neg (by simp [h])]
    · have := hs.1 k h
      rw [if_neg this.not_gt, if_pos this, ih hs.2 h]

theorem mem_keys_tryEmplace {m : StdMap ι α} {k : ι} {v : α} {j : ι} :
    j ∈ keys (tryEmplace k v m) ↔ j = k ∨ j ∈ keys m := by
  induction m with
  | nil => simp [tryEmplace, keys]
  | cons p m ih =>
    obtain ⟨i, w⟩ := p
    unfold tryEmplace
    split
    · simp [keys]
    · split
      · simp only [keys, List.map_cons, List.mem_cons] at ih ⊢
        rw [ih]; constructor <;> rintro (h | h | h) <;> simp [h]
      · have : k = i := le_antisymm (not_lt.1 ‹_›) (not_lt.1 ‹_›)
        simp [keys, this]

theorem sorted_tryEmplace {m : StdMap ι α} (hs : Sorted m) (k : ι) (v : α) : Sorted (tryEmplace k v m) := by
  induction m with
  | nil => simp [tryEmplace, Sorted, keys]
  | cons p m ih =>
    obtain ⟨i, w⟩ := p
    rw [sorted_cons] at hs
    unfold tryEmplace
    split
    · rw [sorted_cons, sorted_cons]
      refine ⟨fun j hj => ?_, hs⟩
      rcases List.mem_cons.1 hj with h | h
      · simp only at h; rw [h]; assumption
      · exact lt_trans ‹k < i› (hs.1 j h)
    · split
      · rw [sorted_cons]
        refine ⟨fun j hj => ?_, ih hs.2⟩
        rcases mem_keys_tryEmplace.1 hj with h | h
        · rw [h]; assumption
        · exact hs.1 j h
      · rw [sorted_cons]; exact hs

theorem find_tryEmplace_new {m : StdMap ι α} {k : ι} (h : k ∉ keys m) (j : ι) (v : α) :
    find j (tryEmplace k v m) = if j = k then some v else find j m := by
  induction m with
  | nil => simp only [tryEmplace, find]
  | cons p m ih =>
    obtain ⟨i, w⟩ := p
    simp only [keys, List.map_cons, List.mem_cons, not_or] at h
    rw [tryEmplace]
    split
    · rfl
    · split
      · rw [find, ih h.2, find]
        by_cases hj : j = i
        · rw [if_pos hj, if_pos hj, if_neg (by rw [hj]; exact fun e => h.1 e.symm)]
        · rw [if_neg hj, if_neg hj]
      · exact absurd (le_antisymm (not_lt.1 ‹_›) (not_lt.1 ‹_›)) h.1

theorem find_tryEmplace {m : StdMap ι α} (hs : Sorted m) (k j : ι) (v : α) :
    find j (tryEmplace k v m) = if j = k then some ((find k m).getD v) else find j m := by
  by_cases h : k ∈ keys m
  · rw [tryEmplace_known hs h]
    split
    · next e => rw [e]; rw [mem_keys] at h; obtain ⟨w, hw⟩ := Option.isSome_iff_exists.1 h; rw [hw]; rfl
    · rfl
  · rw [find_tryEmplace_new h, find_none.2 h]; rfl

theorem keys_modify (k : ι) (f : α → α) (m : StdMap ι α) : keys (modify k f m) = keys m := by
  induction m with
  | nil => rfl
  | cons p m ih =>
    obtain ⟨i, w⟩ := p
    unfold modify
    split
    · rfl
    · simp only [keys, List.map_cons] at ih ⊢; rw [ih]

theorem find_modify (k j : ι) (f : α → α) (m : StdMap ι α) :
    find j (modify k f m) = if j = k then (find k m).map f else find j m := by
  induction m with
  | nil => simp [modify, find]
  | cons p m ih =>
    obtain ⟨i, w⟩ := p
    unfold modify
    by_cases hk : k = i
    · subst hk
      rw [if_pos rfl]
      simp only [find, if_true]
      by_cases hj : j = k
      · simp [hj]
      · simp [hj]
    · rw [if_neg hk]
      simp only [find, if_neg hk]
      by_cases hj : j = i
      · subst hj; rw [if_pos rfl, if_pos rfl, if_neg (Ne.symm hk)]
      · rw [if_neg hj, if_neg hj, ih]

omit [LinearOrder ι] in
theorem keys_mapValues (f : α → β) (m : StdMap ι α) : keys (m.map (fun p => (p.1, f p.2))) = keys m := by
  simp [keys, Function.comp_def]

theorem find_mapValues (f : α → β) (k : ι) (m : StdMap ι α) :
    find k (m.map (fun p => (p.1, f p.2))) = (find k m).map f := by
  induction m with
  | nil => rfl
  | cons p m ih =>
    obtain ⟨i, w⟩ := p
    simp only [List.map_cons, find]
    split
    · rfl
    · exact ih

/-- A map with increasing keys is determined by its keys and values. -/
theorem eq_map_keys {m : StdMap ι α} (hs : Sorted m) (f : ι → α) (h : ∀ k ∈ keys m, find k m = some (f k)) :
    m = (keys m).map (fun k => (k, f k)) := by
  have : ∀ p ∈ m, p = (p.1, f p.1) := by
    intro p hp
    have h1 := find_of_mem hs (k := p.1) (v := p.2) hp
    rw [h p.1 (List.mem_map.2 ⟨p, hp, rfl⟩)] at h1
    simp only [Option.some.injEq] at h1
    rw [h1]
  unfold keys
  rw [List.map_map]
  exact (List.map_id m).symm.trans (List.map_congr_left (fun p hp => this p hp))

omit α in
theorem sorted_ext {l1 l2 : List ι} (h1 : l1.Pairwise (· < ·)) (h2 : l2.Pairwise (· < ·))
    (h : ∀ x, x ∈ l1 ↔ x ∈ l2) : l1 = l2 := by
  induction l1 generalizing l2 with
  | nil =>
    cases l2 with
    | nil => rfl
    | cons y l2 => exact absurd ((h y).2 List.mem_cons_self) (by simp)
  | cons x l1 ih =>
    cases l2 with
    | nil => exact absurd ((h x).1 List.mem_cons_self) (by simp)
    | cons y l2 =>
      rw [List.pairwise_cons] at h1 h2
      have hxy : x = y := by
        rcases List.mem_cons.1 ((h x).1 List.mem_cons_self) with e | e
        · exact e
        · rcases List.mem_cons.1 ((h y).2 List.mem_cons_self) with e' | e'
          · exact e'.symm
          · exact absurd (h1.1 y e') (h2.1 x e).not_gt
      subst hxy
      congr 1
      refine ih h1.2 h2.2 (fun z => ?_)
      have := h z
      simp only [List.mem_cons] at this
      constructor
      · intro hz
        rcases this.1 (Or.inr hz) with e | e
        · exact absurd (h1.1 z hz) (by simp [e])
        · exact e
      · intro hz
        rcases this.2 (Or.inr hz) with e | e
        · exact absurd (h2.1 z hz) (by simp [e])
        · exact e

/-- Inserting the elements of a map in order rebuilds it. -/
theorem foldl_tryEmplace {m : StdMap ι α} (hs : Sorted m) :
    m.foldl (fun m p => tryEmplace p.1 p.2 m) [] = m := by
  have append : ∀ (m : StdMap ι α) (k : ι) (v : α), (∀ j ∈ keys m, j < k) → tryEmplace k v m = m ++ [(k, v)] := by
    intro m k v h
    induction m with
    | nil => rfl
    | cons p m ih =>
      obtain ⟨i, w⟩ := p
      have hi : i < k := h i List.mem_cons_self
      unfold tryEmplace
      rw [if_neg hi.not_gt, if_pos hi, ih (fun j hj => h j (List.mem_cons_of_mem _ hj))]
      rfl
  have gen : ∀ (m l : StdMap ι α), Sorted (l ++ m) →
      m.foldl (fun m p => tryEmplace p.1 p.2 m) l = l ++ m := by
    intro m
    induction m with
    | nil => intro l _; simp
    | cons p m ih =>
      obtain ⟨i, w⟩ := p
      intro l hl
      rw [List.foldl_cons, append l i w, ih]
      · simp
      · simpa using hl
      · intro j hj
        unfold Sorted keys at hl
        rw [List.map_append, List.pairwise_append] at hl
        exact hl.2.2 j hj i (by simp)
  simpa using gen m [] hs

end Bwsl.StdMap
