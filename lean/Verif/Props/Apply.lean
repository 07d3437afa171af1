import Verif.Props.AccumCount
import Verif.Props.AccumStats

/-! Property C90: `apply_accumulator` adds the elements of a range in order. -/

namespace Bwsl
open Spec

set_option linter.unusedSectionVars false

section
variable {F : Type}

/-- An `Add` that is guarded by the count. -/
theorem apply_guarded (checks : Bool) (core : σ → F → σ) (count : σ → Nat) (add : σ → F → Call σ Unit)
    (hadd : ∀ s x, add s x = guarded checks (count s) s (core s x))
    (hcount : ∀ s x, count (core s x) = succU (count s)) (xs : List F) (s : σ) (hs : count s < W64) :
    applyAccumulator add xs s =
      if checks = true ∧ W64 - 1 < count s + xs.length
      then ⟨(xs.take (W64 - 1 - count s)).foldl core s, .throws .accumulatorOverflow⟩
      else ⟨xs.foldl core s, .ok ()⟩ := by
  induction xs generalizing s with
  | nil => rw [if_neg (by simp; omega)]; rfl
  | cons x xs ih =>
    rw [applyAccumulator, hadd]
    unfold guarded
    by_cases hc : checks = true ∧ count s = W64 - 1
    · rw [if_pos hc, if_pos ⟨hc.1, by rw [List.length_cons]; omega⟩, hc.2, Nat.sub_self]
      rfl
    · rw [if_neg hc]
      simp only
      rw [ih _ (by rw [hcount]; exact Nat.mod_lt _ (by decide)), hcount, List.length_cons, List.foldl_cons]
      cases checks with
      | false => rw [if_neg (by simp), if_neg (by simp)]
      | true =>
        have h1 : count s < W64 - 1 := by
          have : count s ≠ W64 - 1 := fun h => hc ⟨rfl, h⟩
          omega
        have h2 : succU (count s) = count s + 1 := by unfold succU; omega
        rw [h2]
        have h3 : W64 - 1 - count s = W64 - 1 - (count s + 1) + 1 := by omega
        by_cases h4 : W64 - 1 < count s + (xs.length + 1)
        · rw [if_pos ⟨rfl, by omega⟩, if_pos ⟨rfl, h4⟩, h3, List.take_succ_cons, List.foldl_cons]
        · rw [if_neg (fun h => h4 (by have := h.2; omega)), if_neg (fun h => h4 h.2)]

variable [CxxFloat F]

/-- C90.  Without the checks `apply_accumulator` adds all the elements, in order: it is the same as a history of
calls of `Add`. -/
theorem C90_apply (k : Kahan F) (n : Neumaier F) (w : KnuthWelford F) (xs : List F) :
    applyAccumulator (Kahan.add false) xs k = ⟨runOps Kahan.addCore Kahan.reset k (xs.map .add), .ok ()⟩ ∧
    applyAccumulator (Neumaier.add false) xs n = ⟨runOps Neumaier.addCore Neumaier.reset n (xs.map .add), .ok ()⟩ ∧
    applyAccumulator (KnuthWelford.add false) xs w =
      ⟨runOps KnuthWelford.addCore KnuthWelford.reset w (xs.map .add), .ok ()⟩ := by
  have hrun : ∀ {σ : Type} (core : σ → F → σ) (reset : σ → σ) (xs : List F) (s : σ),
      runOps core reset s (xs.map .add) = xs.foldl core s := by
    intro σ core reset xs
    induction xs with
    | nil => intro s; rfl
    | cons x xs ih => intro s; exact ih _
  have happ : ∀ {σ : Type} (core : σ → F → σ) (add : σ → F → Call σ Unit)
      (_ : ∀ s x, add s x = ⟨core s x, .ok ()⟩) (xs : List F) (s : σ),
      applyAccumulator add xs s = ⟨xs.foldl core s, .ok ()⟩ := by
    intro σ core add h xs
    induction xs with
    | nil => intro s; rfl
    | cons x xs ih => intro s; rw [applyAccumulator, h]; exact ih _
  refine ⟨?_, ?_, ?_⟩
  · rw [hrun]
    exact happ _ _ (fun s x => by unfold Kahan.add guarded; rw [if_neg (by simp)]) xs k
  · rw [hrun]
    exact happ _ _ (fun s x => by unfold Neumaier.add guarded; rw [if_neg (by simp)]) xs n
  · rw [hrun]
    exact happ _ _ (fun s x => by unfold KnuthWelford.add guarded; rw [if_neg (by simp)]) xs w

/-- C90.  With the checks the same holds as long as the count stays in range; otherwise the elements that fit have
been added, in order, when the exception is thrown. -/
theorem C90_apply_checked (k : Kahan F) (n : Neumaier F) (w : KnuthWelford F) (xs : List F)
    (hk : k.getCount < 2 ^ 64) (hn : n.getCount < 2 ^ 64) (hw : w.getCount < 2 ^ 64) :
    (applyAccumulator (Kahan.add true) xs k =
      if k.getCount + xs.length < 2 ^ 64 then ⟨xs.foldl Kahan.addCore k, .ok ()⟩
      else ⟨(xs.take (2 ^ 64 - 1 - k.getCount)).foldl Kahan.addCore k, .throws .accumulatorOverflow⟩) ∧
    (applyAccumulator (Neumaier.add true) xs n =
      if n.getCount + xs.length < 2 ^ 64 then ⟨xs.foldl Neumaier.addCore n, .ok ()⟩
      else ⟨(xs.take (2 ^ 64 - 1 - n.getCount)).foldl Neumaier.addCore n, .throws .accumulatorOverflow⟩) ∧
    (applyAccumulator (KnuthWelford.add true) xs w =
      if w.getCount + xs.length < 2 ^ 64 then ⟨xs.foldl KnuthWelford.addCore w, .ok ()⟩
      else ⟨(xs.take (2 ^ 64 - 1 - w.getCount)).foldl KnuthWelford.addCore w, .throws .accumulatorOverflow⟩) := by
  have key : ∀ {σ : Type} (core : σ → F → σ) (count : σ → Nat) (add : σ → F → Call σ Unit)
      (_ : ∀ s x, add s x = guarded true (count s) s (core s x))
      (_ : ∀ s x, count (core s x) = succU (count s)) (s : σ) (_ : count s < W64),
      applyAccumulator add xs s = if count s + xs.length < 2 ^ 64 then ⟨xs.foldl core s, .ok ()⟩
        else ⟨(xs.take (2 ^ 64 - 1 - count s)).foldl core s, .throws .accumulatorOverflow⟩ := by
    intro σ core count add h1 h2 s h3
    rw [apply_guarded true core count add h1 h2 xs s h3]
    by_cases h : count s + xs.length < 2 ^ 64
    · rw [if_pos h, if_neg (by rintro ⟨-, h'⟩; omega)]
    · rw [if_neg h, if_pos ⟨rfl, by omega⟩, show (2 : Nat) ^ 64 = W64 from by norm_num]
  exact ⟨key Kahan.addCore Kahan.getCount _ (fun _ _ => rfl) (fun _ _ => rfl) k hk,
    key Neumaier.addCore Neumaier.getCount _ (fun _ _ => rfl) (fun _ _ => rfl) n hn,
    key KnuthWelford.addCore KnuthWelford.getCount _ (fun _ _ => rfl) (fun _ _ => rfl) w hw⟩

/-- C90.  Applying an accumulator, of any class, to two ranges one after the other is applying it to their
concatenation; if a call for the first range does not return normally, the second one is not reached. -/
theorem C90_append {σ X : Type} (add : σ → X → Call σ Unit) (s : σ) (xs ys : List X) :
    applyAccumulator add (xs ++ ys) s =
      if (applyAccumulator add xs s).res = .ok () then applyAccumulator add ys (applyAccumulator add xs s).state
      else applyAccumulator add xs s := by
  induction xs generalizing s with
  | nil => exact (if_pos rfl).symm
  | cons x xs ih =>
    rw [List.cons_append, applyAccumulator, applyAccumulator]
    cases h : (add s x).res with
    | ok u => exact ih _
    | throws e => simp only [h]; rw [if_neg (by simp)]
    | ub u => simp only [h]; rw [if_neg (by simp)]
    | diverges => simp only [h]; rw [if_neg (by simp)]

/-- `NaiveIntegerAccumulator::Add` as a call: an exception leaves the object as it was, the object after an undefined
addition means nothing. -/
def NaiveInteger.addCall (checks : Bool) (s : NaiveInteger) (x : Int) : Call NaiveInteger Unit :=
  match NaiveInteger.add checks s x with
  | .ok s' => ⟨s', .ok ()⟩
  | .throws e => ⟨s, .throws e⟩
  | .ub u => ⟨s, .ub u⟩
  | .diverges => ⟨s, .diverges⟩

/-- C90.  NaiveIntegerAccumulator: without the checks `apply_accumulator` returns exactly if the calls of `Add` do, and
leaves the same object; with the checks it leaves any range but the empty one by an exception or an undefined
multiplication at its first element (see C45). -/
theorem C90_apply_integer (s : NaiveInteger) (xs : List Int) :
    (∀ r, applyAccumulator (NaiveInteger.addCall false) xs s = ⟨r, .ok ()⟩ ↔ s.addAll xs = .ok r) ∧
    (∀ x, applyAccumulator (NaiveInteger.addCall true) (x :: xs) s = NaiveInteger.addCall true s x ∧
      (NaiveInteger.addCall true s x).res ≠ .ok ()) := by
  constructor
  · induction xs generalizing s with
    | nil => exact fun r => ⟨fun h => by cases h; rfl, fun h => by cases h; rfl⟩
    | cons x xs ih =>
      intro r
      rw [applyAccumulator, NaiveInteger.addAll]
      cases h : NaiveInteger.add false s x with
      | ok t =>
        have e : NaiveInteger.addCall false s x = ⟨t, .ok ()⟩ := by unfold NaiveInteger.addCall; rw [h]
        rw [e]; exact ih t r
      | throws e =>
        have e : NaiveInteger.addCall false s x = ⟨s, .throws e⟩ := by unfold NaiveInteger.addCall; rw [h]
        rw [e]; exact ⟨fun h => by simp at h, fun h => (nomatch h)⟩
      | ub u =>
        have e : NaiveInteger.addCall false s x = ⟨s, .ub u⟩ := by unfold NaiveInteger.addCall; rw [h]
        rw [e]; exact ⟨fun h => by simp at h, fun h => (nomatch h)⟩
      | diverges =>
        have e : NaiveInteger.addCall false s x = ⟨s, .diverges⟩ := by unfold NaiveInteger.addCall; rw [h]
        rw [e]; exact ⟨fun h => by simp at h, fun h => (nomatch h)⟩
  · intro x
    have hn : (NaiveInteger.addCall true s x).res ≠ .ok () := by
      unfold NaiveInteger.addCall
      cases h : NaiveInteger.add true s x with
      | ok t => exact absurd h ((C45_violated s x).1 t)
      | throws e => simp
      | ub u => simp
      | diverges => simp
    refine ⟨?_, hn⟩
    rw [applyAccumulator]
    cases h : (NaiveInteger.addCall true s x).res with
    | ok u => exact absurd h hn
    | throws e => rfl
    | ub u => rfl
    | diverges => rfl

example : applyAccumulator (NaiveInteger.addCall false) [1, -2, 3] NaiveInteger.new = ⟨⟨2, 14, 3⟩, .ok ()⟩ ∧
    applyAccumulator (NaiveInteger.addCall true) [1, -2, 3] NaiveInteger.new =
      ⟨NaiveInteger.new, .throws .accumulatorOverflow⟩ := ⟨rfl, rfl⟩

/-- The hypotheses of C90 hold for a full accumulator, whose `Add` throws. -/
example (x : F) : (applyAccumulator (Kahan.add true) [x, x] (⟨CxxFloat.zero, CxxFloat.zero, 2 ^ 64 - 2⟩ : Kahan F)).res =
    .throws .accumulatorOverflow := by
  rw [(C90_apply_checked _ Neumaier.new KnuthWelford.new [x, x] (by show 2 ^ 64 - 2 < 2 ^ 64; omega)
    (by show 0 < 2 ^ 64; omega) (by show 0 < 2 ^ 64; omega)).1, if_neg (by show ¬ 2 ^ 64 - 2 + 2 < 2 ^ 64; omega)]

end
end Bwsl
