import Verif.Model.Relational
import Mathlib.Order.Defs.Unbundled
import Mathlib.Tactic.Tauto
import Mathlib.Tactic.ByContra

/-! Property C60: the relational operators derived from `operator<`. -/

namespace Bwsl.Rel

theorem notOf_ok {b : Bool} : notOf (.ok b) = .ok (!b) := rfl

/-- `==` when both comparisons are defined -/
theorem eq_ok {lt : α → β → Res Bool} {tl : β → α → Res Bool} {a : α} {b : β} {P Q : Prop} [Decidable P]
    [Decidable Q] (h1 : lt a b = .ok (decide P)) (h2 : tl b a = .ok (decide Q)) :
    eq lt tl a b = .ok (decide (¬ P ∧ ¬ Q)) := by
  unfold eq
  rw [h1, h2, notOf_ok, notOf_ok, Res.ok_bind]
  by_cases hP : P <;> by_cases hQ : Q <;> simp [hP, hQ]

end Bwsl.Rel

namespace Bwsl

/-- `x` is defined and true -/
def Spec.Holds (x : Res Bool) : Prop := x = .ok true

/-- `r` is a strict weak order: irreflexive, transitive, and incomparability is transitive -/
def Spec.StrictWeakOrder (r : α → α → Prop) : Prop :=
  (∀ a, ¬ r a a) ∧ (∀ a b c, r a b → r b c → r a c) ∧
    (∀ a b c, ¬ r a b → ¬ r b a → ¬ r b c → ¬ r c b → ¬ r a c ∧ ¬ r c a)

open Spec

section
variable (lt : α → α → Res Bool) (hd : ∀ a b, ∃ t, lt a b = .ok t)
  (hw : StrictWeakOrder (fun a b => Holds (lt a b)))
include hd

theorem holds_not (a b : α) : Holds (Rel.notOf (lt a b)) ↔ ¬ Holds (lt a b) := by
  obtain ⟨t, ht⟩ := hd a b
  unfold Holds; rw [ht, Rel.notOf_ok]; cases t <;> decide

theorem holds_eq (a b : α) : Holds (Rel.eq lt lt a b) ↔ ¬ Holds (lt a b) ∧ ¬ Holds (lt b a) := by
  obtain ⟨t, ht⟩ := hd a b
  obtain ⟨u, hu⟩ := hd b a
  unfold Holds Rel.eq; rw [ht, hu, Rel.notOf_ok, Rel.notOf_ok, Res.ok_bind]
  cases t <;> cases u <;> simp

/-- C60.  All the derived operators are defined, `!=` is the negation of `==`, `>` is the converse of
`<`. -/
theorem C60_defined (a b : α) :
    (∃ t, Rel.eq lt lt a b = .ok t ∧ Rel.ne (Rel.eq lt lt) a b = .ok (!t)) ∧
    Rel.gt lt a b = lt b a ∧ (∃ t, Rel.le lt a b = .ok t) ∧ (∃ t, Rel.ge lt a b = .ok t) := by
  obtain ⟨t, ht⟩ := hd a b
  obtain ⟨u, hu⟩ := hd b a
  unfold Rel.ne Rel.eq Rel.gt Rel.le Rel.ge
  rw [ht, hu]
  cases t <;> cases u <;> exact ⟨⟨_, rfl, rfl⟩, rfl, ⟨_, rfl⟩, ⟨_, rfl⟩⟩

include hw

/-- C60.  Exactly one of `<`, `==`, `>` holds. -/
theorem C60_trichotomy (a b : α) :
    (Holds (lt a b) ∨ Holds (Rel.eq lt lt a b) ∨ Holds (Rel.gt lt a b)) ∧
    ¬ (Holds (lt a b) ∧ Holds (Rel.eq lt lt a b)) ∧ ¬ (Holds (lt a b) ∧ Holds (Rel.gt lt a b)) ∧
    ¬ (Holds (Rel.eq lt lt a b) ∧ Holds (Rel.gt lt a b)) := by
  have h : ¬ (Holds (lt a b) ∧ Holds (lt b a)) := fun h => hw.1 a (hw.2.1 a b a h.1 h.2)
  rw [holds_eq lt hd]; unfold Rel.gt; tauto

/-- C60.  `<=` is `<` or `==`; `>=` is `>` or `==`. -/
theorem C60_le_ge (a b : α) :
    (Holds (Rel.le lt a b) ↔ Holds (lt a b) ∨ Holds (Rel.eq lt lt a b)) ∧
    (Holds (Rel.ge lt a b) ↔ Holds (Rel.gt lt a b) ∨ Holds (Rel.eq lt lt a b)) := by
  have h : ¬ (Holds (lt a b) ∧ Holds (lt b a)) := fun h => hw.1 a (hw.2.1 a b a h.1 h.2)
  rw [holds_eq lt hd]; unfold Rel.le Rel.ge Rel.gt
  rw [holds_not lt hd, holds_not lt hd]; tauto

/-- C60.  `==` is an equivalence relation. -/
theorem C60_equivalence : Equivalence (fun a b => Holds (Rel.eq lt lt a b)) := by
  simp only [holds_eq lt hd]
  refine ⟨fun a => ⟨hw.1 a, hw.1 a⟩, fun h => ⟨h.2, h.1⟩, fun {a b c} h1 h2 => ?_⟩
  exact hw.2.2 a b c h1.1 h1.2 h2.1 h2.2

/-- C60.  `<` does not distinguish equal values. -/
theorem C60_compatible (a a' b b' : α) (ha : Holds (Rel.eq lt lt a a')) (hb : Holds (Rel.eq lt lt b b')) :
    Holds (lt a b) ↔ Holds (lt a' b') := by
  rw [holds_eq lt hd] at ha hb
  obtain ⟨h1, h2, h3⟩ := hw
  have key : ∀ a a' b b', ¬ Holds (lt a a') ∧ ¬ Holds (lt a' a) → ¬ Holds (lt b b') ∧ ¬ Holds (lt b' b) →
      Holds (lt a b) → Holds (lt a' b') := by
    intro a a' b b' ha hb h
    have s1 : Holds (lt a' b) := by
      by_contra hc
      by_cases hc' : Holds (lt b a')
      · exact ha.1 (h2 a b a' h hc')
      · exact (h3 a a' b ha.1 ha.2 hc hc').1 h
    by_contra hc
    by_cases hc' : Holds (lt b' a')
    · exact hb.2 (h2 b' a' b hc' s1)
    · exact (h3 a' b' b hc hc' hb.2 hb.1).1 s1
  exact ⟨key a a' b b' ha hb, key a' a b' b ⟨ha.2, ha.1⟩ ⟨hb.2, hb.1⟩⟩

end

/-- The hypotheses are met, e.g. by comparing integers by absolute value (where `==` is not `=`). -/
example : ∃ lt : Int → Int → Res Bool, (∀ a b, ∃ t, lt a b = .ok t) ∧
    StrictWeakOrder (fun a b => Holds (lt a b)) ∧ Holds (Rel.eq lt lt 3 (-3)) := by
  refine ⟨fun a b => .ok (decide (a.natAbs < b.natAbs)), fun a b => ⟨_, rfl⟩, ?_, rfl⟩
  unfold StrictWeakOrder Holds
  simp
  constructor <;> intros <;> omega

end Bwsl
