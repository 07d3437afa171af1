import Verif.Model.Lattice

/-! Two computations that go the same way: both end alike, and their results are related. -/

namespace Bwsl

/-- Both return, with related values, or both end in the same other way. -/
def RelRes (R : α → β → Prop) : Res α → Res β → Prop
  | .ok a, .ok b => R a b
  | .throws e, .throws e' => e = e'
  | .ub u, .ub u' => u = u'
  | .diverges, .diverges => True
  | _, _ => False

namespace RelRes
variable {R : α → β → Prop} {S : γ → δ → Prop}

theorem ok {a : α} {b : β} (h : R a b) : RelRes R (.ok a) (.ok b) := h

theorem bind {x : Res α} {y : Res β} {f : α → Res γ} {g : β → Res δ} (h : RelRes R x y)
    (hf : ∀ a b, x = .ok a → y = .ok b → R a b → RelRes S (f a) (g b)) : RelRes S (x >>= f) (y >>= g) := by
  cases x <;> cases y <;> first | exact False.elim h | skip
  · exact hf _ _ rfl rfl h
  · exact h
  · exact h
  · trivial

theorem mono {R' : α → β → Prop} {x : Res α} {y : Res β} (h : RelRes R x y) (hm : ∀ a b, x = .ok a → y = .ok b → R a b → R' a b) :
    RelRes R' x y := by
  cases x <;> cases y <;> first | exact False.elim h | skip
  · exact hm _ _ rfl rfl h
  · exact h
  · exact h
  · trivial

theorem refl (hR : ∀ a, R' a a) (x : Res α) : RelRes R' x x := by
  cases x
  · exact hR _
  · rfl
  · rfl
  · trivial

theorem eq {x y : Res α} : RelRes Eq x y ↔ x = y := by
  constructor
  · intro h
    cases x <;> cases y <;> first | exact False.elim h | skip
    · exact congrArg _ h
    · exact congrArg _ h
    · exact congrArg _ h
    · rfl
  · rintro rfl; exact refl (fun _ => rfl) x

theorem right {x : Res α} {b : β} (h : RelRes R x (.ok b)) : ∃ a, x = .ok a ∧ R a b := by
  cases x <;> first | exact False.elim h | skip
  exact ⟨_, rfl, h⟩

theorem left {a : α} {y : Res β} (h : RelRes R (.ok a) y) : ∃ b, y = .ok b ∧ R a b := by
  cases y <;> first | exact False.elim h | skip
  exact ⟨_, rfl, h⟩

end RelRes

variable {R : α → β → Prop}

theorem rel_mapRange {f : Nat → Res α} {g : Nat → Res β} (n : Nat) (h : ∀ i, i < n → RelRes R (f i) (g i)) :
    RelRes (List.Forall₂ R) (mapRange n f) (mapRange n g) := by
  have key : ∀ n k, (∀ i, k ≤ i → i < k + n → RelRes R (f i) (g i)) →
      RelRes (List.Forall₂ R) (mapRangeFrom f k n) (mapRangeFrom g k n) := by
    intro n
    induction n with
    | zero => intro k _; exact RelRes.ok List.Forall₂.nil
    | succ n ih =>
      intro k h
      refine RelRes.bind (h k le_rfl (by omega)) fun a b _ _ hab => ?_
      refine RelRes.bind (ih (k + 1) fun i h1 h2 => h i (by omega) (by omega)) fun as bs _ _ habs => ?_
      exact RelRes.ok (.cons hab habs)
  exact key n 0 fun i _ hi => h i (by omega)

theorem rel_foldRange {f : α → Nat → Res α} {g : β → Nat → Res β} (n : Nat)
    (h : ∀ i a b, i < n → R a b → RelRes R (f a i) (g b i)) {a : α} {b : β} (hab : R a b) :
    RelRes R (foldRange n f a) (foldRange n g b) := by
  have key : ∀ n k a b, R a b → (∀ i a b, k ≤ i → i < k + n → R a b → RelRes R (f a i) (g b i)) →
      RelRes R (foldRangeFrom f a k n) (foldRangeFrom g b k n) := by
    intro n
    induction n with
    | zero => intro k a b hab _; exact hab
    | succ n ih =>
      intro k a b hab h
      exact RelRes.bind (h k a b le_rfl (by omega) hab) fun a b _ _ hab =>
        ih (k + 1) a b hab fun i a b h1 h2 => h i a b (by omega) (by omega)
  exact key n 0 a b hab fun i a b _ hi => h i a b (by omega)

theorem rel_subscript {v : List α} {w : List β} (h : List.Forall₂ R v w) (i : Nat) : RelRes R (subscript v i) (subscript w i) := by
  induction h generalizing i with
  | nil => rfl
  | cons h _ ih =>
    cases i with
    | zero => exact h
    | succ i => exact ih i

/-- Sums of `n` terms, with a relation for each number of terms. -/
theorem rel_accumulate {F F' : Type} [CxxFloat F] [CxxFloat F'] {f : Nat → Res F} {g : Nat → Res F'} (n : Nat)
    (Q : Nat → F → F' → Prop) (h0 : Q 0 CxxFloat.zero CxxFloat.zero) {R : F → F' → Prop}
    (h : ∀ j, j < n → RelRes R (f j) (g j))
    (ha : ∀ j a b x y, j < n → Q j a b → R x y → Q (j + 1) (a + x) (b + y)) :
    RelRes (Q n) (accumulate n f) (accumulate n g) := by
  have key : ∀ m k a b, k + m = n → Q k a b → RelRes (Q n) (accumulateFrom f a k m) (accumulateFrom g b k m) := by
    intro m
    induction m with
    | zero => intro k a b hk hab; obtain rfl : k = n := by omega
              exact hab
    | succ m ih =>
      intro k a b hk hab
      exact RelRes.bind (h k (by omega)) fun x y _ _ hxy =>
        ih (k + 1) _ _ (by omega) (ha k a b x y (by omega) hab hxy)
  exact key n 0 _ _ (by omega) h0

end Bwsl
