import Verif.Props.InvertedContainers

/-! Property C195: zeros in sums and ones in products. -/

namespace Bwsl
open Spec FloatFormat

set_option linter.unusedSectionVars false

section
variable {K : Type} [Field K] [LinearOrder K] [IsStrictOrderedRing K] [FloorRing K] {A : Arith K} {f : FloatFormat}

/-- A NaN, an infinity or a value of the format. -/
def Spec.Settled (f : FloatFormat) (u : Num A) : Prop := ∀ z, u = .fin z → FiniteIn f z

theorem settled_round (hA : A.IsFormat f) (x : K) : Settled f (Num.round A x) := fun z hz => by
  obtain ⟨rfl, h⟩ := round_format hA hz
  exact ⟨fl_inFormat _, h⟩

theorem settled_add (hA : A.IsFormat f) (u v : Num A) : Settled f (u + v) := fun z hz => by
  obtain ⟨a, b, rfl, rfl⟩ := Num.add_eq_fin hz
  rw [Num.fin_add] at hz
  exact settled_round hA _ z hz

theorem settled_mul (hA : A.IsFormat f) (u v : Num A) : Settled f (u * v) := fun z hz => by
  obtain ⟨a, b, rfl, rfl⟩ := mul_eq_fin_both hz
  rw [Num.fin_mul] at hz
  exact settled_round hA _ z hz

theorem add_neutral (hA : A.IsFormat f) {u : Num A} (h : Settled f u) : u + .fin 0 = u := by
  match u, h with
  | .nan, _ => rfl
  | .inf _, _ => rfl
  | .fin z, h => rw [Num.fin_add, add_zero, Num.round_of (rnd_finite hA (h z rfl))]

theorem mul_neutral (hA : A.IsFormat f) {u : Num A} (h : Settled f u) : u * .fin 1 = u := by
  match u, h with
  | .nan, _ => rfl
  | .inf n, _ =>
    have e : (.inf n * .fin 1 : Num A) = if (1 : K) = 0 then .nan else .inf (n != decide ((1 : K) < 0)) := rfl
    rw [e, if_neg one_ne_zero, decide_eq_false (not_lt.2 zero_le_one)]
    cases n <;> rfl
  | .fin z, h => rw [Num.fin_mul, mul_one, Num.round_of (rnd_finite hA (h z rfl))]

theorem fold_settled {op : Num A → Num A → Num A} (ho : ∀ u v, Settled f (op u v)) (xs : List (Num A)) {a : Num A} (ha : Settled f a) :
    Settled f (xs.foldl (fun acc x => op acc x) a) := by
  induction xs generalizing a with
  | nil => exact ha
  | cons x xs ih => exact ih (ho a x)

/-- C195.  A zero anywhere in the container does not change accumulate_sum. -/
theorem C195_sum (hA : A.IsFormat f) (l r : List (Num A)) : accumulateSumF (l ++ .fin 0 :: r) = accumulateSumF (l ++ r) := by
  unfold accumulateSumF
  rw [List.foldl_append, List.foldl_append, List.foldl_cons, add_neutral hA]
  refine fold_settled (settled_add hA) l ?_
  rw [ofInt_zero hA]
  rintro z ⟨⟩
  exact zero_finite

/-- C195.  A one anywhere in the container does not change accumulate_product. -/
theorem C195_product (hA : A.IsFormat f) (l r : List (Num A)) :
    accumulateProductF (l ++ .fin 1 :: r) = accumulateProductF (l ++ r) := by
  unfold accumulateProductF
  rw [List.foldl_append, List.foldl_append, List.foldl_cons, mul_neutral hA]
  refine fold_settled (settled_mul hA) l ?_
  rw [ofInt_one hA]
  rintro z ⟨⟩
  exact one_finite

/-- C195.  A zero anywhere makes accumulate_product 0, if the product before it and all the elements after it are finite. -/
theorem C195_zero (hA : A.IsFormat f) (l : List (Num A)) (xs : List K) {p : K} (hp : accumulateProductF l = .fin p) :
    accumulateProductF (l ++ .fin 0 :: xs.map .fin) = .fin 0 := by
  unfold accumulateProductF at hp ⊢
  rw [List.foldl_append, hp, List.foldl_cons, Num.fin_mul, mul_zero, Num.round_of (rnd_zero hA)]
  induction xs with
  | nil => rfl
  | cons x xs ih => rw [List.map_cons, List.foldl_cons, Num.fin_mul, zero_mul, Num.round_of (rnd_zero hA), ih]

/-- C195.  sum_into and subtract_into with a right side of zeros leave a container of values of the format as it is. -/
theorem C195_into (hA : A.IsFormat f) (l : List (Num A)) (hl : ∀ u ∈ l, Settled f u) :
    sumIntoF l (List.replicate l.length (.fin 0)) = .ok l ∧ subtractIntoF l (List.replicate l.length (.fin 0)) = .ok l := by
  have hs : sumIntoF l (List.replicate l.length (.fin 0)) = .ok l := by
    rw [(C148_into _ _).1, if_pos (by simp)]
    congr 1
    induction l with
    | nil => rfl
    | cons x l ih =>
      rw [List.length_cons, List.replicate_succ, List.zipWith_cons_cons, add_neutral hA (hl x List.mem_cons_self),
        ih fun u hu => hl u (List.mem_cons_of_mem _ hu)]
  refine ⟨hs, ?_⟩
  rw [C193_subtract]
  have e : invertF (List.replicate l.length (.fin 0 : Num A)) = List.replicate l.length (.fin 0) := by
    unfold invertF
    rw [List.map_replicate, Num.fin_neg, neg_zero]
  rw [e, hs]

/-! ### The hypotheses are met -/

example : ∀ u ∈ [(.fin 1 : Num A), .inf true, .nan], Settled f u := by
  intro u hu z hz
  simp only [List.mem_cons, List.not_mem_nil, or_false] at hu
  rcases hu with rfl | rfl | rfl <;> cases hz
  exact one_finite

example (hA : A.IsFormat f) : accumulateProductF [(.fin 1 : Num A)] = .fin 1 := by
  simp only [accumulateProductF, List.foldl_cons, List.foldl_nil]
  rw [ofInt_one hA, Num.fin_mul, one_mul, Num.round_of (rnd_finite hA one_finite)]

end
end Bwsl
