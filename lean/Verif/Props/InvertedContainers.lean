import Verif.Lemmas.Odd
import Verif.Props.FormatsFused
import Verif.Props.ProductError

/-! Property C193: what get_inverted does to the other functions of MathUtils. -/

namespace Bwsl
open Spec FloatFormat

set_option linter.unusedSectionVars false

section
variable {K : Type} [Field K] [LinearOrder K] [IsStrictOrderedRing K] [FloorRing K] {A : Arith K} {f : FloatFormat}

theorem lt_neg_neg (x y : Num A) : CxxFloat.lt (-x) (-y) = CxxFloat.lt y x := by
  match x, y with
  | .nan, .nan => rfl
  | .nan, .inf true => rfl
  | .nan, .inf false => rfl
  | .nan, .fin _ => rfl
  | .inf true, .nan => rfl
  | .inf false, .nan => rfl
  | .fin _, .nan => rfl
  | .inf true, .inf true => rfl
  | .inf true, .inf false => rfl
  | .inf false, .inf true => rfl
  | .inf false, .inf false => rfl
  | .inf true, .fin _ => rfl
  | .inf false, .fin _ => rfl
  | .fin _, .inf true => rfl
  | .fin _, .inf false => rfl
  | .fin x, .fin y =>
    rw [Num.fin_neg, Num.fin_neg, Num.lt_fin, Num.lt_fin, decide_eq_decide]
    exact neg_lt_neg_iff

/-- C193.  The sum of the inverted container is the opposite of the sum. -/
theorem C193_sum (hA : A.IsFormat f) (c : List (Num A)) : accumulateSumF (invertF c) = -accumulateSumF c := by
  have go : ∀ (c : List (Num A)) (a : Num A), (invertF c).foldl (fun acc x => acc + x) (-a) = -c.foldl (fun acc x => acc + x) a := by
    intro c
    induction c with
    | nil => exact fun _ => rfl
    | cons x c ih =>
      intro a
      show (invertF c).foldl (fun acc x => acc + x) (-a + -x) = _
      rw [Num.neg_add_neg (isOdd_format hA), ih]
      rfl
  have h0 : (CxxFloat.ofInt 0 : Num A) = -CxxFloat.ofInt 0 := by rw [ofInt_zero hA, Num.fin_neg, neg_zero]
  unfold accumulateSumF
  conv_lhs => rw [h0]
  exact go c _

/-- C193.  The product of the inverted container is the product, or its opposite if the number of elements is odd. -/
theorem C193_product (hA : A.IsFormat f) (c : List (Num A)) :
    accumulateProductF (invertF c) = if c.length % 2 = 0 then accumulateProductF c else -accumulateProductF c := by
  have neg : ∀ (c : List (Num A)) (a : Num A), c.foldl (fun acc x => acc * x) (-a) = -c.foldl (fun acc x => acc * x) a := by
    intro c
    induction c with
    | nil => exact fun _ => rfl
    | cons x c ih =>
      intro a
      rw [List.foldl_cons, List.foldl_cons, Num.neg_mul (isOdd_format hA), ih]
  have go : ∀ (c : List (Num A)) (a : Num A), (invertF c).foldl (fun acc x => acc * x) a =
      if c.length % 2 = 0 then c.foldl (fun acc x => acc * x) a else -c.foldl (fun acc x => acc * x) a := by
    intro c
    induction c with
    | nil => exact fun _ => rfl
    | cons x c ih =>
      intro a
      show (invertF c).foldl (fun acc x => acc * x) (a * -x) = _
      rw [Num.mul_neg (isOdd_format hA), ih, neg, List.length_cons, List.foldl_cons]
      by_cases h : c.length % 2 = 0
      · rw [if_pos h, if_neg (by omega)]
      · rw [if_neg h, if_pos (by omega), Num.neg_neg]
  exact go c _

/-- C193.  The largest element of the inverted container is the opposite of the smallest one, and the other way round. -/
theorem C193_extremes (c : List (Num A)) :
    maxF (invertF c) = (minF c).bind (fun x => .ok (-x)) ∧ minF (invertF c) = (maxF c).bind (fun x => .ok (-x)) := by
  cases c with
  | nil => exact ⟨rfl, rfl⟩
  | cons x c =>
    constructor
    · show Res.ok _ = Res.ok _
      congr 1
      induction c generalizing x with
      | nil => rfl
      | cons y c ih =>
        show (c.map fun z => -z).foldl _ (if CxxFloat.lt (-x) (-y) = true then -y else -x) = -c.foldl _ (if CxxFloat.lt y x = true then y else x)
        rw [lt_neg_neg]
        split
        · exact ih y
        · exact ih x
    · show Res.ok _ = Res.ok _
      congr 1
      induction c generalizing x with
      | nil => rfl
      | cons y c ih =>
        show (c.map fun z => -z).foldl _ (if CxxFloat.lt (-y) (-x) = true then -y else -x) = -c.foldl _ (if CxxFloat.lt x y = true then y else x)
        rw [lt_neg_neg]
        split
        · exact ih y
        · exact ih x

/-- C193.  subtract_into is sum_into with the inverted right side. -/
theorem C193_subtract (l r : List (Num A)) : subtractIntoF l r = sumIntoF l (invertF r) := by
  rw [(C148_into l r).2, (C148_into l (invertF r)).1]
  have e : (invertF r).length = r.length := List.length_map _
  rw [e]
  have : List.zipWith (· - ·) l r = List.zipWith (· + ·) l (invertF r) := by
    unfold invertF
    rw [List.zipWith_map_right]
    rfl
  rw [this]

/-- C193.  sgn of the opposite is the opposite, and absdiff of the opposites is absdiff. -/
theorem C193_sgn (hA : A.IsFormat f) (x y : Num A) : sgnF (-x) = -sgnF x ∧ absdiffF (-x) (-y) = absdiffF x y := by
  constructor
  · have h0 : (CxxFloat.ofInt 0 : Num A) = -CxxFloat.ofInt 0 := by rw [ofInt_zero hA, Num.fin_neg, neg_zero]
    unfold sgnF
    have h1 : CxxFloat.lt (CxxFloat.ofInt 0) (-x) = CxxFloat.lt x (CxxFloat.ofInt 0) := by
      conv_lhs => rw [h0]
      exact lt_neg_neg _ _
    have h2 : CxxFloat.lt (-x) (CxxFloat.ofInt 0) = CxxFloat.lt (CxxFloat.ofInt 0) x := by
      conv_lhs => rw [h0]
      exact lt_neg_neg _ _
    rw [h1, h2]
    ring
  · have e : ∀ u v : Num A, -u - -v = v - u := fun u v => by
      show -u + - -v = v + -u
      rw [Num.neg_neg, Num.add_comm']
    rw [C148_absdiff_symm x y]
    unfold absdiffF
    rw [lt_neg_neg, e, e]

/-! ### Cases -/

/-- All of 1, -2 and infinity, in any format. -/
example (hA : A.IsFormat f) : maxF (invertF [(.fin 1 : Num A), .fin (-2), .inf false]) = .ok (.fin 2) ∧
    accumulateSumF (invertF [(.fin 1 : Num A), .inf false]) = .inf true ∧ sgnF (-(.inf false) : Num A) = -1 := by
  refine ⟨?_, ?_, ?_⟩
  · rw [(C193_extremes _).1]
    have h1 : CxxFloat.lt (.fin (-2) : Num A) (.fin 1) = true := by rw [Num.lt_fin]; exact decide_eq_true (by norm_num)
    have h2 : CxxFloat.lt (.inf false : Num A) (.fin (-2)) = false := rfl
    simp only [minF, List.foldl_cons, List.foldl_nil, h1, h2, if_true, Res.bind]
    rw [if_neg Bool.false_ne_true, Num.fin_neg, neg_neg]
  · rw [C193_sum hA]
    simp only [accumulateSumF, List.foldl_cons, List.foldl_nil]
    rw [ofInt_zero hA, Num.fin_add, zero_add, Num.round_of (rnd_finite hA one_finite)]
    rfl
  · rw [(C193_sgn hA (.inf false) .nan).1, (C148_sgn hA 0).2.2.2.1]

end
end Bwsl
