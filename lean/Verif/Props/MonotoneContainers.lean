import Verif.Lemmas.NumOrder
import Verif.Props.InvertedContainers

/-! Property C194: larger elements give larger sums, products and extremes. -/

namespace Bwsl
open Spec FloatFormat

set_option linter.unusedSectionVars false

section
variable {K : Type} [Field K] [LinearOrder K] [IsStrictOrderedRing K] [FloorRing K] {A : Arith K} {f : FloatFormat}

/-- Each element of `xs` is at most the one of `ys` at the same place; neither is NaN. -/
def Spec.Below (xs ys : List (Num A)) : Prop := List.Forall₂ (fun x y => CxxFloat.le x y = true) xs ys

theorem num_add_mono (hA : A.Mono) {x y a b : Num A} (h : CxxFloat.le x y = true) (h' : CxxFloat.le a b = true)
    (h1 : x + a ≠ .nan) (h2 : y + b ≠ .nan) : CxxFloat.le (x + a) (y + b) = true := by
  match x, y, a, b with
  | .nan, _, _, _ => rw [Num.le_nan_left] at h; cases h
  | _, .nan, _, _ => rw [Num.le_nan_right] at h; cases h
  | _, _, .nan, _ => rw [Num.le_nan_left] at h'; cases h'
  | _, _, _, .nan => rw [Num.le_nan_right] at h'; cases h'
  | .fin x, .fin y, .fin a, .fin b =>
    rw [Num.le_fin, decide_eq_true_eq] at h h'
    rw [Num.fin_add, Num.fin_add]
    exact hA _ _ (add_le_add h h')
  | .inf true, y, a, b =>
    have e : (.inf true + a : Num A) = .inf true := by
      match a with
      | .nan => exact absurd rfl h1
      | .inf true => rfl
      | .inf false => exact absurd rfl h1
      | .fin _ => rfl
    rw [e]
    match y + b, h2 with
    | .nan, h2 => exact absurd rfl h2
    | .inf _, _ => rw [Num.le_inf_inf]; rfl
    | .fin _, _ => rw [Num.le_inf_fin]
  | x, y, .inf true, b =>
    have e : (x + .inf true : Num A) = .inf true := by
      match x with
      | .nan => exact absurd rfl h1
      | .inf true => rfl
      | .inf false => exact absurd rfl h1
      | .fin _ => rfl
    rw [e]
    match y + b, h2 with
    | .nan, h2 => exact absurd rfl h2
    | .inf _, _ => rw [Num.le_inf_inf]; rfl
    | .fin _, _ => rw [Num.le_inf_fin]
  | x, .inf false, a, b =>
    have e : (.inf false + b : Num A) = .inf false := by
      match b with
      | .nan => exact absurd rfl h2
      | .inf false => rfl
      | .inf true => exact absurd rfl h2
      | .fin _ => rfl
    rw [e]
    match x + a, h1 with
    | .nan, h1 => exact absurd rfl h1
    | .inf n, _ => rw [Num.le_inf_inf]; cases n <;> rfl
    | .fin _, _ => rw [Num.le_fin_inf]; rfl
  | x, y, a, .inf false =>
    have e : (y + .inf false : Num A) = .inf false := by
      match y with
      | .nan => exact absurd rfl h2
      | .inf false => rfl
      | .inf true => exact absurd rfl h2
      | .fin _ => rfl
    rw [e]
    match x + a, h1 with
    | .nan, h1 => exact absurd rfl h1
    | .inf n, _ => rw [Num.le_inf_inf]; cases n <;> rfl
    | .fin _, _ => rw [Num.le_fin_inf]; rfl
  | .inf false, .fin _, _, _ => rw [Num.le_inf_fin] at h; cases h
  | .inf false, .inf true, _, _ => rw [Num.le_inf_inf] at h; cases h
  | .fin _, .inf true, _, _ => rw [Num.le_fin_inf] at h; cases h
  | _, _, .inf false, .fin _ => rw [Num.le_inf_fin] at h'; cases h'
  | _, _, .inf false, .inf true => rw [Num.le_inf_inf] at h'; cases h'
  | _, _, .fin _, .inf true => rw [Num.le_fin_inf] at h'; cases h'

theorem sum_fold_nan (xs : List (Num A)) : xs.foldl (fun acc x => acc + x) .nan = .nan := by
  induction xs with
  | nil => rfl
  | cons x xs ih => rw [List.foldl_cons, Num.nan_add, ih]

/-- C194.  accumulate_sum is monotone, unless one of the sums is NaN. -/
theorem C194_sum (hA : A.IsFormat f) {xs ys : List (Num A)} (h : Below xs ys) (hx : accumulateSumF xs ≠ .nan)
    (hy : accumulateSumF ys ≠ .nan) : CxxFloat.le (accumulateSumF xs) (accumulateSumF ys) = true := by
  have go : ∀ {xs ys : List (Num A)}, Below xs ys → ∀ a b : Num A, CxxFloat.le a b = true →
      xs.foldl (fun acc x => acc + x) a ≠ .nan → ys.foldl (fun acc x => acc + x) b ≠ .nan →
      CxxFloat.le (xs.foldl (fun acc x => acc + x) a) (ys.foldl (fun acc x => acc + x) b) = true := by
    intro xs ys h
    induction h with
    | nil => exact fun a b hab _ _ => hab
    | @cons x y xs ys hxy _ ih =>
      intro a b hab h1 h2
      rw [List.foldl_cons] at h1 h2 ⊢
      rw [List.foldl_cons]
      refine ih _ _ (num_add_mono (mono_of_format hA) hab hxy ?_ ?_) h1 h2
      · intro e; rw [e, sum_fold_nan] at h1; exact h1 rfl
      · intro e; rw [e, sum_fold_nan] at h2; exact h2 rfl
  refine go h _ _ ?_ hx hy
  rw [ofInt_zero hA, Num.le_fin]
  exact decide_eq_true le_rfl

/-- C194.  Every element that sum_into leaves is monotone in both containers, unless it is NaN. -/
theorem C194_into (hA : A.IsFormat f) {l l' r r' : List (Num A)} (hl : Below l l') (hr : Below r r') :
    RelRes (List.Forall₂ (fun x y => x = .nan ∨ y = .nan ∨ CxxFloat.le x y = true)) (sumIntoF l r) (sumIntoF l' r') := by
  rw [(C148_into l r).1, (C148_into l' r').1, hl.length_eq, hr.length_eq]
  split
  · next hlen =>
    show List.Forall₂ _ _ _
    induction hl generalizing r r' with
    | nil => exact .nil
    | @cons x y l l' hxy _ ih =>
      cases hr with
      | nil => exact .nil
      | @cons a b r r' hab hr =>
        refine .cons ?_ (ih hr (Nat.le_of_succ_le_succ hlen))
        by_cases h1 : x + a = .nan
        · exact .inl h1
        by_cases h2 : y + b = .nan
        · exact .inr (.inl h2)
        exact .inr (.inr (num_add_mono (mono_of_format hA) hxy hab h1 h2))
  · rfl

/-- C194.  The largest and the smallest element are monotone. -/
theorem C194_extremes {xs ys : List (Num A)} (h : Below xs ys) :
    RelRes (fun x y => CxxFloat.le x y = true) (maxF xs) (maxF ys) ∧ RelRes (fun x y => CxxFloat.le x y = true) (minF xs) (minF ys) := by
  have ne : ∀ {x y : Num A}, CxxFloat.le x y = true → x ≠ .nan ∧ y ≠ .nan := fun {x y} h =>
    ⟨(by rintro rfl; rw [Num.le_nan_left] at h; exact Bool.noConfusion h), (by rintro rfl; rw [Num.le_nan_right] at h; exact Bool.noConfusion h)⟩
  have nlt : ∀ {x y : Num A}, x ≠ .nan → y ≠ .nan → ¬ CxxFloat.lt x y = true → CxxFloat.le y x = true := fun hx hy hn =>
    (Num.le_or_lt hy hx).resolve_right hn
  cases h with
  | nil => exact ⟨rfl, rfl⟩
  | @cons x y xs ys hxy h =>
    constructor
    · show CxxFloat.le _ _ = true
      induction h generalizing x y with
      | nil => exact hxy
      | @cons a b xs ys hab _ ih =>
        rw [List.foldl_cons, List.foldl_cons]
        refine ih ?_
        split <;> split
        · exact hab
        · next h1 h2 => exact Num.le_trans' hab (nlt (ne hxy).2 (ne hab).2 h2)
        · next h1 h2 => exact Num.le_trans' hxy (Num.le_of_lt' h2)
        · exact hxy
    · show CxxFloat.le _ _ = true
      induction h generalizing x y with
      | nil => exact hxy
      | @cons a b xs ys hab _ ih =>
        rw [List.foldl_cons, List.foldl_cons]
        refine ih ?_
        split <;> split
        · exact hab
        · next h1 h2 => exact Num.le_trans' (Num.le_of_lt' h1) hxy
        · next h1 h2 => exact Num.le_trans' (nlt (ne hab).1 (ne hxy).1 h1) hab
        · exact hxy

/-- A product of numbers that are not negative is not negative, and infinite if one of them is. -/
theorem num_mul_nonneg (hA : A.IsFormat f) {x a : Num A} (hx : CxxFloat.le (.fin 0) x = true) (ha : CxxFloat.le (.fin 0) a = true)
    (h1 : x * a ≠ .nan) : CxxFloat.le (.fin 0) (x * a) = true ∧ ((x = .inf false ∨ a = .inf false) → x * a = .inf false) := by
  match x, a with
  | .nan, _ => rw [Num.le_nan_right] at hx; cases hx
  | _, .nan => rw [Num.le_nan_right] at ha; cases ha
  | .inf true, _ => rw [Num.le_fin_inf] at hx; cases hx
  | _, .inf true => rw [Num.le_fin_inf] at ha; cases ha
  | .inf false, .inf false => exact ⟨rfl, fun _ => rfl⟩
  | .inf false, .fin a =>
    rw [Num.le_fin, decide_eq_true_eq] at ha
    have e : (.inf false * .fin a : Num A) = if a = 0 then .nan else .inf (false != decide (a < 0)) := rfl
    by_cases h0 : a = 0
    · rw [e, if_pos h0] at h1; exact absurd rfl h1
    · rw [e, if_neg h0, decide_eq_false (not_lt.2 ha)]
      exact ⟨rfl, fun _ => rfl⟩
  | .fin x, .inf false =>
    rw [Num.le_fin, decide_eq_true_eq] at hx
    have e : (.fin x * .inf false : Num A) = if x = 0 then .nan else .inf (decide (x < 0) != false) := rfl
    by_cases h0 : x = 0
    · rw [e, if_pos h0] at h1; exact absurd rfl h1
    · rw [e, if_neg h0, decide_eq_false (not_lt.2 hx)]
      exact ⟨rfl, fun _ => rfl⟩
  | .fin x, .fin a =>
    rw [Num.le_fin, decide_eq_true_eq] at hx ha
    refine ⟨?_, fun h => ?_⟩
    · have := mono_of_format hA 0 (x * a) (mul_nonneg hx ha)
      rwa [Num.round_of (rnd_zero hA), ← Num.fin_mul] at this
    · rcases h with h | h <;> cases h

theorem num_mul_mono (hA : A.IsFormat f) {x y a b : Num A} (hx : CxxFloat.le (.fin 0) x = true) (ha : CxxFloat.le (.fin 0) a = true)
    (h : CxxFloat.le x y = true) (h' : CxxFloat.le a b = true) (h1 : x * a ≠ .nan) (h2 : y * b ≠ .nan) :
    CxxFloat.le (x * a) (y * b) = true := by
  have top : ∀ z : Num A, z ≠ .nan → CxxFloat.le z (.inf false) = true := fun z hz => by
    match z with
    | .nan => exact absurd rfl hz
    | .inf n => rw [Num.le_inf_inf]; cases n <;> rfl
    | .fin _ => rw [Num.le_fin_inf]; rfl
  have hm := (num_mul_nonneg hA (Num.le_trans' hx h) (Num.le_trans' ha h') h2).2
  by_cases hy : y = .inf false
  · rw [hm (.inl hy)]; exact top _ h1
  by_cases hb : b = .inf false
  · rw [hm (.inr hb)]; exact top _ h1
  have fin : ∀ {u v : Num A}, CxxFloat.le (.fin 0) u = true → CxxFloat.le u v = true → v ≠ .inf false →
      ∃ p q : K, u = .fin p ∧ v = .fin q ∧ 0 ≤ p ∧ p ≤ q := by
    intro u v hu huv hv
    match u, v with
    | .nan, _ => rw [Num.le_nan_right] at hu; cases hu
    | .inf true, _ => rw [Num.le_fin_inf] at hu; cases hu
    | _, .nan => rw [Num.le_nan_right] at huv; cases huv
    | _, .inf false => exact absurd rfl hv
    | .inf false, .inf true => rw [Num.le_inf_inf] at huv; cases huv
    | .inf false, .fin _ => rw [Num.le_inf_fin] at huv; cases huv
    | .fin _, .inf true => rw [Num.le_fin_inf] at huv; cases huv
    | .fin p, .fin q =>
      rw [Num.le_fin, decide_eq_true_eq] at hu huv
      exact ⟨p, q, rfl, rfl, hu, huv⟩
  obtain ⟨p, q, rfl, rfl, p0, pq⟩ := fin hx h hy
  obtain ⟨r, s, rfl, rfl, r0, rs⟩ := fin ha h' hb
  rw [Num.fin_mul, Num.fin_mul]
  exact mono_of_format hA _ _ (mul_le_mul pq rs r0 (p0.trans pq))

theorem prod_fold_nan (xs : List (Num A)) : xs.foldl (fun acc x => acc * x) .nan = .nan := by
  induction xs with
  | nil => rfl
  | cons x xs ih =>
    have e : (.nan * x : Num A) = .nan := by cases x <;> rfl
    rw [List.foldl_cons, e, ih]

/-- C194.  accumulate_product is monotone in elements that are not negative, unless one of the products is NaN. -/
theorem C194_product (hA : A.IsFormat f) {xs ys : List (Num A)} (h : Below xs ys) (h0 : ∀ x ∈ xs, CxxFloat.le (.fin 0) x = true)
    (hx : accumulateProductF xs ≠ .nan) (hy : accumulateProductF ys ≠ .nan) :
    CxxFloat.le (accumulateProductF xs) (accumulateProductF ys) = true := by
  have go : ∀ {xs ys : List (Num A)}, Below xs ys → (∀ x ∈ xs, CxxFloat.le (.fin 0) x = true) → ∀ a b : Num A,
      CxxFloat.le (.fin 0) a = true → CxxFloat.le a b = true →
      xs.foldl (fun acc x => acc * x) a ≠ .nan → ys.foldl (fun acc x => acc * x) b ≠ .nan →
      CxxFloat.le (xs.foldl (fun acc x => acc * x) a) (ys.foldl (fun acc x => acc * x) b) = true := by
    intro xs ys h
    induction h with
    | nil => exact fun _ a b _ hab _ _ => hab
    | @cons x y xs ys hxy _ ih =>
      intro h0 a b ha hab h1 h2
      rw [List.foldl_cons] at h1 h2 ⊢
      rw [List.foldl_cons]
      have n1 : a * x ≠ .nan := by intro e; rw [e, prod_fold_nan] at h1; exact h1 rfl
      have n2 : b * y ≠ .nan := by intro e; rw [e, prod_fold_nan] at h2; exact h2 rfl
      have hx0 := h0 x List.mem_cons_self
      exact ih (fun z hz => h0 z (List.mem_cons_of_mem _ hz)) _ _ (num_mul_nonneg hA ha hx0 n1).1
        (num_mul_mono hA ha hx0 hab hxy n1 n2) h1 h2
  refine go h h0 _ _ ?_ ?_ hx hy
  · rw [ofInt_one hA, Num.le_fin]; exact decide_eq_true zero_le_one
  · rw [ofInt_one hA, Num.le_fin]; exact decide_eq_true le_rfl

/-! ### The hypotheses are met -/

example (hA : A.IsFormat f) : Below [(.fin 1 : Num A)] [.inf false] ∧ accumulateProductF [(.fin 1 : Num A)] ≠ .nan ∧
    accumulateProductF [(.inf false : Num A)] ≠ .nan := by
  refine ⟨.cons rfl .nil, ?_, ?_⟩
  · simp only [accumulateProductF, List.foldl_cons, List.foldl_nil]
    rw [ofInt_one hA, Num.fin_mul]
    exact Num.round_ne_nan _
  · simp only [accumulateProductF, List.foldl_cons, List.foldl_nil]
    rw [ofInt_one hA]
    have e : (.fin 1 * .inf false : Num A) = if (1 : K) = 0 then .nan else .inf (decide ((1 : K) < 0) != false) := rfl
    rw [e, if_neg one_ne_zero]
    exact fun h => nomatch h

example (hA : A.IsFormat f) : Below [(.fin 0 : Num A), .fin 1] [.fin 1, .inf false] ∧
    accumulateSumF [(.fin 0 : Num A), .fin 1] ≠ .nan ∧ accumulateSumF [(.fin 1 : Num A), .inf false] ≠ .nan := by
  refine ⟨.cons ?_ (.cons rfl .nil), ?_, ?_⟩
  · rw [Num.le_fin]; exact decide_eq_true zero_le_one
  · simp only [accumulateSumF, List.foldl_cons, List.foldl_nil]
    rw [ofInt_zero hA, Num.fin_add, zero_add, Num.round_of (rnd_zero hA), Num.fin_add]
    exact Num.round_ne_nan _
  · simp only [accumulateSumF, List.foldl_cons, List.foldl_nil]
    rw [ofInt_zero hA, Num.fin_add, zero_add, Num.round_of (rnd_finite hA one_finite)]
    exact fun h => nomatch h

end
end Bwsl
