import Verif.Props.SkContracted
import Verif.Props.Draw

/-! Property C152: random choices computed with fused products. -/

namespace Bwsl
open Spec

variable {A : Arith ℝ}

/-- Fusing a product with 0 changes nothing. -/
theorem mulAdd_to_zero (hA : A.IsBinary64) (fused : Bool) (x y : Num A) : mulAdd fused x y (.fin 0) = .fin 0 + x * y := by
  cases fused with
  | false => rfl
  | true =>
    cases x with
    | fin x =>
      cases y with
      | fin y =>
        change Num.round A (x * y + 0) = .fin 0 + (.fin x * .fin y)
        rw [add_zero, Num.fin_mul]
        cases h : Num.round A (x * y) with
        | fin z => rw [Num.fin_add, zero_add, round_again hA h]
        | nan => rfl
        | inf n => rfl
      | nan => exact (C146_special _ _ _ true).1 (fun a b _ h => by cases h)
      | inf n => exact (C146_special _ _ _ true).1 (fun a b _ h => by cases h)
    | nan => exact (C146_special _ y _ true).1 (fun a b h => by cases h)
    | inf n => exact (C146_special _ y _ true).1 (fun a b h => by cases h)

theorem canonical64_contracted (hA : A.IsBinary64) (fused : Bool) (x : Nat) :
    (canonicalContracted fused (2 ^ 64) [x] : Num A) = canonical (2 ^ 64) [x] := by
  unfold canonicalContracted canonical
  simp only [canonicalLoopContracted, canonicalLoop, Num.zero_eq, mulAdd_to_zero hA]
  rfl

theorem canonical32_contracted (hA : A.IsBinary64) (fused : Bool) {x y : Nat} (hy : y < 2 ^ 32) :
    (canonicalContracted fused (2 ^ 32) [x, y] : Num A) = canonical (2 ^ 32) [x, y] := by
  have ht : (CxxFloat.lit 1 * CxxFloat.lit (2 ^ 32) : Num A) = .fin (2 ^ 32) := by
    rw [lit_one hA, lit_p32 hA, Num.fin_mul, one_mul]
    exact round_double_small hA ⟨1, 32, by norm_num, by norm_num, by norm_num⟩ (by positivity) (by norm_num)
  have hn : (CxxFloat.ofNat y : Num A) = .fin (y : ℝ) := by rw [Num.ofNat_eq]; exact round_nat hA (by omega)
  have hyd : Double ((y : ℝ) * 2 ^ 32) :=
    ⟨y, 32, by rw [abs_of_nonneg (by positivity)]; exact_mod_cast (by omega : y ≤ 2 ^ 53), by norm_num, by norm_cast⟩
  have hyl : (y : ℝ) * 2 ^ 32 ≤ 2 ^ 64 := by exact_mod_cast (by omega : y * 2 ^ 32 ≤ 2 ^ 64)
  have he := round_double_small hA hyd (by positivity) hyl
  unfold canonicalContracted canonical
  simp only [canonicalLoopContracted, canonicalLoop, Num.zero_eq, mulAdd_to_zero hA, ht, hn,
    C146_exact (Num.round_eq_fin he)]

/-- C152.  Whatever is fused, a number drawn from [0, b) is the same, for every number that the engine returns and every `b`. -/
theorem C152_draw (hA : A.IsBinary64) (loop last : Bool) (x y : Nat) (hy : y < 2 ^ 32) (b : Num A) :
    uniformRealContracted loop last (2 ^ 64) [x] (.fin 0) b = draw64 x (.fin 0) b ∧
    uniformRealContracted loop last (2 ^ 32) [x, y] (.fin 0) b = draw32 x y (.fin 0) b := by
  unfold uniformRealContracted draw64 draw32 uniformReal
  rw [canonical64_contracted hA, canonical32_contracted hA loop hy, mulAdd_to_zero hA, mulAdd_to_zero hA]
  exact ⟨num_add_comm _ _, num_add_comm _ _⟩

/-- C152.  So are `choose_between` and `choose_between_psums`, for all weights, NaN and infinities included, and
`choose_with_probability`. -/
theorem C152_choice (hA : A.IsBinary64) (loop last : Bool) (x y : Nat) (hy : y < 2 ^ 32) (ws : List (Num A)) (p : Num A) :
    chooseBetween ws (uniformRealContracted loop last (2 ^ 64) [x]) = chooseBetween ws (draw64 x) ∧
    chooseBetween ws (uniformRealContracted loop last (2 ^ 32) [x, y]) = chooseBetween ws (draw32 x y) ∧
    chooseBetweenPsums ws (uniformRealContracted loop last (2 ^ 64) [x]) = chooseBetweenPsums ws (draw64 x) ∧
    chooseBetweenPsums ws (uniformRealContracted loop last (2 ^ 32) [x, y]) = chooseBetweenPsums ws (draw32 x y) ∧
    chooseWithProbability p (uniformRealContracted loop last (2 ^ 64) [x]) = chooseWithProbability p (draw64 x) ∧
    chooseWithProbability p (uniformRealContracted loop last (2 ^ 32) [x, y]) = chooseWithProbability p (draw32 x y) := by
  have h := fun b => C152_draw hA loop last x y hy b
  unfold chooseBetween chooseBetweenPsums chooseWithProbability
  simp only [Num.zero_eq, fun b => (h b).1, fun b => (h b).2, and_self]

/-- C152.  Without fused products the draws are those of C121, between any ends. -/
theorem C152_plain (r : ℚ) (xs : List Nat) (a b : Num A) : uniformRealContracted false false r xs a b = uniformReal r xs a b := by
  have loop : ∀ (xs : List Nat) (s t : Num A), canonicalLoopContracted false r xs s t = canonicalLoop r xs s t := by
    intro xs
    induction xs with
    | nil => intro s t; rfl
    | cons x xs ih => intro s t; rw [canonicalLoopContracted, canonicalLoop, ih]; rfl
  unfold uniformRealContracted uniformReal canonicalContracted canonical
  simp only [loop]
  exact num_add_comm _ _

end Bwsl
