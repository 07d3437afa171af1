import Verif.Model.Contracted
import Verif.Props.LinSpaceDouble

/-! Products that are added, with one rounding or two, in double precision. -/

namespace Bwsl
open Spec

variable {A : Arith ℝ}

/-- A product before it is added: not rounded if it is fused with the sum. -/
noncomputable def prodIn (fused : Bool) (y : ℝ) : ℝ := if fused then y else rn y

theorem mulAdd_round (fused : Bool) {x y z : ℝ} (h : Num.round A (x * y) = .fin (rn (x * y))) :
    mulAdd fused (.fin x : Num A) (.fin y) (.fin z) = Num.round A (z + prodIn fused (x * y)) := by
  cases fused with
  | false => show (.fin z + .fin x * .fin y : Num A) = _; rw [Num.fin_mul, h]; rfl
  | true => show Num.round A (x * y + z) = _; rw [add_comm]; rfl

theorem mulAdd_rn (hA : A.IsBinary64) (fused : Bool) {x y z : ℝ} (h1 : |x * y| ≤ (2 : ℝ) ^ (1023 : Int))
    (h2 : |z + prodIn fused (x * y)| ≤ (2 : ℝ) ^ (1023 : Int)) :
    mulAdd fused (.fin x : Num A) (.fin y) (.fin z) = .fin (rn (z + prodIn fused (x * y))) := by
  cases fused with
  | false =>
    show (.fin z + .fin x * .fin y : Num A) = _
    rw [Num.fin_mul, round_of_le_two hA h1, Num.fin_add]
    exact round_of_le_two hA h2
  | true =>
    show Num.round A (x * y + z) = _
    rw [add_comm]
    exact round_of_le_two hA h2

theorem prodIn_nonneg (fused : Bool) {y : ℝ} (h : 0 ≤ y) : 0 ≤ prodIn fused y := by
  cases fused with
  | false => have := rn_mono h; rwa [rn_zero] at this
  | true => exact h

theorem prodIn_le (fused : Bool) {y d : ℝ} (hd : Double d) (h : y ≤ d) : prodIn fused y ≤ d := by
  cases fused with
  | false => have := rn_mono h; rwa [rn_double hd] at this
  | true => exact h

theorem prodIn_neg (fused : Bool) (y : ℝ) : prodIn fused (-y) = -prodIn fused y := by
  cases fused with
  | false => exact rn_neg y
  | true => rfl

theorem prodIn_double (fused : Bool) {y : ℝ} (h : Double y) : prodIn fused y = y := by
  cases fused with
  | false => exact rn_double h
  | true => rfl

theorem prodIn_abs_le (fused : Bool) {y d : ℝ} (hd : Double d) (h : |y| ≤ d) : |prodIn fused y| ≤ d := by
  refine abs_le.2 ⟨?_, prodIn_le fused hd (le_of_abs_le h)⟩
  have := prodIn_le fused hd (neg_le.1 (neg_le_of_abs_le h))
  rw [prodIn_neg] at this
  linarith only [this]

end Bwsl
