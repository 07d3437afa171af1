import Verif.Lemmas.Num
import Mathlib.Analysis.SpecialFunctions.Pow.Real

/-! Floating-point operations computed exactly, over the real numbers. -/

namespace Bwsl

variable {A : Arith ℝ}

/-- Exact arithmetic with the real elementary functions. -/
structure Arith.IsReal (A : Arith ℝ) : Prop where
  exact : A.IsExact
  exp : A.exp = Real.exp
  log : A.log = Real.log
  pow : A.pow = Real.rpow
  sqrt : A.sqrt = Real.sqrt
  sin : A.sin = Real.sin
  cos : A.cos = Real.cos
  pi : A.pi = Real.pi

theorem real_log (hA : A.IsReal) {x : ℝ} (hx : 0 < x) : CxxFloat.log (.fin x : Num A) = .fin (Real.log x) := by
  show (if (Num.fin x : Num A) = .fin 0 then _ else if decide (0 < x) = true then Num.round A (A.log x) else Num.nan) = _
  rw [if_neg (by simp [hx.ne']), if_pos (decide_eq_true hx), Num.round_exact hA.exact, hA.log]

theorem real_pow (hA : A.IsReal) {x : ℝ} (hx : x ≠ 0) (y : ℝ) :
    CxxFloat.pow (.fin x : Num A) (.fin y) = .fin (x ^ y) := by
  show Num.pow _ _ = _
  unfold Num.pow
  split
  · rename_i h
    rcases h with h | h <;> rw [Num.fin.injEq] at h <;> subst h <;> simp
  · show (if x = 0 ∧ y < 0 then _ else Num.round A (A.pow x y)) = _
    rw [if_neg (by tauto), Num.round_exact hA.exact, hA.pow]
    rfl

theorem real_sqrt (hA : A.IsReal) {x : ℝ} (hx : 0 ≤ x) : CxxFloat.sqrt (.fin x : Num A) = .fin (Real.sqrt x) := by
  rw [Num.sqrt_fin hx, Num.round_exact hA.exact, hA.sqrt]

theorem real_sin (hA : A.IsReal) (x : ℝ) : CxxFloat.sin (.fin x : Num A) = .fin (Real.sin x) := by
  show (if true then Num.round A (A.sin x) else Num.nan) = _
  rw [if_pos rfl, Num.round_exact hA.exact, hA.sin]

theorem real_cos (hA : A.IsReal) (x : ℝ) : CxxFloat.cos (.fin x : Num A) = .fin (Real.cos x) := by
  show (if true then Num.round A (A.cos x) else Num.nan) = _
  rw [if_pos rfl, Num.round_exact hA.exact, hA.cos]

theorem real_pi (hA : A.IsReal) : (CxxFloat.pi : Num A) = .fin Real.pi := by
  show Num.round A A.pi = _
  rw [Num.round_exact hA.exact, hA.pi]

theorem real_e (hA : A.IsReal) : (CxxFloat.e : Num A) = .fin (Real.exp 1) := by
  show Num.round A (A.exp 1) = _
  rw [Num.round_exact hA.exact, hA.exp]

/-- Such an arithmetic exists. -/
noncomputable def realArith : Arith ℝ :=
  ⟨some, Real.sqrt, Real.exp, Real.log, Real.rpow, Real.sin, Real.cos, Real.pi⟩

theorem realArith_isReal : realArith.IsReal := ⟨fun _ => rfl, rfl, rfl, rfl, rfl, rfl, rfl, rfl⟩

end Bwsl
