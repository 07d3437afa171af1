import Mathlib.Data.Real.Basic
import Verif.Spec.Text

/-! What a decimal numeral with a fraction and an exponent stands for. -/

namespace Bwsl.Spec

/-- The exponent part of a numeral: nothing, or `e`, a sign and digits. -/
def IsExponent (t : List Char) (e : Int) : Prop :=
  (t = [] ∧ e = 0) ∨ ∃ ds : List Char, ds ≠ [] ∧ (∀ c ∈ ds, c ∈ digits) ∧
    ((t = 'e' :: '+' :: ds ∧ e = decValue ds) ∨ (t = 'e' :: '-' :: ds ∧ e = -(decValue ds : Int)))

/-- The fraction part of a numeral: nothing, or a point and digits. -/
def IsFraction (t : List Char) (fp : List Char) : Prop := (t = [] ∧ fp = []) ∨ (t = '.' :: fp ∧ fp ≠ [])

/-- `t` is a decimal numeral for `v`: an optional minus sign, digits, an optional fraction and an optional exponent. -/
def IsDecimal (t : List Char) (v : ℝ) : Prop :=
  ∃ (neg : Bool) (ip fp tf tx : List Char) (e : Int), ip ≠ [] ∧ (∀ c ∈ ip ++ fp, c ∈ digits) ∧ IsFraction tf fp ∧
    IsExponent tx e ∧ t = (if neg then ['-'] else []) ++ ip ++ tf ++ tx ∧
    v = (if neg then -1 else 1) * (decValue (ip ++ fp) * (10 : ℝ) ^ (e - fp.length))

end Bwsl.Spec
