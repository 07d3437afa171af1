import Verif.Props.Rational

/-! Properties C17 and C27, continued: the exact sign of `get_gcd` and of denominators. -/

namespace Bwsl
open Spec

/-- The number of divisions in Euclid's algorithm. -/
def Spec.euclidSteps (a b : Nat) : Nat := if h : b = 0 then 0 else Spec.euclidSteps b (a % b) + 1
termination_by b
decreasing_by exact Nat.mod_lt _ (Nat.pos_of_ne_zero h)

theorem euclidSteps_zero (a : Nat) : euclidSteps a 0 = 0 := by rw [euclidSteps, dif_pos rfl]
theorem euclidSteps_pos (a : Nat) {b : Nat} (h : b ≠ 0) : euclidSteps a b = euclidSteps b (a % b) + 1 := by
  rw [euclidSteps, dif_neg h]

theorem sign_tmod {a b : Int} (h : Int.tmod a b ≠ 0) : (Int.tmod a b).sign = a.sign := by
  rcases lt_trichotomy a 0 with h0 | h0 | h0
  · have : 0 ≤ Int.tmod (-a) b := Int.tmod_nonneg b (by omega)
    rw [Int.neg_tmod] at this
    rw [Int.sign_eq_neg_one_of_neg h0, Int.sign_eq_neg_one_of_neg (by omega)]
  · subst h0; simp at h
  · have : 0 ≤ Int.tmod a b := Int.tmod_nonneg b h0.le
    rw [Int.sign_eq_one_of_pos h0, Int.sign_eq_one_of_pos (by omega)]

/-- The sign of the last remainder. -/
theorem gcd_sign (n : Nat) : ∀ (a b g : Int), InLong a → InLong b → b.natAbs = n → getGcd a b = .ok g →
    g.sign = if euclidSteps a.natAbs b.natAbs % 2 = 0 then a.sign else b.sign := by
  induction n using Nat.strongRecOn with
  | _ n ih =>
    intro a b g ha hb hn hg
    by_cases hz : b = 0
    · subst hz
      rw [getGcd_zero] at hg; cases hg
      rw [Int.natAbs_zero, euclidSteps_zero, if_pos rfl]
    · have hlt := tmod_natAbs_lt a b hz
      by_cases hbad : a = -H63 ∧ b = -1
      · obtain ⟨rfl, rfl⟩ := hbad
        rw [C16_gcd_undefined.1] at hg; cases hg
      · rw [getGcd_step hz (lmod_ok ha hz hbad)] at hg
        have h1 := ih _ (hn ▸ hlt) b _ g hb (by comega) rfl hg
        rw [euclidSteps_pos _ (by omega), ← Int.natAbs_tmod]
        rw [h1]
        by_cases he : euclidSteps b.natAbs (a.tmod b).natAbs % 2 = 0
        · rw [if_pos he, if_neg (by omega)]
        · rw [if_neg he, if_pos (by omega)]
          refine sign_tmod (fun h0 => he ?_)
          rw [h0, Int.natAbs_zero, euclidSteps_zero]

/-- C17 (what holds instead, for all arguments).  The result is the greatest common divisor with the sign of the first
argument if Euclid's algorithm takes an even number of divisions, and with that of the second otherwise.  The
two excluded pairs are undefined (`C16_gcd_undefined`). -/
theorem C17_value_partial (a b : Int) (ha : InLong a) (hb : InLong b) (h : ¬ (a = -H63 ∧ b = -1))
    (h' : ¬ (a = -1 ∧ b = -H63)) :
    getGcd a b = .ok ((if euclidSteps a.natAbs b.natAbs % 2 = 0 then a.sign else b.sign) * Int.gcd a b) := by
  obtain ⟨g, e, -, h3⟩ := C16_gcd a b ha hb h h'
  rw [e, ← gcd_sign _ a b g ha hb rfl e, ← h3, Int.sign_mul_natAbs]

/-- C27 (what holds, for all arguments).  The denominator of a constructed number is positive exactly if the result of
`get_gcd` has the sign of the given denominator. -/
theorem C27_sign_partial (p q : Int) (hp : InLong p) (hq : InLong q) (r : RatNum)
    (h : RatNum.new p q = .ok r) :
    0 < r.den ↔ (if euclidSteps p.natAbs q.natAbs % 2 = 0 then p.sign else q.sign) = q.sign := by
  obtain ⟨g, hg, hg0, h1, h2, -⟩ := simplify_ok hp hq h
  rw [← gcd_sign _ p q g hp hq rfl hg, h2, Int.sign_mul]
  have hgs : g.sign ≠ 0 := fun h => hg0 (Int.sign_eq_zero_iff_zero.1 h)
  constructor
  · intro h
    rw [Int.sign_eq_one_of_pos h, mul_one]
  · intro h
    have : r.den.sign = 1 := by
      have h' : g.sign * r.den.sign = g.sign * 1 := by rw [mul_one]; exact h.symm
      exact mul_left_cancel₀ hgs h'
    exact Int.sign_eq_one_iff_pos.1 this

/-- C27: so for a negative numerator and a positive denominator the result depends on the parity of the number of
divisions: -1/2 is stored as 1/(-2), and -2/3 with a positive denominator. -/
example : euclidSteps 1 2 % 2 = 0 ∧ euclidSteps 2 3 % 2 = 1 := by simp [euclidSteps]

example : euclidSteps 3 6 = 2 ∧ euclidSteps 4 6 = 3 := by
  simp [euclidSteps]

end Bwsl
