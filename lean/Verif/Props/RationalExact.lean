import Verif.Props.Rational
import Verif.Props.GcdSign

/-! C30, C31: exactly which comparisons of rationals are right. -/

namespace Bwsl
open Spec

theorem ok_decide_iff {p q : Prop} [Decidable p] [Decidable q] : (Res.ok (decide p) = Res.ok (decide q)) ↔ (p ↔ q) := by
  rw [Res.ok.injEq, decide_eq_decide]

/-- C30 (what holds, for all pairs whose cross products are values of the type).  The four order comparisons of two rationals are
right exactly if the denominators have the same sign or the numbers are equal. -/
theorem C30_exactly_partial (a b : RatNum) (ha : a.den ≠ 0) (hb : b.den ≠ 0) (h1 : InLong (a.num * b.den))
    (h2 : InLong (b.num * a.den)) :
    (RatNum.lt a b = .ok (decide (a.val < b.val)) ↔ (0 < a.den * b.den ∨ a.val = b.val)) ∧
    (RatNum.gt a b = .ok (decide (b.val < a.val)) ↔ (0 < a.den * b.den ∨ a.val = b.val)) ∧
    (RatNum.le a b = .ok (decide (a.val ≤ b.val)) ↔ (0 < a.den * b.den ∨ a.val = b.val)) ∧
    (RatNum.ge a b = .ok (decide (b.val ≤ a.val)) ↔ (0 < a.den * b.den ∨ a.val = b.val)) := by
  rcases lt_or_gt_of_ne (mul_ne_zero ha hb) with hs | hs
  · have e1 := (C30_lt_partial a b h1 h2).2 hs
    have e2 := (C30_lt_partial b a h2 h1).2 (by rw [mul_comm]; exact hs)
    have e3 : RatNum.le a b = .ok (decide (b.val ≤ a.val)) := by
      unfold RatNum.le Rel.le; rw [e2, Rel.notOf_ok, ← decide_not]
      congr 1; exact decide_eq_decide.2 not_lt
    have e4 : RatNum.ge a b = .ok (decide (a.val ≤ b.val)) := by
      unfold RatNum.ge Rel.ge; rw [e1, Rel.notOf_ok, ← decide_not]
      congr 1; exact decide_eq_decide.2 not_lt
    have e5 : RatNum.gt a b = .ok (decide (a.val < b.val)) := e2
    rw [e1, e3, e4, e5, or_iff_right (not_lt.2 hs.le)]
    simp only [ok_decide_iff]
    refine ⟨⟨fun h => ?_, fun h => by rw [h]⟩, ⟨fun h => ?_, fun h => by rw [h]⟩, ⟨fun h => ?_, fun h => by rw [h]⟩,
      ⟨fun h => ?_, fun h => by rw [h]⟩⟩ <;>
    · rcases lt_trichotomy a.val b.val with hl | hl | hl
      · have := h.1; have := h.2; grind
      · exact hl
      · have := h.1; have := h.2; grind
  · have e := (C30_lt_partial a b h1 h2).1 hs
    simp [e.1, e.2.1, e.2.2.1, e.2.2.2, hs]

/-- The sign of the greatest common divisor that `simplify` divides by agrees with that of the denominator. -/
def Spec.KeptSign (p q : Int) : Prop := (if euclidSteps p.natAbs q.natAbs % 2 = 0 then p.sign else q.sign) = q.sign

/-- C30 (what holds, in terms of what a program writes).  Two constructed rationals p/q and p'/q' compare in the order of their
values exactly if Euclid's algorithm keeps or changes both signs, or the values are equal. -/
theorem C30_constructed_partial (p q p' q' : Int) (hp : InLong p) (hq : InLong q) (hp' : InLong p') (hq' : InLong q')
    (a b : RatNum) (ha : RatNum.new p q = .ok a) (hb : RatNum.new p' q' = .ok b) (h1 : InLong (a.num * b.den))
    (h2 : InLong (b.num * a.den)) (hq0 : q ≠ 0) (hq0' : q' ≠ 0) :
    RatNum.lt a b = .ok (decide (frac p q < frac p' q')) ↔ ((KeptSign p q ↔ KeptSign p' q') ∨ frac p q = frac p' q') := by
  obtain ⟨g, -, hg0, e1, e2, -⟩ := simplify_ok hp hq ha
  obtain ⟨g', -, hg0', e1', e2', -⟩ := simplify_ok hp' hq' hb
  have hda : a.den ≠ 0 := by rintro h; rw [h, mul_zero] at e2; exact hq0 e2
  have hdb : b.den ≠ 0 := by rintro h; rw [h, mul_zero] at e2'; exact hq0' e2'
  have va : a.val = frac p q := by
    show frac a.num a.den = frac p q
    have h1 : (a.den : ℚ) ≠ 0 := by exact_mod_cast hda
    have h2 : (g : ℚ) ≠ 0 := by exact_mod_cast hg0
    have h3 : (q : ℚ) ≠ 0 := by exact_mod_cast hq0
    unfold frac
    rw [div_eq_div_iff h1 h3]
    conv_lhs => rw [e2]
    conv_rhs => rw [e1]
    push_cast; ring
  have vb : b.val = frac p' q' := by
    show frac b.num b.den = frac p' q'
    have h1 : (b.den : ℚ) ≠ 0 := by exact_mod_cast hdb
    have h2 : (g' : ℚ) ≠ 0 := by exact_mod_cast hg0'
    have h3 : (q' : ℚ) ≠ 0 := by exact_mod_cast hq0'
    unfold frac
    rw [div_eq_div_iff h1 h3]
    conv_lhs => rw [e2']
    conv_rhs => rw [e1']
    push_cast; ring
  have sa := C27_sign_partial p q hp hq a ha
  have sb := C27_sign_partial p' q' hp' hq' b hb
  have hiff : 0 < a.den * b.den ↔ (KeptSign p q ↔ KeptSign p' q') := by
    unfold KeptSign
    rw [← sa, ← sb, mul_pos_iff]
    have : b.den < 0 ↔ ¬ 0 < b.den := by omega
    have : a.den < 0 ↔ ¬ 0 < a.den := by omega
    tauto
  rw [← va, ← vb, (C30_exactly_partial a b hda hdb h1 h2).1, hiff]

theorem trunc_mono_left {x : ℚ} {n : Int} (h : (n : ℚ) ≤ x) : n ≤ trunc x := by
  unfold trunc
  split
  · exact Int.le_floor.2 h
  · exact_mod_cast h.trans (Int.le_ceil x)

theorem trunc_mono_right {x : ℚ} {n : Int} (h : x ≤ (n : ℚ)) : trunc x ≤ n := by
  unfold trunc
  split
  · exact_mod_cast (Int.floor_le x).trans h
  · exact Int.ceil_le.2 h

/-- C31 (what holds, for all rationals and integers).  A comparison of a rational x with an integer n is wrong exactly if n is x
rounded towards zero and: x < n for `<` and `>=`, n < x for `<=` and `>`, x is not n for `==` and `!=`; and the same with the
integer on the left. -/
theorem C31_exactly_partial (r : RatNum) (n : Int) (hn : InLong r.num) (hd : r.den ≠ 0)
    (h : ¬ (r.num = -H63 ∧ r.den = -1)) :
    let below := trunc r.val = n ∧ r.val < n
    let above := trunc r.val = n ∧ (n : ℚ) < r.val
    let apart := trunc r.val = n ∧ r.val ≠ n
    ((RatNum.ltInt r n = .ok (decide (r.val < n)) ↔ ¬ below) ∧ (RatNum.geInt r n = .ok (decide (n ≤ r.val)) ↔ ¬ below) ∧
      (RatNum.leInt r n = .ok (decide (r.val ≤ n)) ↔ ¬ above) ∧ (RatNum.gtInt r n = .ok (decide (n < r.val)) ↔ ¬ above) ∧
      (RatNum.eqInt r n = .ok (decide (r.val = n)) ↔ ¬ apart) ∧ (RatNum.neInt r n = .ok (decide (r.val ≠ n)) ↔ ¬ apart)) ∧
    ((RatNum.intLt n r = .ok (decide (n < r.val)) ↔ ¬ above) ∧ (RatNum.intGe n r = .ok (decide (r.val ≤ n)) ↔ ¬ above) ∧
      (RatNum.intLe n r = .ok (decide (n ≤ r.val)) ↔ ¬ below) ∧ (RatNum.intGt n r = .ok (decide (r.val < n)) ↔ ¬ below) ∧
      (RatNum.intEq n r = .ok (decide (n = r.val)) ↔ ¬ apart) ∧ (RatNum.intNe n r = .ok (decide (n ≠ r.val)) ↔ ¬ apart)) := by
  obtain ⟨⟨a1, a2, a3, a4, a5, a6⟩, ⟨b1, b2, b3, b4, b5, b6⟩⟩ := C31_mixed_partial r n hn hd h
  intro below above apart
  simp only [a1, a2, a3, a4, a5, a6, b1, b2, b3, b4, b5, b6, ok_decide_iff, below, above, apart]
  have m1 := fun h => trunc_mono_left (x := r.val) (n := n) h
  have m2 := fun h => trunc_mono_right (x := r.val) (n := n) h
  generalize trunc r.val = t at *
  generalize r.val = x at *
  rcases lt_trichotomy x (n : ℚ) with hx | hx | hx
  · have ht := m2 hx.le
    rcases ht.lt_or_eq with ht | ht
    · simp [hx, ht, hx.le, ht.le, hx.ne, ht.ne, hx.ne', ht.ne', not_lt.2 hx.le, not_le.2 hx, not_lt.2 ht.le, not_le.2 ht]
    · subst ht
      simp [hx, hx.le, hx.ne, hx.ne', not_lt.2 hx.le, not_le.2 hx]
  · have e : t = n := le_antisymm (m2 hx.le) (m1 hx.ge)
    subst e; subst hx
    simp
  · have ht := m1 hx.le
    rcases ht.lt_or_eq with ht | ht
    · simp [hx, ht, hx.le, ht.le, hx.ne, ht.ne, hx.ne', ht.ne', not_lt.2 hx.le, not_le.2 hx, not_lt.2 ht.le, not_le.2 ht]
    · subst ht
      simp [hx, hx.le, hx.ne, hx.ne', not_lt.2 hx.le, not_le.2 hx]

/-- The conditions are met: 1/2 and 0 differ but one is the other rounded towards zero. -/
example : trunc (RatNum.val ⟨1, 2⟩) = 0 ∧ RatNum.val ⟨1, 2⟩ ≠ ((0 : Int) : ℚ) := by
  have : RatNum.val ⟨1, 2⟩ = 1 / 2 := by unfold RatNum.val frac; norm_num
  rw [this]
  refine ⟨?_, by norm_num⟩
  unfold trunc
  rw [if_pos (by norm_num)]
  norm_num

example : ¬ KeptSign (-1) 2 ∧ KeptSign 1 3 := by
  have h1 := C27_sign_partial (-1) 2 (by decide) (by decide) _ new_neg1_2
  have h2 := C27_sign_partial 1 3 (by decide) (by decide) _ new_1_3
  exact ⟨fun h => absurd (h1.2 h) (by decide), h2.1 (by decide)⟩

end Bwsl
