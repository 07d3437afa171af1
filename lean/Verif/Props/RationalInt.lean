import Verif.Model.RationalInt
import Verif.Props.Rational
import Verif.Props.RationalText
import Verif.Props.RationalFloat

/-! Property C104: `RationalInt`. -/

namespace Bwsl
open Spec

theorem int_ok {x : Int} (h : InInt x) : int x = .ok x := by simp only [int, if_pos h]
theorem int_eq_ok {x y : Int} : int x = .ok y ↔ InInt x ∧ y = x := by
  unfold int
  constructor
  · split
    · intro h; cases h; exact ⟨by assumption, rfl⟩
    · intro h; cases h
  · rintro ⟨h, rfl⟩; rw [if_pos h]
theorem InInt.long {x : Int} (h : InInt x) : InLong x := by unfold InInt at h; comega

/-- `y` completes with the same result whenever `x` completes. -/
def Refines {α : Type} (x y : Res α) : Prop := ∀ a, x = .ok a → y = .ok a

theorem Refines.bind {α β : Type} {x y : Res α} {f g : α → Res β} (h : Refines x y) (h' : ∀ a, Refines (f a) (g a)) :
    Refines (x >>= f) (y >>= g) := by
  intro b hb
  obtain ⟨a, h1, h2⟩ := Res.bind_eq_ok.1 hb
  exact Res.bind_eq_ok.2 ⟨a, h a h1, h' a b h2⟩

theorem Refines.refl {α : Type} (x : Res α) : Refines x x := fun _ h => h

theorem refines_int (x : Int) : Refines (int x) (long x) := fun a h => by
  obtain ⟨h1, rfl⟩ := int_eq_ok.1 h
  exact long_ok h1.long

theorem refines_div (a b : Int) : Refines (idiv a b) (ldiv a b) := by
  unfold idiv ldiv
  split
  · exact .refl _
  · exact refines_int _

theorem refines_mod (a b : Int) : Refines (imod a b) (lmod a b) := by
  intro r h
  unfold imod at h
  unfold lmod
  split at h
  · cases h
  · next hb =>
    split at h
    · next hi => rw [if_neg hb, if_pos hi.long]; exact h
    · cases h

theorem imod_ok {a b : Int} (ha : InInt a) (hb : b ≠ 0) (h : ¬ (a = -H31 ∧ b = -1)) : imod a b = .ok (Int.tmod a b) := by
  have : InInt (Int.tdiv a b) := by
    have h1 : (Int.tdiv a b).natAbs ≤ a.natAbs := by rw [Int.natAbs_tdiv]; exact Nat.div_le_self _ _
    by_cases hmin : a = -H31
    · by_cases h2 : b = 1
      · subst h2; simpa using ha
      · have h3 : 2 ≤ b.natAbs := by omega
        have h4 : (Int.tdiv a b).natAbs ≤ a.natAbs / 2 := by
          rw [Int.natAbs_tdiv]; exact Nat.div_le_div_left h3 (by omega)
        unfold InInt at *; omega
    · unfold InInt at *; omega
  rw [imod, if_neg hb, if_pos this]

theorem idiv_ok {a b : Int} (ha : InInt a) (hb : b ≠ 0) (h : a ≠ -H31) : idiv a b = .ok (Int.tdiv a b) := by
  have h1 : (Int.tdiv a b).natAbs ≤ a.natAbs := by rw [Int.natAbs_tdiv]; exact Nat.div_le_self _ _
  rw [idiv, if_neg hb, int_ok (by unfold InInt at *; omega)]

namespace RatInt

theorem getGcd_refines (a b : Int) : Refines (getGcd a b) (Bwsl.getGcd a b) := by
  generalize hn : b.natAbs = n
  induction n using Nat.strongRecOn generalizing a b with
  | _ n ih =>
    intro g hg
    rw [getGcd] at hg
    by_cases h0 : b = 0
    · subst h0; rw [if_pos rfl] at hg; rw [getGcd_zero]; exact hg
    · rw [if_neg h0] at hg
      obtain ⟨r, h1, h2⟩ := Res.bind_eq_ok.1 hg
      have h3 := refines_mod a b r h1
      rw [getGcd_step h0 h3]
      have hr : r = Int.tmod a b := by
        unfold lmod at h3
        rw [if_neg h0] at h3
        split at h3
        · cases h3; rfl
        · cases h3
      subst hr
      exact ih _ (hn ▸ tmod_natAbs_lt a b h0) b _ rfl g h2

theorem getGcd_eq (a b : Int) (ha : InInt a) (hb : InInt b) (h : ¬ (a = -H31 ∧ b = -1)) (h' : ¬ (a = -1 ∧ b = -H31)) :
    getGcd a b = Bwsl.getGcd a b := by
  generalize hn : b.natAbs = n
  induction n using Nat.strongRecOn generalizing a b with
  | _ n ih =>
    by_cases h0 : b = 0
    · subst h0; rw [getGcd, if_pos rfl, getGcd_zero]
    · have hlt := tmod_natAbs_lt a b h0
      rw [getGcd, if_neg h0, imod_ok ha h0 h, Res.ok_bind, getGcd_step h0 (refines_mod _ _ _ (imod_ok ha h0 h))]
      refine ih _ (hn ▸ hlt) b _ hb (by unfold InInt at *; omega) ?_ ?_ rfl
      · rintro ⟨h1, h2⟩
        by_cases hmin : a = -H31
        · rw [hmin, h1] at h2; exact absurd h2 (by decide)
        · have : Int.tmod a b = a := C16_gcd.Int.tmod_eq_of_lt_natAbs' (by unfold InInt at *; omega)
          exact h' ⟨by omega, h1⟩
      · rintro ⟨h1, h2⟩
        subst h1
        omega

end RatInt

/-- C104.  `get_gcd` at `int` is the greatest common divisor up to sign, except for INT_MIN and -1. -/
theorem C104_gcd (a b : Int) (ha : InInt a) (hb : InInt b) (h : ¬ (a = -H31 ∧ b = -1)) (h' : ¬ (a = -1 ∧ b = -H31)) :
    ∃ g, RatInt.getGcd a b = .ok g ∧ InInt g ∧ g.natAbs = Int.gcd a b := by
  obtain ⟨g, h1, -, h3⟩ := C16_gcd a b ha.long hb.long (by unfold InInt at *; omega) (by unfold InInt at *; omega)
  refine ⟨g, by rw [RatInt.getGcd_eq a b ha hb h h', h1], ?_, h3⟩
  have hle : g.natAbs ≤ 2147483648 := by
    rw [h3]
    by_cases h0 : a = 0
    · subst h0; rw [Int.gcd_zero_left]; unfold InInt at hb; omega
    · have := Nat.le_of_dvd (by omega) (Int.gcd_dvd_natAbs_left a b)
      unfold InInt at ha; omega
  have hne : g ≠ H31 := by
    rintro rfl
    -- a positive result of 2^31 would need INT_MIN as an argument; the last argument is then returned
    have key : ∀ n a b : Int, InInt a → InInt b → b.natAbs = n.natAbs → Bwsl.getGcd a b = .ok H31 → False := by
      intro n
      generalize hn : n.natAbs = k
      intro a b ha hb hbn hg
      induction k using Nat.strongRecOn generalizing a b n with
      | _ k ih =>
        by_cases h0 : b = 0
        · subst h0; rw [getGcd_zero, Res.ok.injEq] at hg; unfold InInt at ha; omega
        · have hm := lmod_ok ha.long h0 (by unfold InInt at ha; omega)
          rw [getGcd_step h0 hm] at hg
          have hlt := tmod_natAbs_lt a b h0
          exact ih _ (by omega) (Int.tmod a b) rfl b _ hb (by unfold InInt at *; omega) rfl hg
    exact key b a b ha hb rfl h1
  unfold InInt
  omega

/-- C104.  The two undefined cases. -/
theorem C104_gcd_undefined :
    RatInt.getGcd (-H31) (-1) = .ub .signedOverflow ∧ RatInt.getGcd (-1) (-H31) = .ub .signedOverflow := by
  have h1 : RatInt.getGcd (-H31) (-1) = .ub .signedOverflow := by
    rw [RatInt.getGcd, if_neg (by decide), show imod (-H31) (-1) = .ub .signedOverflow by decide]; rfl
  refine ⟨h1, ?_⟩
  rw [RatInt.getGcd, if_neg (by decide), show imod (-1) (-H31) = .ok (-1) by decide, Res.ok_bind, h1]

example : InInt (-12) ∧ InInt 18 ∧ ¬ ((-12 : Int) = -H31 ∧ (18 : Int) = -1) := by decide

namespace RatInt

theorem new_refines (p q : Int) : Refines (RatInt.new p q) (RatNum.new p q) := by
  unfold RatInt.new RatNum.new simplify RatNum.simplify
  exact (getGcd_refines _ _).bind (fun g => (refines_div _ _).bind (fun n => (refines_div _ _).bind (fun d => .refl _)))

theorem new_range {p q : Int} {r : RatNum} (h : RatInt.new p q = .ok r) : InInt r.num ∧ InInt r.den := by
  unfold RatInt.new simplify at h
  obtain ⟨g, -, h⟩ := Res.bind_eq_ok.1 h
  obtain ⟨n, hn, h⟩ := Res.bind_eq_ok.1 h
  obtain ⟨d, hd, h⟩ := Res.bind_eq_ok.1 h
  cases h
  unfold idiv at hn hd
  split at hn
  · cases hn
  · split at hd
    · cases hd
    · obtain ⟨h1, rfl⟩ := int_eq_ok.1 hn
      obtain ⟨h2, rfl⟩ := int_eq_ok.1 hd
      exact ⟨h1, h2⟩

end RatInt

/-- C104.  Whenever an operation of `RationalInt` completes, the same operation of `RationalLong` completes with the same
result. -/
theorem C104_agrees (a b : RatNum) (n p q : Int) :
    Refines (RatInt.new p q) (RatNum.new p q) ∧
    Refines (RatInt.add a b) (RatNum.add a b) ∧ Refines (RatInt.sub a b) (RatNum.sub a b) ∧
    Refines (RatInt.mul a b) (RatNum.mul a b) ∧ Refines (RatInt.div a b) (RatNum.div a b) ∧
    Refines (RatInt.addInt a n) (RatNum.addInt a n) ∧ Refines (RatInt.subInt a n) (RatNum.subInt a n) ∧
    Refines (RatInt.mulInt a n) (RatNum.mulInt a n) ∧ Refines (RatInt.divInt a n) (RatNum.divInt a n) ∧
    Refines (RatInt.intAdd n a) (RatNum.intAdd n a) ∧ Refines (RatInt.intSub n a) (RatNum.intSub n a) ∧
    Refines (RatInt.intMul n a) (RatNum.intMul n a) ∧ Refines (RatInt.intDiv n a) (RatNum.intDiv n a) ∧
    Refines (RatInt.toInt a) (RatNum.toInt a) ∧ Refines (RatInt.isInt a) (RatNum.isInt a) := by
  have hN := RatInt.new_refines
  refine ⟨hN p q, ?_, ?_, ?_, ?_, ?_, ?_, ?_, ?_, ?_, ?_, ?_, ?_, refines_div _ _, ?_⟩
  · exact (refines_int _).bind (fun x => (refines_int _).bind (fun y => (refines_int _).bind (fun n => (refines_int _).bind (fun d => hN _ _))))
  · exact (refines_int _).bind (fun x => (refines_int _).bind (fun y => (refines_int _).bind (fun n => (refines_int _).bind (fun d => hN _ _))))
  · exact (refines_int _).bind (fun x => (refines_int _).bind (fun y => hN _ _))
  · exact (refines_int _).bind (fun x => (refines_int _).bind (fun y => hN _ _))
  · exact (refines_int _).bind (fun x => (refines_int _).bind (fun y => hN _ _))
  · exact (refines_int _).bind (fun x => (refines_int _).bind (fun y => hN _ _))
  · exact (refines_int _).bind (fun x => hN _ _)
  · exact (refines_int _).bind (fun x => hN _ _)
  · exact (refines_int _).bind (fun x => (refines_int _).bind (fun y => hN _ _))
  · exact (refines_int _).bind (fun x => (refines_int _).bind (fun y => hN _ _))
  · exact (refines_int _).bind (fun x => hN _ _)
  · exact (refines_int _).bind (fun x => hN _ _)
  · exact (refines_mod _ _).bind (fun x => .refl _)

theorem refines_not {x y : Res Bool} (h : Refines x y) : Refines (Rel.notOf x) (Rel.notOf y) := h.bind (fun _ => .refl _)

theorem refines_eq {α β : Type} {f f' : α → β → Res Bool} {g g' : β → α → Res Bool} {a : α} {b : β}
    (h1 : Refines (f a b) (f' a b)) (h2 : Refines (g b a) (g' b a)) : Refines (Rel.eq f g a b) (Rel.eq f' g' a b) := by
  unfold Rel.eq
  refine (refines_not h1).bind (fun t => ?_)
  cases t
  · exact .refl _
  · exact refines_not h2

/-- C104.  The same for comparisons. -/
theorem C104_compares (a b : RatNum) (n : Int) :
    (Refines (RatInt.lt a b) (RatNum.lt a b) ∧ Refines (RatInt.eq a b) (RatNum.eq a b) ∧
      Refines (RatInt.ne a b) (RatNum.ne a b) ∧ Refines (RatInt.le a b) (RatNum.le a b) ∧
      Refines (RatInt.gt a b) (RatNum.gt a b) ∧ Refines (RatInt.ge a b) (RatNum.ge a b)) ∧
    (Refines (RatInt.ltInt a n) (RatNum.ltInt a n) ∧ Refines (RatInt.eqInt a n) (RatNum.eqInt a n) ∧
      Refines (RatInt.neInt a n) (RatNum.neInt a n) ∧ Refines (RatInt.leInt a n) (RatNum.leInt a n) ∧
      Refines (RatInt.gtInt a n) (RatNum.gtInt a n) ∧ Refines (RatInt.geInt a n) (RatNum.geInt a n)) ∧
    (Refines (RatInt.intLt n a) (RatNum.intLt n a) ∧ Refines (RatInt.intEq n a) (RatNum.intEq n a) ∧
      Refines (RatInt.intNe n a) (RatNum.intNe n a) ∧ Refines (RatInt.intLe n a) (RatNum.intLe n a) ∧
      Refines (RatInt.intGt n a) (RatNum.intGt n a) ∧ Refines (RatInt.intGe n a) (RatNum.intGe n a)) := by
  have h : ∀ a b, Refines (RatInt.lt a b) (RatNum.lt a b) := fun a b =>
    (refines_int _).bind (fun x => (refines_int _).bind (fun y => .refl _))
  have h1 : Refines (RatInt.ltInt a n) (RatNum.ltInt a n) := (refines_div _ _).bind (fun x => .refl _)
  have h2 : Refines (RatInt.intLt n a) (RatNum.intLt n a) := (refines_div _ _).bind (fun x => .refl _)
  exact ⟨⟨h a b, refines_eq (h a b) (h b a), refines_not (refines_eq (h a b) (h b a)), refines_not (h b a), h b a,
    refines_not (h a b)⟩, ⟨h1, refines_eq h1 h2, refines_not (refines_eq h1 h2), refines_not h2, h2, refines_not h1⟩,
    ⟨h2, refines_eq h2 h1, refines_not (refines_eq h2 h1), refines_not h1, h1, refines_not h2⟩⟩

/-- C104.  A constructed `RationalInt` denotes the quotient, in lowest terms, with `int`s. -/
theorem C104_constructor (p q : Int) (hp : InInt p) (hq : InInt q) (hq0 : q ≠ 0) (r : RatNum) (h : RatInt.new p q = .ok r) :
    Denotes r (frac p q) ∧ InInt r.num ∧ InInt r.den :=
  ⟨new_denotes hp.long hq.long hq0 (RatInt.new_refines p q r h), RatInt.new_range h⟩

/-- C104.  It completes for all arguments other than INT_MIN that are not both zero. -/
theorem C104_constructor_defined (p q : Int) (hp : InInt p) (hq : InInt q) (hp' : p ≠ -H31) (hq' : q ≠ -H31)
    (h0 : p ≠ 0 ∨ q ≠ 0) : ∃ r, RatInt.new p q = .ok r := by
  obtain ⟨g, h1, -, h3⟩ := C104_gcd p q hp hq (by omega) (by omega)
  have hg0 : g ≠ 0 := by
    rintro rfl
    have : Int.gcd p q = 0 := by rw [← h3]; rfl
    rw [Int.gcd_eq_zero_iff] at this
    omega
  unfold RatInt.new RatInt.simplify
  simp only [h1, Res.ok_bind]
  rw [idiv_ok hp hg0 hp', Res.ok_bind, idiv_ok hq hg0 hq', Res.ok_bind]
  exact ⟨_, rfl⟩

/-- C104.  Arithmetic is exact whenever it completes, and the results have `int` terms. -/
theorem C104_arithmetic (a b r : RatNum) (ha : a.den ≠ 0) (hb : b.den ≠ 0) :
    (RatInt.add a b = .ok r → Denotes r (a.val + b.val) ∧ InInt r.num ∧ InInt r.den) ∧
    (RatInt.sub a b = .ok r → Denotes r (a.val - b.val) ∧ InInt r.num ∧ InInt r.den) ∧
    (RatInt.mul a b = .ok r → Denotes r (a.val * b.val) ∧ InInt r.num ∧ InInt r.den) ∧
    (b.num ≠ 0 → RatInt.div a b = .ok r → Denotes r (a.val / b.val) ∧ InInt r.num ∧ InInt r.den) := by
  obtain ⟨-, h1, h2, h3, h4, -⟩ := C104_agrees a b 0 0 0
  refine ⟨fun h => ⟨C28_add a b r ha hb (h1 r h), ?_⟩, fun h => ⟨C28_sub a b r ha hb (h2 r h), ?_⟩,
    fun h => ⟨C28_mul a b r ha hb (h3 r h), ?_⟩, fun hn h => ⟨C28_div a b r ha hn (h4 r h), ?_⟩⟩
  · unfold RatInt.add at h
    obtain ⟨_, _, h⟩ := Res.bind_eq_ok.1 h
    obtain ⟨_, _, h⟩ := Res.bind_eq_ok.1 h
    obtain ⟨_, _, h⟩ := Res.bind_eq_ok.1 h
    obtain ⟨_, _, h⟩ := Res.bind_eq_ok.1 h
    exact RatInt.new_range h
  · unfold RatInt.sub at h
    obtain ⟨_, _, h⟩ := Res.bind_eq_ok.1 h
    obtain ⟨_, _, h⟩ := Res.bind_eq_ok.1 h
    obtain ⟨_, _, h⟩ := Res.bind_eq_ok.1 h
    obtain ⟨_, _, h⟩ := Res.bind_eq_ok.1 h
    exact RatInt.new_range h
  · unfold RatInt.mul at h
    obtain ⟨_, _, h⟩ := Res.bind_eq_ok.1 h
    obtain ⟨_, _, h⟩ := Res.bind_eq_ok.1 h
    exact RatInt.new_range h
  · unfold RatInt.div at h
    obtain ⟨_, _, h⟩ := Res.bind_eq_ok.1 h
    obtain ⟨_, _, h⟩ := Res.bind_eq_ok.1 h
    exact RatInt.new_range h

/-- C104.  A rational and an integer, in both orders. -/
theorem C104_mixed (a : RatNum) (n : Int) (ha : a.den ≠ 0) (hl : InInt a.num) (hd : InInt a.den) (r : RatNum) :
    (RatInt.addInt a n = .ok r → Denotes r (a.val + n)) ∧ (RatInt.intAdd n a = .ok r → Denotes r (n + a.val)) ∧
    (RatInt.subInt a n = .ok r → Denotes r (a.val - n)) ∧ (RatInt.intSub n a = .ok r → Denotes r (n - a.val)) ∧
    (RatInt.mulInt a n = .ok r → Denotes r (a.val * n)) ∧ (RatInt.intMul n a = .ok r → Denotes r (n * a.val)) ∧
    (n ≠ 0 → RatInt.divInt a n = .ok r → Denotes r (a.val / n)) ∧
    (a.num ≠ 0 → RatInt.intDiv n a = .ok r → Denotes r (n / a.val)) := by
  obtain ⟨-, -, -, -, -, h1, h2, h3, h4, h5, h6, h7, h8, -⟩ := C104_agrees a a n 0 0
  obtain ⟨g1, g2, g3, g4, g5, g6, g7, g8⟩ := C28_mixed a n ha hl.long hd.long r
  exact ⟨fun h => g1 (h1 r h), fun h => g2 (h5 r h), fun h => g3 (h2 r h), fun h => g4 (h6 r h), fun h => g5 (h3 r h),
    fun h => g6 (h7 r h), fun h0 h => g7 h0 (h4 r h), fun h0 h => g8 h0 (h8 r h)⟩

/-- The value is an `int` and not INT_MIN. -/
def Spec.Mid32 (x : Int) : Prop := -H31 < x ∧ x < H31

/-- C104.  The operations complete when no intermediate value leaves (-2^31, 2^31) and the divisor is not zero. -/
theorem C104_defined (a b : RatNum) (ha : a.den ≠ 0) (hb : b.den ≠ 0)
    (h1 : Mid32 (a.num * b.den)) (h2 : Mid32 (b.num * a.den)) (h3 : Mid32 (a.den * b.den)) :
    (Mid32 (a.num * b.den + b.num * a.den) → ∃ r, RatInt.add a b = .ok r) ∧
    (Mid32 (a.num * b.den - b.num * a.den) → ∃ r, RatInt.sub a b = .ok r) ∧
    (Mid32 (a.num * b.num) → ∃ r, RatInt.mul a b = .ok r) ∧
    (b.num ≠ 0 → ∃ r, RatInt.div a b = .ok r) := by
  have e : ∀ x : Int, Mid32 x → int x = .ok x := fun x h => int_ok (by unfold Mid32 at h; unfold InInt; omega)
  have key : ∀ x y : Int, Mid32 x → Mid32 y → (x ≠ 0 ∨ y ≠ 0) → ∃ r, RatInt.new x y = .ok r := by
    intro x y hx hy h0
    unfold Mid32 at hx hy
    exact C104_constructor_defined x y (by unfold InInt; omega) (by unfold InInt; omega) (by omega) (by omega) h0
  have hden := mul_ne_zero ha hb
  refine ⟨fun h => ?_, fun h => ?_, fun h => ?_, fun h => ?_⟩
  · unfold RatInt.add imul iadd
    rw [e _ h1, Res.ok_bind, e _ h2, Res.ok_bind, e _ h, Res.ok_bind, e _ h3, Res.ok_bind]
    exact key _ _ h h3 (Or.inr hden)
  · unfold RatInt.sub imul isub
    rw [e _ h1, Res.ok_bind, e _ h2, Res.ok_bind, e _ h, Res.ok_bind, e _ h3, Res.ok_bind]
    exact key _ _ h h3 (Or.inr hden)
  · unfold RatInt.mul imul
    rw [e _ h, Res.ok_bind, e _ h3, Res.ok_bind]
    exact key _ _ h h3 (Or.inr hden)
  · unfold RatInt.div imul
    rw [e _ h1, Res.ok_bind, e _ h2, Res.ok_bind]
    exact key _ _ h1 h2 (Or.inr (mul_ne_zero h ha))

/-- C104.  Equality is that of the values and `<` compares the cross products when these are `int`s; otherwise both are
undefined. -/
theorem C104_comparison_domain (a b : RatNum) (ha : a.den ≠ 0) (hb : b.den ≠ 0) :
    (InInt (a.num * b.den) ∧ InInt (b.num * a.den) → RatInt.lt a b = .ok (decide (a.num * b.den < b.num * a.den)) ∧
      RatInt.eq a b = .ok (decide (a.val = b.val))) ∧
    (¬ (InInt (a.num * b.den) ∧ InInt (b.num * a.den)) → RatInt.lt a b = .ub .signedOverflow ∧
      RatInt.eq a b = .ub .signedOverflow) := by
  have lt_ok : ∀ a b : RatNum, InInt (a.num * b.den) ∧ InInt (b.num * a.den) →
      RatInt.lt a b = .ok (decide (a.num * b.den < b.num * a.den)) := by
    intro a b h
    unfold RatInt.lt imul
    rw [int_ok h.1, Res.ok_bind, int_ok h.2, Res.ok_bind]
  have lt_ub : ∀ a b : RatNum, ¬ (InInt (a.num * b.den) ∧ InInt (b.num * a.den)) → RatInt.lt a b = .ub .signedOverflow := by
    intro a b h
    unfold RatInt.lt imul
    by_cases h1 : InInt (a.num * b.den)
    · rw [int_ok h1, Res.ok_bind]
      have h2 : ¬ InInt (b.num * a.den) := fun h2 => h ⟨h1, h2⟩
      unfold int
      rw [if_neg h2]; rfl
    · unfold int
      rw [if_neg h1]; rfl
  refine ⟨fun h => ⟨lt_ok a b h, ?_⟩, fun h => ⟨lt_ub a b h, ?_⟩⟩
  · unfold RatInt.eq
    rw [Rel.eq_ok (lt_ok a b h) (lt_ok b a h.symm)]
    congr 1
    rw [decide_eq_decide, show a.val = b.val ↔ a.num * b.den = b.num * a.den from frac_eq_iff ha hb]
    omega
  · unfold RatInt.eq Rel.eq Rel.notOf
    rw [lt_ub a b h]; rfl

/-- C104.  65536 and 1/65536 can be compared as `RationalLong` but not as `RationalInt`. -/
theorem C104_narrow : (RatNum.new 65536 1 = .ok ⟨65536, 1⟩ ∧ RatNum.eq ⟨65536, 1⟩ ⟨1, 65536⟩ = .ok false) ∧
    RatInt.new 65536 1 = .ok ⟨65536, 1⟩ ∧ RatInt.eq ⟨65536, 1⟩ ⟨1, 65536⟩ = .ub .signedOverflow := by
  have h1 : RatInt.new 65536 1 = .ok ⟨65536, 1⟩ := by
    unfold RatInt.new RatInt.simplify
    have : RatInt.getGcd 65536 1 = .ok 1 := by
      rw [RatInt.getGcd, if_neg (by decide), show imod 65536 1 = .ok 0 by decide, Res.ok_bind, RatInt.getGcd, if_pos rfl]
    simp only [this, Res.ok_bind]
    decide
  exact ⟨⟨RatInt.new_refines _ _ _ h1, by decide⟩, h1, by decide⟩

/-! ### Text -/

theorem readInt_iff {s : IStream} {old v : Int} {tl : List Char} :
    s.readInt old = (v, ⟨tl, false⟩) ↔ s.readLong old = (v, ⟨tl, false⟩) ∧ InInt v := by
  unfold IStream.readInt
  generalize s.readLong old = r
  obtain ⟨w, u, f⟩ := r
  simp only
  split
  · next h => simp only [Prod.mk.injEq, IStream.mk.injEq, Bool.true_eq_false, and_false, false_iff]
              rintro ⟨⟨rfl, -⟩, h'⟩; unfold InInt at h'; omega
  · split
    · next h => simp only [Prod.mk.injEq, IStream.mk.injEq, Bool.true_eq_false, and_false, false_iff]
                rintro ⟨⟨rfl, -⟩, h'⟩; unfold InInt at h'; omega
    · next h1 h2 =>
      constructor
      · intro h
        cases h
        exact ⟨rfl, by unfold InInt; omega⟩
      · exact fun h => h.1

theorem readInt_fail {s : IStream} {old : Int} (h : s.fail = true) : (s.readInt old).2.fail = true := by
  unfold IStream.readInt
  rw [readLong_fail h]
  simp only
  split
  · rfl
  · split
    · rfl
    · exact h

theorem int_extract_iff {s : List Char} {r0 : RatNum} {n d : Int} {tl : List Char} :
    RatInt.extract ⟨s, false⟩ r0 = (⟨tl, false⟩, ⟨n, d⟩) ↔
      RatNum.extract ⟨s, false⟩ r0 = (⟨tl, false⟩, ⟨n, d⟩) ∧ InInt n ∧ InInt d := by
  rw [extract_iff]
  unfold RatInt.extract
  constructor
  · intro h
    generalize h1 : IStream.readInt ⟨s, false⟩ r0.num = r1 at h
    obtain ⟨n', u, f1⟩ := r1
    simp only at h
    generalize h2 : RatNum.readSeps ⟨u, f1⟩ = r2 at h
    obtain ⟨⟨v, f2⟩, b⟩ := r2
    simp only at h
    have hf2 : f1 = true → f2 = true := by
      rintro rfl
      have hf := readSeps_fail (s := ⟨u, true⟩) rfl
      rw [h2] at hf; exact hf
    cases f2 with
    | true =>
      split at h
      · have := readInt_fail (s := ⟨v, true⟩) (old := r0.den) rfl
        simp only [Prod.mk.injEq] at h
        rw [h.1] at this; cases this
      · simp at h
    | false =>
      cases f1 with
      | true => cases hf2 rfl
      | false =>
        have hb := readSeps_go h2
        subst hb
        simp only [if_true] at h
        generalize h3 : IStream.readInt ⟨v, false⟩ r0.den = r3 at h
        obtain ⟨d', x, f3⟩ := r3
        simp only [Prod.mk.injEq, IStream.mk.injEq, RatNum.mk.injEq] at h
        obtain ⟨⟨rfl, rfl⟩, rfl, rfl⟩ := h
        obtain ⟨g1, g2⟩ := readInt_iff.1 h1
        obtain ⟨g3, g4⟩ := readInt_iff.1 h3
        exact ⟨⟨u, v, readLong_iff.1 g1, readSeps_iff.1 ⟨_, h2⟩, readLong_iff.1 g3⟩, g2, g4⟩
  · rintro ⟨⟨u, v, h1, h2, h3⟩, hn, hd⟩
    obtain ⟨b, h2⟩ := readSeps_iff.2 h2
    have hb := readSeps_go h2
    subst hb
    rw [readInt_iff.2 ⟨readLong_iff.2 h1, hn⟩]
    simp only [h2, if_true, readInt_iff.2 ⟨readLong_iff.2 h3, hd⟩]

/-- C104.  `FromString` accepts exactly the texts of rationals with `int` terms. -/
theorem C104_text (s : List Char) (r0 : RatNum) :
    (∀ n d, IsRationalText s n d → InInt n → InInt d → RatInt.fromString s r0 = (⟨n, d⟩, .ok ())) ∧
    ((∀ n d, IsRationalText s n d → ¬ (InInt n ∧ InInt d)) → (RatInt.fromString s r0).2 = .throws .badParsing) := by
  constructor
  · intro n d h hn hd
    obtain ⟨u, v, tl, h⟩ := rationalText_iff.1 h
    unfold RatInt.fromString IStream.ofString
    rw [int_extract_iff.2 ⟨extract_iff.2 ⟨u, v, h⟩, hn, hd⟩]
    rfl
  · intro h
    unfold RatInt.fromString IStream.ofString
    generalize h1 : RatInt.extract ⟨s, false⟩ r0 = r1
    obtain ⟨⟨tl, f⟩, ⟨n, d⟩⟩ := r1
    cases f with
    | true => rfl
    | false =>
      obtain ⟨h2, h3⟩ := int_extract_iff.1 h1
      obtain ⟨u, v, hh⟩ := extract_iff.1 h2
      exact absurd h3 (h n d (rationalText_iff.2 ⟨u, v, tl, hh⟩))

/-- C104.  Printing then parsing gives the number back. -/
theorem C104_round_trip (r r0 : RatNum) (hn : InInt r.num) (hd : InInt r.den) :
    RatInt.fromString (RatNum.toText r) r0 = (r, .ok ()) := by
  refine (C104_text _ r0).1 r.num r.den ⟨[], printLong r.num, [], [], [], printLong r.den, [], ?_, ?_,
    printLong_numeral _, printLong_numeral _, hn.long, hd.long, ?_⟩ hn hd
  · simp [RatNum.toText]
  · simp
  · simp

example : RatInt.fromString "-7 // 3x".toList ⟨0, 1⟩ = (⟨-7, 3⟩, .ok ()) ∧
    RatInt.fromString "2147483648//1".toList ⟨0, 1⟩ = (⟨H31 - 1, 1⟩, .throws .badParsing) ∧
    RatNum.fromString "2147483648//1".toList ⟨0, 1⟩ = (⟨H31, 1⟩, .ok ()) := by decide

/-! ### Conversions -/

/-- C104.  The conversion to `int` truncates, and `IsInt` answers whether the value is an integer. -/
theorem C104_conversion (r : RatNum) (hn : InInt r.num) (hd : r.den ≠ 0) (h : ¬ (r.num = -H31 ∧ r.den = -1)) :
    RatInt.toInt r = .ok (trunc r.val) ∧ ∃ t, RatInt.isInt r = .ok t ∧ (t = true ↔ ∃ z : Int, r.val = z) := by
  have hm := imod_ok hn hd h
  constructor
  · unfold RatInt.toInt idiv
    rw [if_neg hd, show trunc r.val = Int.tdiv r.num r.den from (tdiv_eq_trunc _ _).symm]
    refine int_ok ?_
    unfold imod at hm
    rw [if_neg hd] at hm
    split at hm
    · assumption
    · cases hm
  · obtain ⟨t, h1, h2, -⟩ := C34_isInt r hn.long hd (by unfold InInt at hn; omega)
    refine ⟨t, ?_, h2⟩
    unfold RatInt.isInt
    unfold RatNum.isInt at h1
    rw [hm]
    rw [lmod_ok hn.long hd (by unfold InInt at hn; omega)] at h1
    exact h1

section
variable {K : Type} [Field K] [LinearOrder K] [IsStrictOrderedRing K] [FloorRing K] {A : Arith K}

theorem InInt.abs {x : Int} (h : InInt x) : |x| ≤ 2 ^ 53 := by
  unfold InInt at h
  rw [abs_le]
  constructor <;> omega

/-- C104.  `static_cast<double>` of a `RationalInt` is always the double nearest to its value. -/
theorem C104_double (hA : A.IsBinary64) (r : RatNum) (hn : InInt r.num) (hd : InInt r.den) (h0 : r.den ≠ 0) :
    ∃ y : K, (r.toDouble : Num A) = .fin y ∧ Double y ∧
      ∀ z, Double z → |(r.num : K) / r.den - y| ≤ |(r.num : K) / r.den - z| :=
  C92_nearest hA r hn.abs hd.abs h0

end

end Bwsl
