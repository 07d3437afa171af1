import Verif.Model.RationalTypes
import Verif.Model.RationalInt
import Verif.Props.MathTypes
import Verif.Props.Rational

/-! Property C134: rationals over every integer type for which they compile. -/

namespace Bwsl
open Spec CInt

/-- The greatest common divisor with the sign that `get_gcd` gives it. -/
def Spec.signedGcd (p q : Int) : Int := (if euclidSteps p.natAbs q.natAbs % 2 = 0 then p.sign else q.sign) * Int.gcd p q

/-- The arguments of the constructor for which it overflows: one is the smallest value, and both are divided by -1. -/
def Spec.CtorOverflows (t : CInt) (p q : Int) : Prop := t.signed = true ∧ (p = t.lo ∨ q = t.lo) ∧ signedGcd p q = -1

namespace RatT

theorem promote_wide {t : CInt} (h : Wide t) : t.promote = t := by
  unfold promote; rw [if_neg (by unfold Wide at h; omega)]

theorem op_ok {t : CInt} (h : Wide t) {x : Int} (hx : t.Has x) : t.promote.arith x = .ok x :=
  CInt.arith_ok h.standard (has_promote h.standard hx)

theorem op_signed {t : CInt} (h : Wide t) (hs : t.signed = true) (x : Int) :
    t.promote.arith x = if t.Has x then .ok x else .ub .signedOverflow := by
  rw [promote_wide h]; unfold arith; rw [if_pos hs]

theorem op_unsigned {t : CInt} (h : Wide t) (hs : t.signed = false) (x : Int) : t.promote.arith x = .ok (t.wrap x) := by
  rw [promote_wide h]; unfold arith; rw [if_neg (by rw [hs]; simp)]

theorem lo_unsigned {t : CInt} (hs : t.signed = false) : t.lo = 0 := by unfold lo; rw [hs]; simp
theorem hi_signed {t : CInt} (hs : t.signed = true) : t.hi = -t.lo := by unfold hi lo; rw [hs]; simp

theorem lo_signed {t : CInt} (h : Wide t) (hs : t.signed = true) : t.lo ≤ -128 := by
  have := hi_ge h.standard
  rw [hi_signed hs] at this; omega

theorem div_has {t : CInt} (h : Wide t) {a b : Int} (ha : t.Has a) (hb : t.signed = false → 0 ≤ b)
    (hn : ¬ (t.signed = true ∧ a = t.lo ∧ b = -1)) : t.Has (Int.tdiv a b) := by
  have h1 : (Int.tdiv a b).natAbs ≤ a.natAbs := by rw [Int.natAbs_tdiv]; exact Nat.div_le_self _ _
  obtain ⟨a1, a2⟩ := ha
  have hl := t.lo_nonpos
  cases hs : t.signed
  · have := lo_unsigned hs
    have := Int.tdiv_nonneg (show 0 ≤ a by omega) (hb hs)
    exact ⟨by omega, by omega⟩
  · have := hi_signed hs
    have hne : a = t.lo → b ≠ -1 := fun h1 h2 => hn ⟨hs, h1, h2⟩
    by_cases e : a = t.lo
    · by_cases e1 : b = 1
      · subst e1; rw [Int.tdiv_one]; exact ⟨a1, a2⟩
      · by_cases e0 : b = 0
        · subst e0; rw [Int.tdiv_zero]; exact has_zero h.standard
        · have h2 : (Int.tdiv a b).natAbs ≤ a.natAbs / 2 := by
            rw [Int.natAbs_tdiv]
            exact Nat.div_le_div_left (by have := hne e; omega) (by omega)
          have := lo_signed h hs
          exact ⟨by omega, by omega⟩
    · exact ⟨by omega, by omega⟩

theorem div_ok {t : CInt} (h : Wide t) {a b : Int} (ha : t.Has a) (hb : t.signed = false → 0 ≤ b) (h0 : b ≠ 0)
    (hn : ¬ (t.signed = true ∧ a = t.lo ∧ b = -1)) : t.div a b = .ok (Int.tdiv a b) := by
  unfold CInt.div
  rw [if_neg h0, op_ok h (div_has h ha hb hn)]

theorem div_overflow {t : CInt} (h : Wide t) (hs : t.signed = true) : t.div t.lo (-1) = .ub .signedOverflow := by
  unfold CInt.div
  rw [if_neg (by norm_num), op_signed h hs, if_neg]
  intro hh
  have := hh.2
  rw [hi_signed hs] at this
  simp at this

theorem signedGcd_natAbs (p q : Int) : (signedGcd p q).natAbs = Int.gcd p q := by
  unfold signedGcd
  by_cases hq : q = 0
  · subst hq
    rw [Int.natAbs_zero, euclidSteps_zero, if_pos rfl, Int.gcd_zero_right, Int.sign_mul_natAbs]
  · by_cases hp : p = 0
    · subst hp
      rw [Int.natAbs_zero, euclidSteps_pos _ (by omega), Nat.zero_mod, euclidSteps_zero, if_neg (by norm_num), Int.gcd_zero_left,
        Int.sign_mul_natAbs]
    · have : ∀ x : Int, x ≠ 0 → x.sign.natAbs = 1 := fun x hx => Int.natAbs_sign_of_ne_zero hx
      split <;> rw [Int.natAbs_mul, this _ (by assumption), one_mul, Int.natAbs_natCast]

/-- The undefined arguments of `get_gcd` are among those of the constructor. -/
theorem gcd_of_ctor {t : CInt} (h : Wide t) {p q : Int} (hu : GcdUndefined t p q) : CtorOverflows t p q := by
  obtain ⟨hs, hc⟩ := hu
  have hl := lo_signed h hs
  rcases hc with ⟨rfl, rfl⟩ | ⟨rfl, rfl⟩
  · refine ⟨hs, Or.inl rfl, ?_⟩
    unfold signedGcd
    rw [show (-1 : Int).natAbs = 1 from rfl, euclidSteps_pos _ (by norm_num), Nat.mod_one, euclidSteps_zero, if_neg (by norm_num)]
    simp
  · refine ⟨hs, Or.inr rfl, ?_⟩
    unfold signedGcd
    rw [show (-1 : Int).natAbs = 1 from rfl, euclidSteps_pos 1 (b := t.lo.natAbs) (by omega), Nat.mod_eq_of_lt (show 1 < t.lo.natAbs by omega),
      euclidSteps_pos _ (by norm_num), Nat.mod_one, euclidSteps_zero, if_pos (by norm_num)]
    simp

theorem signedGcd_nonneg {p q : Int} (hp : 0 ≤ p) (hq : 0 ≤ q) : 0 ≤ signedGcd p q := by
  unfold signedGcd
  apply mul_nonneg _ (by positivity)
  split
  · exact Int.sign_nonneg_iff.2 hp
  · exact Int.sign_nonneg_iff.2 hq

/-- `get_gcd` gives the signed greatest common divisor. -/
theorem gcd_eq {t : CInt} (h : Wide t) {p q : Int} (hp : t.Has p) (hq : t.Has q) (hu : ¬ CtorOverflows t p q) :
    t.getGcd p q = .ok (signedGcd p q) := C133_gcd t h p q hp hq (fun hg => hu (gcd_of_ctor h hg))


theorem new_eq {t : CInt} (h : Wide t) {p q : Int} (hp : t.Has p) (hq : t.Has q) (hu : ¬ CtorOverflows t p q)
    (h0 : p ≠ 0 ∨ q ≠ 0) :
    ∃ r, RatT.new t p q = .ok r ∧ t.Has r.num ∧ t.Has r.den ∧ p = signedGcd p q * r.num ∧ q = signedGcd p q * r.den ∧
      Int.gcd r.num r.den = 1 := by
  have hg := signedGcd_natAbs p q
  have hg0 : signedGcd p q ≠ 0 := by
    intro e
    rw [e, Int.natAbs_zero] at hg
    have := Int.gcd_eq_zero_iff.1 hg.symm
    omega
  have hnn : t.signed = false → 0 ≤ signedGcd p q := fun hs =>
    signedGcd_nonneg (by have := hp.1; rw [lo_unsigned hs] at this; exact this) (by have := hq.1; rw [lo_unsigned hs] at this; exact this)
  have hn1 : ¬ (t.signed = true ∧ p = t.lo ∧ signedGcd p q = -1) := fun ⟨a, b, c⟩ => hu ⟨a, Or.inl b, c⟩
  have hn2 : ¬ (t.signed = true ∧ q = t.lo ∧ signedGcd p q = -1) := fun ⟨a, b, c⟩ => hu ⟨a, Or.inr b, c⟩
  have dp : signedGcd p q ∣ p := by rw [← Int.natAbs_dvd, hg]; exact Int.gcd_dvd_left ..
  have dq : signedGcd p q ∣ q := by rw [← Int.natAbs_dvd, hg]; exact Int.gcd_dvd_right ..
  refine ⟨⟨Int.tdiv p (signedGcd p q), Int.tdiv q (signedGcd p q)⟩, ?_, div_has h hp hnn hn1, div_has h hq hnn hn2,
    (Int.mul_tdiv_cancel' dp).symm, (Int.mul_tdiv_cancel' dq).symm, ?_⟩
  · unfold RatT.new simplify
    rw [gcd_eq h hp hq hu, Res.ok_bind, div_ok h hp hnn hg0 hn1, Res.ok_bind, div_ok h hq hnn hg0 hn2]
    rfl
  · have e : Int.gcd p q = (signedGcd p q).natAbs * Int.gcd (Int.tdiv p (signedGcd p q)) (Int.tdiv q (signedGcd p q)) := by
      rw [← Int.gcd_mul_left, Int.mul_tdiv_cancel' dp, Int.mul_tdiv_cancel' dq]
    rw [← hg] at e
    exact Nat.eq_of_mul_eq_mul_left (show 0 < (signedGcd p q).natAbs by omega) (by rw [mul_one]; exact e.symm)

end RatT

/-- C134.  The constructor at every type for which it compiles, for all values but those of the next theorem: it stores the
same number in lowest terms, both divided by the greatest common divisor with the sign that `get_gcd` gives it. -/
theorem C134_constructor (t : CInt) (h : Wide t) (p q : Int) (hp : t.Has p) (hq : t.Has q) (hq0 : q ≠ 0)
    (hu : ¬ CtorOverflows t p q) :
    ∃ r, RatT.new t p q = .ok r ∧ Denotes r (frac p q) ∧ t.Has r.num ∧ t.Has r.den ∧
      p = signedGcd p q * r.num ∧ q = signedGcd p q * r.den := by
  obtain ⟨r, h1, h2, h3, h4, h5, h6⟩ := RatT.new_eq h hp hq hu (Or.inr hq0)
  have hd : r.den ≠ 0 := by rintro e; rw [e] at h5; simp at h5; exact hq0 h5
  have hg : signedGcd p q ≠ 0 := by rintro e; rw [e] at h5; simp at h5; exact hq0 h5
  refine ⟨r, h1, ⟨?_, h6, hd⟩, h2, h3, h4, h5⟩
  unfold RatNum.val frac
  have e1 : (p : ℚ) = signedGcd p q * r.num := by exact_mod_cast h4
  have e2 : (q : ℚ) = signedGcd p q * r.den := by exact_mod_cast h5
  rw [e1, e2, mul_div_mul_left _ _ (by exact_mod_cast hg)]

/-- C134.  The remaining arguments: the smallest value of a signed type with a greatest common divisor of -1 overflows; 0/0
divides by zero; any other number over 0 becomes 1/0. -/
theorem C134_constructor_undefined (t : CInt) (h : Wide t) (p q : Int) (hp : t.Has p) (hq : t.Has q) :
    (CtorOverflows t p q → RatT.new t p q = .ub .signedOverflow) ∧ RatT.new t 0 0 = .ub .divByZero ∧
    (p ≠ 0 → RatT.new t p 0 = .ok ⟨1, 0⟩) := by
  refine ⟨fun hu => ?_, ?_, fun h0 => ?_⟩
  · by_cases hg : GcdUndefined t p q
    · unfold RatT.new RatT.simplify
      rw [C133_gcd_undefined t h p q hg]; rfl
    · obtain ⟨hs, hc, e⟩ := hu
      have e1 : t.getGcd p q = .ok (-1) := by rw [← e]; exact C133_gcd t h p q hp hq hg
      unfold RatT.new RatT.simplify
      rw [e1, Res.ok_bind]
      by_cases hpl : p = t.lo
      · rw [hpl, RatT.div_overflow h hs]; rfl
      · have hql : q = t.lo := by tauto
        rw [RatT.div_ok h hp (fun hc => by rw [hs] at hc; cases hc) (by norm_num) (fun hc => hpl hc.2.1), Res.ok_bind, hql,
          RatT.div_overflow h hs]; rfl
  · unfold RatT.new RatT.simplify
    rw [CInt.getGcd_zero, Res.ok_bind]
    unfold CInt.div
    rw [if_pos rfl]; rfl
  · unfold RatT.new RatT.simplify
    rw [CInt.getGcd_zero, Res.ok_bind]
    have hnn : t.signed = false → 0 ≤ p := fun hs => by have := hp.1; rw [RatT.lo_unsigned hs] at this; exact this
    have hl : t.signed = true → t.lo ≤ -128 := RatT.lo_signed h
    rw [RatT.div_ok h hp hnn h0 (by rintro ⟨a, b, c⟩; have := hl a; omega), Res.ok_bind,
      RatT.div_ok h (has_zero h.standard) hnn h0 (by rintro ⟨a, b, c⟩; have := hl a; omega), Int.tdiv_self h0, Int.zero_tdiv]
    rfl

/-- C134.  Over an unsigned type the constructor always completes, 0/0 aside, and the stored denominator is positive. -/
theorem C134_constructor_unsigned (t : CInt) (h : Wide t) (hs : t.signed = false) (p q : Int) (hp : t.Has p) (hq : t.Has q)
    (hq0 : q ≠ 0) :
    RatT.new t p q = .ok ⟨p / Int.gcd p q, q / Int.gcd p q⟩ ∧ 0 < q / Int.gcd p q := by
  have hp1 := hp.1
  have hq1 := hq.1
  rw [RatT.lo_unsigned hs] at hp1 hq1
  have hu : ¬ CtorOverflows t p q := by rintro ⟨a, -⟩; rw [hs] at a; cases a
  obtain ⟨r, h1, -, -, -, h4, h5⟩ := C134_constructor t h p q hp hq hq0 hu
  have hg : signedGcd p q = Int.gcd p q := by
    have := RatT.signedGcd_natAbs p q
    have := RatT.signedGcd_nonneg hp1 hq1
    omega
  rw [hg] at h4 h5
  have hpos : (0 : Int) < Int.gcd p q := by
    have : Int.gcd p q ≠ 0 := fun e => hq0 (Int.gcd_eq_zero_iff.1 e).2
    omega
  have e1 : p / Int.gcd p q = r.num := Int.ediv_eq_of_eq_mul_right hpos.ne' h4
  have e2 : q / Int.gcd p q = r.den := Int.ediv_eq_of_eq_mul_right hpos.ne' h5
  rw [e1, e2]
  refine ⟨h1, ?_⟩
  by_contra hc
  have := mul_nonpos_of_nonneg_of_nonpos hpos.le (not_lt.1 hc)
  omega

/-! ### Arithmetic -/

/-- C134.  The four operations if the intermediate results are in the type: the constructor is applied to the exact numerator
and denominator, so that the result is as in `C134_constructor`. -/
theorem C134_operations (t : CInt) (h : Wide t) (a b : RatNum) :
    (t.Has (a.num * b.den) → t.Has (b.num * a.den) → t.Has (a.den * b.den) →
      (t.Has (a.num * b.den + b.num * a.den) →
        RatT.add t a b = RatT.new t (a.num * b.den + b.num * a.den) (a.den * b.den)) ∧
      (t.Has (a.num * b.den - b.num * a.den) →
        RatT.sub t a b = RatT.new t (a.num * b.den - b.num * a.den) (a.den * b.den))) ∧
    (t.Has (a.num * b.num) → t.Has (a.den * b.den) → RatT.mul t a b = RatT.new t (a.num * b.num) (a.den * b.den)) ∧
    (t.Has (a.num * b.den) → t.Has (b.num * a.den) → RatT.div t a b = RatT.new t (a.num * b.den) (b.num * a.den)) := by
  unfold RatT.add RatT.sub RatT.mul RatT.div CInt.mul CInt.add CInt.sub
  refine ⟨fun h1 h2 h3 => ⟨fun h4 => ?_, fun h4 => ?_⟩, fun h1 h2 => ?_, fun h1 h2 => ?_⟩
  · rw [RatT.op_ok h h1, Res.ok_bind, RatT.op_ok h h2, Res.ok_bind, RatT.op_ok h h4, Res.ok_bind, RatT.op_ok h h3, Res.ok_bind]
  · rw [RatT.op_ok h h1, Res.ok_bind, RatT.op_ok h h2, Res.ok_bind, RatT.op_ok h h4, Res.ok_bind, RatT.op_ok h h3, Res.ok_bind]
  · rw [RatT.op_ok h h1, Res.ok_bind, RatT.op_ok h h2, Res.ok_bind]
  · rw [RatT.op_ok h h1, Res.ok_bind, RatT.op_ok h h2, Res.ok_bind]

/-- C134.  Hence, with denominators that are not zero, the results are the sum, difference, product and quotient in lowest
terms, with numerators and denominators in the type. -/
theorem C134_values (t : CInt) (h : Wide t) (a b : RatNum) (ha : a.den ≠ 0) (hb : b.den ≠ 0) (h1 : t.Has (a.num * b.den))
    (h2 : t.Has (b.num * a.den)) (h3 : t.Has (a.den * b.den)) :
    (t.Has (a.num * b.den + b.num * a.den) → ¬ CtorOverflows t (a.num * b.den + b.num * a.den) (a.den * b.den) →
      ∃ r, RatT.add t a b = .ok r ∧ Denotes r (a.val + b.val) ∧ t.Has r.num ∧ t.Has r.den) ∧
    (t.Has (a.num * b.den - b.num * a.den) → ¬ CtorOverflows t (a.num * b.den - b.num * a.den) (a.den * b.den) →
      ∃ r, RatT.sub t a b = .ok r ∧ Denotes r (a.val - b.val) ∧ t.Has r.num ∧ t.Has r.den) ∧
    (t.Has (a.num * b.num) → ¬ CtorOverflows t (a.num * b.num) (a.den * b.den) →
      ∃ r, RatT.mul t a b = .ok r ∧ Denotes r (a.val * b.val) ∧ t.Has r.num ∧ t.Has r.den) ∧
    (b.num ≠ 0 → ¬ CtorOverflows t (a.num * b.den) (b.num * a.den) →
      ∃ r, RatT.div t a b = .ok r ∧ Denotes r (a.val / b.val) ∧ t.Has r.num ∧ t.Has r.den) := by
  obtain ⟨o1, o2, o3⟩ := C134_operations t h a b
  refine ⟨fun h4 hu => ?_, fun h4 hu => ?_, fun h4 hu => ?_, fun h4 hu => ?_⟩
  · rw [(o1 h1 h2 h3).1 h4]
    obtain ⟨r, e, d, r1, r2, -⟩ := C134_constructor t h _ _ h4 h3 (mul_ne_zero ha hb) hu
    rw [frac_add ha hb] at d
    exact ⟨r, e, d, r1, r2⟩
  · rw [(o1 h1 h2 h3).2 h4]
    obtain ⟨r, e, d, r1, r2, -⟩ := C134_constructor t h _ _ h4 h3 (mul_ne_zero ha hb) hu
    rw [frac_sub ha hb] at d
    exact ⟨r, e, d, r1, r2⟩
  · rw [o2 h4 h3]
    obtain ⟨r, e, d, r1, r2, -⟩ := C134_constructor t h _ _ h4 h3 (mul_ne_zero ha hb) hu
    rw [frac_mul] at d
    exact ⟨r, e, d, r1, r2⟩
  · rw [o3 h1 h2]
    obtain ⟨r, e, d, r1, r2, -⟩ := C134_constructor t h _ _ h1 h2 (mul_ne_zero h4 ha) hu
    rw [frac_div] at d
    exact ⟨r, e, d, r1, r2⟩

/-- C134.  Over a signed type an intermediate result out of range is undefined behaviour. -/
theorem C134_overflow (t : CInt) (h : Wide t) (hs : t.signed = true) (a b : RatNum) :
    (¬ (t.Has (a.num * b.den) ∧ t.Has (b.num * a.den) ∧ t.Has (a.num * b.den + b.num * a.den) ∧ t.Has (a.den * b.den)) →
      RatT.add t a b = .ub .signedOverflow) ∧
    (¬ (t.Has (a.num * b.den) ∧ t.Has (b.num * a.den) ∧ t.Has (a.num * b.den - b.num * a.den) ∧ t.Has (a.den * b.den)) →
      RatT.sub t a b = .ub .signedOverflow) ∧
    (¬ (t.Has (a.num * b.num) ∧ t.Has (a.den * b.den)) → RatT.mul t a b = .ub .signedOverflow) ∧
    (¬ (t.Has (a.num * b.den) ∧ t.Has (b.num * a.den)) → RatT.div t a b = .ub .signedOverflow) ∧
    (¬ (t.Has (a.num * b.den) ∧ t.Has (b.num * a.den)) → RatT.lt t a b = .ub .signedOverflow) := by
  have ok : ∀ {x}, t.Has x → t.promote.arith x = .ok x := fun hx => RatT.op_ok h hx
  have ub : ∀ {x}, ¬ t.Has x → t.promote.arith x = .ub .signedOverflow := fun hx => by rw [RatT.op_signed h hs, if_neg hx]
  unfold RatT.add RatT.sub RatT.mul RatT.div RatT.lt CInt.mul CInt.add CInt.sub
  refine ⟨fun hn => ?_, fun hn => ?_, fun hn => ?_, fun hn => ?_, fun hn => ?_⟩
  · by_cases h1 : t.Has (a.num * b.den)
    · rw [ok h1, Res.ok_bind]
      by_cases h2 : t.Has (b.num * a.den)
      · rw [ok h2, Res.ok_bind]
        by_cases h3 : t.Has (a.num * b.den + b.num * a.den)
        · rw [ok h3, Res.ok_bind, ub (fun h4 => hn ⟨h1, h2, h3, h4⟩)]; rfl
        · rw [ub h3]; rfl
      · rw [ub h2]; rfl
    · rw [ub h1]; rfl
  · by_cases h1 : t.Has (a.num * b.den)
    · rw [ok h1, Res.ok_bind]
      by_cases h2 : t.Has (b.num * a.den)
      · rw [ok h2, Res.ok_bind]
        by_cases h3 : t.Has (a.num * b.den - b.num * a.den)
        · rw [ok h3, Res.ok_bind, ub (fun h4 => hn ⟨h1, h2, h3, h4⟩)]; rfl
        · rw [ub h3]; rfl
      · rw [ub h2]; rfl
    · rw [ub h1]; rfl
  all_goals
    first
      | by_cases h1 : t.Has (a.num * b.den)
        · rw [ok h1, Res.ok_bind, ub (fun h4 => hn ⟨h1, h4⟩)]; rfl
        · rw [ub h1]; rfl
      | by_cases h1 : t.Has (a.num * b.num)
        · rw [ok h1, Res.ok_bind, ub (fun h4 => hn ⟨h1, h4⟩)]; rfl
        · rw [ub h1]; rfl

theorem CInt.wrap_idem {t : CInt} {x y : Int} (f : Int → Int → Int)
    (hf : (2 : Int) ^ t.bits ∣ f (t.wrap x) (t.wrap y) - f x y) : t.wrap (f (t.wrap x) (t.wrap y)) = t.wrap (f x y) :=
  wrap_congr hf

theorem CInt.wrap_sub_dvd (t : CInt) (x : Int) : (2 : Int) ^ t.bits ∣ t.wrap x - x := by
  rw [← neg_sub]; exact dvd_neg.2 (wrap_dvd t x)

/-- C134.  Over an unsigned type nothing is undefined, but numerator and denominator are reduced modulo 2^bits before they
are simplified. -/
theorem C134_unsigned (t : CInt) (h : Wide t) (hs : t.signed = false) (a b : RatNum) :
    RatT.add t a b = RatT.new t (t.wrap (a.num * b.den + b.num * a.den)) (t.wrap (a.den * b.den)) ∧
    RatT.sub t a b = RatT.new t (t.wrap (a.num * b.den - b.num * a.den)) (t.wrap (a.den * b.den)) ∧
    RatT.mul t a b = RatT.new t (t.wrap (a.num * b.num)) (t.wrap (a.den * b.den)) ∧
    RatT.div t a b = RatT.new t (t.wrap (a.num * b.den)) (t.wrap (b.num * a.den)) ∧
    RatT.lt t a b = .ok (decide (t.wrap (a.num * b.den) < t.wrap (b.num * a.den))) := by
  have e : ∀ x, t.promote.arith x = .ok (t.wrap x) := RatT.op_unsigned h hs
  unfold RatT.add RatT.sub RatT.mul RatT.div RatT.lt CInt.mul CInt.add CInt.sub
  simp only [e, Res.ok_bind]
  refine ⟨?_, ?_, trivial, trivial, trivial⟩
  · rw [wrap_congr (x := t.wrap (a.num * b.den) + t.wrap (b.num * a.den)) (y := a.num * b.den + b.num * a.den)]
    rw [add_sub_add_comm]
    exact dvd_add (wrap_sub_dvd t _) (wrap_sub_dvd t _)
  · rw [wrap_congr (x := t.wrap (a.num * b.den) - t.wrap (b.num * a.den)) (y := a.num * b.den - b.num * a.den)]
    rw [sub_sub_sub_comm]
    exact dvd_sub (wrap_sub_dvd t _) (wrap_sub_dvd t _)

/-- C134.  In particular the difference of two unsigned rationals of which the second is greater is not the difference but
exceeds it by 2^bits divided by the product of the denominators. -/
theorem C134_unsigned_difference (t : CInt) (h : Wide t) (hs : t.signed = false) (a b : RatNum) (ha : 0 < a.den)
    (hb : 0 < b.den) (h1 : t.Has (a.num * b.den)) (h2 : t.Has (b.num * a.den))
    (h3 : t.Has (a.den * b.den)) (hlt : a.val < b.val) :
    ∃ r, RatT.sub t a b = .ok r ∧ Denotes r (a.val - b.val + 2 ^ t.bits / (a.den * b.den)) := by
  have hlo := RatT.lo_unsigned hs
  have hr := range_eq h.standard
  have hlt' : a.num * b.den < b.num * a.den := (frac_lt_pos (mul_pos ha hb)).1 hlt
  have hw : t.wrap (a.num * b.den - b.num * a.den) = a.num * b.den - b.num * a.den + 2 ^ t.bits := by
    symm
    apply (reduces_iff h.standard).1
    refine ⟨⟨?_, ?_⟩, ⟨-1, by ring⟩⟩
    · have := h2.2; have := h1.1; omega
    · rw [← hr]; omega
  have hh := has_wrap h.standard (a.num * b.den - b.num * a.den)
  rw [(C134_unsigned t h hs a b).2.1, wrap_of_has h.standard h3]
  rw [hw] at hh ⊢
  obtain ⟨r, e, d, -⟩ := C134_constructor t h _ _ hh h3 (mul_pos ha hb).ne' (by rintro ⟨c, -⟩; rw [hs] at c; cases c)
  refine ⟨r, e, ?_⟩
  convert d using 1
  unfold RatNum.val frac
  have ha' : (a.den : ℚ) ≠ 0 := by exact_mod_cast ha.ne'
  have hb' : (b.den : ℚ) ≠ 0 := by exact_mod_cast hb.ne'
  push_cast
  field_simp

/-- C134.  The operations with an integer, if the intermediate results are in the type. -/
theorem C134_mixed (t : CInt) (h : Wide t) (a : RatNum) (n : Int) :
    (t.Has (n * a.den) →
      (t.Has (a.num + n * a.den) → RatT.addInt t a n = RatT.new t (a.num + n * a.den) a.den ∧
        RatT.intAdd t n a = RatT.new t (a.num + n * a.den) a.den) ∧
      (t.Has (a.num - n * a.den) → RatT.subInt t a n = RatT.new t (a.num - n * a.den) a.den) ∧
      (t.Has (n * a.den - a.num) → RatT.intSub t n a = RatT.new t (n * a.den - a.num) a.den) ∧
      RatT.divInt t a n = RatT.new t a.num (a.den * n) ∧ RatT.intDiv t n a = RatT.new t (n * a.den) a.num) ∧
    (t.Has (a.num * n) → RatT.mulInt t a n = RatT.new t (a.num * n) a.den ∧
      RatT.intMul t n a = RatT.new t (a.num * n) a.den) := by
  unfold RatT.intAdd RatT.intMul RatT.addInt RatT.subInt RatT.intSub RatT.divInt RatT.intDiv RatT.mulInt CInt.mul CInt.add CInt.sub
  refine ⟨fun h1 => ?_, fun h1 => ?_⟩
  · rw [mul_comm a.den n, RatT.op_ok h h1]
    simp only [Res.ok_bind]
    refine ⟨fun h2 => ?_, fun h2 => ?_, fun h2 => ?_, trivial, trivial⟩
    · rw [RatT.op_ok h h2]; exact ⟨rfl, rfl⟩
    · rw [RatT.op_ok h h2]; rfl
    · rw [RatT.op_ok h h2]; rfl
  · rw [RatT.op_ok h h1]; exact ⟨rfl, rfl⟩

/-- C134.  The numbers that these fractions denote. -/
theorem C134_mixed_values (a : RatNum) (n : Int) (ha : a.den ≠ 0) :
    frac (a.num + n * a.den) a.den = a.val + n ∧ frac (a.num - n * a.den) a.den = a.val - n ∧
    frac (n * a.den - a.num) a.den = n - a.val ∧ frac (a.num * n) a.den = a.val * n ∧
    (n ≠ 0 → frac a.num (a.den * n) = a.val / n) ∧ (a.num ≠ 0 → frac (n * a.den) a.num = n / a.val) := by
  have ha' : (a.den : ℚ) ≠ 0 := by exact_mod_cast ha
  unfold RatNum.val frac
  push_cast
  refine ⟨by field_simp, by field_simp, by field_simp, by field_simp, fun hn => ?_, fun hn => ?_⟩
  · have : (n : ℚ) ≠ 0 := by exact_mod_cast hn
    field_simp
  · have : (a.num : ℚ) ≠ 0 := by exact_mod_cast hn
    field_simp

/-! ### Comparisons and conversions -/

/-- C134.  Comparisons if the cross products are in the type: equality is that of the numbers, and with denominators of the
same sign the order is that of the numbers. -/
theorem C134_compare (t : CInt) (h : Wide t) (a b : RatNum) (ha : a.den ≠ 0) (hb : b.den ≠ 0) (h1 : t.Has (a.num * b.den))
    (h2 : t.Has (b.num * a.den)) :
    RatT.eq t a b = .ok (decide (a.val = b.val)) ∧ RatT.ne t a b = .ok (decide (a.val ≠ b.val)) ∧
    (0 < a.den * b.den → RatT.lt t a b = .ok (decide (a.val < b.val)) ∧ RatT.gt t a b = .ok (decide (b.val < a.val)) ∧
      RatT.le t a b = .ok (decide (a.val ≤ b.val)) ∧ RatT.ge t a b = .ok (decide (b.val ≤ a.val))) ∧
    (a.den * b.den < 0 → RatT.lt t a b = .ok (decide (b.val < a.val))) := by
  have hl : RatT.lt t a b = .ok (decide (a.num * b.den < b.num * a.den)) := by
    unfold RatT.lt CInt.mul
    rw [RatT.op_ok h h1, Res.ok_bind, RatT.op_ok h h2]; rfl
  have hr : RatT.lt t b a = .ok (decide (b.num * a.den < a.num * b.den)) := by
    unfold RatT.lt CInt.mul
    rw [RatT.op_ok h h2, Res.ok_bind, RatT.op_ok h h1]; rfl
  have he : RatT.eq t a b = .ok (decide (a.val = b.val)) := by
    unfold RatT.eq
    rw [Rel.eq_ok hl hr]
    congr 1
    rw [decide_eq_decide, show a.val = b.val ↔ a.num * b.den = b.num * a.den from frac_eq_iff ha hb]
    omega
  refine ⟨he, ?_, fun hp => ?_, fun hn => ?_⟩
  · unfold RatT.ne Rel.ne
    rw [he, Rel.notOf_ok, ← decide_not]
  · have e1 : RatT.lt t a b = .ok (decide (a.val < b.val)) := by
      rw [hl]; congr 1; exact decide_eq_decide.2 (frac_lt_pos hp).symm
    have e2 : RatT.lt t b a = .ok (decide (b.val < a.val)) := by
      rw [hr]; congr 1; exact decide_eq_decide.2 (frac_lt_pos (by rw [mul_comm]; exact hp)).symm
    refine ⟨e1, e2, ?_, ?_⟩
    · unfold RatT.le Rel.le
      rw [e2, Rel.notOf_ok, ← decide_not]; simp
    · unfold RatT.ge Rel.ge
      rw [e1, Rel.notOf_ok, ← decide_not]; simp
  · rw [hl]
    congr 1
    rw [decide_eq_decide]
    exact (frac_lt_neg hn).symm

/-- C134.  Conversion to the type, `IsInt` and the comparisons with an integer, which compare the truncated number. -/
theorem C134_integer (t : CInt) (h : Wide t) (r : RatNum) (n : Int) (hn : t.Has r.num) (hd : t.Has r.den) (h0 : r.den ≠ 0)
    (hu : ¬ (t.signed = true ∧ r.num = t.lo ∧ r.den = -1)) :
    RatT.toInt t r = .ok (trunc r.val) ∧ (∃ b, RatT.isInt t r = .ok b ∧ (b = true ↔ ∃ z : Int, r.val = z)) ∧
    (RatT.ltInt t r n = .ok (decide (trunc r.val < n)) ∧ RatT.eqInt t r n = .ok (decide (trunc r.val = n)) ∧
      RatT.neInt t r n = .ok (decide (trunc r.val ≠ n)) ∧ RatT.leInt t r n = .ok (decide (trunc r.val ≤ n)) ∧
      RatT.gtInt t r n = .ok (decide (trunc r.val > n)) ∧ RatT.geInt t r n = .ok (decide (trunc r.val ≥ n))) ∧
    (RatT.intLt t n r = .ok (decide (n < trunc r.val)) ∧ RatT.intEq t n r = .ok (decide (n = trunc r.val)) ∧
      RatT.intNe t n r = .ok (decide (n ≠ trunc r.val)) ∧ RatT.intLe t n r = .ok (decide (n ≤ trunc r.val)) ∧
      RatT.intGt t n r = .ok (decide (n > trunc r.val)) ∧ RatT.intGe t n r = .ok (decide (n ≥ trunc r.val))) := by
  have hnn : t.signed = false → 0 ≤ r.den := fun hs => by have := hd.1; rw [RatT.lo_unsigned hs] at this; exact this
  have e : t.div r.num r.den = .ok (trunc r.val) := by
    rw [RatT.div_ok h hn hnn h0 hu]; exact congrArg _ (tdiv_eq_trunc _ _)
  have e1 : RatT.ltInt t r n = .ok (decide (trunc r.val < n)) := by unfold RatT.ltInt; rw [e]; rfl
  have e2 : RatT.intLt t n r = .ok (decide (n < trunc r.val)) := by unfold RatT.intLt; rw [e]; rfl
  have e3 : RatT.eqInt t r n = .ok (decide (trunc r.val = n)) := by
    unfold RatT.eqInt
    rw [Rel.eq_ok e1 e2]
    congr 1; rw [decide_eq_decide]; omega
  have e4 : RatT.intEq t n r = .ok (decide (n = trunc r.val)) := by
    unfold RatT.intEq
    rw [Rel.eq_ok e2 e1]
    congr 1; rw [decide_eq_decide]; omega
  refine ⟨e, ⟨decide (Int.tmod r.num r.den = 0), ?_, ?_⟩, ⟨e1, e3, ?_, ?_, e2, ?_⟩, ⟨e2, e4, ?_, ?_, e1, ?_⟩⟩
  · unfold RatT.isInt
    rw [mod_ok h.standard hn hd h0 (by tauto), Res.ok_bind]
    rfl
  · rw [decide_eq_true_iff]
    have hd' : (r.den : ℚ) ≠ 0 := by exact_mod_cast h0
    unfold RatNum.val frac
    constructor
    · intro hm
      obtain ⟨z, hz⟩ := Int.dvd_of_tmod_eq_zero hm
      refine ⟨z, ?_⟩
      rw [div_eq_iff hd', hz]; push_cast; ring
    · rintro ⟨z, hz⟩
      rw [div_eq_iff hd'] at hz
      have : r.num = z * r.den := by exact_mod_cast hz
      rw [this]; simp
  · unfold RatT.neInt Rel.ne; rw [e3, Rel.notOf_ok, ← decide_not]
  · unfold RatT.leInt Rel.le; rw [e2, Rel.notOf_ok, ← decide_not]; simp
  · unfold RatT.geInt Rel.ge; rw [e1, Rel.notOf_ok, ← decide_not]; simp
  · unfold RatT.intNe Rel.ne; rw [e4, Rel.notOf_ok, ← decide_not]
  · unfold RatT.intLe Rel.le; rw [e1, Rel.notOf_ok, ← decide_not]; simp
  · unfold RatT.intGe Rel.ge; rw [e2, Rel.notOf_ok, ← decide_not]; simp

/-! ### The operations at `long` and `int` -/

namespace RatT

theorem wide_long : Wide tLong := Or.inr rfl
theorem wide_int : Wide tInt := Or.inl rfl

theorem has_int (x : Int) : tInt.Has x ↔ InInt x := by
  unfold Has tInt lo hi InInt; norm_num

theorem arith_int (x : Int) : tInt.promote.arith x = int x := by
  rw [op_signed wide_int rfl]
  unfold int
  simp only [has_int]

theorem div_long (a b : Int) : tLong.div a b = ldiv a b := by
  unfold CInt.div ldiv; rw [arith_long]

theorem div_int (a b : Int) : tInt.div a b = idiv a b := by
  unfold CInt.div idiv; rw [arith_int]

theorem mod_int (a b : Int) : tInt.mod a b = imod a b := by
  unfold CInt.mod imod
  split
  · rfl
  · rw [arith_int]
    unfold int
    split <;> rfl

theorem getGcd_int (a b : Int) : tInt.getGcd a b = RatInt.getGcd a b := by
  generalize hn : b.natAbs = n
  induction n using Nat.strongRecOn generalizing a b with
  | _ n ih =>
    rw [CInt.getGcd, RatInt.getGcd, mod_int]
    split
    · rfl
    · next h0 =>
      unfold imod
      rw [if_neg h0]
      split
      · rw [Res.ok_bind, Res.ok_bind]
        exact ih _ (hn ▸ tmod_natAbs_lt a b h0) b _ rfl
      · rfl

theorem getGcd_tlong (a b : Int) : tLong.getGcd a b = Bwsl.getGcd a b := by
  generalize hn : b.natAbs = n
  induction n using Nat.strongRecOn generalizing a b with
  | _ n ih =>
    rw [CInt.getGcd, Bwsl.getGcd, mod_long]
    split
    · rfl
    · next h0 =>
      unfold lmod
      rw [if_neg h0]
      split
      · rw [Res.ok_bind, Res.ok_bind]
        exact ih _ (hn ▸ tmod_natAbs_lt a b h0) b _ rfl
      · rfl

theorem simplify_long : simplify tLong = RatNum.simplify := by
  funext r; unfold simplify RatNum.simplify; simp only [getGcd_tlong, div_long]
theorem simplify_int : simplify tInt = RatInt.simplify := by
  funext r; unfold simplify RatInt.simplify; simp only [getGcd_int, div_int]
theorem new_long : RatT.new tLong = RatNum.new := by funext p q; unfold RatT.new RatNum.new; rw [simplify_long]
theorem new_int : RatT.new tInt = RatInt.new := by funext p q; unfold RatT.new RatInt.new; rw [simplify_int]

theorem lt_long : lt tLong = RatNum.lt := by
  funext a b; unfold lt RatNum.lt CInt.mul lmul; simp only [arith_long]
theorem lt_int : lt tInt = RatInt.lt := by
  funext a b; unfold lt RatInt.lt CInt.mul imul; simp only [arith_int]
theorem ltInt_long : ltInt tLong = RatNum.ltInt := by funext a n; unfold ltInt RatNum.ltInt; rw [div_long]
theorem ltInt_int : ltInt tInt = RatInt.ltInt := by funext a n; unfold ltInt RatInt.ltInt; rw [div_int]
theorem intLt_long : intLt tLong = RatNum.intLt := by funext a n; unfold intLt RatNum.intLt; rw [div_long]
theorem intLt_int : intLt tInt = RatInt.intLt := by funext a n; unfold intLt RatInt.intLt; rw [div_int]

end RatT

/-- C134.  At `long` and at `int` the constructor, `Simplify`, the conversion, `IsInt` and the four operations are those of
the properties C26 to C34 and C104. -/
theorem C134_instances :
    (RatT.new tLong = RatNum.new ∧ RatT.simplify tLong = RatNum.simplify ∧ RatT.toInt tLong = RatNum.toInt ∧
      RatT.isInt tLong = RatNum.isInt ∧ RatT.add tLong = RatNum.add ∧ RatT.sub tLong = RatNum.sub ∧
      RatT.mul tLong = RatNum.mul ∧ RatT.div tLong = RatNum.div) ∧
    (RatT.new tInt = RatInt.new ∧ RatT.simplify tInt = RatInt.simplify ∧ RatT.toInt tInt = RatInt.toInt ∧
      RatT.isInt tInt = RatInt.isInt ∧ RatT.add tInt = RatInt.add ∧ RatT.sub tInt = RatInt.sub ∧
      RatT.mul tInt = RatInt.mul ∧ RatT.div tInt = RatInt.div) := by
  refine ⟨⟨RatT.new_long, RatT.simplify_long, ?_, ?_, ?_, ?_, ?_, ?_⟩, ⟨RatT.new_int, RatT.simplify_int, ?_, ?_, ?_, ?_, ?_, ?_⟩⟩
  · funext r; exact RatT.div_long _ _
  · funext r; unfold RatT.isInt RatNum.isInt; rw [mod_long]
  · funext a b; unfold RatT.add RatNum.add CInt.mul CInt.add lmul ladd; simp only [arith_long, RatT.new_long]
  · funext a b; unfold RatT.sub RatNum.sub CInt.mul CInt.sub lmul lsub; simp only [arith_long, RatT.new_long]
  · funext a b; unfold RatT.mul RatNum.mul CInt.mul lmul; simp only [arith_long, RatT.new_long]
  · funext a b; unfold RatT.div RatNum.div CInt.mul lmul; simp only [arith_long, RatT.new_long]
  · funext r; exact RatT.div_int _ _
  · funext r; unfold RatT.isInt RatInt.isInt; rw [RatT.mod_int]
  · funext a b; unfold RatT.add RatInt.add CInt.mul CInt.add imul iadd; simp only [RatT.arith_int, RatT.new_int]
  · funext a b; unfold RatT.sub RatInt.sub CInt.mul CInt.sub imul isub; simp only [RatT.arith_int, RatT.new_int]
  · funext a b; unfold RatT.mul RatInt.mul CInt.mul imul; simp only [RatT.arith_int, RatT.new_int]
  · funext a b; unfold RatT.div RatInt.div CInt.mul imul; simp only [RatT.arith_int, RatT.new_int]

/-- C134.  So are the operations with an integer. -/
theorem C134_instances_mixed :
    (RatT.addInt tLong = RatNum.addInt ∧ RatT.subInt tLong = RatNum.subInt ∧ RatT.mulInt tLong = RatNum.mulInt ∧
      RatT.divInt tLong = RatNum.divInt ∧ RatT.intAdd tLong = RatNum.intAdd ∧ RatT.intSub tLong = RatNum.intSub ∧
      RatT.intMul tLong = RatNum.intMul ∧ RatT.intDiv tLong = RatNum.intDiv) ∧
    (RatT.addInt tInt = RatInt.addInt ∧ RatT.subInt tInt = RatInt.subInt ∧ RatT.mulInt tInt = RatInt.mulInt ∧
      RatT.divInt tInt = RatInt.divInt ∧ RatT.intAdd tInt = RatInt.intAdd ∧ RatT.intSub tInt = RatInt.intSub ∧
      RatT.intMul tInt = RatInt.intMul ∧ RatT.intDiv tInt = RatInt.intDiv) := by
  refine ⟨⟨?_, ?_, ?_, ?_, ?_, ?_, ?_, ?_⟩, ⟨?_, ?_, ?_, ?_, ?_, ?_, ?_, ?_⟩⟩
  · funext a b; unfold RatT.addInt RatNum.addInt CInt.mul CInt.add lmul ladd; simp only [arith_long, RatT.new_long]
  · funext a b; unfold RatT.subInt RatNum.subInt CInt.mul CInt.sub lmul lsub; simp only [arith_long, RatT.new_long]
  · funext a b; unfold RatT.mulInt RatNum.mulInt CInt.mul lmul; simp only [arith_long, RatT.new_long]
  · funext a b; unfold RatT.divInt RatNum.divInt CInt.mul lmul; simp only [arith_long, RatT.new_long]
  · funext a b; unfold RatT.intAdd RatNum.intAdd RatT.addInt RatNum.addInt CInt.mul CInt.add lmul ladd; simp only [arith_long, RatT.new_long]
  · funext a b; unfold RatT.intSub RatNum.intSub CInt.mul CInt.sub lmul lsub; simp only [arith_long, RatT.new_long]
  · funext a b; unfold RatT.intMul RatNum.intMul RatT.mulInt RatNum.mulInt CInt.mul lmul; simp only [arith_long, RatT.new_long]
  · funext a b; unfold RatT.intDiv RatNum.intDiv CInt.mul lmul; simp only [arith_long, RatT.new_long]
  · funext a b; unfold RatT.addInt RatInt.addInt CInt.mul CInt.add imul iadd; simp only [RatT.arith_int, RatT.new_int]
  · funext a b; unfold RatT.subInt RatInt.subInt CInt.mul CInt.sub imul isub; simp only [RatT.arith_int, RatT.new_int]
  · funext a b; unfold RatT.mulInt RatInt.mulInt CInt.mul imul; simp only [RatT.arith_int, RatT.new_int]
  · funext a b; unfold RatT.divInt RatInt.divInt CInt.mul imul; simp only [RatT.arith_int, RatT.new_int]
  · funext a b; unfold RatT.intAdd RatInt.intAdd RatT.addInt RatInt.addInt CInt.mul CInt.add imul iadd; simp only [RatT.arith_int, RatT.new_int]
  · funext a b; unfold RatT.intSub RatInt.intSub CInt.mul CInt.sub imul isub; simp only [RatT.arith_int, RatT.new_int]
  · funext a b; unfold RatT.intMul RatInt.intMul RatT.mulInt RatInt.mulInt CInt.mul imul; simp only [RatT.arith_int, RatT.new_int]
  · funext a b; unfold RatT.intDiv RatInt.intDiv CInt.mul imul; simp only [RatT.arith_int, RatT.new_int]

/-- C134.  So are the comparisons. -/
theorem C134_instances_compare :
    (RatT.lt tLong = RatNum.lt ∧ RatT.eq tLong = RatNum.eq ∧ RatT.ne tLong = RatNum.ne ∧ RatT.le tLong = RatNum.le ∧
      RatT.gt tLong = RatNum.gt ∧ RatT.ge tLong = RatNum.ge ∧ RatT.ltInt tLong = RatNum.ltInt ∧
      RatT.eqInt tLong = RatNum.eqInt ∧ RatT.leInt tLong = RatNum.leInt ∧ RatT.intLt tLong = RatNum.intLt ∧
      RatT.intEq tLong = RatNum.intEq ∧ RatT.intLe tLong = RatNum.intLe) ∧
    (RatT.lt tInt = RatInt.lt ∧ RatT.eq tInt = RatInt.eq ∧ RatT.ne tInt = RatInt.ne ∧ RatT.le tInt = RatInt.le ∧
      RatT.gt tInt = RatInt.gt ∧ RatT.ge tInt = RatInt.ge ∧ RatT.ltInt tInt = RatInt.ltInt ∧
      RatT.eqInt tInt = RatInt.eqInt ∧ RatT.leInt tInt = RatInt.leInt ∧ RatT.intLt tInt = RatInt.intLt ∧
      RatT.intEq tInt = RatInt.intEq ∧ RatT.intLe tInt = RatInt.intLe) := by
  unfold RatT.ne RatNum.ne RatInt.ne RatT.eq RatNum.eq RatInt.eq RatT.le RatNum.le RatInt.le RatT.gt RatNum.gt RatInt.gt RatT.ge
    RatNum.ge RatInt.ge RatT.eqInt RatNum.eqInt RatInt.eqInt RatT.leInt RatNum.leInt RatInt.leInt RatT.intEq RatNum.intEq
    RatInt.intEq RatT.intLe RatNum.intLe RatInt.intLe
  simp only [RatT.lt_long, RatT.lt_int, RatT.ltInt_long, RatT.ltInt_int, RatT.intLt_long, RatT.intLt_int, and_self]

/-- C134.  The difference of the unsigned rationals 1/2 and 3/4 is 2147483647/4, and that of 3/4 and 1/2 is 1/4. -/
theorem C134_unsigned_witness : RatT.sub tUInt ⟨1, 2⟩ ⟨3, 4⟩ = .ok ⟨2147483647, 4⟩ ∧
    RatT.sub tUInt ⟨3, 4⟩ ⟨1, 2⟩ = .ok ⟨1, 4⟩ := by
  have hw : Wide tUInt := Or.inl rfl
  refine ⟨?_, ?_⟩
  · rw [(C134_unsigned tUInt hw rfl _ _).2.1, show tUInt.wrap ((1 : Int) * 4 - 3 * 2) = 4294967294 by decide,
      show tUInt.wrap ((2 : Int) * 4) = 8 by decide,
      (C134_constructor_unsigned tUInt hw rfl _ _ (by decide) (by decide) (by norm_num)).1]
    decide
  · rw [(C134_unsigned tUInt hw rfl _ _).2.1, show tUInt.wrap ((3 : Int) * 2 - 1 * 4) = 2 by decide,
      show tUInt.wrap ((4 : Int) * 2) = 8 by decide,
      (C134_constructor_unsigned tUInt hw rfl _ _ (by decide) (by decide) (by norm_num)).1]
    decide

example : Wide tUInt ∧ tUInt.Has ((1 : Int) * 4) ∧ tUInt.Has ((3 : Int) * 2) ∧ tUInt.Has ((2 : Int) * 4) ∧
    RatNum.val ⟨1, 2⟩ < RatNum.val ⟨3, 4⟩ ∧ ¬ CtorOverflows tUInt 2 8 ∧ ¬ CtorOverflows tInt (-12) 18 := by
  refine ⟨Or.inl rfl, by decide, by decide, by decide, by unfold RatNum.val frac; norm_num, ?_, ?_⟩
  · rintro ⟨h, -⟩; simp [tUInt] at h
  · rintro ⟨-, h, -⟩
    have : tInt.lo = -2147483648 := by decide
    omega

/-- The smallest `int` over 5 overflows. -/
example : CtorOverflows tInt (-2147483648) 5 := by
  refine ⟨rfl, Or.inl (by decide), ?_⟩
  unfold signedGcd
  rw [show (-2147483648 : Int).natAbs = 2147483648 from rfl, show (5 : Int).natAbs = 5 from rfl]
  rw [euclidSteps_pos _ (by norm_num), euclidSteps_pos _ (by norm_num), euclidSteps_pos _ (by norm_num),
    euclidSteps_pos _ (by norm_num)]
  norm_num [euclidSteps_zero]
  decide

end Bwsl
