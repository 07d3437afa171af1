import Verif.Model.Rational
import Verif.Props.MathInt
import Verif.Props.Relational
import Mathlib.Data.Rat.Defs
import Mathlib.Algebra.Order.Field.Rat
import Mathlib.Algebra.Order.Floor.Defs
import Mathlib.Data.Rat.Floor
import Mathlib.Tactic.FieldSimp

/-! Properties C26–C31 and C34: rational numbers. -/

namespace Bwsl

/-- The number denoted by a numerator and a denominator. -/
def Spec.frac (p q : Int) : ℚ := (p : ℚ) / (q : ℚ)

/-- The number denoted by a stored rational. -/
def RatNum.val (r : RatNum) : ℚ := Spec.frac r.num r.den

open Spec

theorem ldiv_of_dvd {p g n : Int} (hg : g ≠ 0) (h : p = g * n) : ldiv p g = long n := by
  rw [ldiv, if_neg hg, h, Int.mul_tdiv_cancel_left _ hg]

/-- What a completed `Simplify` has done. -/
theorem simplify_ok {p q : Int} (hp : InLong p) (hq : InLong q) {r : RatNum}
    (h : RatNum.simplify ⟨p, q⟩ = .ok r) :
    ∃ g, getGcd p q = .ok g ∧ g ≠ 0 ∧ p = g * r.num ∧ q = g * r.den ∧ Int.gcd r.num r.den = 1 ∧
      InLong r.num ∧ InLong r.den := by
  unfold RatNum.simplify at h
  obtain ⟨g, hg, h⟩ := Res.bind_eq_ok.1 h
  obtain ⟨n, hn, h⟩ := Res.bind_eq_ok.1 h
  obtain ⟨d, hd, h⟩ := Res.bind_eq_ok.1 h
  cases h
  simp only at hg hn hd ⊢
  have hg0 : g ≠ 0 := by
    rintro rfl
    rw [ldiv, if_pos rfl] at hn; cases hn
  have hgcd : g.natAbs = Int.gcd p q := by
    obtain ⟨g', h1, _, h3⟩ := C16_gcd p q hp hq
      (by rintro ⟨rfl, rfl⟩; rw [C16_gcd_undefined.1] at hg; cases hg)
      (by rintro ⟨rfl, rfl⟩; rw [C16_gcd_undefined.2] at hg; cases hg)
    rw [hg] at h1; cases h1; exact h3
  have dp : g ∣ p := by
    rw [← Int.natAbs_dvd, hgcd]; exact Int.gcd_dvd_left ..
  have dq : g ∣ q := by
    rw [← Int.natAbs_dvd, hgcd]; exact Int.gcd_dvd_right ..
  obtain ⟨n', hn'⟩ := dp
  obtain ⟨d', hd'⟩ := dq
  rw [ldiv_of_dvd hg0 hn'] at hn
  rw [ldiv_of_dvd hg0 hd'] at hd
  obtain ⟨hn1, rfl⟩ := long_eq_ok.1 hn
  obtain ⟨hd1, rfl⟩ := long_eq_ok.1 hd
  refine ⟨g, hg, hg0, hn', hd', ?_, hn1, hd1⟩
  rw [hn', hd', Int.gcd_mul_left] at hgcd
  have : 0 < g.natAbs := by omega
  exact Nat.eq_of_mul_eq_mul_left this (by omega)

/-- C26.  Whenever the constructor completes, for any `long` arguments with nonzero denominator, the stored
fraction denotes the same number, is in lowest terms, and has a nonzero denominator. -/
theorem C26_value_lowest_terms (p q : Int) (hp : InLong p) (hq : InLong q) (hq0 : q ≠ 0) (r : RatNum)
    (h : RatNum.new p q = .ok r) :
    r.val = frac p q ∧ Int.gcd r.num r.den = 1 ∧ r.den ≠ 0 ∧ InLong r.num ∧ InLong r.den := by
  obtain ⟨g, _, hg0, h1, h2, h3, h4, h5⟩ := simplify_ok hp hq h
  have hd : r.den ≠ 0 := by rintro e; rw [e] at h2; simp at h2; exact hq0 h2
  refine ⟨?_, h3, hd, h4, h5⟩
  unfold RatNum.val frac
  have e1 : (p : ℚ) = g * r.num := by exact_mod_cast h1
  have e2 : (q : ℚ) = g * r.den := by exact_mod_cast h2
  have hg' : (g : ℚ) ≠ 0 := by exact_mod_cast hg0
  rw [e1, e2, mul_div_mul_left _ _ hg']

/-- C26.  The constructor completes for all arguments other than LONG_MIN that are not both zero. -/
theorem C26_defined (p q : Int) (hp : InLong p) (hq : InLong q) (hp' : p ≠ -H63) (hq' : q ≠ -H63)
    (h0 : p ≠ 0 ∨ q ≠ 0) : ∃ r, RatNum.new p q = .ok r := by
  obtain ⟨g, h1, h2, h3⟩ := C16_gcd p q hp hq (by omega) (by omega)
  have hg0 : g ≠ 0 := by
    rintro rfl
    have : Int.gcd p q = 0 := by rw [← h3]; rfl
    rw [Int.gcd_eq_zero_iff] at this
    omega
  unfold RatNum.new RatNum.simplify
  simp only [h1, Res.ok_bind]
  have e : ∀ x : Int, InLong x → x ≠ -H63 → ldiv x g = .ok (Int.tdiv x g) := fun x hx hx' => by
    rw [ldiv, if_neg hg0]; exact long_ok (tdiv_inLong hx hg0 (by omega))
  rw [e p hp hp', Res.ok_bind, e q hq hq', Res.ok_bind]
  exact ⟨_, rfl⟩

theorem getGcd_minlong_5 : getGcd (-H63) 5 = .ok (-1) := by
  rw [getGcd_step (by decide) (show lmod (-H63) 5 = .ok (-3) by decide),
    getGcd_step (by decide) (show lmod 5 (-3) = .ok 2 by decide),
    getGcd_step (by decide) (show lmod (-3) 2 = .ok (-1) by decide),
    getGcd_step (by decide) (show lmod 2 (-1) = .ok 0 by decide), getGcd_zero]

/-- C26: the exclusion of LONG_MIN is needed: RationalNum(LONG_MIN, 5) divides LONG_MIN by -1. -/
theorem C26_long_min_undefined : RatNum.new (-H63) 5 = .ub .signedOverflow := by
  unfold RatNum.new RatNum.simplify
  simp only [getGcd_minlong_5, Res.ok_bind]
  decide

/-- C26: 0/0 divides by zero. -/
theorem C26_zero_zero : RatNum.new 0 0 = .ub .divByZero := by
  unfold RatNum.new RatNum.simplify
  simp only [getGcd_zero, Res.ok_bind]
  decide

example : InLong (-12) ∧ InLong 18 ∧ (-12 : Int) ≠ -H63 ∧ (18 : Int) ≠ 0 := by decide

/-- C27 (partial: the property asks for every numerator).  With a nonnegative numerator the stored
denominator is positive, and the stored numerator nonnegative. -/
theorem C27_positive_denominator_partial (p q : Int) (hp : InLong p) (hq : InLong q) (hp0 : 0 ≤ p)
    (hq0 : 0 < q) (r : RatNum) (h : RatNum.new p q = .ok r) : 0 < r.den ∧ 0 ≤ r.num := by
  obtain ⟨g, hg, hg0, h1, h2, _⟩ := simplify_ok hp hq h
  rw [(C17_gcd_sign_partial p q hp hq).1 hp0 hq0.le] at hg
  cases hg
  have hg : (0 : Int) < Int.gcd p q := by omega
  constructor
  · by_contra hc
    have := mul_nonpos_of_nonneg_of_nonpos hg.le (not_lt.1 hc)
    omega
  · by_contra hc
    have := mul_neg_of_pos_of_neg hg (not_le.1 hc)
    omega

theorem new_neg1_2 : RatNum.new (-1) 2 = .ok ⟨1, -2⟩ := by
  unfold RatNum.new RatNum.simplify
  have : getGcd (-1) 2 = .ok (-1) := by
    rw [getGcd_step (by decide) (show lmod (-1) 2 = .ok (-1) by decide),
      getGcd_step (by decide) (show lmod 2 (-1) = .ok 0 by decide), getGcd_zero]
  simp only [this, Res.ok_bind]
  decide

theorem new_1_3 : RatNum.new 1 3 = .ok ⟨1, 3⟩ := by
  unfold RatNum.new RatNum.simplify
  have : getGcd 1 3 = .ok 1 := by
    rw [getGcd_step (by decide) (show lmod 1 3 = .ok 1 by decide),
      getGcd_step (by decide) (show lmod 3 1 = .ok 0 by decide), getGcd_zero]
  simp only [this, Res.ok_bind]
  decide

/-- C27 is violated: RationalNum(-1, 2) is stored as 1 // (-2). -/
theorem C27_violated : RatNum.new (-1) 2 = .ok ⟨1, -2⟩ ∧
    ¬ ∀ (p q : Int) (r : RatNum), InLong p → InLong q → 0 < q → RatNum.new p q = .ok r → 0 < r.den := by
  refine ⟨new_neg1_2, fun h => ?_⟩
  have := h (-1) 2 _ (by decide) (by decide) (by decide) new_neg1_2
  simp at this

/-! ### Arithmetic -/

theorem lmul_ok {a b c : Int} (h : lmul a b = .ok c) : InLong (a * b) ∧ c = a * b := long_eq_ok.1 h

theorem frac_add {a b c d : Int} (hb : b ≠ 0) (hd : d ≠ 0) :
    frac (a * d + c * b) (b * d) = frac a b + frac c d := by
  unfold frac
  have hb' : (b : ℚ) ≠ 0 := by exact_mod_cast hb
  have hd' : (d : ℚ) ≠ 0 := by exact_mod_cast hd
  push_cast; field_simp

theorem frac_sub {a b c d : Int} (hb : b ≠ 0) (hd : d ≠ 0) :
    frac (a * d - c * b) (b * d) = frac a b - frac c d := by
  unfold frac
  have hb' : (b : ℚ) ≠ 0 := by exact_mod_cast hb
  have hd' : (d : ℚ) ≠ 0 := by exact_mod_cast hd
  push_cast; field_simp

theorem frac_mul {a b c d : Int} : frac (a * c) (b * d) = frac a b * frac c d := by
  unfold frac; push_cast; rw [div_mul_div_comm]

theorem frac_div {a b c d : Int} : frac (a * d) (c * b) = frac a b / frac c d := by
  unfold frac; push_cast; rw [div_div_div_eq, mul_comm (c : ℚ)]

theorem frac_int (n : Int) : frac n 1 = n := by unfold frac; simp

/-- The result denotes `x` and is in lowest terms. -/
def Spec.Denotes (r : RatNum) (x : ℚ) : Prop := r.val = x ∧ Int.gcd r.num r.den = 1 ∧ r.den ≠ 0

theorem new_denotes {p q : Int} (hp : InLong p) (hq : InLong q) (hq0 : q ≠ 0) {r : RatNum}
    (h : RatNum.new p q = .ok r) : Denotes r (frac p q) := by
  obtain ⟨h1, h2, h3, _⟩ := C26_value_lowest_terms p q hp hq hq0 r h
  exact ⟨h1, h2, h3⟩

/-- C28.  Sum of two rationals. -/
theorem C28_add (a b r : RatNum) (ha : a.den ≠ 0) (hb : b.den ≠ 0) (h : RatNum.add a b = .ok r) :
    Denotes r (a.val + b.val) := by
  unfold RatNum.add at h
  obtain ⟨x, hx, h⟩ := Res.bind_eq_ok.1 h
  obtain ⟨y, hy, h⟩ := Res.bind_eq_ok.1 h
  obtain ⟨n, hn, h⟩ := Res.bind_eq_ok.1 h
  obtain ⟨d, hd, h⟩ := Res.bind_eq_ok.1 h
  obtain ⟨_, rfl⟩ := lmul_ok hx
  obtain ⟨_, rfl⟩ := lmul_ok hy
  obtain ⟨h1, rfl⟩ := long_eq_ok.1 hn
  obtain ⟨h2, rfl⟩ := lmul_ok hd
  have := new_denotes h1 h2 (mul_ne_zero ha hb) h
  rwa [frac_add ha hb] at this

/-- C28.  Difference of two rationals. -/
theorem C28_sub (a b r : RatNum) (ha : a.den ≠ 0) (hb : b.den ≠ 0) (h : RatNum.sub a b = .ok r) :
    Denotes r (a.val - b.val) := by
  unfold RatNum.sub at h
  obtain ⟨x, hx, h⟩ := Res.bind_eq_ok.1 h
  obtain ⟨y, hy, h⟩ := Res.bind_eq_ok.1 h
  obtain ⟨n, hn, h⟩ := Res.bind_eq_ok.1 h
  obtain ⟨d, hd, h⟩ := Res.bind_eq_ok.1 h
  obtain ⟨_, rfl⟩ := lmul_ok hx
  obtain ⟨_, rfl⟩ := lmul_ok hy
  obtain ⟨h1, rfl⟩ := long_eq_ok.1 hn
  obtain ⟨h2, rfl⟩ := lmul_ok hd
  have := new_denotes h1 h2 (mul_ne_zero ha hb) h
  rwa [frac_sub ha hb] at this

/-- C28.  Product of two rationals. -/
theorem C28_mul (a b r : RatNum) (ha : a.den ≠ 0) (hb : b.den ≠ 0) (h : RatNum.mul a b = .ok r) :
    Denotes r (a.val * b.val) := by
  unfold RatNum.mul at h
  obtain ⟨n, hn, h⟩ := Res.bind_eq_ok.1 h
  obtain ⟨d, hd, h⟩ := Res.bind_eq_ok.1 h
  obtain ⟨h1, rfl⟩ := lmul_ok hn
  obtain ⟨h2, rfl⟩ := lmul_ok hd
  have := new_denotes h1 h2 (mul_ne_zero ha hb) h
  rwa [frac_mul] at this

/-- C28.  Quotient of two rationals. -/
theorem C28_div (a b r : RatNum) (ha : a.den ≠ 0) (hb : b.num ≠ 0) (h : RatNum.div a b = .ok r) :
    Denotes r (a.val / b.val) := by
  unfold RatNum.div at h
  obtain ⟨n, hn, h⟩ := Res.bind_eq_ok.1 h
  obtain ⟨d, hd, h⟩ := Res.bind_eq_ok.1 h
  obtain ⟨h1, rfl⟩ := lmul_ok hn
  obtain ⟨h2, rfl⟩ := lmul_ok hd
  have := new_denotes h1 h2 (mul_ne_zero hb ha) h
  rwa [frac_div] at this

/-- C28.  A rational and an integer, in both orders. -/
theorem C28_mixed (a : RatNum) (n : Int) (ha : a.den ≠ 0) (hl : InLong a.num) (hd : InLong a.den)
    (r : RatNum) :
    (RatNum.addInt a n = .ok r → Denotes r (a.val + n)) ∧
    (RatNum.intAdd n a = .ok r → Denotes r (n + a.val)) ∧
    (RatNum.subInt a n = .ok r → Denotes r (a.val - n)) ∧
    (RatNum.intSub n a = .ok r → Denotes r (n - a.val)) ∧
    (RatNum.mulInt a n = .ok r → Denotes r (a.val * n)) ∧
    (RatNum.intMul n a = .ok r → Denotes r (n * a.val)) ∧
    (n ≠ 0 → RatNum.divInt a n = .ok r → Denotes r (a.val / n)) ∧
    (a.num ≠ 0 → RatNum.intDiv n a = .ok r → Denotes r (n / a.val)) := by
  have hadd : RatNum.addInt a n = .ok r → Denotes r (a.val + n) := by
    intro h
    unfold RatNum.addInt at h
    obtain ⟨y, hy, h⟩ := Res.bind_eq_ok.1 h
    obtain ⟨x, hx, h⟩ := Res.bind_eq_ok.1 h
    obtain ⟨_, rfl⟩ := lmul_ok hy
    obtain ⟨h1, rfl⟩ := long_eq_ok.1 hx
    have := new_denotes h1 hd ha h
    have e := frac_add (a := a.num) (c := n) ha one_ne_zero
    rw [mul_one, mul_one, frac_int] at e
    rwa [e] at this
  have hmul : RatNum.mulInt a n = .ok r → Denotes r (a.val * n) := by
    intro h
    unfold RatNum.mulInt at h
    obtain ⟨x, hx, h⟩ := Res.bind_eq_ok.1 h
    obtain ⟨h1, rfl⟩ := lmul_ok hx
    have := new_denotes h1 hd ha h
    have e := frac_mul (a := a.num) (b := a.den) (c := n) (d := 1)
    rw [mul_one, frac_int] at e
    rwa [e] at this
  refine ⟨hadd, fun h => by rw [add_comm]; exact hadd h, ?_, ?_, hmul,
    fun h => by rw [mul_comm]; exact hmul h, ?_, ?_⟩
  · intro h
    unfold RatNum.subInt at h
    obtain ⟨y, hy, h⟩ := Res.bind_eq_ok.1 h
    obtain ⟨x, hx, h⟩ := Res.bind_eq_ok.1 h
    obtain ⟨_, rfl⟩ := lmul_ok hy
    obtain ⟨h1, rfl⟩ := long_eq_ok.1 hx
    have := new_denotes h1 hd ha h
    have e := frac_sub (a := a.num) (c := n) ha one_ne_zero
    rw [mul_one, mul_one, frac_int] at e
    rwa [e] at this
  · intro h
    unfold RatNum.intSub at h
    obtain ⟨y, hy, h⟩ := Res.bind_eq_ok.1 h
    obtain ⟨x, hx, h⟩ := Res.bind_eq_ok.1 h
    obtain ⟨_, rfl⟩ := lmul_ok hy
    obtain ⟨h1, rfl⟩ := long_eq_ok.1 hx
    have := new_denotes h1 hd ha h
    have e := frac_sub (a := n) (c := a.num) one_ne_zero ha
    rw [mul_one, one_mul, frac_int] at e
    rwa [e] at this
  · intro hn h
    unfold RatNum.divInt at h
    obtain ⟨x, hx, h⟩ := Res.bind_eq_ok.1 h
    obtain ⟨h1, rfl⟩ := lmul_ok hx
    have := new_denotes hl h1 (mul_ne_zero ha hn) h
    have e := frac_div (a := a.num) (b := a.den) (c := n) (d := 1)
    rw [mul_one, frac_int, mul_comm n] at e
    rwa [e] at this
  · intro hn h
    unfold RatNum.intDiv at h
    obtain ⟨x, hx, h⟩ := Res.bind_eq_ok.1 h
    obtain ⟨h1, rfl⟩ := lmul_ok hx
    have := new_denotes h1 hl hn h
    have e := frac_div (a := n) (b := 1) (c := a.num) (d := a.den)
    rw [mul_one, frac_int] at e
    rwa [e] at this

/-- The value is a `long` and not LONG_MIN. -/
def Spec.Mid (x : Int) : Prop := -H63 < x ∧ x < H63

/-- C28.  The operations complete when no intermediate value leaves (-2^63, 2^63) and the divisor is
nonzero. -/
theorem C28_defined (a b : RatNum) (ha : a.den ≠ 0) (hb : b.den ≠ 0)
    (h1 : Mid (a.num * b.den)) (h2 : Mid (b.num * a.den)) (h3 : Mid (a.den * b.den)) :
    (Mid (a.num * b.den + b.num * a.den) → ∃ r, RatNum.add a b = .ok r) ∧
    (Mid (a.num * b.den - b.num * a.den) → ∃ r, RatNum.sub a b = .ok r) ∧
    (Mid (a.num * b.num) → ∃ r, RatNum.mul a b = .ok r) ∧
    (b.num ≠ 0 → ∃ r, RatNum.div a b = .ok r) := by
  have e : ∀ x y : Int, Mid (x * y) → lmul x y = .ok (x * y) := fun x y h =>
    long_ok (by unfold Mid at h; comega)
  have key : ∀ x y : Int, Mid x → Mid y → (x ≠ 0 ∨ y ≠ 0) → ∃ r, RatNum.new x y = .ok r := by
    intro x y hx hy h0
    unfold Mid at hx hy
    exact C26_defined x y (by comega) (by comega) (by omega) (by omega) h0
  have hden := mul_ne_zero ha hb
  refine ⟨fun h => ?_, fun h => ?_, fun h => ?_, fun h => ?_⟩
  · unfold RatNum.add
    rw [e _ _ h1, Res.ok_bind, e _ _ h2, Res.ok_bind, e _ _ h3]
    have : ladd (a.num * b.den) (b.num * a.den) = .ok (a.num * b.den + b.num * a.den) :=
      long_ok (by unfold Mid at h; comega)
    rw [this, Res.ok_bind, Res.ok_bind]
    exact key _ _ h h3 (Or.inr hden)
  · unfold RatNum.sub
    rw [e _ _ h1, Res.ok_bind, e _ _ h2, Res.ok_bind, e _ _ h3]
    have : lsub (a.num * b.den) (b.num * a.den) = .ok (a.num * b.den - b.num * a.den) :=
      long_ok (by unfold Mid at h; comega)
    rw [this, Res.ok_bind, Res.ok_bind]
    exact key _ _ h h3 (Or.inr hden)
  · unfold RatNum.mul
    rw [e _ _ h, Res.ok_bind, e _ _ h3, Res.ok_bind]
    exact key _ _ h h3 (Or.inr hden)
  · unfold RatNum.div
    rw [e _ _ h1, Res.ok_bind, e _ _ h2, Res.ok_bind]
    exact key _ _ h1 h2 (Or.inr (mul_ne_zero h ha))

example : Mid ((5 : Int) * 3) ∧ Mid ((13 : Int) * 9) ∧ Mid ((9 : Int) * 3) := by
  unfold Mid; decide

/-! ### Comparisons -/

theorem lt_ok {a b : RatNum} {t : Bool} (h : RatNum.lt a b = .ok t) :
    t = decide (a.num * b.den < b.num * a.den) := by
  unfold RatNum.lt at h
  obtain ⟨x, hx, h⟩ := Res.bind_eq_ok.1 h
  obtain ⟨y, hy, h⟩ := Res.bind_eq_ok.1 h
  obtain ⟨_, rfl⟩ := lmul_ok hx
  obtain ⟨_, rfl⟩ := lmul_ok hy
  cases h; rfl

theorem lt_defined {a b : RatNum} (h1 : InLong (a.num * b.den)) (h2 : InLong (b.num * a.den)) :
    RatNum.lt a b = .ok (decide (a.num * b.den < b.num * a.den)) := by
  have e1 : lmul a.num b.den = .ok (a.num * b.den) := long_ok h1
  have e2 : lmul b.num a.den = .ok (b.num * a.den) := long_ok h2
  unfold RatNum.lt
  rw [e1, Res.ok_bind, e2, Res.ok_bind]

theorem frac_eq_iff {a b c d : Int} (hb : b ≠ 0) (hd : d ≠ 0) :
    frac a b = frac c d ↔ a * d = c * b := by
  unfold frac
  have hb' : (b : ℚ) ≠ 0 := by exact_mod_cast hb
  have hd' : (d : ℚ) ≠ 0 := by exact_mod_cast hd
  rw [div_eq_div_iff hb' hd']
  exact_mod_cast Iff.rfl

/-- C29.  Equality of stored rationals is equality of the denoted numbers (for any representation), and
`!=` is its negation, when the cross products are `long`s. -/
theorem C29_eq (a b : RatNum) (ha : a.den ≠ 0) (hb : b.den ≠ 0) (h1 : InLong (a.num * b.den))
    (h2 : InLong (b.num * a.den)) :
    RatNum.eq a b = .ok (decide (a.val = b.val)) ∧ RatNum.ne a b = .ok (decide (a.val ≠ b.val)) := by
  have he : RatNum.eq a b = .ok (decide (a.val = b.val)) := by
    unfold RatNum.eq
    rw [Rel.eq_ok (lt_defined h1 h2) (lt_defined h2 h1)]
    congr 1
    rw [decide_eq_decide, show a.val = b.val ↔ a.num * b.den = b.num * a.den from frac_eq_iff ha hb]
    omega
  refine ⟨he, ?_⟩
  unfold RatNum.ne Rel.ne
  rw [he, Rel.notOf_ok, ← decide_not]

theorem frac_lt_pos {a b c d : Int} (h : 0 < b * d) :
    frac a b < frac c d ↔ a * d < c * b := by
  have hb : b ≠ 0 := by rintro rfl; simp at h
  have hd : d ≠ 0 := by rintro rfl; simp at h
  have hb' : (b : ℚ) ≠ 0 := by exact_mod_cast hb
  have hd' : (d : ℚ) ≠ 0 := by exact_mod_cast hd
  have hbd : (0 : ℚ) < (b : ℚ) * d := by exact_mod_cast h
  have e : frac a b < frac c d ↔ frac a b * (b * d) < frac c d * (b * d) :=
    (mul_lt_mul_iff_of_pos_right hbd).symm
  rw [e]
  have e1 : frac a b * (b * d) = a * d := by unfold frac; field_simp
  have e2 : frac c d * (b * d) = c * b := by unfold frac; field_simp
  rw [e1, e2]
  exact_mod_cast Iff.rfl

theorem frac_lt_neg {a b c d : Int} (h : b * d < 0) :
    frac c d < frac a b ↔ a * d < c * b := by
  have hb : b ≠ 0 := by rintro rfl; simp at h
  have hd : d ≠ 0 := by rintro rfl; simp at h
  have hb' : (b : ℚ) ≠ 0 := by exact_mod_cast hb
  have hd' : (d : ℚ) ≠ 0 := by exact_mod_cast hd
  have hbd : (b : ℚ) * d < 0 := by exact_mod_cast h
  have e : frac c d < frac a b ↔ frac a b * (b * d) < frac c d * (b * d) :=
    (mul_lt_mul_right_of_neg hbd).symm
  rw [e]
  have e1 : frac a b * (b * d) = a * d := by unfold frac; field_simp
  have e2 : frac c d * (b * d) = c * b := by unfold frac; field_simp
  rw [e1, e2]
  exact_mod_cast Iff.rfl

/-- C30 (partial: the property asks for all pairs).  `<` is the order of the denoted numbers when the
denominators have the same sign, and the reversed order when they have opposite signs. -/
theorem C30_lt_partial (a b : RatNum) (h1 : InLong (a.num * b.den)) (h2 : InLong (b.num * a.den)) :
    (0 < a.den * b.den → RatNum.lt a b = .ok (decide (a.val < b.val)) ∧
      RatNum.gt a b = .ok (decide (b.val < a.val)) ∧ RatNum.le a b = .ok (decide (a.val ≤ b.val)) ∧
      RatNum.ge a b = .ok (decide (b.val ≤ a.val))) ∧
    (a.den * b.den < 0 → RatNum.lt a b = .ok (decide (b.val < a.val))) := by
  constructor
  · intro h
    have e1 : RatNum.lt a b = .ok (decide (a.val < b.val)) := by
      rw [lt_defined h1 h2]; congr 1; exact decide_eq_decide.2 (frac_lt_pos h).symm
    have e2 : RatNum.lt b a = .ok (decide (b.val < a.val)) := by
      rw [lt_defined h2 h1]; congr 1
      exact decide_eq_decide.2 (frac_lt_pos (by rw [mul_comm]; exact h)).symm
    refine ⟨e1, e2, ?_, ?_⟩
    · unfold RatNum.le Rel.le; rw [e2, Rel.notOf_ok, ← decide_not]
      congr 1; exact decide_eq_decide.2 not_lt
    · unfold RatNum.ge Rel.ge; rw [e1, Rel.notOf_ok, ← decide_not]
      congr 1; exact decide_eq_decide.2 not_lt
  · intro h
    rw [lt_defined h1 h2]; congr 1; exact decide_eq_decide.2 (frac_lt_neg h).symm

/-- C30 is violated by rationals that the constructor builds: RationalNum(-1,2) < RationalNum(1,3) is
false. -/
theorem C30_violated :
    ¬ ∀ (p q p' q' : Int) (a b : RatNum), RatNum.new p q = .ok a → RatNum.new p' q' = .ok b →
      0 < q → 0 < q' → InLong (a.num * b.den) → InLong (b.num * a.den) →
      RatNum.lt a b = .ok (decide (frac p q < frac p' q')) := by
  intro h
  have := h (-1) 2 1 3 _ _ new_neg1_2 new_1_3 (by decide) (by decide) (by decide) (by decide)
  have e : RatNum.lt ⟨1, -2⟩ ⟨1, 3⟩ = .ok false := by decide
  rw [e] at this
  have h2 : frac (-1) 2 < frac 1 3 := by unfold frac; norm_num
  rw [decide_eq_true h2] at this
  cases this

/-- Truncation towards zero. -/
def Spec.trunc (x : ℚ) : Int := if 0 ≤ x then ⌊x⌋ else ⌈x⌉

theorem tdiv_eq_trunc (p q : Int) : Int.tdiv p q = trunc (frac p q) := by
  have key : ∀ a b : Nat, ⌊((a : Int) : ℚ) / ((b : Int) : ℚ)⌋ = ((a / b : Nat) : Int) := by
    intro a b
    have := Rat.floor_intCast_div_natCast (a : Int) b
    push_cast at this ⊢
    rw [this]
  unfold trunc frac
  obtain ⟨a, rfl | rfl⟩ := Int.eq_nat_or_neg p <;> obtain ⟨b, rfl | rfl⟩ := Int.eq_nat_or_neg q
  · rw [if_pos (by positivity), key, Int.ofNat_tdiv]
  · rw [Int.tdiv_neg, Int.cast_neg, div_neg]
    by_cases h : (0 : ℚ) ≤ -(((a : Int) : ℚ) / ((b : Int) : ℚ))
    · have h2 : (0 : ℚ) ≤ ((a : Int) : ℚ) / ((b : Int) : ℚ) := by positivity
      have h3 : ((a : Int) : ℚ) / ((b : Int) : ℚ) = 0 := le_antisymm (by linarith) h2
      rw [if_pos h, h3]
      have := key a b
      rw [h3] at this
      rw [← Int.ofNat_tdiv, ← this]; simp
    · rw [if_neg h, Int.ceil_neg, key, Int.ofNat_tdiv]
  · rw [Int.neg_tdiv, Int.cast_neg, neg_div]
    by_cases h : (0 : ℚ) ≤ -(((a : Int) : ℚ) / ((b : Int) : ℚ))
    · have h2 : (0 : ℚ) ≤ ((a : Int) : ℚ) / ((b : Int) : ℚ) := by positivity
      have h3 : ((a : Int) : ℚ) / ((b : Int) : ℚ) = 0 := le_antisymm (by linarith) h2
      rw [if_pos h, h3]
      have := key a b
      rw [h3] at this
      rw [← Int.ofNat_tdiv, ← this]; simp
    · rw [if_neg h, Int.ceil_neg, key, Int.ofNat_tdiv]
  · rw [Int.neg_tdiv, Int.tdiv_neg, neg_neg, Int.cast_neg, Int.cast_neg, neg_div_neg_eq,
      if_pos (by positivity), key, Int.ofNat_tdiv]

/-- C34.  The conversion to the integer type truncates towards zero, whenever it is defined. -/
theorem C34_conversion (r : RatNum) (n : Int) (h : r.toInt = .ok n) : n = trunc r.val ∧ r.den ≠ 0 := by
  unfold RatNum.toInt ldiv at h
  by_cases h0 : r.den = 0
  · rw [if_pos h0] at h; cases h
  · rw [if_neg h0] at h
    obtain ⟨_, rfl⟩ := long_eq_ok.1 h
    exact ⟨tdiv_eq_trunc _ _, h0⟩

/-- C34.  `IsInt` answers whether the denoted number is an integer, and then the conversion is exact. -/
theorem C34_isInt (r : RatNum) (hn : InLong r.num) (hd : r.den ≠ 0)
    (h : ¬ (r.num = -H63 ∧ r.den = -1)) :
    ∃ t, r.isInt = .ok t ∧ (t = true ↔ ∃ z : Int, r.val = z) ∧
      (t = true → ∃ z : Int, r.toInt = .ok z ∧ r.val = z) := by
  unfold RatNum.isInt
  rw [lmod_ok hn hd h, Res.ok_bind]
  have hd' : (r.den : ℚ) ≠ 0 := by exact_mod_cast hd
  have e1 : (Int.tmod r.num r.den == 0) = true ↔ r.den ∣ r.num := by
    rw [beq_iff_eq]; exact ⟨Int.dvd_of_tmod_eq_zero, Int.tmod_eq_zero_of_dvd⟩
  refine ⟨_, rfl, ?_, ?_⟩
  · rw [e1]
    constructor
    · rintro ⟨z, hz⟩
      refine ⟨z, ?_⟩
      unfold RatNum.val frac
      rw [hz]; push_cast; field_simp
    · rintro ⟨z, hz⟩
      refine ⟨z, ?_⟩
      unfold RatNum.val frac at hz
      rw [div_eq_iff hd'] at hz
      have : r.num = z * r.den := by exact_mod_cast hz
      rw [this, mul_comm]
  · rw [e1]
    rintro ⟨z, hz⟩
    refine ⟨Int.tdiv r.num r.den, ?_, ?_⟩
    · unfold RatNum.toInt ldiv
      rw [if_neg hd]; exact long_ok (tdiv_inLong hn hd h)
    · rw [hz, Int.mul_tdiv_cancel_left _ hd]
      unfold RatNum.val frac
      rw [hz]; push_cast; field_simp

example : (⟨7, 2⟩ : RatNum).toInt = .ok 3 ∧ (⟨-7, 2⟩ : RatNum).toInt = .ok (-3) ∧
    (⟨7, 2⟩ : RatNum).isInt = .ok false ∧ (⟨6, -2⟩ : RatNum).isInt = .ok true := by decide

/-- C31 (partial: the property asks for the comparison of the values).  Mixed comparisons, in both orders,
compare the truncated rational. -/
theorem C31_mixed_partial (r : RatNum) (n : Int) (hn : InLong r.num) (hd : r.den ≠ 0)
    (h : ¬ (r.num = -H63 ∧ r.den = -1)) :
    (RatNum.ltInt r n = .ok (decide (trunc r.val < n)) ∧ RatNum.eqInt r n = .ok (decide (trunc r.val = n)) ∧
      RatNum.neInt r n = .ok (decide (trunc r.val ≠ n)) ∧ RatNum.leInt r n = .ok (decide (trunc r.val ≤ n)) ∧
      RatNum.gtInt r n = .ok (decide (trunc r.val > n)) ∧ RatNum.geInt r n = .ok (decide (trunc r.val ≥ n))) ∧
    (RatNum.intLt n r = .ok (decide (n < trunc r.val)) ∧ RatNum.intEq n r = .ok (decide (n = trunc r.val)) ∧
      RatNum.intNe n r = .ok (decide (n ≠ trunc r.val)) ∧ RatNum.intLe n r = .ok (decide (n ≤ trunc r.val)) ∧
      RatNum.intGt n r = .ok (decide (n > trunc r.val)) ∧ RatNum.intGe n r = .ok (decide (n ≥ trunc r.val))) := by
  have e : ldiv r.num r.den = .ok (trunc r.val) := by
    rw [ldiv, if_neg hd, long_ok (tdiv_inLong hn hd h), tdiv_eq_trunc]; rfl
  have h1 : RatNum.ltInt r n = .ok (decide (trunc r.val < n)) := by
    unfold RatNum.ltInt; rw [e, Res.ok_bind]
  have h2 : RatNum.intLt n r = .ok (decide (n < trunc r.val)) := by
    unfold RatNum.intLt; rw [e, Res.ok_bind]
  have h3 : RatNum.eqInt r n = .ok (decide (trunc r.val = n)) := by
    unfold RatNum.eqInt; rw [Rel.eq_ok h1 h2]; congr 1; rw [decide_eq_decide]; omega
  have h4 : RatNum.intEq n r = .ok (decide (n = trunc r.val)) := by
    unfold RatNum.intEq; rw [Rel.eq_ok h2 h1]; congr 1; rw [decide_eq_decide]; omega
  refine ⟨⟨h1, h3, ?_, ?_, h2, ?_⟩, h2, h4, ?_, ?_, h1, ?_⟩
  · unfold RatNum.neInt Rel.ne; rw [h3, Rel.notOf_ok, ← decide_not]
  · unfold RatNum.leInt Rel.le; rw [h2, Rel.notOf_ok, ← decide_not]; congr 1; rw [decide_eq_decide]; omega
  · unfold RatNum.geInt Rel.ge; rw [h1, Rel.notOf_ok, ← decide_not]; congr 1; rw [decide_eq_decide]; omega
  · unfold RatNum.intNe Rel.ne; rw [h4, Rel.notOf_ok, ← decide_not]
  · unfold RatNum.intLe Rel.le; rw [h1, Rel.notOf_ok, ← decide_not]; congr 1; rw [decide_eq_decide]; omega
  · unfold RatNum.intGe Rel.ge; rw [h2, Rel.notOf_ok, ← decide_not]; congr 1; rw [decide_eq_decide]; omega

/-- C31: where the mixed comparisons agree with the values: `r < n` for nonnegative `r`, `n < r` for
nonpositive `r`, and everything when `r` is an integer. -/
theorem C31_agreement_partial (x : ℚ) (n : Int) :
    (0 ≤ x → (trunc x < n ↔ x < n)) ∧ (x ≤ 0 → (n < trunc x ↔ (n : ℚ) < x)) ∧
    (∀ z : Int, x = z → trunc x = z) := by
  refine ⟨fun h => ?_, fun h => ?_, ?_⟩
  · unfold trunc; rw [if_pos h, Int.floor_lt]
  · unfold trunc
    rcases h.lt_or_eq with h | h
    · rw [if_neg (not_le.2 h), Int.lt_ceil]
    · subst h; simp
  · rintro z rfl
    unfold trunc; split <;> simp

/-- C31 is violated: RationalNum(1,2) == 0 is true. -/
theorem C31_violated : RatNum.eqInt ⟨1, 2⟩ 0 = .ok true ∧
    ¬ ∀ (r : RatNum) (n : Int), r.den ≠ 0 → RatNum.eqInt r n = .ok (decide (r.val = n)) := by
  have h : RatNum.eqInt ⟨1, 2⟩ 0 = .ok true := by decide
  refine ⟨h, fun H => ?_⟩
  have := H ⟨1, 2⟩ 0 (by decide)
  rw [h] at this
  have h2 : ¬ (RatNum.val ⟨1, 2⟩ = ((0 : Int) : ℚ)) := by unfold RatNum.val frac; norm_num
  rw [decide_eq_false h2] at this
  cases this

end Bwsl
