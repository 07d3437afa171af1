import Verif.Model.MathTypes
import Verif.Props.MathInt
import Verif.Props.GcdSign
import Verif.Props.MathUnsigned

/-! Property C133: the integer functions of MathUtils at every integer type. -/

namespace Bwsl
open Spec

/-- The widths of the integer types, signed and unsigned. -/
def Spec.Standard (t : CInt) : Prop := t.bits = 8 ∨ t.bits = 16 ∨ t.bits = 32 ∨ t.bits = 64

/-- The types of 32 and 64 bits.  `get_gcd` does not compile for a narrower one. -/
def Spec.Wide (t : CInt) : Prop := t.bits = 32 ∨ t.bits = 64

theorem Spec.Wide.standard {t : CInt} (h : Wide t) : Standard t := Or.inr (Or.inr h)

/-- `y` is the value of the type that is congruent to `x`. -/
def Spec.Reduces (t : CInt) (x y : Int) : Prop := t.Has y ∧ (2 : Int) ^ t.bits ∣ x - y

/-- An operation on operands of type `t` with exact value `x` is undefined: in `int` for types of less than 32 bits, in
the type itself for wider signed ones, never for wider unsigned ones. -/
def Spec.Overflows (t : CInt) (x : Int) : Prop :=
  if t.bits < 32 then ¬ (-2147483648 ≤ x ∧ x < 2147483648) else t.signed = true ∧ ¬ t.Has x

instance (t : CInt) (x : Int) : Decidable (Overflows t x) := by unfold Overflows; infer_instance

namespace CInt

/-- Case distinction on the eight types, with numerals for the bounds. -/
macro "int_types" t:ident ht:ident : tactic => `(tactic| (
  obtain ⟨b, s⟩ := $t:ident
  simp only [Standard] at $ht:ident
  rcases $ht:ident with h | h | h | h <;> subst h <;> cases s <;>
    simp [Has, hi, lo, wrap, promote, tInt, arith, Overflows] at *))

theorem pow_pos' (t : CInt) : (0 : Int) < 2 ^ t.bits := by positivity

theorem range_eq {t : CInt} (ht : Standard t) : t.hi - t.lo = 2 ^ t.bits := by int_types t ht

theorem lo_nonpos (t : CInt) : t.lo ≤ 0 := by
  unfold lo
  have : (0 : Int) < 2 ^ (t.bits - 1) := by positivity
  split <;> omega

theorem hi_ge {t : CInt} (ht : Standard t) : 128 ≤ t.hi := by int_types t ht

theorem has_zero {t : CInt} (ht : Standard t) : t.Has 0 := ⟨t.lo_nonpos, by have := hi_ge ht; omega⟩
theorem has_one {t : CInt} (ht : Standard t) : t.Has 1 :=
  ⟨by have := t.lo_nonpos; omega, by have := hi_ge ht; omega⟩

theorem wrap_of_has {t : CInt} (ht : Standard t) {x : Int} (h : t.Has x) : t.wrap x = x := by
  unfold wrap
  have := range_eq ht
  obtain ⟨h1, h2⟩ := h
  rw [Int.emod_eq_of_lt (by omega) (by omega)]; omega

theorem has_wrap {t : CInt} (ht : Standard t) (x : Int) : t.Has (t.wrap x) := by
  have hp := pow_pos' t
  have h1 := Int.emod_nonneg (x - t.lo) hp.ne'
  have h2 := Int.emod_lt_of_pos (x - t.lo) hp
  have := range_eq ht
  unfold wrap Has
  constructor <;> omega

theorem wrap_dvd (t : CInt) (x : Int) : (2 : Int) ^ t.bits ∣ x - t.wrap x := by
  unfold wrap
  have := Int.emod_add_mul_ediv (x - t.lo) (2 ^ t.bits)
  exact ⟨(x - t.lo) / 2 ^ t.bits, by linarith⟩

theorem wrap_congr {t : CInt} {x y : Int} (h : (2 : Int) ^ t.bits ∣ x - y) : t.wrap x = t.wrap y := by
  unfold wrap
  congr 1
  apply Int.emod_eq_emod_iff_emod_sub_eq_zero.2
  rw [show x - t.lo - (y - t.lo) = x - y by ring]
  exact Int.emod_eq_zero_of_dvd h

theorem reduces_iff {t : CInt} (ht : Standard t) {x y : Int} : Reduces t x y ↔ y = t.wrap x := by
  constructor
  · rintro ⟨h1, h2⟩
    rw [wrap_congr h2, wrap_of_has ht h1]
  · rintro rfl
    exact ⟨has_wrap ht x, wrap_dvd t x⟩

theorem standard_promote {t : CInt} (ht : Standard t) : Standard t.promote := by
  unfold promote
  split
  · right; right; left; rfl
  · exact ht

theorem has_promote {t : CInt} (ht : Standard t) {x : Int} (h : t.Has x) : t.promote.Has x := by
  int_types t ht <;> omega

theorem promote_dvd (t : CInt) : (2 : Int) ^ t.bits ∣ 2 ^ t.promote.bits := by
  apply pow_dvd_pow
  unfold promote
  split
  · show t.bits ≤ 32; omega
  · exact le_rfl

/-- The outcome of an operation. -/
theorem arith_promote {t : CInt} (ht : Standard t) (x : Int) :
    t.promote.arith x = if Overflows t x then .ub .signedOverflow else .ok (t.promote.wrap x) := by
  have hp := standard_promote ht
  unfold arith
  by_cases hs : t.promote.signed
  · rw [if_pos hs]
    by_cases hh : t.promote.Has x
    · rw [if_pos hh, wrap_of_has hp hh, if_neg]
      int_types t ht <;> omega
    · rw [if_neg hh, if_pos]
      int_types t ht <;> omega
  · rw [if_neg hs, if_neg]
    int_types t ht

theorem arith_ok {t : CInt} (ht : Standard t) {x : Int} (h : t.promote.Has x) : t.promote.arith x = .ok x := by
  unfold arith
  rw [if_pos h, wrap_of_has (standard_promote ht) h]; simp

theorem not_overflows {t : CInt} (ht : Standard t) {x : Int} (h : t.promote.Has x) : ¬ Overflows t x := by
  int_types t ht <;> omega

/-- An operation whose result is stored in a variable of the type. -/
theorem store_eq {t : CInt} (ht : Standard t) (x : Int) :
    (t.promote.arith x >>= fun y => (.ok (t.wrap y) : Res Int)) =
      if Overflows t x then .ub .signedOverflow else .ok (t.wrap x) := by
  rw [arith_promote ht]
  split
  · rfl
  · rw [Res.ok_bind, wrap_congr (t := t) (x := t.promote.wrap x) (y := x)]
    have h1 := (promote_dvd t).trans (wrap_dvd t.promote x)
    rw [show t.promote.wrap x - x = -(x - t.promote.wrap x) by ring]
    exact (dvd_neg).2 h1

theorem store_has {t : CInt} (ht : Standard t) {x : Int} (h : t.Has x) :
    (t.promote.arith x >>= fun y => (.ok (t.wrap y) : Res Int)) = .ok x := by
  rw [store_eq ht, if_neg (not_overflows ht (has_promote ht h)), wrap_of_has ht h]

/-- The widths at which a sum, a difference or an opposite is never undefined. -/
theorem add_quiet {t : CInt} (ht : Standard t) (hq : t.bits < 32 ∨ t.signed = false) {a b : Int} (ha : t.Has a)
    (hb : t.Has b) : ¬ Overflows t (a + b) ∧ ¬ Overflows t (a - b) ∧ ¬ Overflows t (-a) := by
  int_types t ht <;> omega


/-- The types at which a product is never undefined: all but `unsigned short` and the signed ones of 32 and 64 bits. -/
def _root_.Bwsl.Spec.ProductSafe (t : CInt) : Prop := t.bits = 8 ∨ (t.bits = 16 ∧ t.signed = true) ∨ (32 ≤ t.bits ∧ t.signed = false)

theorem mul_quiet {t : CInt} (ht : Standard t) (hq : ProductSafe t) {a b : Int} (ha : t.Has a) (hb : t.Has b) :
    ¬ Overflows t (a * b) := by
  unfold ProductSafe at hq
  by_cases h32 : t.bits < 32
  · have hb' : |a * b| ≤ 1073741824 := by
      rw [abs_mul]
      have h1 : |a| ≤ 32768 := by rw [abs_le]; int_types t ht <;> omega
      have h2 : |b| ≤ 32768 := by rw [abs_le]; int_types t ht <;> omega
      calc |a| * |b| ≤ 32768 * 32768 := mul_le_mul h1 h2 (abs_nonneg _) (by norm_num)
        _ = 1073741824 := by norm_num
    rw [abs_le] at hb'
    unfold Overflows
    rw [if_pos h32]; omega
  · unfold Overflows
    rw [if_neg h32]
    rcases hq with h | h | h
    · omega
    · omega
    · rw [h.2]; simp

theorem fold_sum {t : CInt} (ht : Standard t) (hq : t.bits < 32 ∨ t.signed = false) (v : List Int) :
    ∀ acc, (∀ x ∈ v, t.Has x) → t.fold t.add (t.wrap acc) v = .ok (t.wrap (acc + v.sum)) := by
  induction v with
  | nil => intro acc _; rw [fold, List.sum_nil, add_zero]
  | cons x xs ih =>
    intro acc hv
    have hx := hv x (by simp)
    rw [fold, List.sum_cons]
    have h1 := store_eq ht (t.wrap acc + x)
    rw [if_neg (add_quiet ht hq (has_wrap ht acc) hx).1] at h1
    obtain ⟨y, e1, e2⟩ := Res.bind_eq_ok.1 h1
    rw [show t.add (t.wrap acc) x = .ok y from e1, Res.ok_bind, Res.ok.inj e2]
    rw [wrap_congr (t := t) (x := t.wrap acc + x) (y := acc + x), ih _ (fun z hz => hv z (by simp [hz])), add_assoc]
    rw [show t.wrap acc + x - (acc + x) = -(acc - t.wrap acc) by ring]
    exact dvd_neg.2 (wrap_dvd t acc)

theorem fold_prod {t : CInt} (ht : Standard t) (hq : ProductSafe t) (v : List Int) :
    ∀ acc, (∀ x ∈ v, t.Has x) → t.fold t.mul (t.wrap acc) v = .ok (t.wrap (acc * v.prod)) := by
  induction v with
  | nil => intro acc _; rw [fold, List.prod_nil, mul_one]
  | cons x xs ih =>
    intro acc hv
    have hx := hv x (by simp)
    rw [fold, List.prod_cons]
    have h1 := store_eq ht (t.wrap acc * x)
    rw [if_neg (mul_quiet ht hq (has_wrap ht acc) hx)] at h1
    obtain ⟨y, e1, e2⟩ := Res.bind_eq_ok.1 h1
    rw [show t.mul (t.wrap acc) x = .ok y from e1, Res.ok_bind, Res.ok.inj e2]
    rw [wrap_congr (t := t) (x := t.wrap acc * x) (y := acc * x), ih _ (fun z hz => hv z (by simp [hz])), mul_assoc]
    rw [show t.wrap acc * x - acc * x = (acc - t.wrap acc) * (-x) by ring]
    exact (wrap_dvd t acc).mul_right _

/-- A fold all of whose partial results are values of the type. -/
theorem fold_exact {t : CInt} (ht : Standard t) (f : Int → Int → Int) (v : List Int) :
    ∀ acc, (∀ k ≤ v.length, t.Has ((v.take k).foldl f acc)) →
      t.fold (fun a b => t.promote.arith (f a b)) acc v = .ok (v.foldl f acc) := by
  induction v with
  | nil => intro acc _; rfl
  | cons x xs ih =>
    intro acc h
    have h1 : t.Has (f acc x) := by have := h 1 (by simp); simpa using this
    rw [fold]
    obtain ⟨y, e1, e2⟩ := Res.bind_eq_ok.1 (store_has ht h1)
    rw [e1, Res.ok_bind, Res.ok.inj e2, List.foldl_cons]
    refine ih _ fun k hk => ?_
    have := h (k + 1) (by simp; omega)
    simpa using this

end CInt

open CInt

/-- C133.  `square`, `sum_into`, `subtract_into`, `invert`, `absdiff` at every integer type, for all values: each result is
the value of the type that is congruent to the exact one modulo 2^bits, unless the operation is undefined, which it is
for types of less than 32 bits if the exact value is not an `int`, for wider signed ones if it is not in the type, and
for wider unsigned ones never. -/
theorem C133_square (t : CInt) (ht : Standard t) (x : Int) :
    (t.Has (x * x) → t.square x = .ok (x * x)) ∧
    (¬ Overflows t (x * x) → ∃ y, t.square x = .ok y ∧ Reduces t (x * x) y) ∧
    (Overflows t (x * x) → t.square x = .ub .signedOverflow) := by
  have h := store_eq ht (x * x)
  refine ⟨fun h1 => store_has ht h1, fun h1 => ⟨t.wrap (x * x), ?_, (reduces_iff ht).2 rfl⟩, fun h1 => ?_⟩
  · rw [if_neg h1] at h; exact h
  · rw [if_pos h1] at h; exact h

/-- C133.  The square of an `unsigned short` is computed in `int` and undefined from 46341 on; that of the narrower
types and of a `short` is always defined. -/
theorem C133_square_narrow (t : CInt) (ht : Standard t) (x : Int) (hx : t.Has x) (h : t.bits < 32) :
    t.square x = .ub .signedOverflow ↔ t = tUShort ∧ 46341 ≤ x := by
  have h1 := C133_square t ht x
  by_cases hq : ProductSafe t
  · obtain ⟨y, e, -⟩ := h1.2.1 (mul_quiet ht hq hx hx)
    rw [e]
    constructor
    · intro h; cases h
    · rintro ⟨rfl, -⟩
      simp [ProductSafe, tUShort] at hq
  · have hu : t = tUShort := by
      obtain ⟨b, s⟩ := t
      unfold ProductSafe at hq
      unfold Standard at ht
      simp only at hq ht h
      have hb : b = 16 := by omega
      subst hb
      cases s
      · rfl
      · exact absurd (Or.inr (Or.inl ⟨rfl, rfl⟩)) hq
    subst hu
    have hx' : 0 ≤ x ∧ x < 65536 := by simpa [Has, hi, lo, tUShort] using hx
    constructor
    · intro e
      refine ⟨rfl, ?_⟩
      by_contra hlt
      obtain ⟨y, e', -⟩ := h1.2.1 (by
        unfold Overflows; rw [if_pos h]
        have : x * x ≤ 46340 * 46340 := mul_le_mul (by omega) (by omega) hx'.1 (by norm_num)
        have := mul_nonneg hx'.1 hx'.1
        omega)
      rw [e'] at e; cases e
    · rintro ⟨-, h2⟩
      refine h1.2.2 ?_
      unfold Overflows; rw [if_pos h]
      have : (46341 : Int) * 46341 ≤ x * x := mul_le_mul h2 h2 (by norm_num) (by omega)
      omega

/-- C133.  `cube`: exact if the cube is in the type and the square is in the promoted type; undefined if either product
is. -/
theorem C133_cube (t : CInt) (ht : Standard t) (x : Int) :
    (t.promote.Has (x * x) → t.Has (x * x * x) → t.cube x = .ok (x * x * x)) ∧
    (Overflows t (x * x) → t.cube x = .ub .signedOverflow) ∧
    (t.promote.Has (x * x) → Overflows t (x * x * x) → t.cube x = .ub .signedOverflow) := by
  unfold cube mul
  refine ⟨fun h1 h2 => ?_, fun h1 => ?_, fun h1 h2 => ?_⟩
  · rw [arith_ok ht h1, Res.ok_bind]
    exact store_has ht h2
  · rw [arith_promote ht, if_pos h1]; rfl
  · rw [arith_ok ht h1, Res.ok_bind, store_eq ht, if_pos h2]

/-- C133.  `accumulate_sum` is the sum if all partial sums are in the type.  For types of less than 32 bits and for
unsigned ones it is defined for all elements and congruent to the sum modulo 2^bits. -/
theorem C133_sum (t : CInt) (ht : Standard t) (v : List Int) :
    ((∀ k ≤ v.length, t.Has (v.take k).sum) → t.accumulateSum v = .ok v.sum) ∧
    ((t.bits < 32 ∨ t.signed = false) → (∀ x ∈ v, t.Has x) → ∃ y, t.accumulateSum v = .ok y ∧ Reduces t v.sum y) := by
  have hf : ∀ l : List Int, l.foldl (· + ·) 0 = l.sum := fun l => by rw [List.sum_eq_foldl]
  constructor
  · intro h
    have := fold_exact ht (· + ·) v 0 (by intro k hk; rw [hf]; exact h k hk)
    rw [hf] at this
    exact this
  · intro hq hv
    have := fold_sum ht hq v 0 hv
    rw [wrap_of_has ht (has_zero ht), zero_add] at this
    exact ⟨_, this, (reduces_iff ht).2 rfl⟩

/-- C133.  `accumulate_product` is the product if all partial products are in the type.  Except for `unsigned short` and
the signed types of 32 and 64 bits it is defined for all elements and congruent to the product modulo 2^bits. -/
theorem C133_product (t : CInt) (ht : Standard t) (v : List Int) :
    ((∀ k ≤ v.length, t.Has (v.take k).prod) → t.accumulateProduct v = .ok v.prod) ∧
    (ProductSafe t → (∀ x ∈ v, t.Has x) → ∃ y, t.accumulateProduct v = .ok y ∧ Reduces t v.prod y) := by
  have hf : ∀ l : List Int, l.foldl (· * ·) 1 = l.prod := fun l => by rw [List.prod_eq_foldl]
  constructor
  · intro h
    have := fold_exact ht (· * ·) v 1 (by intro k hk; rw [hf]; exact h k hk)
    rw [hf] at this
    exact this
  · intro hq hv
    have := fold_prod ht hq v 1 hv
    rw [wrap_of_has ht (has_one ht), one_mul] at this
    exact ⟨_, this, (reduces_iff ht).2 rfl⟩

/-- C133.  `absdiff`: exact for all values of an unsigned type; for a signed one exact if the distance is in the type,
otherwise undefined from 32 bits on and reduced, to a negative number, below. -/
theorem C133_absdiff (t : CInt) (ht : Standard t) (a b : Int) (ha : t.Has a) (hb : t.Has b) :
    (t.signed = false → t.absdiff a b = .ok |a - b|) ∧
    (t.Has |a - b| → t.absdiff a b = .ok |a - b|) ∧
    (t.signed = true → 32 ≤ t.bits → t.hi ≤ |a - b| → t.absdiff a b = .ub .signedOverflow) ∧
    (t.signed = true → t.bits < 32 → t.hi ≤ |a - b| → t.absdiff a b = .ok (|a - b| - 2 ^ t.bits)) := by
  have key : t.absdiff a b = (t.promote.arith |a - b| >>= fun y => (.ok (t.wrap y) : Res Int)) := by
    unfold absdiff sub
    split
    · rw [abs_of_pos (by omega)]
    · rw [abs_of_nonpos (by omega), neg_sub]
  have h0 := abs_nonneg (a - b)
  have hle : |a - b| ≤ t.hi - t.lo - 1 := by
    obtain ⟨h1, h2⟩ := ha; obtain ⟨h3, h4⟩ := hb
    rw [abs_le]; omega
  generalize |a - b| = d at *
  rw [key, store_eq ht]
  refine ⟨fun h => ?_, fun h => ?_, fun h h1 h2 => ?_, fun h h1 h2 => ?_⟩
  · have hlo : t.lo = 0 := by unfold lo; rw [h]; simp
    have hh : t.Has d := by unfold Has; omega
    rw [if_neg (not_overflows ht (has_promote ht hh)), wrap_of_has ht hh]
  · rw [if_neg (not_overflows ht (has_promote ht h)), wrap_of_has ht h]
  · rw [if_pos]
    unfold Overflows; rw [if_neg (by omega)]
    exact ⟨h, fun h3 => by have := h3.2; omega⟩
  · have hr := range_eq ht
    have hh : t.Has (d - 2 ^ t.bits) := by
      have := t.lo_nonpos
      have := hi_ge ht
      unfold Has; constructor
      · have : t.hi = -t.lo := by unfold hi lo; rw [h]; simp
        omega
      · omega
    rw [if_neg, wrap_congr (y := d - 2 ^ t.bits) ⟨1, by ring⟩, wrap_of_has ht hh]
    int_types t ht <;> omega

/-- C133.  `signeddiff` from any unsigned to any signed type: the difference if its absolute value is in the result type.
Otherwise it is reduced modulo 2^bits of the result type, except that it is undefined if that type has 32 or 64
bits, `a < b` and the difference is an odd multiple of half of 2^bits. -/
theorem C133_signeddiff (t r : CInt) (ht : Standard t) (hr : Standard r) (hts : t.signed = false) (hrs : r.signed = true)
    (a b : Int) (ha : t.Has a) (hb : t.Has b) :
    (|a - b| < r.hi → t.signeddiff r a b = .ok (a - b)) ∧
    (¬ (32 ≤ r.bits ∧ a < b ∧ (2 : Int) ^ r.bits ∣ b - a - r.hi) →
      ∃ y, t.signeddiff r a b = .ok y ∧ Reduces r (a - b) y) ∧
    (32 ≤ r.bits ∧ a < b ∧ (2 : Int) ^ r.bits ∣ b - a - r.hi → t.signeddiff r a b = .ub .signedOverflow) := by
  have hlo : t.lo = 0 := by unfold lo; rw [hts]; simp
  have hrl : r.hi = -r.lo := by unfold hi lo; rw [hrs]; simp
  have hsub : ∀ x y : Int, t.Has x → t.Has y → y ≤ x → t.sub x y = .ok (x - y) := fun x y hx hy h =>
    arith_ok ht (has_promote ht ⟨by have := hy.1; omega, by have := hx.2; have := hy.1; omega⟩)
  have hw : r.wrap (b - a) = r.lo ↔ (2 : Int) ^ r.bits ∣ b - a - r.hi := by
    have hrr := range_eq hr
    have hhas : r.Has r.lo := ⟨le_rfl, by have := hi_ge hr; have := r.lo_nonpos; omega⟩
    rw [eq_comm, ← reduces_iff hr]
    unfold Reduces
    constructor
    · rintro ⟨-, h⟩
      have : b - a - r.hi = b - a - r.lo - 2 ^ r.bits := by omega
      rw [this]; exact dvd_sub h (dvd_refl _)
    · intro h
      refine ⟨hhas, ?_⟩
      have : b - a - r.lo = b - a - r.hi + 2 ^ r.bits := by omega
      rw [this]; exact dvd_add h (dvd_refl _)
  have hov : Overflows r (-(r.wrap (b - a))) ↔ 32 ≤ r.bits ∧ r.wrap (b - a) = r.lo := by
    have := has_wrap hr (b - a)
    generalize r.wrap (b - a) = w at *
    clear hw hsub
    have hlo2 := hrl
    unfold Overflows
    by_cases h32 : r.bits < 32
    · rw [if_pos h32]
      have hp := has_promote hr this
      have : r.promote = tInt := by unfold promote; rw [if_pos h32]
      have hh := has_wrap hr 0
      constructor
      · intro h
        exfalso
        apply h
        have hb1 : -32768 ≤ r.lo := by int_types r hr
        have hb2 : r.hi ≤ 65536 := by int_types r hr
        unfold Has at *
        omega
      · intro h; omega
    · rw [if_neg h32]
      unfold Has at *
      constructor
      · rintro ⟨-, h⟩; omega
      · rintro ⟨-, h⟩; exact ⟨hrs, by omega⟩
  have hneg : r.wrap (-(r.wrap (b - a))) = r.wrap (a - b) := by
    apply wrap_congr
    have := wrap_dvd r (b - a)
    rwa [show -r.wrap (b - a) - (a - b) = b - a - r.wrap (b - a) by ring]
  have value : ¬ (32 ≤ r.bits ∧ a < b ∧ (2 : Int) ^ r.bits ∣ b - a - r.hi) → t.signeddiff r a b = .ok (r.wrap (a - b)) := by
    intro h
    unfold CInt.signeddiff
    split
    · rw [hsub a b ha hb (by omega), Res.ok_bind]
    · next hle =>
      rw [hsub b a hb ha (by omega), Res.ok_bind]
      unfold neg
      rw [store_eq hr, if_neg, hneg]
      rw [hov, hw]
      rintro ⟨h1, h2⟩
      rcases eq_or_lt_of_le (show a ≤ b by omega) with he | hlt
      · subst he
        have : r.wrap (a - a) = r.lo := hw.2 h2
        rw [sub_self, wrap_of_has hr (has_zero hr)] at this
        have := hi_ge hr; omega
      · exact h ⟨h1, hlt, h2⟩
  refine ⟨fun h => ?_, fun h => ⟨_, value h, (reduces_iff hr).2 rfl⟩, fun h => ?_⟩
  · rw [abs_lt] at h
    have hhas : r.Has (a - b) := ⟨by omega, h.2⟩
    rw [value, wrap_of_has hr hhas]
    rintro ⟨h1, h2, h3⟩
    rw [← hw] at h3
    have h4 : r.Has (b - a) := ⟨by have := r.lo_nonpos; omega, by omega⟩
    rw [wrap_of_has hr h4] at h3
    have := hi_ge hr; omega
  · unfold CInt.signeddiff
    rw [if_neg (by omega), hsub b a hb ha (by omega), Res.ok_bind]
    unfold neg
    rw [store_eq hr, if_pos (hov.2 ⟨h.1, hw.2 h.2.2⟩)]

/-! ### Binomial coefficients -/

theorem CInt.tdiv_has {t : CInt} (ht : Standard t) {p d : Int} (hp : t.Has p) (hd : 0 < d) : t.Has (Int.tdiv p d) := by
  have h1 : (Int.tdiv p d).natAbs ≤ p.natAbs := by rw [Int.natAbs_tdiv]; exact Nat.div_le_self _ _
  have h2 := hi_ge ht
  have h3 := t.lo_nonpos
  obtain ⟨h4, h5⟩ := hp
  rcases le_total 0 p with h | h
  · have := Int.tdiv_nonneg h hd.le
    exact ⟨by omega, by omega⟩
  · have : 0 ≤ Int.tdiv (-p) d := Int.tdiv_nonneg (by omega) hd.le
    rw [Int.neg_tdiv] at this
    exact ⟨by omega, by omega⟩

theorem CInt.cbinomialFactor {t : CInt} (ht : Standard t) {n i : Nat} (hi : i ≤ n) (hn : t.Has n)
    (h : t.promote.signed = false ∨ t.promote.Has ((n : Int) + 1)) {β : Type} (f : Int → Res β) :
    (t.add n 1 >>= fun n1 => t.sub n1 ((i + 1 : Nat) : Int) >>= f) = f ((n - i : Nat) : Int) := by
  have hni : t.Has ((n - i : Nat) : Int) := ⟨by have := t.lo_nonpos; omega, by have := hn.2; omega⟩
  have hp := standard_promote ht
  have hni' := has_promote ht hni
  by_cases hh : t.promote.Has ((n : Int) + 1)
  · unfold add
    rw [arith_ok ht hh, Res.ok_bind]
    unfold sub
    rw [show (n : Int) + 1 - (i + 1 : Nat) = ((n - i : Nat) : Int) by omega, arith_ok ht hni', Res.ok_bind]
  · have hs : t.promote.signed = false := by tauto
    have ha : ∀ x, t.promote.arith x = .ok (t.promote.wrap x) := fun x => by unfold arith; rw [hs]; rfl
    unfold add sub
    rw [ha, Res.ok_bind, ha, Res.ok_bind]
    congr 1
    rw [wrap_congr (y := ((n - i : Nat) : Int)), wrap_of_has hp hni']
    have := wrap_dvd t.promote ((n : Int) + 1)
    rw [show t.promote.wrap ((n : Int) + 1) - ((i + 1 : Nat) : Int) - ((n - i : Nat) : Int) =
      -((n : Int) + 1 - t.promote.wrap ((n : Int) + 1)) by omega]
    exact dvd_neg.2 this

theorem CInt.cbinomialBody_exact {t : CInt} (ht : Standard t) {n i : Nat} (hi : 2 * (i + 1) ≤ n) (hn : t.Has n)
    (h : t.promote.signed = false ∨ t.promote.Has ((n : Int) + 1))
    (hc : ((Nat.choose n (i + 1) * (i + 1) : Nat) : Int) < t.hi) :
    t.cbinomialBody n ⟨Nat.choose n i, (i + 1 : Nat)⟩ = .ok ⟨Nat.choose n (i + 1), (i + 2 : Nat)⟩ := by
  have hl := t.lo_nonpos
  have hn2 := hn.2
  have hle : Nat.choose n (i + 1) ≤ Nat.choose n (i + 1) * (i + 1) := Nat.le_mul_of_pos_right _ (by omega)
  unfold CInt.cbinomialBody
  rw [cbinomialFactor ht (by omega) hn h]
  have e3 : (Nat.choose n i : Int) * ((n - i : Nat) : Int) = ((Nat.choose n (i + 1) * (i + 1) : Nat) : Int) := by
    rw [← choose_step n i, Nat.cast_mul]
  have hP : t.Has ((Nat.choose n (i + 1) * (i + 1) : Nat) : Int) := ⟨by omega, hc⟩
  have hC : t.Has (Nat.choose n (i + 1) : Int) := ⟨by omega, by omega⟩
  unfold mul
  rw [e3, arith_ok ht (has_promote ht hP), Res.ok_bind, wrap_of_has ht hP]
  have hne : ((i + 1 : Nat) : Int) ≠ 0 := by omega
  have e4 : t.div ((Nat.choose n (i + 1) * (i + 1) : Nat) : Int) ((i + 1 : Nat) : Int) =
      .ok (Nat.choose n (i + 1) : Int) := by
    rw [CInt.div, if_neg hne, Nat.cast_mul, Int.mul_tdiv_cancel _ hne]
    exact arith_ok ht (has_promote ht hC)
  rw [e4, Res.ok_bind]
  have hI : t.Has ((i + 2 : Nat) : Int) := ⟨by omega, by have := hi_ge ht; omega⟩
  unfold add
  rw [show ((i + 1 : Nat) : Int) + 1 = ((i + 2 : Nat) : Int) by omega, arith_ok ht (has_promote ht hI), Res.ok_bind,
    wrap_of_has ht hI, wrap_of_has ht hC]

theorem CInt.cbinomialLoop_exact {t : CInt} (ht : Standard t) {n m : Nat} (hm : 2 * m ≤ n) (hn : t.Has n)
    (h : m = 0 ∨ t.promote.signed = false ∨ t.promote.Has ((n : Int) + 1))
    (hc : m = 0 ∨ ((Nat.choose n m * m : Nat) : Int) < t.hi) (j : Nat) : ∀ i, i + j = m →
    whileLoop (fun s => decide (s.i ≤ (m : Int))) (t.cbinomialBody n) ⟨Nat.choose n i, (i + 1 : Nat)⟩ =
      .ok ⟨Nat.choose n m, (m + 1 : Nat)⟩ := by
  induction j with
  | zero =>
    intro i hi
    have : i = m := by omega
    subst this
    exact whileLoop_done (by simp)
  | succ j ih =>
    intro i hi
    have hc' : ((Nat.choose n (i + 1) * (i + 1) : Nat) : Int) < t.hi :=
      lt_of_le_of_lt (by exact_mod_cast choose_mul_mono (by omega) hm) (hc.resolve_left (by omega))
    refine Eq.trans (whileLoop_step (by simp; omega) (cbinomialBody_exact ht (by omega) hn (h.resolve_left (by omega)) hc')) ?_
    exact ih (i + 1) (by omega)

theorem CInt.cbinomial_start {t : CInt} (ht : Standard t) {n k : Nat} (hk : k ≤ n) (hn : t.Has n) :
    t.cbinomial n k = (whileLoop (fun s => decide (s.i ≤ (side n k : Int))) (t.cbinomialBody n) ⟨1, 1⟩ >>= fun s => .ok s.res) := by
  unfold CInt.cbinomial
  rw [if_neg (by omega)]
  have hd : t.Has ((n - k : Nat) : Int) := ⟨by have := t.lo_nonpos; omega, by have := hn.2; omega⟩
  have e1 : t.sub (n : Int) k = .ok ((n - k : Nat) : Int) := by
    unfold sub
    rw [show (n : Int) - k = ((n - k : Nat) : Int) by omega]
    exact arith_ok ht (has_promote ht hd)
  have e2 : (if (k : Int) > ((n - k : Nat) : Int) then t.wrap ((n - k : Nat) : Int) else (k : Int)) = (side n k : Nat) := by
    rw [wrap_of_has ht hd]
    unfold Spec.side; split <;> omega
  simp only [e1, Res.ok_bind, e2]

/-- C133.  `cbinomial` at every integer type, for `0 ≤ k ≤ n`: with `m` the smaller of `k` and `n-k` it is C(n,k) if `m = 0`,
or if C(n,m)·m is in the type and, for a signed type, `n+1` is in the promoted one. -/
theorem C133_cbinomial (t : CInt) (ht : Standard t) (n k : Nat) (hk : k ≤ n) (hn : t.Has n)
    (h : side n k = 0 ∨ (((Nat.choose n k * side n k : Nat) : Int) < t.hi ∧
      (t.signed = true → (n : Int) + 1 < t.promote.hi))) :
    t.cbinomial n k = .ok (Nat.choose n k) := by
  rw [cbinomial_start ht hk hn]
  have := cbinomialLoop_exact ht (n := n) (m := side n k) (by unfold side; omega) hn (by
    rcases h with h | ⟨-, h⟩
    · exact Or.inl h
    · right
      have hl := hn.2
      by_cases hs : t.signed = true
      · right
        exact ⟨by have := t.promote.lo_nonpos; omega, h hs⟩
      · by_cases h32 : t.bits < 32
        · right
          int_types t ht <;> omega
        · left
          unfold promote; rw [if_neg h32]; simpa using hs) (by
    rcases h with h | ⟨h, -⟩
    · exact Or.inl h
    · right; rw [choose_side hk]; exact h) (side n k) 0 (by omega)
  simp only [Nat.choose_zero_right, Nat.cast_one, zero_add] at this
  rw [this, Res.ok_bind, choose_side hk]

/-- C133.  At the types at which a product is never undefined, `cbinomial` terminates without undefined behaviour for all
nonnegative arguments. -/
theorem C133_cbinomial_total (t : CInt) (ht : Standard t) (hq : ProductSafe t) (n k : Nat) (hn : t.Has n) :
    ∃ y, t.cbinomial n k = .ok y ∧ t.Has y := by
  by_cases hk : k ≤ n
  · rw [cbinomial_start ht hk hn]
    have hl := t.lo_nonpos
    have hh := hi_ge ht
    have hn2 := hn.2
    have hpr : t.promote.signed = false ∨ t.promote.Has ((n : Int) + 1) := by
      unfold ProductSafe at hq
      clear hk
      int_types t ht <;> omega
    generalize hm : side n k = m
    have hm2 : 2 * m ≤ n := by rw [← hm]; unfold side; omega
    have body : ∀ (i : Nat) (r : Int), i < m → t.Has r → ∃ r', t.Has r' ∧
        t.cbinomialBody n ⟨r, (i + 1 : Nat)⟩ = .ok ⟨r', (i + 2 : Nat)⟩ := by
      intro i r hi hr
      unfold CInt.cbinomialBody
      rw [cbinomialFactor ht (by omega) hn hpr]
      have hf : t.Has ((n - i : Nat) : Int) := ⟨by omega, by omega⟩
      have hmul : t.mul r ((n - i : Nat) : Int) = .ok (t.promote.wrap (r * ((n - i : Nat) : Int))) := by
        unfold mul
        rw [arith_promote ht, if_neg (mul_quiet ht hq hr hf)]
      rw [hmul, Res.ok_bind]
      have hp := has_wrap ht (t.promote.wrap (r * ((n - i : Nat) : Int)))
      generalize t.wrap (t.promote.wrap (r * ((n - i : Nat) : Int))) = p at *
      have hdv := tdiv_has ht hp (d := ((i + 1 : Nat) : Int)) (by omega)
      refine ⟨_, hdv, ?_⟩
      have hI : t.Has ((i + 2 : Nat) : Int) := ⟨by omega, by omega⟩
      unfold CInt.div add
      rw [if_neg (show ¬ (((i + 1 : Nat) : Int) = 0) by omega), arith_ok ht (has_promote ht hdv), Res.ok_bind,
        show ((i + 1 : Nat) : Int) + 1 = ((i + 2 : Nat) : Int) by omega, arith_ok ht (has_promote ht hI), Res.ok_bind,
        wrap_of_has ht hI, wrap_of_has ht hdv]
    have loop : ∀ (j i : Nat) (r : Int), i + j = m → t.Has r → ∃ s : BinomState, t.Has s.res ∧
        whileLoop (fun s => decide (s.i ≤ (m : Int))) (t.cbinomialBody n) ⟨r, (i + 1 : Nat)⟩ = .ok s := by
      intro j
      induction j with
      | zero =>
        intro i r hi hr
        exact ⟨⟨r, (i + 1 : Nat)⟩, hr, whileLoop_done (by simp; omega)⟩
      | succ j ih =>
        intro i r hi hr
        obtain ⟨r', h1, h2⟩ := body i r (by omega) hr
        obtain ⟨s, h3, h4⟩ := ih (i + 1) r' (by omega) h1
        exact ⟨s, h3, (whileLoop_step (by simp; omega) h2).trans h4⟩
    obtain ⟨s, h1, h2⟩ := loop m 0 1 (by omega) (has_one ht)
    simp only [zero_add, Nat.cast_one] at h2
    exact ⟨s.res, by rw [h2]; rfl, h1⟩
  · refine ⟨0, ?_, has_zero ht⟩
    unfold CInt.cbinomial
    rw [if_pos (by omega)]

/-- C133.  At a signed type of 32 or 64 bits `cbinomial` is undefined in all other cases. -/
theorem C133_cbinomial_overflow (t : CInt) (ht : Standard t) (hs : t.signed = true) (hw : 32 ≤ t.bits) (n k : Nat) (hk : k ≤ n)
    (hn : t.Has n)
    (h : ¬ (side n k = 0 ∨ (((Nat.choose n k * side n k : Nat) : Int) < t.hi ∧ (n : Int) + 1 < t.hi))) :
    t.cbinomial n k = .ub .signedOverflow := by
  have hp : t.promote = t := by unfold promote; rw [if_neg (by omega)]
  rw [cbinomial_start ht hk hn]
  have hl := t.lo_nonpos
  have hh := hi_ge ht
  rw [← choose_side hk] at h
  have hm2 : 2 * side n k ≤ n := by unfold side; omega
  generalize side n k = m at *
  have harith : ∀ x : Int, t.hi ≤ x → t.arith x = .ub .signedOverflow := fun x hx => by
    unfold arith
    rw [if_pos hs, if_neg (fun h => by have := h.2; omega)]
  have hpos : ∀ x : Int, 0 ≤ x → x < t.hi → t.promote.Has x := fun x h0 h1 => by rw [hp]; exact ⟨by omega, h1⟩
  have body : ∀ i < m, ¬ ((n : Int) + 1 < t.hi ∧ ((Nat.choose n (i + 1) * (i + 1) : Nat) : Int) < t.hi) →
      t.cbinomialBody n ⟨Nat.choose n i, (i + 1 : Nat)⟩ = .ub .signedOverflow := by
    intro i hi hno
    by_cases h1 : (n : Int) + 1 < t.hi
    · unfold CInt.cbinomialBody
      rw [cbinomialFactor ht (by omega) hn (Or.inr (hpos _ (by omega) h1))]
      have e3 : (Nat.choose n i : Int) * ((n - i : Nat) : Int) = ((Nat.choose n (i + 1) * (i + 1) : Nat) : Int) := by
        rw [← choose_step n i, Nat.cast_mul]
      unfold mul
      rw [e3, hp, harith _ (by by_contra hc; exact hno ⟨h1, by omega⟩)]; rfl
    · unfold CInt.cbinomialBody add
      rw [hp, harith _ (by omega)]; rfl
  have loop : ∀ j i, i + j = m → 0 < j →
      whileLoop (fun s => decide (s.i ≤ (m : Int))) (t.cbinomialBody n) ⟨Nat.choose n i, (i + 1 : Nat)⟩ =
        .ub .signedOverflow := by
    intro j
    induction j with
    | zero => intro i _ h0; omega
    | succ j ih =>
      intro i hi _
      by_cases hc : (n : Int) + 1 < t.hi ∧ ((Nat.choose n (i + 1) * (i + 1) : Nat) : Int) < t.hi
      · have hj : 0 < j := by
          by_contra hj
          have : i + 1 = m := by omega
          subst this
          exact h (Or.inr ⟨hc.2, hc.1⟩)
        refine (whileLoop_step (by simp; omega) (cbinomialBody_exact ht (by omega) hn
          (Or.inr (hpos _ (by omega) hc.1)) hc.2)).trans ?_
        exact ih (i + 1) (by omega) hj
      · exact whileLoop_ub (by simp; omega) (body i (by omega) hc)
  have := loop m 0 (by omega) (by omega)
  simp only [Nat.choose_zero_right, Nat.cast_one, zero_add] at this
  rw [this]; rfl

/-- C133.  A negative `k` gives 1, not 0, at every signed type for which `n-k` is in the promoted type. -/
theorem C133_cbinomial_negative (t : CInt) (ht : Standard t) (n k : Int) (hn : 0 ≤ n) (hk : k < 0)
    (hd : t.promote.Has (n - k)) : t.cbinomial n k = .ok 1 := by
  unfold CInt.cbinomial sub
  rw [if_neg (by omega), arith_ok ht hd, Res.ok_bind]
  simp only
  rw [if_neg (by omega), whileLoop_done (by simp; omega)]
  rfl

/-! ### Greatest common divisors -/

/-- The arguments for which `get_gcd` is undefined: the smallest value and -1, at a signed type of 32 or 64 bits. -/
def Spec.GcdUndefined (t : CInt) (a b : Int) : Prop :=
  t.signed = true ∧ ((a = t.lo ∧ b = -1) ∨ (a = -1 ∧ b = t.lo))

theorem CInt.tmod_has {t : CInt} (ht : Standard t) {a b : Int} (ha : t.Has a) (hb : t.Has b) (h0 : b ≠ 0) :
    t.Has (Int.tmod a b) := by
  have h1 := tmod_natAbs_lt a b h0
  have hl := t.lo_nonpos
  have hh := hi_ge ht
  obtain ⟨h2, h3⟩ := hb
  obtain ⟨h4, h5⟩ := ha
  by_cases hs : t.signed = true
  · have : t.hi = -t.lo := by unfold hi lo; rw [hs]; simp
    exact ⟨by omega, by omega⟩
  · have : t.lo = 0 := by unfold lo; simp at hs; rw [hs]; simp
    have := Int.tmod_nonneg b (show 0 ≤ a by omega)
    exact ⟨by omega, by omega⟩

theorem CInt.mod_ok {t : CInt} (ht : Standard t) {a b : Int} (ha : t.Has a) (hb : t.Has b) (h0 : b ≠ 0)
    (h : ¬ (t.signed = true ∧ 32 ≤ t.bits ∧ a = t.lo ∧ b = -1)) : t.mod a b = .ok (Int.tmod a b) := by
  have h1 : (Int.tdiv a b).natAbs ≤ a.natAbs := by rw [Int.natAbs_tdiv]; exact Nat.div_le_self _ _
  have h2 : b = -1 ∨ b = 1 ∨ (Int.tdiv a b).natAbs ≤ a.natAbs / 2 := by
    by_cases hb1 : b.natAbs ≤ 1
    · omega
    · right; right
      rw [Int.natAbs_tdiv]
      exact Nat.div_le_div_left (by omega) (by omega)
  have h3 : b = -1 → Int.tdiv a b = -a := by rintro rfl; simp
  have h4 : b = 1 → Int.tdiv a b = a := by rintro rfl; simp
  have hno : ¬ Overflows t (Int.tdiv a b) := by
    generalize Int.tdiv a b = q at *
    int_types t ht <;> omega
  unfold CInt.mod
  rw [if_neg h0, arith_promote ht, if_neg hno]; rfl

theorem CInt.getGcd_zero (t : CInt) (a : Int) : t.getGcd a 0 = .ok a := by rw [CInt.getGcd, if_pos rfl]

theorem CInt.getGcd_step {t : CInt} (ht : Standard t) {a b : Int} (ha : t.Has a) (hb : t.Has b) (h0 : b ≠ 0)
    (h : ¬ (t.signed = true ∧ 32 ≤ t.bits ∧ a = t.lo ∧ b = -1)) : t.getGcd a b = t.getGcd b (Int.tmod a b) := by
  rw [CInt.getGcd, if_neg h0, mod_ok ht ha hb h0 h, Res.ok_bind]

theorem CInt.tmod_self_of_lt {a b : Int} (h : a.natAbs < b.natAbs) : Int.tmod a b = a :=
  C16_gcd.Int.tmod_eq_of_lt_natAbs' h

/-- C133.  `get_gcd` at every type for which it compiles terminates and is the greatest common divisor with the sign of the first
argument if Euclid's algorithm takes an even number of divisions, and with that of the second otherwise.  The only
undefined arguments are the smallest value and -1, in either order, at signed types. -/
theorem C133_gcd (t : CInt) (hw : Wide t) (a b : Int) (ha : t.Has a) (hb : t.Has b) (h : ¬ GcdUndefined t a b) :
    t.getGcd a b = .ok ((if euclidSteps a.natAbs b.natAbs % 2 = 0 then a.sign else b.sign) * Int.gcd a b) := by
  have ht := hw.standard
  generalize hn : b.natAbs = n
  induction n using Nat.strongRecOn generalizing a b with
  | _ n ih =>
    by_cases h0 : b = 0
    · subst h0
      rw [CInt.getGcd_zero, ← hn, Int.natAbs_zero, euclidSteps_zero, if_pos rfl, Int.gcd_zero_right, Int.sign_mul_natAbs]
    · have hlt := tmod_natAbs_lt a b h0
      have hr := tmod_has ht ha hb h0
      rw [CInt.getGcd_step ht ha hb h0 (fun hc => h ⟨hc.1, Or.inl hc.2.2⟩)]
      rw [ih _ (hn ▸ hlt) b (Int.tmod a b) hb hr ?_ rfl, tmod_gcd, ← hn, euclidSteps_pos a.natAbs (b := b.natAbs) (by omega), ← Int.natAbs_tmod]
      · congr 2
        by_cases he : euclidSteps b.natAbs (a.tmod b).natAbs % 2 = 0
        · rw [if_pos he, if_neg (by omega)]
        · rw [if_neg he, if_pos (by omega)]
          refine sign_tmod (fun h0 => he ?_)
          rw [h0, Int.natAbs_zero, euclidSteps_zero]
      · rintro ⟨hs, hc⟩
        have hlo : t.lo ≤ -128 := by clear ih; int_types t ht
        rcases hc with ⟨h1, h2⟩ | ⟨h1, h2⟩
        · -- the second argument is the smallest value and the remainder -1: the first one is -1
          by_cases hmin : a = t.lo
          · rw [hmin, h1, Int.tmod_self] at h2; omega
          · have hhi : t.hi = -t.lo := by unfold hi lo; rw [hs]; simp
            have : Int.tmod a b = a := tmod_self_of_lt (by have := ha.1; have := ha.2; omega)
            exact h ⟨hs, Or.inr ⟨by omega, h1⟩⟩
        · subst h1
          omega

/-- C133.  For an unsigned type it is the greatest common divisor. -/
theorem C133_gcd_unsigned (t : CInt) (ht : Wide t) (hs : t.signed = false) (a b : Int) (ha : t.Has a) (hb : t.Has b) :
    t.getGcd a b = .ok (Int.gcd a b) := by
  have hlo : t.lo = 0 := by unfold lo; rw [hs]; simp
  rw [C133_gcd t ht a b ha hb (by rintro ⟨h, -⟩; rw [hs] at h; cases h)]
  have h1 := ha.1
  have h2 := hb.1
  rw [hlo] at h1 h2
  congr 1
  rcases eq_or_lt_of_le h2 with e | hpos
  · rw [← e]; rw [Int.natAbs_zero, euclidSteps_zero, if_pos rfl, Int.gcd_zero_right, Int.sign_mul_natAbs, Int.natAbs_of_nonneg h1]
  · rcases eq_or_lt_of_le h1 with e | hpos'
    · rw [← e, Int.natAbs_zero, euclidSteps_pos _ (by omega), Nat.zero_mod, euclidSteps_zero, if_neg (by norm_num),
        Int.sign_eq_one_of_pos hpos, one_mul]
    · rw [Int.sign_eq_one_of_pos hpos, Int.sign_eq_one_of_pos hpos']; simp

/-- C133.  The undefined arguments. -/
theorem C133_gcd_undefined (t : CInt) (hw : Wide t) (a b : Int) (h : GcdUndefined t a b) :
    t.getGcd a b = .ub .signedOverflow := by
  obtain ⟨hs, hc⟩ := h
  have ht := hw.standard
  have hp : t.promote = t := by unfold promote; rw [if_neg (by unfold Wide at hw; omega)]
  have hlo : t.lo ≤ -128 := by clear hc hp; int_types t ht
  have hhi : t.hi = -t.lo := by unfold hi lo; rw [hs]; simp
  have h1 : t.getGcd t.lo (-1) = .ub .signedOverflow := by
    rw [CInt.getGcd, if_neg (by norm_num)]
    have : t.mod t.lo (-1) = .ub .signedOverflow := by
      unfold CInt.mod arith
      rw [if_neg (by norm_num), hp, if_pos hs, if_neg (by
        intro hh
        have := hh.2
        simp at this
        omega)]
      rfl
    rw [this]; rfl
  rcases hc with ⟨rfl, rfl⟩ | ⟨rfl, rfl⟩
  · exact h1
  · have hhas : t.Has t.lo := ⟨le_rfl, by omega⟩
    rw [CInt.getGcd_step ht ⟨by omega, by omega⟩ hhas (by omega) (by rintro ⟨-, -, h2, -⟩; omega),
      tmod_self_of_lt (by omega), h1]

/-! ### Containers -/

theorem CInt.transformInto_spec {t : CInt} (ht : Standard t) (f : Int → Int → Int) :
    ∀ (l r : List Int), l.length ≤ r.length →
      (∀ p ∈ l.zip r, ¬ Overflows t (f p.1 p.2)) →
      t.transformInto (fun a b => t.promote.arith (f a b)) l r = .ok ((l.zip r).map fun p => t.wrap (f p.1 p.2)) := by
  intro l
  induction l with
  | nil => intro r _ _; rfl
  | cons a as ih =>
    intro r hr h
    cases r with
    | nil => simp at hr
    | cons b bs =>
      have h1 := store_eq ht (f a b)
      rw [if_neg (h (a, b) (by simp))] at h1
      obtain ⟨y, e1, e2⟩ := Res.bind_eq_ok.1 h1
      rw [CInt.transformInto, e1, Res.ok_bind, ih bs (by simpa using hr) (fun p hp => h p (by simp [hp])), Res.ok_bind,
        Res.ok.inj e2]
      rfl

/-- C133.  `sum_into` and `subtract_into` with a second container that is not shorter: each element of the first is replaced
by the sum or difference, reduced modulo 2^bits, provided that none of the operations is undefined; at types of less
than 32 bits and at unsigned ones none ever is. -/
theorem C133_into (t : CInt) (ht : Standard t) (l r : List Int) (hl : l.length ≤ r.length) :
    ((∀ p ∈ l.zip r, ¬ Overflows t (p.1 + p.2)) → ∃ w, t.sumInto l r = .ok w ∧
      List.Forall₂ (fun p y => Reduces t (p.1 + p.2) y) (l.zip r) w) ∧
    ((∀ p ∈ l.zip r, ¬ Overflows t (p.1 - p.2)) → ∃ w, t.subtractInto l r = .ok w ∧
      List.Forall₂ (fun p y => Reduces t (p.1 - p.2) y) (l.zip r) w) ∧
    ((t.bits < 32 ∨ t.signed = false) → (∀ x ∈ l, t.Has x) → (∀ x ∈ r, t.Has x) →
      ∀ p ∈ l.zip r, ¬ Overflows t (p.1 + p.2) ∧ ¬ Overflows t (p.1 - p.2)) := by
  refine ⟨fun h => ⟨_, transformInto_spec ht (· + ·) l r hl h, ?_⟩, fun h => ⟨_, transformInto_spec ht (· - ·) l r hl h, ?_⟩, ?_⟩
  · rw [List.forall₂_map_right_iff, List.forall₂_same]
    exact fun p _ => (reduces_iff ht).2 rfl
  · rw [List.forall₂_map_right_iff, List.forall₂_same]
    exact fun p _ => (reduces_iff ht).2 rfl
  · intro hq h1 h2 p hp
    have hp' : (p.1, p.2) ∈ l.zip r := hp
    have h3 := add_quiet ht hq (h1 _ (List.of_mem_zip hp').1) (h2 _ (List.of_mem_zip hp').2)
    exact ⟨h3.1, h3.2.1⟩

/-- C133.  Reduction does nothing to a value of the type. -/
theorem C133_reduces (t : CInt) (ht : Standard t) (x y : Int) (hx : t.Has x) (h : Reduces t x y) : y = x := by
  rw [(reduces_iff ht).1 h, wrap_of_has ht hx]

theorem CInt.invert_spec {t : CInt} (ht : Standard t) (v : List Int) (h : ∀ x ∈ v, ¬ Overflows t (-x)) :
    t.invert v = .ok (v.map fun x => t.wrap (-x)) := by
  induction v with
  | nil => rfl
  | cons a as ih =>
    have h1 := store_eq ht (-a)
    rw [if_neg (h a (by simp))] at h1
    obtain ⟨y, e1, e2⟩ := Res.bind_eq_ok.1 h1
    rw [CInt.invert, show t.neg a = .ok y from e1, Res.ok_bind, ih (fun p hp => h p (by simp [hp])), Res.ok_bind,
      Res.ok.inj e2]
    rfl

/-- C133.  `invert` replaces each element by its opposite, reduced modulo 2^bits, provided that none is undefined; at types of
less than 32 bits and at unsigned ones none is, and inverting twice restores all contents, the smallest value of
a signed type included. -/
theorem C133_invert (t : CInt) (ht : Standard t) (v : List Int) (hv : ∀ x ∈ v, t.Has x) :
    ((∀ x ∈ v, ¬ Overflows t (-x)) → ∃ w, t.invert v = .ok w ∧ List.Forall₂ (fun x y => Reduces t (-x) y) v w) ∧
    ((t.bits < 32 ∨ t.signed = false) → ∃ w, t.invert v = .ok w ∧ t.invert w = .ok v) := by
  constructor
  · intro h
    refine ⟨_, invert_spec ht v h, ?_⟩
    rw [List.forall₂_map_right_iff, List.forall₂_same]
    exact fun p _ => (reduces_iff ht).2 rfl
  · intro hq
    refine ⟨_, invert_spec ht v (fun x hx => (add_quiet ht hq (hv x hx) (hv x hx)).2.2), ?_⟩
    rw [invert_spec ht _ (by
      intro y hy
      obtain ⟨x, -, rfl⟩ := List.mem_map.1 hy
      exact (add_quiet ht hq (has_wrap ht _) (has_wrap ht 0)).2.2), List.map_map]
    congr 1
    have : ∀ x ∈ v, ((fun x => t.wrap (-x)) ∘ fun x => t.wrap (-x)) x = x := by
      intro x hx
      show t.wrap (-(t.wrap (-x))) = x
      rw [wrap_congr (y := x), wrap_of_has ht (hv x hx)]
      have := wrap_dvd t (-x)
      rwa [show -t.wrap (-x) - x = -x - t.wrap (-x) by ring]
    rw [List.map_congr_left this, List.map_id']

/-! ### Coordinates -/

/-- C133.  `array_to_index` does not depend on the type of the coordinates. -/
theorem C133_array_to_index (a : List Int) (size : List Nat) : CInt.arrayToIndex a size = Bwsl.arrayToIndex a size := by
  have hw : ∀ x : Int, (tSize.wrap x).toNat = toSize x := fun x => by
    unfold CInt.wrap tSize toSize lo; norm_num
  have loop : ∀ (size : List Nat) (i p : Nat) (a : List Int),
      CInt.arrayToIndexLoop i p a size = Bwsl.arrayToIndexLoop i p a size := by
    intro size
    induction size with
    | nil => intro i p a; cases a <;> rfl
    | cons s ss ih =>
      intro i p a
      cases a with
      | nil => rfl
      | cons a as =>
        rw [CInt.arrayToIndexLoop, Bwsl.arrayToIndexLoop]
        simp only [hw, ih]
  unfold CInt.arrayToIndex Bwsl.arrayToIndex
  rw [loop]

theorem CInt.indexToArrayLoop_eq (t : CInt) (i : Nat) (size : List Nat) (h : ∀ s ∈ size, 0 < s) :
    t.indexToArrayLoop size.prod i size = .ok ((digits i size).map fun d : Nat => t.wrap d) := by
  induction size generalizing i with
  | nil => rfl
  | cons s ss ih =>
    have hs : s ≠ 0 := by have := h s (by simp); omega
    have hss : ∀ x ∈ ss, 0 < x := fun x hx => h x (by simp [hx])
    have hp : ss.prod ≠ 0 := by have := prod_pos hss; omega
    rw [CInt.indexToArrayLoop, List.prod_cons]
    simp only [udiv, umod, if_neg hs, Res.ok_bind, Nat.mul_div_cancel_left _ (Nat.pos_of_ne_zero hs),
      if_neg hp, ih _ hss, digits, List.map_cons]

/-- C133.  `index_to_array` with coordinates of any integer type that has all numbers below the extents: it is the site with
that row-major offset, and `array_to_index` leads back. -/
theorem C133_index_to_array (t : CInt) (ht : Standard t) (size : List Nat) (hs : Representable size)
    (hf : ∀ s ∈ size, (s : Int) ≤ t.hi) (i : Nat) (hi : i < size.prod) :
    ∃ c, t.indexToArray i size = .ok c ∧ OnGrid c size ∧ (∀ x ∈ c, t.Has x) ∧ rowMajor c size = i ∧
      CInt.arrayToIndex c size = .ok i := by
  have hg := digits_onGrid hs.1 hi
  have hmem : ∀ {c : List Int} {size : List Nat}, OnGrid c size → (∀ s ∈ size, (s : Int) ≤ t.hi) → ∀ x ∈ c, t.Has x := by
    intro c size hg hf x hx
    induction hg with
    | nil => simp at hx
    | @cons y s ys ss h1 _ ih =>
      rcases List.mem_cons.1 hx with rfl | hx
      · exact ⟨by have := t.lo_nonpos; omega, by have := hf s (by simp); omega⟩
      · exact ih (fun s hs => hf s (by simp [hs])) hx
  have hh := hmem hg hf
  have e : (digits i size).map (fun d : Nat => t.wrap d) = (digits i size).map (Nat.cast : Nat → Int) := by
    apply List.map_congr_left
    intro d hd
    exact wrap_of_has ht (hh _ (List.mem_map.2 ⟨d, hd, rfl⟩))
  refine ⟨_, ?_, hg, hh, ?_, ?_⟩
  · unfold CInt.indexToArray
    rw [accumulateProduct_rep hs, CInt.indexToArrayLoop_eq t i size hs.1, e]
  · exact rowMajor_digits i size hs.1 hi
  · rw [C133_array_to_index, arrayToIndex_eq hs _ (onGrid_length hg), rowMajor_digits i size hs.1 hi,
      toSize_natCast (by have := hs.2; omega)]

/-- C133.  A type that is too small is not noticed: the coordinate of site 150 of a chain of 200 as a `signed char` is -106,
and its index another number. -/
theorem C133_index_narrow : tSChar.indexToArray 150 [200] = .ok [-106] ∧ CInt.arrayToIndex [-106] [200] = .ok (2 ^ 64 - 106) := by
  decide +kernel

/-- C133.  `sum_squared`, and the sum in `l2norm`, is the sum of the squares if the elements, their squares and all partial sums
are in the result type. -/
theorem C133_sum_squared (t : CInt) (ht : Standard t) (v : List Int) (h1 : ∀ x ∈ v, t.Has x ∧ t.Has (x * x))
    (h : ∀ k ≤ v.length, t.Has ((v.take k).map fun x => x * x).sum) :
    t.sumSquared v = .ok (v.map fun x => x * x).sum := by
  have key : ∀ (v : List Int) (acc : Int), (∀ x ∈ v, t.Has x ∧ t.Has (x * x)) →
      (∀ k ≤ v.length, t.Has (acc + ((v.take k).map fun x => x * x).sum)) →
      t.fold (fun d x => do
        let y ← t.square (t.wrap x)
        t.add d y) acc v = .ok (acc + (v.map fun x => x * x).sum) := by
    intro v
    induction v with
    | nil => intro acc _ _; simp [fold]
    | cons x xs ih =>
      intro acc h1 h
      have hx := h1 x (by simp)
      have h2 : t.Has (acc + x * x) := by have := h 1 (by simp); simpa using this
      obtain ⟨y, e1, e2⟩ := Res.bind_eq_ok.1 (store_has ht h2)
      rw [fold, wrap_of_has ht hx.1, (C133_square t ht x).1 hx.2, Res.ok_bind, show t.add acc (x * x) = .ok y from e1,
        Res.ok_bind, Res.ok.inj e2, ih _ (fun z hz => h1 z (by simp [hz])), List.map_cons, List.sum_cons, add_assoc]
      intro k hk
      have := h (k + 1) (by simp; omega)
      rwa [List.take_succ_cons, List.map_cons, List.sum_cons, ← add_assoc] at this
  have := key v 0 h1 (by simpa using h)
  rwa [zero_add] at this

/-! ### The functions at `long` and `size_t` -/

theorem CInt.standard_long : Standard tLong := by right; right; right; rfl
theorem CInt.standard_size : Standard tSize := by right; right; right; rfl

theorem CInt.has_long (x : Int) : tLong.Has x ↔ InLong x := by
  unfold Has tLong lo hi InLong; norm_num

theorem CInt.arith_long (x : Int) : tLong.promote.arith x = long x := by
  have : tLong.promote = tLong := rfl
  rw [this]
  unfold arith long
  rw [if_pos (show tLong.signed = true from rfl)]
  simp only [has_long]

theorem CInt.store_long (x : Int) : (long x >>= fun y => (.ok (tLong.wrap y) : Res Int)) = long x := by
  unfold long
  split
  · next h => rw [Res.ok_bind, wrap_of_has standard_long ((has_long x).2 h)]
  · rfl

theorem CInt.mod_long (a b : Int) : tLong.mod a b = lmod a b := by
  unfold CInt.mod lmod
  split
  · rfl
  · rw [arith_long]
    unfold long
    split <;> rfl

theorem CInt.getGcd_long (a b : Int) (ha : InLong a) (hb : InLong b) : tLong.getGcd a b = Bwsl.getGcd a b := by
  generalize hn : b.natAbs = n
  induction n using Nat.strongRecOn generalizing a b with
  | _ n ih =>
    rw [CInt.getGcd, Bwsl.getGcd, mod_long]
    split
    · rfl
    · next h0 =>
      unfold lmod
      rw [if_neg h0]
      split
      · have hr : InLong (Int.tmod a b) :=
          (has_long _).1 (tmod_has standard_long ((has_long a).2 ha) ((has_long b).2 hb) h0)
        rw [Res.ok_bind, Res.ok_bind]
        exact ih _ (hn ▸ tmod_natAbs_lt a b h0) b _ hb hr rfl
      · rfl

theorem CInt.cbinomialBody_long (n : Int) (s : BinomState) : tLong.cbinomialBody n s = Bwsl.cbinomialBody n s := by
  have hw : ∀ {x y : Int}, long x = .ok y → tLong.wrap y = y := fun h => by
    obtain ⟨h1, rfl⟩ := long_eq_ok.1 h
    exact wrap_of_has standard_long ((has_long _).2 h1)
  unfold CInt.cbinomialBody Bwsl.cbinomialBody CInt.add CInt.sub CInt.mul CInt.div
  simp only [arith_long]
  show (ladd n 1 >>= _) = (ladd n 1 >>= _)
  cases h1 : ladd n 1 <;> try rfl
  rw [Res.ok_bind, Res.ok_bind]
  rename_i n1
  show (lsub n1 s.i >>= _) = (lsub n1 s.i >>= _)
  cases h2 : lsub n1 s.i <;> try rfl
  rw [Res.ok_bind, Res.ok_bind]
  rename_i f
  show (lmul s.res f >>= _) = (lmul s.res f >>= _)
  cases h3 : lmul s.res f <;> try rfl
  rw [Res.ok_bind, Res.ok_bind, hw h3]
  rename_i p
  show (ldiv p s.i >>= _) = (ldiv p s.i >>= _)
  cases h4 : ldiv p s.i <;> try rfl
  rw [Res.ok_bind, Res.ok_bind]
  rename_i q
  have hq : tLong.wrap q = q := by
    unfold ldiv at h4
    split at h4
    · cases h4
    · exact hw h4
  show (ladd s.i 1 >>= _) = (ladd s.i 1 >>= _)
  cases h5 : ladd s.i 1 <;> try rfl
  rw [Res.ok_bind, Res.ok_bind, hw h5, hq]

/-- C133.  At `long` the functions are those of the other properties. -/
theorem C133_long (a b : Int) :
    tLong.square a = squareL a ∧ tLong.absdiff a b = absdiffL a b ∧ tLong.cbinomial a b = Bwsl.cbinomial a b ∧
    (InLong a → InLong b → tLong.getGcd a b = Bwsl.getGcd a b) := by
  refine ⟨?_, ?_, ?_, getGcd_long a b⟩
  · unfold CInt.square CInt.mul squareL lmul
    rw [arith_long]; exact store_long _
  · unfold CInt.absdiff absdiffL CInt.sub lsub
    split <;> (rw [arith_long]; exact store_long _)
  · unfold CInt.cbinomial Bwsl.cbinomial CInt.sub
    split
    · rfl
    · rw [arith_long]
      show (lsub a b >>= _) = (lsub a b >>= _)
      cases h1 : lsub a b <;> try rfl
      rename_i d
      obtain ⟨h2, -⟩ := long_eq_ok.1 h1
      have hd : tLong.wrap d = d := by
        obtain ⟨h2, rfl⟩ := long_eq_ok.1 h1
        exact wrap_of_has standard_long ((has_long _).2 h2)
      rw [Res.ok_bind, Res.ok_bind, hd, funext (cbinomialBody_long a)]

/-- C133.  At `long` the functions on containers are those of the other properties. -/
theorem C133_long_containers (v w : List Int) :
    tLong.accumulateSum v = accumulateSumL v ∧ tLong.accumulateProduct v = accumulateProductL v ∧
    tLong.sumInto v w = Bwsl.sumInto v w ∧ tLong.subtractInto v w = Bwsl.subtractInto v w ∧
    tLong.invert v = Bwsl.invert v := by
  have hfold : ∀ (f : Int → Int → Int) (v : List Int) (acc : Int),
      tLong.fold (fun a b => tLong.promote.arith (f a b)) acc v = foldLong (fun a b => long (f a b)) acc v := by
    intro f v
    induction v with
    | nil => intro acc; rfl
    | cons x xs ih =>
      intro acc
      rw [fold, foldLong, arith_long]
      have := store_long (f acc x)
      cases h : long (f acc x) <;> try rfl
      rename_i y
      rw [h, Res.ok_bind, Res.ok.injEq] at this
      rw [Res.ok_bind, Res.ok_bind, this]
      exact ih y
  have htr : ∀ (f : Int → Int → Int) (v w : List Int),
      tLong.transformInto (fun a b => tLong.promote.arith (f a b)) v w = Bwsl.transformInto (fun a b => long (f a b)) v w := by
    intro f v
    induction v with
    | nil => intro w; rfl
    | cons x xs ih =>
      intro w
      cases w with
      | nil => rfl
      | cons z zs =>
        rw [CInt.transformInto, Bwsl.transformInto, arith_long]
        have := store_long (f x z)
        cases h : long (f x z) <;> try rfl
        rename_i y
        rw [h, Res.ok_bind, Res.ok.injEq] at this
        rw [Res.ok_bind, Res.ok_bind, ih zs, this]
  refine ⟨hfold (· + ·) v 0, hfold (· * ·) v 1, htr (· + ·) v w, htr (· - ·) v w, ?_⟩
  induction v with
  | nil => rfl
  | cons x xs ih =>
    rw [CInt.invert, Bwsl.invert, CInt.neg, arith_long, lneg]
    have := store_long (-x)
    cases h : long (-x) <;> try rfl
    rename_i y
    rw [h, Res.ok_bind, Res.ok.injEq] at this
    rw [Res.ok_bind, Res.ok_bind, ih, this]

theorem CInt.has_size (n : Nat) (h : n < 2 ^ 64) : tSize.Has n := by
  unfold Has tSize lo hi; norm_num; omega

theorem CInt.wrap_size (n : Nat) : tSize.wrap n = ((n % W64 : Nat) : Int) := by
  unfold CInt.wrap tSize lo; norm_num

/-- C133.  At `size_t` the functions are those of the other properties. -/
theorem C133_size (a b : Nat) (ha : a < 2 ^ 64) (hb : b < 2 ^ 64) :
    tSize.square a = .ok (squareU a) ∧ tSize.absdiff a b = .ok (absdiffU a b) ∧
    tSize.getGcd a b = (getGcdU a b >>= fun g => .ok (g : Int)) ∧
    tSize.signeddiff tLong a b = Bwsl.signeddiff a b := by
  have hs := standard_size
  have hw : ∀ n : Nat, n < 2 ^ 64 → tLong.wrap n = toLong n := fun n hn => by
    unfold toLong
    split
    · next h => exact wrap_of_has standard_long ((has_long _).2 ⟨by omega, h⟩)
    · next h =>
      rw [wrap_congr (t := tLong) (y := (n : Int) - Z64) ⟨1, by unfold tLong; norm_num⟩]
      exact wrap_of_has standard_long ((has_long _).2 ⟨by omega, by omega⟩)
  have hsub : ∀ x y : Nat, x < 2 ^ 64 → y ≤ x → tSize.sub x y = .ok ((x - y : Nat) : Int) ∧ usub x y = x - y := by
    intro x y hx hy
    constructor
    · unfold CInt.sub
      rw [show (x : Int) - y = ((x - y : Nat) : Int) by omega]
      exact arith_ok hs (has_promote hs (has_size _ (by omega)))
    · unfold usub; omega
  refine ⟨?_, ?_, ?_, ?_⟩
  · unfold CInt.square CInt.mul squareU umul
    rw [store_eq hs, if_neg, ← Nat.cast_mul, wrap_size]
    unfold Overflows tSize; simp
  · rw [(C133_absdiff tSize hs a b (has_size a ha) (has_size b hb)).1 rfl, C18_absdiff a b (by omega) (by omega)]
  · rw [C133_gcd_unsigned tSize (Or.inr rfl) rfl a b (has_size a ha) (has_size b hb), C117_gcd, Res.ok_bind]
    rfl
  · unfold CInt.signeddiff Bwsl.signeddiff
    by_cases h : a > b
    · rw [if_pos (by omega), if_pos h, (hsub a b ha h.le).1, Res.ok_bind, (hsub a b ha h.le).2, hw _ (by omega)]
    · rw [if_neg (by omega), if_neg h, (hsub b a hb (by omega)).1, Res.ok_bind, (hsub b a hb (by omega)).2, hw _ (by omega)]
      unfold CInt.neg lneg
      rw [arith_long]
      exact store_long _

/-! ### Examples -/

/-- A product of `unsigned short`s that is undefined, and sums of `signed char`s that are not. -/
example : tUShort.square 50000 = .ub .signedOverflow ∧ tUShort.square 300 = .ok 24464 ∧
    tSChar.accumulateSum [100, 100] = .ok (-56) ∧ tSChar.invert [-128, 5] = .ok [-128, -5] ∧
    tUChar.absdiff 3 250 = .ok 247 ∧ tSChar.absdiff (-100) 100 = .ok (-56) ∧
    tUShort.signeddiff tShort 3 10 = .ok (-7) ∧ tUChar.signeddiff tInt 0 255 = .ok (-255) := by decide +kernel

example : Standard tInt ∧ tInt.Has 33 ∧ ((Nat.choose 29 14 * side 29 14 : Nat) : Int) < tInt.hi ∧
    ¬ ((Nat.choose 30 15 * side 30 15 : Nat) : Int) < tInt.hi ∧ Nat.choose 33 16 < 2 ^ 31 := by
  refine ⟨by right; right; left; rfl, ?_⟩
  decide +kernel

example : Wide tInt ∧ tInt.Has (-12) ∧ tInt.Has 18 ∧ ¬ GcdUndefined tInt (-12) 18 ∧
    GcdUndefined tInt (-2147483648) (-1) := by
  refine ⟨Or.inl rfl, by decide, by decide, ?_, ?_⟩
  · rintro ⟨-, h⟩; omega
  · exact ⟨rfl, Or.inl ⟨by simp [tInt, lo], rfl⟩⟩

end Bwsl
