import Verif.Cxx.Outcome

/-!
# 64-bit integers (LP64)

`long` values are `Int`s in `[-2^63, 2^63)`; every signed operation is range checked and overflow is
undefined behaviour.  `size_t` / `unsigned long` values are `Nat`s below `2^64`; operations reduce
modulo `2^64`.  Not a model of a particular file of /repo.
-/

namespace Bwsl

/-- 2^64 -/
notation "W64" => (18446744073709551616 : Nat)

/-- 2^64 -/
notation "Z64" => (18446744073709551616 : Int)

/-- 2^63 -/
notation "H63" => (9223372036854775808 : Int)

/-- The value is a `long`. -/
def InLong (x : Int) : Prop := -H63 ≤ x ∧ x < H63

/-- The value is a `size_t`. -/
def InSize (n : Nat) : Prop := n < W64

instance (x : Int) : Decidable (InLong x) := inferInstanceAs (Decidable (_ ∧ _))
instance (n : Nat) : Decidable (InSize n) := inferInstanceAs (Decidable (_ < _))


/-- `omega` after unfolding the range predicates. -/
macro "comega" : tactic => `(tactic| ((try simp only [InLong, InSize] at *); omega))

/-- Result of a signed computation with exact value `x`: undefined unless representable. -/
def long (x : Int) : Res Int := if InLong x then .ok x else .ub .signedOverflow

/-- signed `a + b` -/
def ladd (a b : Int) : Res Int := long (a + b)
/-- signed `a - b` -/
def lsub (a b : Int) : Res Int := long (a - b)
/-- signed `a * b` -/
def lmul (a b : Int) : Res Int := long (a * b)
/-- signed `-a` -/
def lneg (a : Int) : Res Int := long (-a)
/-- signed `a / b`, truncating; undefined for `b = 0` and for `LONG_MIN / -1` -/
def ldiv (a b : Int) : Res Int := if b = 0 then .ub .divByZero else long (Int.tdiv a b)
/-- signed `a % b`, sign of the dividend; undefined for `b = 0` and for `LONG_MIN % -1` -/
def lmod (a b : Int) : Res Int :=
  if b = 0 then .ub .divByZero
  else if InLong (Int.tdiv a b) then .ok (Int.tmod a b) else .ub .signedOverflow

/-- unsigned `a + b` -/
def uadd (a b : Nat) : Nat := (a + b) % W64
/-- unsigned `a * b` -/
def umul (a b : Nat) : Nat := (a * b) % W64
/-- unsigned `a - b` -/
def usub (a b : Nat) : Nat := (a + (W64 - b)) % W64
/-- unsigned `a / b` -/
def udiv (a b : Nat) : Res Nat := if b = 0 then .ub .divByZero else .ok (a / b)
/-- unsigned `a % b` -/
def umod (a b : Nat) : Res Nat := if b = 0 then .ub .divByZero else .ok (a % b)

/-- `static_cast<size_t>(x)` of a `long` -/
def toSize (x : Int) : Nat := (x % Z64).toNat
/-- `static_cast<long>(n)` of a `size_t` (modular, as GCC/Clang and C++20) -/
def toLong (n : Nat) : Int := if (n : Int) < H63 then n else (n : Int) - Z64

theorem long_ok {x : Int} (h : InLong x) : long x = .ok x := by simp only [long, if_pos h]
theorem long_eq_ok {x y : Int} : long x = .ok y ↔ InLong x ∧ y = x := by
  unfold long
  constructor
  · split
    · intro h; cases h; exact ⟨by assumption, rfl⟩
    · intro h; cases h
  · rintro ⟨h, rfl⟩; rw [if_pos h]

theorem toSize_nonneg {x : Int} (h0 : 0 ≤ x) (h : x < Z64) : toSize x = x.toNat := by
  unfold toSize; rw [Int.emod_eq_of_lt h0 h]

theorem toSize_lt (x : Int) : toSize x < W64 := by unfold toSize; omega
theorem toSize_natCast {n : Nat} (h : n < W64) : toSize (n : Int) = n := by
  rw [toSize_nonneg (by omega) (by omega), Int.toNat_natCast]
theorem toLong_of_lt {n : Nat} (h : (n : Int) < H63) : toLong n = (n : Int) := by
  unfold toLong; exact if_pos h
theorem toLong_inLong {n : Nat} (h : n < W64) : InLong (toLong n) := by unfold toLong; split <;> comega
theorem toLong_toSize {x : Int} (h : InLong x) : toLong (toSize x) = x := by
  unfold toLong toSize at *; split <;> comega
theorem toSize_toLong {n : Nat} (h : n < W64) : toSize (toLong n) = n := by
  unfold toLong toSize at *; split <;> omega

end Bwsl
