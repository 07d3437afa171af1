/-!
# Outcomes of running C++ code

Not a model of a particular file of /repo: this is the semantic vocabulary in which every file of the
model is written.
-/

namespace Bwsl

/-- The kinds of undefined behaviour (or broken `assert`) the model distinguishes. -/
inductive UB where
  /-- signed integer overflow, including `LONG_MIN / -1`, `LONG_MIN % -1` and `-LONG_MIN` -/
  | signedOverflow
  /-- integer division or remainder by zero -/
  | divByZero
  /-- access outside of a container or dereference of a past-the-end iterator -/
  | outOfBounds
  /-- a violated `assert` (abort in debug builds, no guarantee with NDEBUG) -/
  | assertion
  /-- reading through a pointer to an object that no longer exists -/
  | danglingPointer
  /-- conversion of a floating-point number to an integer type that has no such whole part -/
  | floatToInt
  deriving DecidableEq, Repr

/-- The exceptions that leave functions of the library. -/
inductive Exn where
  /-- `bwsl::exception::BadParsing`, include/bwsl/Exceptions.hpp:25-37 -/
  | badParsing
  /-- `bwsl::exception::AccumulatorOverflow`, include/bwsl/accumulators/AccumulatorsExceptions.hpp:22-28 -/
  | accumulatorOverflow
  /-- `bwsl::montecarlo::exception::MoveInvalidSequence`, include/bwsl/mcutils/MoveStats.hpp:38-61 -/
  | moveInvalidSequence (name : String)
  /-- `std::out_of_range`, thrown by `std::map::at` -/
  | outOfRange
  /-- `EnumStringConversionFailed_<name>`, include/bwsl/EnumString.hpp:65-83 -/
  | enumConversion (value : String)
  /-- `std::invalid_argument`, include/bwsl/RNGUtils.hpp:51-53, 63-65 -/
  | invalidArgument
  /-- `fmt::format_error`, thrown by fmt for a precision that does not fit `int` -/
  | formatError
  deriving DecidableEq, Repr

/-- Result of running a piece of code that does not keep state after a failure. -/
inductive Res (α : Type u) where
  | ok (a : α)
  | throws (e : Exn)
  | ub (k : UB)
  /-- the code does not return -/
  | diverges
  deriving DecidableEq, Repr

namespace Res

@[simp] def bind (x : Res α) (f : α → Res β) : Res β :=
  match x with
  | ok a => f a
  | throws e => throws e
  | ub k => ub k
  | diverges => diverges

instance : Monad Res where
  pure := ok
  bind := bind

@[simp] theorem pure_eq (a : α) : (pure a : Res α) = ok a := rfl
@[simp] theorem ok_bind (a : α) (f : α → Res β) : (ok a >>= f) = f a := rfl
@[simp] theorem throws_bind (e : Exn) (f : α → Res β) : ((throws e : Res α) >>= f) = throws e := rfl
@[simp] theorem ub_bind (e : UB) (f : α → Res β) : ((ub e : Res α) >>= f) = ub e := rfl
@[simp] theorem diverges_bind (f : α → Res β) : ((diverges : Res α) >>= f) = diverges := rfl
@[simp] theorem map_ok (a : α) (f : α → β) : (f <$> (ok a : Res α)) = ok (f a) := rfl

instance : LawfulMonad Res := LawfulMonad.mk'
  (id_map := by intro α x; cases x <;> rfl)
  (pure_bind := by intros; rfl)
  (bind_assoc := by intro α β γ x f g; cases x <;> rfl)

theorem bind_eq_ok {x : Res α} {f : α → Res β} {b : β} :
    (x >>= f) = ok b ↔ ∃ a, x = ok a ∧ f a = ok b := by
  cases x <;> simp

/-- `diverges` is the least outcome: this is what makes `partial_fixpoint` definitions available. -/
noncomputable instance : Lean.Order.PartialOrder (Res α) :=
  inferInstanceAs (Lean.Order.PartialOrder (Lean.Order.FlatOrder (diverges : Res α)))

noncomputable instance : Lean.Order.CCPO (Res α) :=
  inferInstanceAs (Lean.Order.CCPO (Lean.Order.FlatOrder (diverges : Res α)))

noncomputable instance : Lean.Order.MonoBind Res where
  bind_mono_left := by
    intro α β a₁ a₂ f h
    cases h with
    | bot => exact Lean.Order.FlatOrder.rel.bot
    | refl => exact Lean.Order.FlatOrder.rel.refl
  bind_mono_right := by
    intro α β a f₁ f₂ h
    cases a with
    | ok x => exact h x
    | throws e => exact Lean.Order.FlatOrder.rel.refl
    | ub k => exact Lean.Order.FlatOrder.rel.refl
    | diverges => exact Lean.Order.FlatOrder.rel.refl

/-- The code runs to completion, without exception and without undefined behaviour. -/
def IsOk (x : Res α) : Prop := ∃ a, x = ok a

/-- The code runs into undefined behaviour. -/
def IsUB (x : Res α) : Prop := ∃ k, x = ub k

@[simp] theorem isOk_ok (a : α) : IsOk (ok a) := ⟨a, rfl⟩
@[simp] theorem not_isOk_ub (k : UB) : ¬ IsOk (ub k : Res α) := by rintro ⟨a, h⟩; cases h
@[simp] theorem isUB_ub (k : UB) : IsUB (ub k : Res α) := ⟨k, rfl⟩
@[simp] theorem not_isUB_ok (a : α) : ¬ IsUB (ok a) := by rintro ⟨_, h⟩; cases h

end Res

/-- `while (cond s) s = body s;` as a least fixed point: if the loop never exits the outcome is
`diverges`. -/
def whileLoop (cond : σ → Bool) (body : σ → Res σ) (s : σ) : Res σ :=
  if cond s then do
    let s' ← body s
    whileLoop cond body s'
  else
    .ok s
partial_fixpoint

end Bwsl
