import Verif.Cxx.Outcome

/-!
# Model of include/bwsl/RelationalUtils.hpp

The macros OVERLOADRELATIONAL(T, S) (lines 28-50) and TEMPLATEOVERLOADRELATIONAL(A, B, T) (lines 72-98)
define the same five operators from `operator<`.  `lt` is `a < b` for `a` of the first type and `b` of
the second one, `tl` is `b < a`; either may be undefined.  FDEFINEOVERLOADRELATIONAL (lines 18-24) only
declares friends.
-/

namespace Bwsl.Rel

variable {α β : Type}

/-- `!x` for an expression `x` that may be undefined -/
def notOf (x : Res Bool) : Res Bool := do
  let b ← x
  .ok (!b)

/-- include/bwsl/RelationalUtils.hpp:29-32, 73-77 `operator==`: `!(a < b) && !(b < a)`; the second
operand is not evaluated if the first one is false -/
def eq (lt : α → β → Res Bool) (tl : β → α → Res Bool) (a : α) (b : β) : Res Bool := do
  let x ← notOf (lt a b)
  if x then notOf (tl b a) else .ok false

/-- include/bwsl/RelationalUtils.hpp:33-36, 78-82 (and 55-58) `operator!=`: `!(a == b)` -/
def ne (eq : α → β → Res Bool) (a : α) (b : β) : Res Bool := notOf (eq a b)

/-- include/bwsl/RelationalUtils.hpp:37-40, 83-87 (and 59-62) `operator<=`: `!(b < a)` -/
def le (tl : β → α → Res Bool) (a : α) (b : β) : Res Bool := notOf (tl b a)

/-- include/bwsl/RelationalUtils.hpp:41-44, 88-92 (and 63-66) `operator>`: `b < a` -/
def gt (tl : β → α → Res Bool) (a : α) (b : β) : Res Bool := tl b a

/-- include/bwsl/RelationalUtils.hpp:45-48, 93-97 (and 67-70) `operator>=`: `!(a < b)` -/
def ge (lt : α → β → Res Bool) (a : α) (b : β) : Res Bool := notOf (lt a b)

end Bwsl.Rel
