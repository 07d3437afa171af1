import Verif.Cxx.Outcome

/-!
# Boost serialization archives

Not a model of a file of /repo.  `ar & x` saves `x` to an output archive and replaces `x` by the next
stored value of an input archive.  A `serialize` method is one definition, used with both kinds of archive:
it maps the old object to the new one, field by field and in order.

An archive is the list of stored primitive values.  Simplifications: a primitive value is stored and read
back unchanged (so archive formats that cannot hold infinities or NaN are not modelled), and object
tracking and versions do not appear.
-/

namespace Bwsl

/-- Primitive values in an archive; `F` is the type of floating-point numbers. -/
inductive Prim (F : Type) where
  | dbl (x : F)
  | ulong (n : Nat)
  | long (n : Int)
  | bool (b : Bool)
  | str (s : String)

/-- The ways of handling a field: `ar & x` for each primitive type. -/
structure Archive (F : Type) (m : Type → Type) where
  dbl : F → m F
  ulong : Nat → m Nat
  long : Int → m Int
  bool : Bool → m Bool
  str : String → m String

/-- Output: the archive written so far is the state. -/
abbrev Saver (F : Type) := StateM (List (Prim F))

/-- Input: the unread part of the archive is the state; running out of input or reading a value of another
type fails. -/
abbrev Loader (F : Type) := StateT (List (Prim F)) Option

namespace Archive
variable {F : Type}

def put (f : α → Prim F) (x : α) : Saver F α := fun out => (x, out ++ [f x])

/-- output archives -/
def out : Archive F (Saver F) where
  dbl := put .dbl
  ulong := put .ulong
  long := put .long
  bool := put .bool
  str := put .str

def get (f : Prim F → Option α) (_old : α) : Loader F α
  | [] => none
  | p :: ps => (f p).map (fun x => (x, ps))

/-- input archives -/
def inp : Archive F (Loader F) where
  dbl := get fun | .dbl x => some x | _ => none
  ulong := get fun | .ulong x => some x | _ => none
  long := get fun | .long x => some x | _ => none
  bool := get fun | .bool x => some x | _ => none
  str := get fun | .str x => some x | _ => none

/-- `ar & x` for a class `α`: its `serialize` method, for every kind of archive. -/
abbrev _root_.Bwsl.Codec (F α : Type) := {m : Type → Type} → [Monad m] → Archive F m → α → m α

/-- `ar & v` for a `std::vector` (boost/serialization/vector.hpp): the number of elements, then the elements.
Loading resizes the vector and reads into its elements; `fresh` is a default constructed element. -/
def vector (elem : Codec F α) (fresh : α) : Codec F (List α) := fun ar xs => do
  let n ← ar.ulong xs.length
  (xs.take n ++ List.replicate (n - xs.length) fresh).mapM (elem ar)

/-- `ar & p` for a `std::pair` (boost/serialization/utility.hpp) -/
def pair (first : Codec F α) (second : Codec F β) : Codec F (α × β) := fun ar p => do
  let a ← first ar p.1
  let b ← second ar p.2
  pure (a, b)

end Archive
end Bwsl
