import Verif.Cxx.Archive
import Mathlib.Order.Defs.LinearOrder

/-!
# `std::map`

Not a model of a particular file of /repo.  A map is the list of its elements in the order of iteration, by
increasing key.  Simplification: the keys are totally ordered by `<` (`std::less`), as numbers and strings
are.
-/

namespace Bwsl

/-- `std::map<ι, α>` -/
abbrev StdMap (ι α : Type) := List (ι × α)

namespace StdMap
variable {ι α : Type} [LinearOrder ι]

/-- `m.try_emplace(k)`: inserts a default constructed value `fresh` unless the key is present -/
def tryEmplace (k : ι) (fresh : α) : StdMap ι α → StdMap ι α
  | [] => [(k, fresh)]
  | (k', v) :: m =>
    if k < k' then (k, fresh) :: (k', v) :: m
    else if k' < k then (k', v) :: tryEmplace k fresh m
    else (k', v) :: m

/-- `m.at(k)`: none if it throws `std::out_of_range` -/
def find (k : ι) : StdMap ι α → Option α
  | [] => none
  | (k', v) :: m => if k = k' then some v else find k m

/-- the map after the value at key `k` has been changed by `f` -/
def modify (k : ι) (f : α → α) : StdMap ι α → StdMap ι α
  | [] => []
  | (k', v) :: m => if k = k' then (k', f v) :: m else (k', v) :: modify k f m

/-- `ar & m` (boost/serialization/map.hpp): the number of elements, then the pairs.  Loading clears the map,
reads each pair into a default constructed one and inserts it. -/
def serialize {F : Type} (key : Codec F ι) (value : Codec F α) (freshKey : ι) (fresh : α) :
    Codec F (StdMap ι α) := fun ar m => do
  let n ← ar.ulong m.length
  let items ← (m.take n ++ List.replicate (n - m.length) (freshKey, fresh)).mapM
    (Archive.pair key value ar)
  pure (items.foldl (fun m p => tryEmplace p.1 p.2 m) [])

end StdMap
end Bwsl
