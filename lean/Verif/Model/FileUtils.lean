import Verif.Cxx.Outcome

/-!
# Model of include/bwsl/FileUtils.hpp

A file system gives the contents of the files that can be opened.  Simplification: regular files, that are
not changed while they are read.
-/

namespace Bwsl

/-- `std::equal(first1, last1, first2)`: reads one element of the second range for each of the first -/
def stdEqual [DecidableEq α] : List α → List α → Res Bool
  | [], _ => .ok true
  | _ :: _, [] => .ub .outOfBounds
  | x :: xs, y :: ys => if x = y then stdEqual xs ys else .ok false

/-- include/bwsl/FileUtils.hpp:28-48 `compare_files` -/
def compareFiles (fs : String → Option (List UInt8)) (p1 p2 : String) : Res Bool :=
  match fs p1, fs p2 with
  | some c1, some c2 => if c1.length ≠ c2.length then .ok false else stdEqual c1 c2
  | _, _ => .ok false

end Bwsl
