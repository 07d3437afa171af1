import Verif.Cxx.Outcome
import Verif.Model.Accumulators

/-!
# Model of include/bwsl/EnumString.hpp

`enumName` and `names` are the arguments of the macro; the enumerators have the values 0, 1, 2, ….
`what()` of the exception, which returns a pointer into a local string, is in Model/Exceptions.lean.
-/

namespace Bwsl

/-- include/bwsl/EnumString.hpp:85-95 `ToString`: the `switch`, from case `i` on -/
def enumToString (enumName : String) (names : List String) (v : Nat) (i : Nat := 0) : String :=
  match names with
  | [] => "[ Unknown " ++ enumName ++ " ]"
  | x :: xs => if v = i then x else enumToString enumName xs v (i + 1)

/-- include/bwsl/EnumString.hpp:97-104 `FromString`: the `if`s, from enumerator `i` on; `n` is the target -/
def enumFromString (names : List String) (n : Nat) (v : String) (i : Nat := 0) : Call Nat Unit :=
  match names with
  | [] => ⟨n, .throws (.enumConversion v)⟩
  | x :: xs => if v = x then ⟨i, .ok ()⟩ else enumFromString xs n v (i + 1)

end Bwsl
