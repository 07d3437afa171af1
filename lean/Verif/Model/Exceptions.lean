import Verif.Model.MoveStats

/-!
# Model of the messages of exceptions

`what()` returns a pointer to characters; what matters of the pointer is whether the characters still exist when the
caller reads them, which is after `what()` has returned and while the exception object is alive.
-/

namespace Bwsl

/-- A `char const*` returned by a function. -/
inductive CStr where
  /-- to a string literal or into an object that outlives the call -/
  | alive (text : List Char)
  /-- into a local object of the function, destroyed when it returned -/
  | dangling
  deriving DecidableEq

/-- Reading the characters after the call. -/
def CStr.read : CStr → Res (List Char)
  | .alive t => .ok t
  | .dangling => .ub .danglingPointer

namespace Exn

/-- include/bwsl/Exceptions.hpp:31-34 `BadParsing::what` -/
def badParsingWhat : CStr := .alive "BadParsing".toList

/-- include/bwsl/accumulators/AccumulatorsExceptions.hpp:24-27 `AccumulatorOverflow::what` -/
def accumulatorOverflowWhat : CStr := .alive "Too many measurements added to the accumulator".toList

/-- include/bwsl/mcutils/MoveStats.hpp:41-48 `MoveInvalidSequence`: the message is a member of the exception -/
def moveInvalidSequenceWhat (name : String) : CStr := .alive (MoveStats.invalidSequenceMessage name)

/-- include/bwsl/RNGUtils.hpp:52, 64: `std::invalid_argument` keeps a copy of its message -/
def invalidArgumentWhat : CStr := .alive "mersenne_twister_engine state".toList

/-- A local string of a function: its contents, and the pointer that `c_str()` gives the caller. -/
structure LocalString where
  contents : List Char
  pointer : CStr := .dangling

/-- include/bwsl/EnumString.hpp:73-78 `EnumStringConversionFailed_<name>::what`: `c_str()` of a local variable -/
def enumConversionWhat (name value : String) : CStr :=
  let s : LocalString := { contents := "Unknown correspondance of ".toList ++ value.toList ++ " for enum ".toList ++ name.toList }
  s.pointer

/-- `what()` of an exception of the library; `enumName` is the name of the enumeration, and `mapAt` and
`tooBig` the messages of `std::map::at` and of fmt, which are up to the implementation. -/
def what (enumName : String) (mapAt tooBig : List Char) : Exn → CStr
  | .badParsing => badParsingWhat
  | .accumulatorOverflow => accumulatorOverflowWhat
  | .moveInvalidSequence n => moveInvalidSequenceWhat n
  | .outOfRange => .alive mapAt
  | .enumConversion v => enumConversionWhat enumName v
  | .invalidArgument => invalidArgumentWhat
  | .formatError => .alive tooBig

end Exn
end Bwsl
