import Verif.Model.Exceptions
import Verif.Model.EnumString
import Mathlib.Data.List.Basic

/-! Property C101: messages of exceptions. -/

namespace Bwsl

/-- C101 (what holds).  The messages of all exceptions but those of enumerations can be read. -/
theorem C101_readable_partial (enumName : String) (mapAt tooBig : List Char) (e : Exn) (h : ∀ v, e ≠ .enumConversion v) :
    ∃ t, (e.what enumName mapAt tooBig).read = .ok t := by
  cases e with
  | enumConversion v => exact absurd rfl (h v)
  | _ => exact ⟨_, rfl⟩

/-- C101 (what holds).  Their texts; those of moves determine the name of the move. -/
theorem C101_texts_partial (enumName : String) (mapAt tooBig : List Char) :
    ((Exn.badParsing).what enumName mapAt tooBig).read = .ok "BadParsing".toList ∧
    ((Exn.accumulatorOverflow).what enumName mapAt tooBig).read = .ok "Too many measurements added to the accumulator".toList ∧
    (∀ n, ∃ rest, ((Exn.moveInvalidSequence n).what enumName mapAt tooBig).read = .ok (n.toList ++ rest)) ∧
    (∀ n m, ((Exn.moveInvalidSequence n).what enumName mapAt tooBig).read =
      ((Exn.moveInvalidSequence m).what enumName mapAt tooBig).read → n = m) := by
  refine ⟨rfl, rfl, fun n => ⟨_, rfl⟩, fun n m h => ?_⟩
  have h' : (Res.ok (MoveStats.invalidSequenceMessage n) : Res (List Char)) = .ok (MoveStats.invalidSequenceMessage m) := h
  rw [Res.ok.injEq] at h'
  exact String.toList_inj.1 (List.append_cancel_right h')

/-- C101 is violated by every failed conversion to an enumeration: reading the message is undefined. -/
theorem C101_violated (enumName : String) (mapAt tooBig : List Char) (v : String) :
    ((Exn.enumConversion v).what enumName mapAt tooBig).read = .ub .danglingPointer := rfl

/-- C101.  Such exceptions are thrown: `FromString` of a text that is no enumerator. -/
example : (enumFromString ["Linux", "Apple"] 0 "Windows").res = .throws (.enumConversion "Windows") := by decide

end Bwsl
