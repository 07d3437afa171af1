import Verif.Spec.Text

/-!
# Specification vocabulary for saved tables

Written without reference to the model.
-/

namespace Bwsl.Spec

/-- The pieces of a text between separators. -/
def pieces (sep : Char) : List Char → List (List Char)
  | [] => [[]]
  | c :: cs =>
    if c = sep then [] :: pieces sep cs
    else match pieces sep cs with
      | p :: ps => (c :: p) :: ps
      | [] => [[c]]

/-- The text consists of lines, each ended by a newline and made of fields separated by commas. -/
def IsTable (t : List Char) (rows : List (List (List Char))) : Prop :=
  ∃ lines, pieces '\n' t = lines ++ [[]] ∧ lines.map (pieces ',') = rows

example : IsTable "i,x\n0,5\n".toList [["i".toList, "x".toList], ["0".toList, "5".toList]] :=
  ⟨["i,x".toList, "0,5".toList], by decide, by decide⟩

end Bwsl.Spec
