import Mathlib.Data.Real.Basic

/-!
What a text file says: its lines, and which of them are data.
-/
namespace QF

abbrev Text := List Char

/-- the lines of a text, separated by newlines -/
def textLines : Text → List Text
  | [] => [[]]
  | c :: t => if c = '\n' then [] :: textLines t else
    match textLines t with
    | [] => [[c]]
    | l :: ls => (c :: l) :: ls

/-- a line of data: not empty and no comment -/
def IsData (l : Text) : Prop := l ≠ [] ∧ l.head? ≠ some '#'

instance (l : Text) : Decidable (IsData l) := by unfold IsData; infer_instance

/-- the data of a file -/
def dataLines (t : Text) : List Text := (textLines t).filter fun l => decide (IsData l)

end QF
