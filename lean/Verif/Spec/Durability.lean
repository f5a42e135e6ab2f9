import Verif.Model.Durability

/-!
# Specification: the text of an output file, and what the log announces
-/

set_option autoImplicit false

namespace Ieompp.Spec

variable {O : Type*}

/-- The output file of a finished run: the header, then the rows; `row t o` is the text of a row. -/
def fileText (header : List Char) (row : ℝ → O → List Char) (rows : List (ℝ × O)) : List Char :=
  header ++ rows.flatMap fun r => row r.1 r.2

/-- The times of the lines "Finish measurement at t=..." of a log. -/
def finishedTimes (log : List (Durability.Line O)) : List ℝ :=
  log.filterMap fun l => match l with
    | .finished t => some t
    | _ => none

/-- The lines of a text which are terminated by a line break. -/
def completeLines : List Char → List (List Char)
  | [] => []
  | c :: s => if c = '\n' then [] :: completeLines s else
      match completeLines s with
      | [] => []
      | l :: ls => (c :: l) :: ls

/-- A line of columns, separated by tabulators. -/
def tabRow (columns : List (List Char)) : List Char := List.intercalate ['\t'] columns ++ ['\n']

end Ieompp.Spec
