import Mathlib.Data.List.Basic

/-!
# Specification of lines of text
-/

set_option autoImplicit false

namespace Ieompp.Spec

/-- The lines of a text: the pieces between newline characters. A text that ends with a newline has an empty last piece. -/
def lines : List Char → List (List Char)
  | [] => [[]]
  | c :: cs => if c = '\n' then [] :: lines cs else
    match lines cs with
    | [] => [[c]]
    | l :: ls => (c :: l) :: ls

/-- The white space characters of the C locale. -/
def whitespace : List Char := [' ', '\t', '\n', '\x0b', '\x0c', '\r']

/-- A blank line. -/
def Blank (l : List Char) : Prop := ∀ c ∈ l, c ∈ whitespace

/-- A comment line: the first character that is not white space is `#`. -/
def Comment (l : List Char) : Prop := ∃ ws r, l = ws ++ '#' :: r ∧ Blank ws

/-- A line that carries data. -/
def IsData (l : List Char) : Prop := ¬ Blank l ∧ ¬ Comment l

end Ieompp.Spec
