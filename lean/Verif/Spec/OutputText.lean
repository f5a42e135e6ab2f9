import Verif.Spec.LexicalCast
import Verif.Model.KroneckerNumber
import Mathlib.Data.Real.Basic

/-! # Specification: numbers with six significant digits -/

set_option autoImplicit false

namespace Ieompp.Spec

/-- A number with at most six significant decimal digits. -/
def SixDigits (v : ℚ) : Prop := ∃ k j : ℤ, |k| < 10 ^ 6 ∧ v = k * (10 : ℚ) ^ j

/-- No number with six significant digits is closer to `x`. -/
def Nearest6 (x : ℝ) (v : ℚ) : Prop := SixDigits v ∧ ∀ w, SixDigits w → |(v : ℝ) - x| ≤ |(w : ℝ) - x|

/-- The parts of a text between the separators `c`. -/
def cells (c : Char) : IO.Text → List IO.Text
  | [] => [[]]
  | x :: t => if x = c then [] :: cells c t else
    match cells c t with
    | [] => [[x]]
    | a :: r => (x :: a) :: r

/-- The cells of a table: the lines end with a line feed, the columns are separated by tabulators. -/
def readTable (t : IO.Text) : List (List IO.Text) := (cells '\n' t).dropLast.map (cells '\t')

/-- The table in a file with comments: the lines that do not start with `#`. -/
def readData (t : IO.Text) : List (List IO.Text) := ((cells '\n' t).dropLast.filter fun l => l.head? ≠ some '#').map (cells '\t')

/-- `rows` are the numbers of an output, as `double` values (which distinguish 0 and -0). `numbers` are the numbers of a measurement. -/
def Renders {O : Type*} (numbers : O → List ℝ) (rows : List (KroneckerNumber.Double × List KroneckerNumber.Double)) (out : List (ℝ × O)) : Prop :=
  rows.map (fun r => (r.1.value, r.2.map KroneckerNumber.Double.value)) = out.map fun r => (r.1, numbers r.2)

end Ieompp.Spec
