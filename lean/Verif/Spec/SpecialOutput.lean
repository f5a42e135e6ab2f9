import Verif.Spec.OutputText
import Verif.Spec.Extended
import Verif.Model.SpecialOutput

/-! # Specification for C136: what a cell of a result file says -/

set_option autoImplicit false

namespace Ieompp.Spec

/-- The text says `v`: a finite number is there as the nearest number with six significant digits, in decimal notation; infinities and NaN as one of the texts that stand for
them (and that, unlike decimal numbers, contain letters other than `e`). -/
def Says (t : IO.Text) : Ext → Prop
  | .fin x => ∃ q, DecimalText t q ∧ Nearest6 x q
  | .inf s => SpecialText t (.inf s)
  | .nan => SpecialText t .nan

/-- `rows` are the values of an output; compare `Renders`. -/
def RendersX {O : Type*} (numbers : O → List Ext) (rows : List (OutputText.Value × List OutputText.Value)) (out : List (Ext × O)) : Prop :=
  rows.map (fun r => (r.1.toExt, r.2.map OutputText.Value.toExt)) = out.map fun r => (r.1, numbers r.2)

/-- A table whose first row says time 0 and the values `first`, and whose other rows, `n` in number, hold after the time `w` texts for NaN, none of which can be read as a decimal
number. -/
def OnlyFirstRow (first : List Ext) (n w : ℕ) (table : List (List IO.Text)) : Prop :=
  ∃ cells rest, table = (['0'] :: cells) :: rest ∧ List.Forall₂ Says cells first ∧ rest.length = n ∧
    ∀ l ∈ rest, ∃ t c, l = t :: c ∧ c.length = w ∧ ∀ z ∈ c, SpecialText z .nan ∧ ∀ q, ¬ DecimalText z q

/-- The texts of a header, none of which contains a line feed. -/
def HeaderTexts (l : List (IO.Text × IO.Text)) : Prop := ∀ x ∈ l, '\n' ∉ x.1 ∧ '\n' ∉ x.2

end Ieompp.Spec
