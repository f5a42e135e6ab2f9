import Verif.Model.ExtendedProgram
import Mathlib.Data.EReal.Inv

/-! # Specification: what the values of `double` stand for -/

set_option autoImplicit false

namespace Ieompp.Spec

/-- `a` stands for the extended real number `v`; NaN stands for none. -/
def Stands : Ext → EReal → Prop
  | .fin x, v => v = (x : EReal)
  | .inf true, v => v = ⊥
  | .inf false, v => v = ⊤
  | .nan, _ => False

/-- Arithmetic without rounding and without overflow. -/
abbrev exact : ℝ → Res ℝ := fun x => .val x

/-- `z` is infinite in the sense of the C standard (Annex G): at least one part is an infinity. -/
def InfiniteC (z : ExtC) : Prop := (∃ s, z.re = .inf s) ∨ ∃ s, z.im = .inf s

end Ieompp.Spec
