import Verif.Spec.LexicalCast
import Verif.Spec.Application
import Verif.Model.Extended

/-! # Specification: texts for infinities and NaN -/

set_option autoImplicit false

namespace Ieompp.Spec

open Ieompp.IO

/-- `t` is the word `w` with each letter in lower or upper case. -/
def Word (w : List (Char × Char)) (t : Text) : Prop := List.Forall₂ (fun c l => c = l.1 ∨ c = l.2) t w

/-- `t` stands for a value that is no number: `nan`, `nan(...)`, `inf` or `infinity` in any case, with a sign or none. -/
def SpecialText (t : Text) (v : Ext) : Prop :=
  ∃ s r, Signed t s r ∧
    ((∃ w x, Word [('n', 'N'), ('a', 'A'), ('n', 'N')] w ∧ (r = w ∨ r = w ++ '(' :: (x ++ [')'])) ∧ v = .nan) ∨
      ((Word [('i', 'I'), ('n', 'N'), ('f', 'F')] r ∨
          Word [('i', 'I'), ('n', 'N'), ('f', 'F'), ('i', 'I'), ('n', 'N'), ('i', 'I'), ('t', 'T'), ('y', 'Y')] r) ∧ v = .inf (decide (s = -1))))

/-- The program sees the value `v` as the value of the option `k`. -/
def ExtSetting (rnd : ℚ → ℝ) (a : App.App) (k : String) (v : Ext) : Prop := ∃ t, Main.lexicalExt rnd t = some v ∧ parameter a k.toList = some t

/-- A state of a simulation in which everything is finite. -/
def embed {H O : Type} (s : Sim.State H O) : Sim.StateX H O := ⟨s.h, .fin s.t, .fin s.last, s.out.map fun r => (.fin r.1, r.2)⟩

end Ieompp.Spec
