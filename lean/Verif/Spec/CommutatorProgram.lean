import Verif.Spec.Eval
import Verif.Model.CommutatorProgram

/-! # Specification: the meaning of a printed term -/

set_option autoImplicit false

namespace Ieompp.Spec

variable {K R V : Type*} [CommRing K] [Ring R] [Algebra K R] [DecidableEq V]

/-- The meaning of a symbolic term when the symbols have the values `ρ`: number, times Kronecker deltas, times the product of
the ladder operators of the modes (site, spin). -/
def meaning (A : CAR (V × Bool) R) (ρ : IO.Text → V) (t : Program.PTerm K) : R :=
  evalPrefactor ρ t.prefactor • (t.operators.map fun x => A.c ⟨x.creator, (ρ x.site.text, x.spin)⟩).prod

/-- The lines of a block are the texts of the given terms, each indented by two tabulators. -/
def IsBlock {K : Type*} [CommRing K] [DecidableEq K] (shw : K → IO.Text) (ts : List (Program.PTerm K)) (block : IO.Text) : Prop :=
  ∃ texts, List.Forall₂ (fun t x => Program.printTerm shw t = .val x) ts texts ∧
    block = (texts.map fun x => ['\t', '\t'] ++ x ++ ['\n']).flatten

/-- The creator and the annihilator of the mode with the given symbol and spin, when the symbols have the values `ρ`. -/
def cre {R V : Type*} [Ring R] [DecidableEq V] (A : CAR (V × Bool) R) (ρ : IO.Text → V) (x : String) (spin : Bool) : R := A.c ⟨true, (ρ x.toList, spin)⟩
def ann {R V : Type*} [Ring R] [DecidableEq V] (A : CAR (V × Bool) R) (ρ : IO.Text → V) (x : String) (spin : Bool) : R := A.c ⟨false, (ρ x.toList, spin)⟩

end Ieompp.Spec
