import Verif.Spec.CAR
import Verif.Model.Commutator
import Mathlib.Algebra.BigOperators.Group.List.Basic

/-!
# Meaning of terms in an algebra
-/

set_option autoImplicit false

namespace Ieompp.Spec

variable {K R ω : Type*} [CommRing K] [Ring R] [Algebra K R]

/-- A word of operators as a product. -/
def word (c : ω → R) (w : List ω) : R := (w.map c).prod

/-- A term means prefactor times the product of its operators. -/
def evalTerm (c : ω → R) (t : Term K ω) : R := t.prefactor • word c t.operators

/-- A container of terms means their sum. -/
def evalTerms (c : ω → R) (l : List (Term K ω)) : R := (l.map (evalTerm c)).sum

/-- Value of a Kronecker delta when the symbols have the values `ρ`. -/
def evalKronecker {σ V : Type*} [DecidableEq V] (ρ : σ → V) (k : Kronecker σ) : K :=
  if ρ k.a = ρ k.b then 1 else 0

/-- Value of a symbolic prefactor. -/
def evalPrefactor {σ V : Type*} [DecidableEq V] (ρ : σ → V) (p : Prefactor K σ) : K :=
  p.value * (p.kroneckers.map (evalKronecker ρ)).prod

/-- Substitute values for symbols in an index tuple: symbolic indices become the value of their symbol,
the others stay what they are. -/
def substIndex {n : ℕ} {α : Fin n → Type*} {σ V : Type*} (sym : Fin n → Bool) (str : ∀ i, α i → σ)
    (ρ : σ → V) (a : ∀ i, α i) : ∀ i, V ⊕ α i :=
  fun i => if sym i then Sum.inl (ρ (str i (a i))) else Sum.inr (a i)

/-- Substitute values for symbols in an operator. -/
def substOp {n : ℕ} {α : Fin n → Type*} {σ V : Type*} (sym : Fin n → Bool) (str : ∀ i, α i → σ)
    (ρ : σ → V) (x : Op (∀ i, α i)) : Op (∀ i, V ⊕ α i) :=
  ⟨x.creator, substIndex sym str ρ x.index⟩

/-- Substitute values for the symbols in a symbolic term. -/
def substTerm {n : ℕ} {α : Fin n → Type*} {σ V : Type*} [DecidableEq V] (sym : Fin n → Bool)
    (str : ∀ i, α i → σ) (ρ : σ → V) (t : Term (Prefactor K σ) (Op (∀ i, α i))) :
    Term K (Op (∀ i, V ⊕ α i)) :=
  ⟨evalPrefactor ρ t.prefactor, t.operators.map (substOp sym str ρ)⟩

end Ieompp.Spec
