import Verif.Model.Operator

/-!
# Specification of operators, independent of the model's functions

Only the data (`creator`, `index`) is used.
-/

set_option autoImplicit false

namespace Ieompp.Spec

/-- The adjoint of a ladder operator: same index, the other kind. -/
def IsAdjoint {ι : Type*} (a b : Op ι) : Prop := a.creator ≠ b.creator ∧ a.index = b.index

/-- Lexicographic order on index tuples of any length. -/
def LexLt {n : ℕ} {α : Fin n → Type*} [∀ i, LinearOrder (α i)] (a b : ∀ i, α i) : Prop :=
  ∃ i, (∀ j < i, a j = b j) ∧ a i < b i

/-- Creators before annihilators, then the given order on indices. -/
def CreatorsFirst {ι : Type*} (lt : ι → ι → Prop) (a b : Op ι) : Prop :=
  (a.creator = true ∧ b.creator = false) ∨ (a.creator = b.creator ∧ lt a.index b.index)

/-- What `std::sort`, `std::lower_bound` need: a strict weak order (here in Bool-valued form). -/
structure StrictWeak {τ : Type*} (lt : τ → τ → Bool) : Prop where
  irrefl : ∀ a, lt a a = false
  trans : ∀ a b c, lt a b = true → lt b c = true → lt a c = true
  incomp_trans : ∀ a b c, lt a b = false → lt b a = false → lt b c = false → lt c b = false →
    lt a c = false ∧ lt c a = false

/-- A strict total order. -/
structure StrictTotal {τ : Type*} (lt : τ → τ → Bool) : Prop extends StrictWeak lt where
  total : ∀ a b, lt a b = true ∨ a = b ∨ lt b a = true

end Ieompp.Spec
