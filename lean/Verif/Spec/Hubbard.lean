import Mathlib.Data.Nat.Notation
import Mathlib.Data.List.Nodup
import Mathlib.Algebra.Field.Defs

/-! # Specification: regular lattices, and the elements of the projected Hubbard Liouvillian -/

set_option autoImplicit false

namespace Ieompp.Spec

/-- `nb` lists, for each of `N` sites, `z` different other sites, and neighbourhood is mutual. -/
structure RegularLattice (N z : ℕ) (nb : ℕ → List ℕ) : Prop where
  length : ∀ a < N, (nb a).length = z
  lt : ∀ a < N, ∀ b ∈ nb a, b < N
  nodup : ∀ a < N, (nb a).Nodup
  irrefl : ∀ a < N, a ∉ nb a
  symm : ∀ a < N, ∀ b < N, b ∈ nb a → a ∈ nb b

/-- A basis element: `c†_{i↑}` or `c†_{a↑} c†_{b↓} c_{c↓}`. -/
inductive Label where
  | one (i : ℕ)
  | three (a b c : ℕ)
  deriving DecidableEq

/-- All sites exist. -/
def Label.Valid (N : ℕ) : Label → Prop
  | one i => i < N
  | three a b c => a < N ∧ b < N ∧ c < N

/-- Position in the basis (see `realBasis_getElem`). -/
def Label.pos (N : ℕ) : Label → ℕ
  | one i => i
  | three a b c => N + N * N * a + N * b + c

/-- Matrix element of the Liouvillian of the Hubbard model with hopping `-J` and interaction `U` between two basis
elements: hopping of one of the sites to a neighbour (with the opposite sign for the annihilator), `U/2` on the
diagonal, `U/2` between `c†_i` and the on-site three-operator monomial. -/
def element {S : Type*} [Field S] (nb : ℕ → List ℕ) (J U : S) : Label → Label → S
  | .one i, .one j => (if j ∈ nb i then -J else 0) + (if i = j then U / 2 else 0)
  | .one i, .three a b c => if i = a ∧ i = b ∧ i = c then U / 2 else 0
  | .three a b c, .one i => if i = a ∧ i = b ∧ i = c then U / 2 else 0
  | .three a b c, .three a' b' c' =>
      (if a' ∈ nb a ∧ b' = b ∧ c' = c then -J else 0) +
      (if a' = a ∧ b' ∈ nb b ∧ c' = c then -J else 0) +
      (if a' = a ∧ b' = b ∧ c' ∈ nb c then J else 0) +
      (if a' = a ∧ b' = b ∧ c' = c then U / 2 else 0)

end Ieompp.Spec
