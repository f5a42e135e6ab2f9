import Verif.Spec.Hubbard

/-! # Specification: symmetries of a lattice -/

set_option autoImplicit false

namespace Ieompp.Spec

/-- `σ` permutes the `N` sites (with inverse `τ`) and sites are neighbours exactly when their images are. -/
structure LatticeSymmetry (N : ℕ) (nb : ℕ → List ℕ) (σ τ : ℕ → ℕ) : Prop where
  lt : ∀ a < N, σ a < N
  lt' : ∀ a < N, τ a < N
  left : ∀ a < N, τ (σ a) = a
  right : ∀ a < N, σ (τ a) = a
  neighbors : ∀ a < N, ∀ b < N, σ b ∈ nb (σ a) ↔ b ∈ nb a

/-- A basis element with all sites moved. -/
def Label.move (σ : ℕ → ℕ) : Label → Label
  | one i => one (σ i)
  | three a b c => three (σ a) (σ b) (σ c)

/-- Translation of a ring of `N` sites by `s`. -/
def shift (N s a : ℕ) : ℕ := (a + s) % N

/-- Reflection of a ring of `N` sites at site 0. -/
def reflect (N a : ℕ) : ℕ := (N - a) % N

/-- On a torus with `N × N` sites numbered row by row: `f` for the row, `g` for the place in the row. -/
def onTorus (N : ℕ) (f g : ℕ → ℕ) (a : ℕ) : ℕ := f (a / N) * N + g (a % N)

/-- On a torus with `N × N` sites: reflection at the diagonal. -/
def diagonal (N a : ℕ) : ℕ := a % N * N + a / N

/-- The sign of a basis element: `-1` to the power of the sum of the site numbers of its operators. -/
def Label.sign : Label → ℤ
  | one i => (-1) ^ i
  | three a b c => (-1) ^ (a + b + c)

end Ieompp.Spec
