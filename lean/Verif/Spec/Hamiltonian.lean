import Verif.Spec.CAR
import Verif.Spec.Hubbard
import Verif.Model.HubbardBasis
import Mathlib.Algebra.BigOperators.Group.Finset.Basic

/-! # Specification: the Hubbard Hamiltonian in a CAR algebra, and the operators of the basis -/

set_option autoImplicit false

namespace Ieompp.Spec

/-- The commutator. -/
def comm {R : Type*} [Ring R] (a b : R) : R := a * b - b * a

/-- A realisation, in a ring `R`, of the canonical anticommutation relations for the modes (site, spin) with site
below `N`. `c ⟨true, x⟩` is the creator, `c ⟨false, x⟩` the annihilator of mode `x`. -/
structure CAROn (N : ℕ) (R : Type*) [Ring R] where
  c : Op (ℕ × Bool) → R
  anticomm : ∀ x y : Op (ℕ × Bool), x.index.1 < N → y.index.1 < N → c x * c y + c y * c x =
    if x.creator ≠ y.creator ∧ x.index = y.index then 1 else 0

namespace CAROn
variable {N : ℕ} {R : Type*} [Ring R] (C : CAROn N R)

/-- Creator of a mode. -/
def cr (x : ℕ × Bool) : R := C.c ⟨true, x⟩
/-- Annihilator of a mode. -/
def an (x : ℕ × Bool) : R := C.c ⟨false, x⟩
/-- Occupation number of a mode. -/
def num (x : ℕ × Bool) : R := C.cr x * C.an x

variable {S : Type*} [Field S] [Algebra S R]

/-- Hopping Hamiltonian `-J Σ_i Σ_{j ∈ nb i} Σ_σ c†_jσ c_iσ`. -/
def hopping (nb : ℕ → List ℕ) (J : S) : R :=
  ∑ i ∈ Finset.range N, ((nb i).map fun j => (-J) • (C.cr (j, true) * C.an (i, true) + C.cr (j, false) * C.an (i, false))).sum

/-- On-site interaction `U Σ_i n_i↑ n_i↓`. -/
def interaction (U : S) : R := ∑ i ∈ Finset.range N, U • (C.num (i, true) * C.num (i, false))

/-- Kinetic energy in momentum space, `Σ_k ε_k (n_k↑ + n_k↓)`. -/
def kinetic (eps : ℕ → S) : R := ∑ k ∈ Finset.range N, eps k • (C.num (k, true) + C.num (k, false))

/-- The Hubbard interaction in momentum space (momenta are numbers modulo `N`),
`U/N Σ_{k,p,d} c†_{k+d↑} c_{k↑} c†_{p-d↓} c_{p↓}`. -/
def momentumInteraction (U : S) : R :=
  ∑ k ∈ Finset.range N, ∑ p ∈ Finset.range N, ∑ d ∈ Finset.range N, (U / (N : S)) •
    (C.cr ((k + d) % N, true) * C.an (k, true) * (C.cr ((p + (N - d)) % N, false) * C.an (p, false)))

/-- The operator a basis label stands for: `c†_{i↑}`, respectively `c†_{a↑} (2 c†_{b↓} c_{c↓} - δ_bc)`. -/
def labelOp : Label → R
  | .one i => C.cr (i, true)
  | .three a b c => C.cr (a, true) * (2 * (C.cr (b, false) * C.an (c, false)) - if b = c then 1 else 0)

/-- Its adjoint. -/
def labelOpAdj : Label → R
  | .one i => C.an (i, true)
  | .three a b c => (2 * (C.cr (c, false) * C.an (b, false)) - if b = c then 1 else 0) * C.an (a, true)

/-- The operator at a position of a basis: a one-operator monomial stands for itself, a three-operator monomial
`x y z` for `2 x y z - δ x` (δ: the last two operators sit on the same site). -/
def basisOp (basis : List HMonomial) (p : ℕ) : R :=
  match basis[p]? with
  | some [x] => C.c x
  | some [x, y, z] => 2 * (C.c x * C.c y * C.c z) - (if y.index.1 = z.index.1 then C.c x else 0)
  | _ => 0

/-- The normal-ordered operator at a position of a basis: `x` stands for itself, `x y z` for `x (y z - ⟨y z⟩)`, where
`ev j k` is the expectation value of `c†_j c_k`. -/
def noBasisOp (ev : ℕ → ℕ → S) (basis : List HMonomial) (p : ℕ) : R :=
  match basis[p]? with
  | some [x] => C.c x
  | some [x, y, z] => C.c x * (C.c y * C.c z - ev y.index.1 z.index.1 • 1)
  | _ => 0

end CAROn

end Ieompp.Spec
