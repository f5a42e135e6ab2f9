import Verif.Spec.CAR
import Verif.Model.HubbardBasis
import Mathlib.Data.Prod.Lex
import Mathlib.Data.Bool.Basic

/-! # Specification: occupation-number states and matrix elements in Fock space -/

set_option autoImplicit false

namespace Ieompp.Spec

section
variable {ι : Type*} [LinearOrder ι] (K : Type*) [CommRing K]

/-- The occupation-number state with occupied modes `S`. -/
def ket (S : Finset ι) : Finset ι → K := fun T => if T = S then 1 else 0

/-- The operator product `m_0 m_1 ... m_n` on Fock space. -/
def fockWord (m : List (Op ι)) : Module.End K (Finset ι → K) := (m.map (fockOp K)).prod

/-- The matrix element `⟨S| A |T⟩`. -/
def braket (S : Finset ι) (A : Module.End K (Finset ι → K)) (T : Finset ι) : K := A (ket K T) S

end

/-- Modes (momentum, spin) of the Hubbard model in their lexicographic order. -/
abbrev Mode := ℕ ×ₗ Bool

/-- The same operator over the ordered modes. -/
def HOp.mode (o : HOp) : Op Mode := ⟨o.creator, toLex o.index⟩

/-- A Hubbard monomial as an operator on Fock space. -/
def fockMono (K : Type*) [CommRing K] (m : HMonomial) : Module.End K (Finset Mode → K) := fockWord K (m.map HOp.mode)

/-- A set of modes from a list of (momentum, spin) pairs. -/
def modeSet (l : List (ℕ × Bool)) : Finset Mode := (l.map toLex).toFinset

/-- The operator a basis monomial stands for: a one-operator monomial stands for itself, a three-operator monomial
`x y z` for `2 x y z + s δ x` (δ: the last two operators carry the same momentum). The basis in which the Liouvillian
matrix is set up has `s = -1` (see `CAROn.basisOp`). -/
def fockBasisOp {K : Type*} [CommRing K] (s : K) : HMonomial → Module.End K (Finset Mode → K)
  | [x] => fockMono K [x]
  | [x, y, z] => (2 : K) • fockMono K [x, y, z] + if y.index.1 = z.index.1 then s • fockMono K [x] else 0
  | _ => 0

/-- Its adjoint. -/
def fockBasisAdj {K : Type*} [CommRing K] (s : K) : HMonomial → Module.End K (Finset Mode → K)
  | [x] => fockMono K [⟨!x.creator, x.index⟩]
  | [x, y, z] => (2 : K) • fockMono K [⟨!z.creator, z.index⟩, ⟨!y.creator, y.index⟩, ⟨!x.creator, x.index⟩] +
      if y.index.1 = z.index.1 then s • fockMono K [⟨!x.creator, x.index⟩] else 0
  | _ => 0

/-- The expectation value of `A_i A_j†` in the Fermi sea. -/
def seaValue {K : Type*} [CommRing K] (s : K) (FS : Finset Mode) (basis : List HMonomial) (i j : ℕ) : K :=
  braket K FS (fockBasisOp s (basis.getD i []) * fockBasisAdj s (basis.getD j [])) FS

end Ieompp.Spec
