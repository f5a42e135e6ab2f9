import Verif.Spec.Hamiltonian
import Mathlib.Data.Complex.Basic
import Mathlib.Algebra.Module.LinearMap.Defs

/-! # Specification: quasi-free states (Wick's theorem) -/

set_option autoImplicit false

namespace Ieompp.Spec

/-- `ω` is a normalised quasi-free state which conserves particle number and spin, with the (spin-independent)
correlations `⟨c†_a c_b⟩ = ev a b`. Quasi-free: expectation values of products are given by the signed sum over the
contractions of the first operator with each of the others (Wick's theorem). -/
structure QuasiFree {N : ℕ} {R : Type*} [Ring R] [Algebra ℂ R] (C : CAROn N R) (ω : R →ₗ[ℂ] ℂ) (ev : ℕ → ℕ → ℝ) :
    Prop where
  one : ω 1 = 1
  wick : ∀ (x : HOp) (l : HMonomial), x.index.1 < N → (∀ y ∈ l, y.index.1 < N) →
    ω (C.c x * (l.map C.c).prod) = ∑ k : Fin l.length,
      (-1) ^ (k : ℕ) * ω (C.c x * C.c l[k]) * ω ((l.eraseIdx k).map C.c).prod
  cr_an : ∀ (a b : ℕ) (σ τ : Bool), a < N → b < N →
    ω (C.cr (a, σ) * C.an (b, τ)) = if σ = τ then (ev a b : ℂ) else 0
  cr_cr : ∀ x y : ℕ × Bool, x.1 < N → y.1 < N → ω (C.cr x * C.cr y) = 0
  an_an : ∀ x y : ℕ × Bool, x.1 < N → y.1 < N → ω (C.an x * C.an y) = 0

/-- The adjoint of `CAROn.basisOp`: `x†` for a one-operator monomial, `2 (x y z)† - δ x†` for `x y z`. -/
def CAROn.basisOpAdj {N : ℕ} {R : Type*} [Ring R] (C : CAROn N R) (basis : List HMonomial) (p : ℕ) : R :=
  match basis[p]? with
  | some [x] => C.c x.conjugate
  | some [x, y, z] => 2 * (C.c z.conjugate * C.c y.conjugate * C.c x.conjugate)
      - (if y.index.1 = z.index.1 then C.c x.conjugate else 0)
  | _ => 0

/-- `Σ_p v_p A_p` for the operators `A_p` of a basis. -/
def CAROn.combination {N : ℕ} {R : Type*} [Ring R] [Algebra ℂ R] (C : CAROn N R) (basis : List HMonomial)
    (v : List ℂ) : R := ∑ p ∈ Finset.range v.length, v.getD p 0 • C.basisOp basis p

/-- `(Σ_p v_p A_p)†`. -/
noncomputable def CAROn.combinationAdj {N : ℕ} {R : Type*} [Ring R] [Algebra ℂ R] (C : CAROn N R)
    (basis : List HMonomial) (v : List ℂ) : R :=
  ∑ p ∈ Finset.range v.length, (starRingEnd ℂ) (v.getD p 0) • C.basisOpAdj basis p

end Ieompp.Spec
