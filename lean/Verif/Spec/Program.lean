import Verif.Spec.Wick
import Verif.Spec.FermiGas
import Mathlib.Analysis.Calculus.Deriv.Basic
import Mathlib.Analysis.Complex.Basic

/-! # Specification: the quantities that the simulation programs approximate -/

set_option autoImplicit false

namespace Ieompp.Spec

/-- Distance of two sites on a ring: the shorter of the two arcs. -/
def ringDistance (N a b : ℕ) : ℕ := min ((a - b) + (b - a)) (N - ((a - b) + (b - a)))

/-- The correlations `⟨c†_a c_b⟩` of the program: those of the free Fermi gas on the infinite chain (lattice constant 1) with
the given filling, at the distance which the sites have on the ring. -/
noncomputable def ringCorrelation (filling : ℝ) (N a b : ℕ) : ℝ :=
  chainCorrelation (filling * Real.pi) (ringDistance N a b)

/-- `v` is the solution of `v' = i M v` with `v(0) = (1, 0, …, 0)`. -/
structure IsFlow (n : ℕ) (M : ℕ → ℕ → ℝ) (v : ℝ → ℕ → ℂ) : Prop where
  start : ∀ p < n, v 0 p = if p = 0 then 1 else 0
  flow : ∀ t, ∀ p < n, HasDerivAt (fun t => v t p) (Complex.I * ∑ q ∈ Finset.range n, (M p q : ℂ) * v t q) t

/-- The operator `Σ_p v_p A_p` over a basis of `n` operators. -/
def CAROn.superpose {N : ℕ} {R : Type*} [Ring R] [Algebra ℂ R] (C : CAROn N R) (basis : List HMonomial) (n : ℕ)
    (v : ℕ → ℂ) : R := ∑ p ∈ Finset.range n, v p • C.basisOp basis p

/-- Its adjoint. -/
noncomputable def CAROn.superposeAdj {N : ℕ} {R : Type*} [Ring R] [Algebra ℂ R] (C : CAROn N R) (basis : List HMonomial)
    (n : ℕ) (v : ℕ → ℂ) : R := ∑ p ∈ Finset.range n, (starRingEnd ℂ) (v p) • C.basisOpAdj basis p

open Classical in
/-- The error that `k` Runge–Kutta steps of width `dt` make at most in a component of a vector of norm one, for `i` times a
real symmetric matrix with absolute row sums at most `B`: of fourth order in `dt`, and linear in the time `k dt` inside the
stability region `dt B ≤ √8`. -/
noncomputable def rk4Error (B dt : ℝ) (k : ℕ) : ℝ :=
  k * dt * dt ^ 4 * (B ^ 5 / 120) * if (dt * B) ^ 2 ≤ 8 then 1 else Real.exp (k * dt * B)

end Ieompp.Spec
