import Verif.Spec.Program
import Verif.Spec.Fock
import Mathlib.Analysis.SpecialFunctions.Trigonometric.Basic

/-! # Specification: particle number of a momentum in the evolving state -/

set_option autoImplicit false

namespace Ieompp.Spec

/-- The momentum with index `i` of a Brillouin zone with `N` points. -/
noncomputable def latticeMomentum (N i : ℕ) : ℝ := -Real.pi + i * (2 * Real.pi / N)

/-- The tight-binding energy of momentum `i` (chain with hopping `-J`, lattice constant 1). -/
noncomputable def bandEnergy (N : ℕ) (J : ℝ) (i : ℕ) : ℝ := -2 * J * Real.cos (latticeMomentum N i)

/-- The Fermi sea at Fermi energy 0: all momenta of negative energy, with both spins. -/
noncomputable def fermiSea (N : ℕ) (J : ℝ) : Finset Mode :=
  ((Finset.range N).filter fun k => bandEnergy N J k < 0).biUnion fun k => {toLex (k, true), toLex (k, false)}

/-- `⟨FS| A A† |FS⟩` for `A = Σ_p v_p A_p`. The three-operator monomials `x y z` of the basis stand for the operators
`2 x y z + s δ x` (`fockBasisOp`). The equations of motion are set up with `s = -1`, where `Σ_p v_p(t) A_p` is
`c†_{q↑}(t)` and the value is the particle number `⟨n_{q↑}(t)⟩`. -/
noncomputable def seaNumber (s : ℂ) (FS : Finset Mode) (basis : List HMonomial) (v : ℕ → ℂ) : ℂ :=
  braket ℂ FS
    ((∑ i ∈ Finset.range basis.length, v i • fockBasisOp s (basis.getD i [])) *
      (∑ j ∈ Finset.range basis.length, (starRingEnd ℂ) (v j) • fockBasisAdj s (basis.getD j []))) FS

/-- Error of the number printed after eight Runge–Kutta steps, within the stability limit: the coefficients have the error `8 x⁵/120`, `x` the step width times the
largest absolute row sum of the matrix, and the rows of the table of expectation values have absolute sums of at most `9 N + 3`. -/
noncomputable def momentumError (N : ℕ) (x : ℝ) : ℝ := (9 * N + 3) * (8 * (x ^ 5 / 120) * (2 + 8 * (x ^ 5 / 120)))

end Ieompp.Spec
