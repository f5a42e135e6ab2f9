import Verif.Spec.ProgramFloat
import Verif.Spec.MomentumProgram

/-! # Specification: error bounds for `hubbard_momentum_1d_rk4` in `double` arithmetic -/

set_option autoImplicit false

namespace Ieompp.Spec

/-- The Fermi sea for arbitrary energies: both spins of all momenta with negative energy. -/
noncomputable def seaOf (N : ℕ) (e : ℕ → ℝ) : Finset Mode :=
  ((Finset.range N).filter fun k => e k < 0).biUnion fun k => {toLex (k, true), toLex (k, false)}

/-- Error of the coefficients after eight steps: rounding, discretisation (in exact arithmetic `8 x⁵/120 exp x`) and the rounded matrix. `x` is the step width
times the largest absolute row sum, `n = N² + 1` the number of coefficients. -/
noncomputable def momentumVectorError (N : ℕ) (x : ℝ) : ℝ := (N ^ 2 + 1) / 2 ^ 39 + 8 * (x ^ 5 / 100 * Real.exp x) + 8 * x / 2 ^ 46

/-- Error of the number printed after eight steps; the rows of the table of expectation values have absolute sums of at most `9 N + 3`. -/
noncomputable def momentumErrorDouble (N : ℕ) (x : ℝ) : ℝ :=
  let n : ℝ := N ^ 2 + 1
  let ε := momentumVectorError N x
  (9 * N + 3) * (ε * (2 + ε)) + (n ^ 2 + 3) / 2 ^ 52 * (18 * n * (1 + ε) ^ 2)

/-- The same with underflow: the smallest numbers of binary64 count as one more part in 18 of the products. -/
noncomputable def momentumErrorBinary64 (N : ℕ) (x : ℝ) : ℝ :=
  let n : ℝ := N ^ 2 + 1
  let ε := momentumVectorError N x
  (9 * N + 3) * (ε * (2 + ε)) + (n ^ 2 + 3) / 2 ^ 52 * (19 * n * (1 + ε) ^ 2)

end Ieompp.Spec
