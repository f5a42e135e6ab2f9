import Verif.Spec.Rounding
import Mathlib.Analysis.SpecialFunctions.Exp

/-! # Specification: error bounds for the programs in floating point arithmetic -/

set_option autoImplicit false

namespace Ieompp.Spec

/-- Rounding error of one Runge–Kutta step relative to the length of the vector: `4 z + 24` roundings one after the other in sums
that are at most `1 + x + x²/2 + x³/6 + x⁴/24` times as long as the vector. `z` is the number of elements in a row of the matrix, `x` the step
width times the largest absolute row sum. -/
noncomputable def rk4StepRounding (u : ℝ) (z : ℕ) (x : ℝ) : ℝ :=
  ((1 + u) ^ (4 * z + 24) - 1) * (1 + x + x ^ 2 / 2 + x ^ 3 / 6 + x ^ 4 / 24)

/-- Error of the coefficient vector after `k` steps: the accumulated rounding errors and `k` times the discretisation error of a step. -/
noncomputable def vectorErrorF (u : ℝ) (z : ℕ) (x : ℝ) (k : ℕ) : ℝ :=
  (1 + rk4StepRounding u z x) ^ k - 1 + k * (x ^ 5 / 120 * Real.exp x)

/-- The same for `double`, in simple terms. -/
noncomputable def vectorErrorDouble (x : ℝ) (k : ℕ) : ℝ := k * (1 / 2 ^ 41 + x ^ 5 / 120 * Real.exp x)

/-- The same for matrices with up to 14 elements in a row. -/
noncomputable def vectorErrorDouble14 (x : ℝ) (k : ℕ) : ℝ := k * (1 / 2 ^ 40 + x ^ 5 / 120 * Real.exp x)

/-- How strongly the Fermi jump reacts to an error of the vector of coefficients: the sum of the squares of the factors with which the coefficients enter the
amplitude `Σ_i e^{i φ_i} (v_i + Σ_jk (2 ⟨c†_j c_k⟩ - δ_jk) v_ijk)`. -/
noncomputable def jumpWeight (ev : ℕ → ℕ → ℝ) (N : ℕ) : ℝ :=
  N * (1 + ∑ j ∈ Finset.range N, ∑ k ∈ Finset.range N, (2 * ev j k - if j = k then 1 else 0) ^ 2)

/-- Error of a double sum `Σ v_i conj(v_j) E_ij` that is computed with `r` roundings one after the other for a vector that is off by `ε`; `S` is the sum of
the `|E_ij|`, `A` a bound on the sum of the absolute values of the terms for a vector of length one. -/
noncomputable def quadraticErrorF (u : ℝ) (r : ℕ) (S A ε : ℝ) : ℝ := S * (ε * (2 + ε)) + ((1 + u) ^ r - 1) * (A * (1 + ε) ^ 2)

end Ieompp.Spec
