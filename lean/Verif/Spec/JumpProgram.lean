import Verif.Spec.Program
import Mathlib.Analysis.Complex.Exponential

/-! # Specification: the Fermi jump and the exact coefficients -/

set_option autoImplicit false

namespace Ieompp.Spec

/-- The coefficient of `c†_i` after normal ordering `Σ_p v_p A_p`: `v_i + Σ_jk (2 ⟨c†_j c_k⟩ - δ_jk) v_ijk`, with the
coefficient `v_ijk` of the three-operator monomial at position `N + N² i + N j + k`. -/
noncomputable def normalOrderedCoefficient (ev : ℕ → ℕ → ℝ) (N : ℕ) (v : ℕ → ℂ) (i : ℕ) : ℂ :=
  v i + ∑ j ∈ Finset.range N, ∑ k ∈ Finset.range N,
    (((2 * ev j k - if j = k then 1 else 0 : ℝ)) : ℂ) * v (N + N * N * i + N * j + k)

/-- The jump of the momentum distribution: `|Σ_i e^{i φ_i} v^NO_i|²`, `φ_i` the phase of site `i`. -/
noncomputable def fermiJump (ev : ℕ → ℕ → ℝ) (N : ℕ) (phase : ℕ → ℝ) (v : ℕ → ℂ) : ℝ :=
  ‖∑ i ∈ Finset.range N, Complex.exp (Complex.I * phase i) * normalOrderedCoefficient ev N v i‖ ^ 2

/-- How strongly the amplitude can react to an error of the coefficients. -/
noncomputable def jumpScale (ev : ℕ → ℕ → ℝ) (N : ℕ) : ℝ :=
  N * (1 + ∑ j ∈ Finset.range N, ∑ k ∈ Finset.range N, |2 * ev j k - if j = k then 1 else 0|)

/-- The correlations of the half-filled infinite square lattice at the distances which the sites `a = (a / N, a % N)` and
`b` have on the torus of `N × N` sites. -/
noncomputable def torusCorrelation (N a b : ℕ) : ℝ :=
  squareCorrelation (ringDistance N (a / N) (b / N)) (ringDistance N (a % N) (b % N))

/-- A particle which starts on site 0 of a ring of `N` sites: its amplitude on site `p` after the time `t`,
`1/N Σ_k e^{i k p} e^{-2 i J t cos k}` over the lattice momenta `k = 2π q / N`. -/
noncomputable def hoppingAmplitude (N : ℕ) (J t : ℝ) (p : ℕ) : ℂ :=
  1 / N * ∑ q ∈ Finset.range N, Complex.exp (Complex.I * (2 * Real.pi * q / N * p : ℝ)) *
    Complex.exp (-Complex.I * (2 * J * t * Real.cos (2 * Real.pi * q / N) : ℝ))

end Ieompp.Spec
