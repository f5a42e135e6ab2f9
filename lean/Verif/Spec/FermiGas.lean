import Mathlib.MeasureTheory.Integral.IntervalIntegral.Basic
import Mathlib.Analysis.SpecialFunctions.Trigonometric.Basic

/-! # Specification: correlations of the free Fermi gas on infinite lattices, nearest neighbour dispersion -/

set_option autoImplicit false

namespace Ieompp.Spec

/-- `⟨c†_0 c_x⟩` of the infinite chain in which the momenta `-kF < k < kF` are occupied: the Fourier transform of
the momentum distribution (its imaginary part vanishes by symmetry). -/
noncomputable def chainCorrelation (kF x : ℝ) : ℝ := 1 / (2 * Real.pi) * ∫ k in (-kF)..kF, Real.cos (k * x)

/-- `⟨c†_0 c_(x,y)⟩` of the half-filled infinite square lattice: all momenta with `|kx| + |ky| < π` are occupied,
see `halfFilledSea_iff`. -/
noncomputable def squareCorrelation (x y : ℝ) : ℝ :=
  1 / (2 * Real.pi) ^ 2 * ∫ kx in (-Real.pi)..Real.pi, ∫ ky in (-(Real.pi - |kx|))..(Real.pi - |kx|),
    Real.cos (kx * x + ky * y)

/-- The tight binding energy of a particle of momentum `k`: `-2 J Σ cos (k·a)`, with the sum over the lattice vectors. -/
noncomputable def tightBinding {V : Type*} (dot : V → V → ℝ) (vectors : List V) (J : ℝ) (k : V) : ℝ :=
  -2 * J * (vectors.map fun a => Real.cos (dot k a)).sum

end Ieompp.Spec
