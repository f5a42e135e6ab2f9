import Verif.Spec.Bessel
import Verif.Spec.Program
import Mathlib.Analysis.SpecialFunctions.Trigonometric.Basic

/-! # Specification: the closed-form numbers of the kinetic theory program -/

set_option autoImplicit false

namespace Ieompp.Spec

/-- The coefficient of the operator at site `i` at time `t`: `(-i)^d J_d(2 t)`, where `d` is the distance from site 0. -/
noncomputable def theoryAmplitude (N i : ℕ) (t : ℝ) : ℂ :=
  (-Complex.I) ^ ringDistance N 0 i * (besselJ (ringDistance N 0 i : ℕ) (2 * t) : ℂ)

/-- The weight of two sites: 1 for equal sites, `sin(d/2)/(π d)` at distance `d`. -/
noncomputable def theoryWeight (N i j : ℕ) : ℝ :=
  if i = j then 1 else Real.sin (ringDistance N i j / 2) / (Real.pi * ringDistance N i j)

/-- The number of the program for time `t` on `N` sites: `Σ_ij w_ij h_i conj(h_j)`. -/
noncomputable def theoryNumber (N : ℕ) (t : ℝ) : ℂ :=
  ∑ i ∈ Finset.range N, ∑ j ∈ Finset.range N, (theoryWeight N i j : ℂ) * (theoryAmplitude N i t * (starRingEnd ℂ) (theoryAmplitude N j t))

end Ieompp.Spec
