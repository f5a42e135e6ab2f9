import Mathlib.MeasureTheory.Integral.IntervalIntegral.Basic
import Mathlib.Analysis.SpecialFunctions.Trigonometric.Basic

/-! # Specification: Bessel functions of the first kind of integer order -/

set_option autoImplicit false

namespace Ieompp.Spec

/-- Bessel's integral `J_n(x) = 1/π ∫₀^π cos (n τ - x sin τ) dτ`. -/
noncomputable def besselJ (n : ℤ) (x : ℝ) : ℝ :=
  1 / Real.pi * ∫ τ in (0 : ℝ)..Real.pi, Real.cos (n * τ - x * Real.sin τ)

end Ieompp.Spec
