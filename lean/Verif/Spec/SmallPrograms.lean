import Verif.Spec.Program
import Mathlib.Analysis.Complex.Trigonometric
import Mathlib.Analysis.SpecialFunctions.Sqrt

/-! # Specification: the exactly solvable four-operator problem -/

set_option autoImplicit false

namespace Ieompp.Spec

/-- The frequency `√(2 J² + U²/4)`. -/
noncomputable def trivialFrequency (J U : ℝ) : ℝ := Real.sqrt (2 * J ^ 2 + U ^ 2 / 4)

/-- The exact solution for an operator coupled with `-J` to two others and with `U/2` to a third, all with the diagonal
element `U/2`. -/
noncomputable def trivialAmplitude (J U t : ℝ) (p : ℕ) : ℂ :=
  let w := trivialFrequency J U
  Complex.exp (Complex.I * U * t / 2) *
    if p = 0 then Complex.cos (w * t)
    else if p = 3 then Complex.I * (U / (2 * w)) * Complex.sin (w * t)
    else -(Complex.I * (J / w) * Complex.sin (w * t))

/-- The number written in the last two columns for the coefficients `h`: `Σ c_i |h_i|² + Σ_{i≠j} e_ij h_i h_j`. -/
noncomputable def trivialWritten (h : Fin 4 → ℂ) : ℂ :=
  (Complex.normSq (h 0) + Complex.normSq (h 1) + Complex.normSq (h 2)) / 2 + Complex.normSq (h 3) / 4 +
    2 * (h 0 * h 1 + h 0 * h 2 + h 1 * h 2) * ((1 / Real.pi : ℝ) : ℂ) + h 0 * h 3 / 2 + (h 1 + h 2) * h 3 * ((1 / Real.pi : ℝ) : ℂ)

end Ieompp.Spec
