import Verif.Spec.Hamiltonian
import Mathlib.Algebra.BigOperators.Fin

/-! # Specification: normal ordering with respect to a state given by its two-point function -/

set_option autoImplicit false

namespace Ieompp.Spec

variable {O R S : Type*} [Ring R] [Field S] [Algebra S R]

/-- Wick's normal-ordered product: the product minus all contractions of the first operator with a later one,
`:x x₁ … xₙ: = x :x₁ … xₙ: - Σ_j (-1)^j ⟨x x_j⟩ :x₁ … (without x_j) … xₙ:`. -/
def normalOrdered (c : O → R) (G : O → O → S) : List O → R
  | [] => 1
  | x :: xs => c x * normalOrdered c G xs -
      ∑ j : Fin xs.length, ((-1 : S) ^ (j : ℕ) * G x xs[j]) • normalOrdered c G (xs.eraseIdx j)
termination_by l => l.length
decreasing_by
  · simp
  · have := j.2
    simp only [List.length_cons, List.length_eraseIdx, this, if_true]; omega

/-- The two-point function of a state which conserves the number of particles of each spin, in which
`⟨c†_jσ c_kσ⟩ = ev j k` for both spins. -/
def twoPoint (ev : ℕ → ℕ → S) (x y : Op (ℕ × Bool)) : S :=
  if x.index.2 ≠ y.index.2 then 0
  else match x.creator, y.creator with
    | true, false => ev x.index.1 y.index.1
    | false, true => (if x.index.1 = y.index.1 then 1 else 0) - ev y.index.1 x.index.1
    | _, _ => 0

end Ieompp.Spec
