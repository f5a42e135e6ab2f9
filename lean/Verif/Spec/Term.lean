import Verif.Spec.Eval
import Verif.Spec.Operator
import Mathlib.Algebra.Star.Module

/-!
# Specification for terms
-/

set_option autoImplicit false

namespace Ieompp.Spec

/-- Order of operator words: shorter first, then by the first operator that differs. -/
def WordLt {ω : Type*} (lt : ω → ω → Bool) (a b : List ω) : Prop :=
  a.length < b.length ∨ (a.length = b.length ∧ ∃ (p s s' : List ω) (x y : ω),
    a = p ++ x :: s ∧ b = p ++ y :: s' ∧ x ≠ y ∧ lt x y = true)

/-- Total weight with which the operator word `w` occurs in a list of terms. -/
def weight {K ω : Type*} [AddCommMonoid K] [DecidableEq ω] (w : List ω) (l : List (Term K ω)) : K :=
  ((l.filter (fun t => t.operators = w)).map (·.prefactor)).sum

/-- Sum of a charge over the operators of a word, creators counting positive. -/
def charge {ω G : Type*} [AddCommGroup G] (creator : ω → Bool) (q : ω → G) (w : List ω) : G :=
  (w.map fun x => if creator x then q x else - q x).sum

end Ieompp.Spec
