import Verif.Props.AssertionExact

/-!
# C121: what the assertions of the expectation values check

With assertions enabled the expectation values of the three kinds of pairs of basis operators end with a failed assertion for
every pair of monomials which is not of the expected form.
-/

set_option autoImplicit false
set_option linter.unusedSectionVars false

namespace Ieompp.RealSpace

open Chk
open MomentumSpace (vecAt)

/-- A creation operator of the site `i`, an annihilation operator of the site `i`. -/
abbrev up (creator : Bool) (i : ℕ) : HOp := ⟨creator, (i, true)⟩

/-- The same for the other spin. -/
abbrev down (creator : Bool) (i : ℕ) : HOp := ⟨creator, (i, false)⟩

variable (fl : ℝ → ℝ) (ev : HOp → HOp → ℝ)

theorem assertAll_cons_val (b : Bool) (cs : List (Res Bool)) : assertAll (.val b :: cs) = if b then assertAll cs else .val none := rfl

/-- **C121**: the pair of a creation operator and an annihilation operator. -/
theorem ev11A_form (a b : HMonomial) :
    ((∃ i j, a = [up true i] ∧ b = [up false j]) → ev11A fl ev a b = lift (ev11F fl ev a b)) ∧
    ((¬ ∃ i j, a = [up true i] ∧ b = [up false j]) → ev11A fl ev a b = .val none) := by
  constructor
  · rintro ⟨i, j, rfl, rfl⟩; rfl
  · intro h
    rcases a with _ | ⟨⟨c, i, s⟩, _ | ⟨_, _⟩⟩ <;> try rfl
    rcases b with _ | ⟨⟨d, j, t⟩, _ | ⟨_, _⟩⟩ <;> try rfl
    cases c <;> cases s <;> cases d <;> cases t <;> first | rfl | exact absurd ⟨i, j, rfl, rfl⟩ h

/-- **C121**: the pair of a creation operator and the adjoint of a three-operator monomial. -/
theorem ev13A_form (a b : HMonomial) :
    ((∃ i j k l, a = [up true i] ∧ b = [down true j, down false k, up false l]) → ev13A fl ev a b = lift (ev13F fl ev a b)) ∧
    ((¬ ∃ i j k l, a = [up true i] ∧ b = [down true j, down false k, up false l]) → ev13A fl ev a b = .val none) := by
  constructor
  · rintro ⟨i, j, k, l, rfl, rfl⟩; rfl
  · intro h
    rcases a with _ | ⟨⟨c, i, s⟩, _ | ⟨_, _⟩⟩ <;> try rfl
    rcases b with _ | ⟨⟨d, j, t⟩, _ | ⟨⟨e, k, u⟩, _ | ⟨⟨f, l, v⟩, _ | ⟨_, _⟩⟩⟩⟩ <;> try rfl
    cases c <;> cases s <;> cases d <;> cases t <;> cases e <;> cases u <;> cases f <;> cases v <;>
      first | rfl | exact absurd ⟨i, j, k, l, rfl, rfl⟩ h

/-- **C121**: the pair of a three-operator monomial and the adjoint of one. -/
theorem ev33A_form (a b : HMonomial) :
    ((∃ i j k l m n, a = [up true i, down true j, down false k] ∧ b = [down true l, down false m, up false n]) →
      ev33A fl ev a b = lift (ev33F fl ev a b)) ∧
    ((¬ ∃ i j k l m n, a = [up true i, down true j, down false k] ∧ b = [down true l, down false m, up false n]) →
      ev33A fl ev a b = .val none) := by
  constructor
  · rintro ⟨i, j, k, l, m, n, rfl, rfl⟩; rfl
  · intro h
    rcases a with _ | ⟨⟨c, i, s⟩, _ | ⟨⟨c', j, s'⟩, _ | ⟨⟨c'', k, s''⟩, _ | ⟨_, _⟩⟩⟩⟩ <;> try rfl
    rcases b with _ | ⟨⟨d, l, t⟩, _ | ⟨⟨e, m, u⟩, _ | ⟨⟨f, n, v⟩, _ | ⟨_, _⟩⟩⟩⟩ <;> try rfl
    cases c <;> (try rfl) <;> cases c' <;> (try rfl) <;> cases c'' <;> (try rfl) <;> cases d <;> (try rfl) <;>
      cases e <;> (try rfl) <;> cases f <;> (try rfl) <;> cases s <;> (try rfl) <;> cases s' <;> (try rfl) <;>
      cases s'' <;> (try rfl) <;> cases t <;> (try rfl) <;> cases u <;> (try rfl) <;> cases v <;> (try rfl) <;>
      exact absurd ⟨i, j, k, l, m, n, rfl, rfl⟩ h

/-- **C121**: the one-operator basis checks the number of operators only. -/
theorem ev1A_form (a b : HMonomial) :
    ((a.length = 1 ∧ b.length = 1) → ev1A fl ev a b = lift (ev11F fl ev a b)) ∧
    (¬ (a.length = 1 ∧ b.length = 1) → ev1A fl ev a b = .val none) := by
  rcases a with _ | ⟨x, _ | ⟨_, _⟩⟩ <;> rcases b with _ | ⟨y, _ | ⟨_, _⟩⟩ <;>
    refine ⟨fun h => ?_, fun h => ?_⟩ <;> first | rfl | simp at h

/-- A failing pair: the arguments in the wrong order. -/
example : ev13A fl ev [down true 0, down false 1, up false 2] [up true 0] = .val none :=
  (ev13A_form fl ev _ _).2 (by simp)

end Ieompp.RealSpace
