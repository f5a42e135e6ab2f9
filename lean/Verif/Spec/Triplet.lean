import Verif.Model.Triplet
import Mathlib.Algebra.BigOperators.Group.List.Basic

/-! # Specification of a list of triplets: the sum of the values in each column -/

set_option autoImplicit false

namespace Ieompp.Spec

/-- The total weight of column `c`. -/
def columnSum {S : Type*} [AddCommMonoid S] (l : List (Triplet S)) (c : ℕ) : S :=
  ((l.filter (fun t => t.column = c)).map Triplet.value).sum

/-- Column `c` occurs in the list. -/
def HasColumn {S : Type*} (l : List (Triplet S)) (c : ℕ) : Prop := ∃ t ∈ l, t.column = c

/-- Columns strictly increase along the list. -/
def StrictColumns {S : Type*} (l : List (Triplet S)) : Prop :=
  l.Pairwise (fun a b => a.column < b.column)

end Ieompp.Spec
