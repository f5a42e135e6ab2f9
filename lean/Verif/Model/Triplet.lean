import Mathlib.Data.Nat.Notation
import Mathlib.Data.List.Perm.Basic
import Mathlib.Data.List.Pairwise
import Mathlib.Algebra.Group.Defs

/-!
# Model of `include/ieompp/types/triplet.hpp`

`S` is the scalar type, columns and rows are natural numbers. Undefined behaviour (`front()` of an empty
vector, stepping past `end()`) is the outcome `none`.
-/

set_option autoImplicit false

namespace Ieompp

/-- triplet.hpp:13-22: `Triplet`. -/
structure Triplet (S : Type*) where
  row : ℕ
  column : ℕ
  value : S
  deriving DecidableEq

namespace TripletList
variable {S : Type*}

/-- triplet.hpp:26-32: `sort()`, as a relation: every outcome `std::sort` may produce (not necessarily
stable) with the comparator `a.column < b.column`. -/
def Sorted (l s : List (Triplet S)) : Prop :=
  s.Perm l ∧ s.Pairwise (fun a b => ¬ b.column < a.column)

/-- triplet.hpp:40-49: the loop of `make_columns_unique`; `cur` is the local `triplet`, `filtered` the
result so far. -/
def uniqueLoop [Add S] (isZero : S → Bool) :
    Triplet S → List (Triplet S) → List (Triplet S) → Triplet S × List (Triplet S)
  | cur, filtered, [] => (cur, filtered)
  | cur, filtered, t :: ts =>
    if t.column = cur.column then
      uniqueLoop isZero { cur with value := cur.value + t.value } filtered ts
    else
      uniqueLoop isZero t (if !(isZero cur.value) then filtered ++ [cur] else filtered) ts

/-- triplet.hpp:34-52: `make_columns_unique`. `isZero` is `types::IsZero` of the scalar type.
`front()` of an empty list is undefined (line 39). -/
def makeColumnsUnique [Add S] (isZero : S → Bool) : List (Triplet S) → Option (List (Triplet S))
  | [] => none
  | t :: ts =>
    let r := uniqueLoop isZero t [] ts
    some (r.2 ++ [r.1])

/-- triplet.hpp:56-61: the loop of `has_unique_columns`; `prev` is `*(it - 1)`. -/
def hasUniqueLoop : Triplet S → List (Triplet S) → Bool
  | _, [] => true
  | prev, t :: ts => if t.column = prev.column then false else hasUniqueLoop t ts

/-- triplet.hpp:54-62: `has_unique_columns`; `begin() + 1` of an empty list is undefined. -/
def hasUniqueColumns : List (Triplet S) → Option Bool
  | [] => none
  | t :: ts => some (hasUniqueLoop t ts)

end TripletList

end Ieompp
