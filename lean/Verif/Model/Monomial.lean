import Verif.Model.Operator
import Mathlib.Data.Int.Notation

/-!
# Model of `include/ieompp/algebra/monomial/monomial.hpp`

A monomial is a `std::vector<Operator>`, modelled as a list.  Where the allocation state of the vector
matters (`*=` with aliased operands) the vector is modelled with its capacity (`Vec`).
-/

set_option autoImplicit false

namespace Ieompp

/-! ### `std::vector` with capacity -/

/-- A `std::vector`: contents and capacity. monomial.hpp:11-16 (library type). -/
structure Vec (τ : Type*) where
  data : List τ
  cap : ℕ

namespace Vec
variable {τ : Type*}

/-- Class invariant of `std::vector`. Library invariant of the base class in monomial.hpp:11. -/
def WF (v : Vec τ) : Prop := v.data.length ≤ v.cap

/-- `push_back`; the flag tells whether the storage was reallocated (all iterators dangle).
`grow` is the unspecified growth policy of the standard library. monomial.hpp:72 (library function). -/
def pushBack (grow : ℕ → ℕ) (v : Vec τ) (x : τ) : Vec τ × Bool :=
  if v.data.length < v.cap then (⟨v.data ++ [x], v.cap⟩, false)
  else (⟨v.data ++ [x], grow v.cap⟩, true)

/-- `std::copy(first, last, std::back_inserter(v))` where `[first,last)` is a range of another vector. monomial.hpp:72, 79. -/
def copyFrom (grow : ℕ → ℕ) (v : Vec τ) : List τ → Vec τ
  | [] => v
  | x :: xs => copyFrom grow (v.pushBack grow x).1 xs

/-- `std::copy(v.begin(), v.end(), std::back_inserter(v))`: `first`, `last` are taken before the loop.
`i` is the position of `first`, `n` that of `last` (the size at the start), `dangling` tells whether the storage
the iterators point into was given back.  Reading through a dangling iterator is undefined behaviour (`none`).
Simplification (lenient): the standard already makes `last` invalid after any `push_back`; here only a real
reallocation invalidates. monomial.hpp:72. -/
def copySelf (grow : ℕ → ℕ) (n : ℕ) (i : ℕ) (dangling : Bool) (v : Vec τ) : Option (Vec τ) :=
  if i < n then
    if dangling then none
    else match v.data[i]? with
      | none => none
      | some x => copySelf grow n (i + 1) (v.pushBack grow x).2 (v.pushBack grow x).1
  else some v
termination_by n - i

end Vec

/-! ### Monomial -/

/-- monomial.hpp:12-17: `struct Monomial : std::vector<OperatorT>`. -/
abbrev Monomial (ι : Type*) := List (Op ι)

namespace Monomial
variable {ι : Type*} [DecidableEq ι]

/-- monomial.hpp:18-24: in-place `conjugate` (reverse, then conjugate every operator in place). -/
def conjugate (m : Monomial ι) : Monomial ι := (m.reverse).map Op.conjugate

/-- monomial.hpp:26-34: `get_conjugate` (`reverse_copy`, then conjugate in place). -/
def getConjugate (m : Monomial ι) : Monomial ι := (([] : Monomial ι) ++ m.reverse).map Op.conjugate

/-- monomial.hpp:45-49: the loop of `is_conjugate` over `begin()` of one and `rbegin()` of the other. -/
def isConjugateLoop : Monomial ι → Monomial ι → Bool
  | [], _ => true
  | _ :: _, [] => false   -- not reached: the sizes agree
  | x :: xs, y :: ys => if !x.isConjugate y then false else isConjugateLoop xs ys

/-- monomial.hpp:36-52: `is_conjugate`. -/
def isConjugate (a b : Monomial ι) : Bool :=
  if a.length ≠ b.length then false else isConjugateLoop a b.reverse

/-- `std::equal(a.begin(), a.end(), b.begin())`, for ranges of equal length. monomial.hpp:59, 67. -/
def stdEqual : Monomial ι → Monomial ι → Bool
  | [], _ => true
  | _ :: _, [] => false   -- not reached: the sizes agree
  | x :: xs, y :: ys => x.eqB y && stdEqual xs ys

/-- monomial.hpp:54-60: `operator==`. -/
def eqB (a b : Monomial ι) : Bool := if a.length ≠ b.length then false else stdEqual a b

/-- monomial.hpp:62-68: `operator!=`. -/
def neB (a b : Monomial ι) : Bool := if a.length ≠ b.length then true else !stdEqual a b

/-- monomial.hpp:76-81: `operator*`: a copy of the left factor, then `std::copy` of the right one.
The copy never aliases the right factor. -/
def mul (a b : Monomial ι) : Monomial ι := a ++ b

/-- monomial.hpp:70-74: `operator*=` with distinct objects. -/
def mulAssign (grow : ℕ → ℕ) (a : Vec (Op ι)) (b : Monomial ι) : Vec (Op ι) := a.copyFrom grow b

/-- monomial.hpp:70-74: `a *= a`. -/
def mulAssignSelf (grow : ℕ → ℕ) (a : Vec (Op ι)) : Option (Vec (Op ι)) :=
  a.copySelf grow a.data.length 0 false

end Monomial

end Ieompp
