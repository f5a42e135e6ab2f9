import Mathlib.Order.Defs.LinearOrder
import Mathlib.Data.Nat.Notation

/-!
# Model of `include/ieompp/algebra/operator/{operator,order,make}.hpp`

`Op ι` models both the generic class template `Operator<IndexTs...>` (operator.hpp:10-57; there `ι`
is the tuple type `std::tuple<IndexTs...>`) and the one-index specialisation `Operator<IndexT>`
(operator.hpp:59-107; there `ι` is the index itself).  The two have the same data members (a flag and one
value).  `Op2 ι₁ ι₂` models the two-index specialisation (operator.hpp:109-162).

Simplification: the C++ `==`/`!=`/`<`/`>` of the index types are modelled by decidable equality and a
linear order (true for integers, `bool`, `std::string`; for `const char*` the equality is that of the
pointers).  NaN indices are not modelled.
-/

set_option autoImplicit false

namespace Ieompp

/-- operator.hpp:34-35 (generic) and 84-85 (one index): data members `creator`, `indices`/`index`. -/
structure Op (ι : Type*) where
  creator : Bool
  index : ι
  deriving DecidableEq

/-- operator.hpp:135-137: data members of the two-index specialisation. -/
structure Op2 (ι₁ ι₂ : Type*) where
  creator : Bool
  index1 : ι₁
  index2 : ι₂
  deriving DecidableEq

namespace Op

variable {ι : Type*} [DecidableEq ι]

/-- operator.hpp:16-19, 25-28, 66-69, 75-78; make.hpp:14-18, 28-33: `make_creator`. -/
def makeCreator (i : ι) : Op ι := ⟨true, i⟩

/-- operator.hpp:20-23, 29-32, 70-73, 79-82; make.hpp:35-39, 49-55: `make_annihilator`. -/
def makeAnnihilator (i : ι) : Op ι := ⟨false, i⟩

/-- operator.hpp:37-40 and 87-90: `operator==`. -/
def eqB (a b : Op ι) : Bool := (a.creator == b.creator) && (a.index == b.index)

/-- operator.hpp:42-45 and 92-95: `operator!=`. -/
def neB (a b : Op ι) : Bool := (a.creator != b.creator) || (a.index != b.index)

/-- operator.hpp:47 and 97: `same_indices`. -/
def sameIndices (a b : Op ι) : Bool := a.index == b.index

/-- operator.hpp:50 and 100: in-place `conjugate` (the new value of the object). -/
def conjugate (a : Op ι) : Op ι := { a with creator := !a.creator }

/-- operator.hpp:51 and 101: `get_conjugate`. -/
def getConjugate (a : Op ι) : Op ι := ⟨!a.creator, a.index⟩

/-- operator.hpp:53-56 and 103-106: `is_conjugate`. -/
def isConjugate (a b : Op ι) : Bool := (a.creator == !b.creator) && a.sameIndices b

end Op

namespace Op2

variable {ι₁ ι₂ : Type*} [DecidableEq ι₁] [DecidableEq ι₂]

/-- operator.hpp:139-142: `operator==`. -/
def eqB (a b : Op2 ι₁ ι₂) : Bool :=
  (a.creator == b.creator) && (a.index1 == b.index1) && (a.index2 == b.index2)

/-- operator.hpp:144-147: `operator!=`. -/
def neB (a b : Op2 ι₁ ι₂) : Bool :=
  (a.creator != b.creator) || (a.index1 != b.index1) || (a.index2 != b.index2)

/-- operator.hpp:149-152: `same_indices`. -/
def sameIndices (a b : Op2 ι₁ ι₂) : Bool := (a.index1 == b.index1) && (a.index2 == b.index2)

/-- operator.hpp:155: in-place `conjugate`. -/
def conjugate (a : Op2 ι₁ ι₂) : Op2 ι₁ ι₂ := { a with creator := !a.creator }

/-- operator.hpp:156: `get_conjugate`. -/
def getConjugate (a : Op2 ι₁ ι₂) : Op2 ι₁ ι₂ := ⟨!a.creator, a.index1, a.index2⟩

/-- operator.hpp:158-161: `is_conjugate`. -/
def isConjugate (a b : Op2 ι₁ ι₂) : Bool := (a.creator == !b.creator) && a.sameIndices b

/-- operator.hpp:48, 98, 153: `index_tuple`, used to compare the specialisation with the generic
class: the same operator in the generic representation. -/
def toGeneric (a : Op2 ι₁ ι₂) : Op (ι₁ × ι₂) := ⟨a.creator, (a.index1, a.index2)⟩

end Op2

/-! ### Comparison (order.hpp) -/

section Generic

variable {n : ℕ} {α : Fin n → Type*} [∀ i, LinearOrder (α i)]

/-- order.hpp:14-23 (step) and 37-43 (end of the recursion): `OperatorComparisonHelperRec<.., I, N>::smaller`. -/
def smallerRec (a b : ∀ i, α i) (I : ℕ) : Bool :=
  if h : I < n then
    if a ⟨I, h⟩ ≠ b ⟨I, h⟩ then decide (a ⟨I, h⟩ < b ⟨I, h⟩) else smallerRec a b (I + 1)
  else false
termination_by n - I

/-- order.hpp:25-33 and 44-49: `OperatorComparisonHelperRec<.., I, N>::greater`. -/
def greaterRec (a b : ∀ i, α i) (I : ℕ) : Bool :=
  if h : I < n then
    if a ⟨I, h⟩ ≠ b ⟨I, h⟩ then decide (a ⟨I, h⟩ > b ⟨I, h⟩) else greaterRec a b (I + 1)
  else false
termination_by n - I

/-- order.hpp:54-60 via 114-121: `OperatorSmaller` for the generic class (`n` indices of any types). -/
def OpN.smaller (a b : Op (∀ i, α i)) : Bool :=
  if a.creator ≠ b.creator then a.creator else smallerRec a.index b.index 0

/-- order.hpp:61-67 via 123-130: `OperatorGreater` for the generic class. -/
def OpN.greater (a b : Op (∀ i, α i)) : Bool :=
  if a.creator ≠ b.creator then b.creator else greaterRec a.index b.index 0

end Generic

section OneIndex

variable {ι : Type*} [LinearOrder ι]

/-- order.hpp:71-79: `OperatorSmaller` for one index. -/
def Op.smaller (a b : Op ι) : Bool :=
  if a.creator ≠ b.creator then a.creator else decide (a.index < b.index)

/-- order.hpp:80-86: `OperatorGreater` for one index. -/
def Op.greater (a b : Op ι) : Bool :=
  if a.creator ≠ b.creator then b.creator else decide (a.index > b.index)

end OneIndex

section TwoIndex

variable {ι₁ ι₂ : Type*} [LinearOrder ι₁] [LinearOrder ι₂]

/-- order.hpp:89-100: `OperatorSmaller` for two indices. -/
def Op2.smaller (a b : Op2 ι₁ ι₂) : Bool :=
  if a.creator ≠ b.creator then a.creator
  else if a.index1 ≠ b.index1 then decide (a.index1 < b.index1)
  else decide (a.index2 < b.index2)

/-- order.hpp:101-110: `OperatorGreater` for two indices. -/
def Op2.greater (a b : Op2 ι₁ ι₂) : Bool :=
  if a.creator ≠ b.creator then b.creator
  else if a.index1 ≠ b.index1 then decide (a.index1 > b.index1)
  else decide (a.index2 > b.index2)

end TwoIndex

end Ieompp
