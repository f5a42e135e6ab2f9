import Mathlib.Data.List.Basic

/-!
# Model of `include/ieompp/algebra/operator/{get_index,make,is_symbolic}.hpp`, of `HasIndexOfType`
(`include/ieompp/algebra/operator.hpp`) and of `include/ieompp/models/hubbard/operator_traits.hpp`

The class template `Operator<Ts...>` has three layouts: one index (`index`), two indices (`index1`, `index2`) and a tuple
(`indices`). The values of all index types are modelled by one type `V`, the types by `Ty`. A template that does not compile
for the given arguments is `none`.
-/

set_option autoImplicit false

namespace Ieompp
namespace OpIndex

variable {V : Type}

/-- operator.hpp:10-57, 59-107, 109-162: the three layouts of an operator. -/
inductive AnyOp (V : Type) where
  | one (creator : Bool) (index : V)
  | two (creator : Bool) (index1 index2 : V)
  | many (creator : Bool) (indices : List V)

/-- The data member `creator`. operator/operator.hpp:34, 84, 135. -/
def AnyOp.creator : AnyOp V → Bool
  | .one c _ => c
  | .two c _ _ => c
  | .many c _ => c

/-- operator.hpp:14, 64, 115: `number_of_indices`. -/
def AnyOp.numberOfIndices : AnyOp V → ℕ
  | .one _ _ => 1
  | .two _ _ _ => 2
  | .many _ l => l.length

/-- make.hpp:14-33 and the static functions of the same name (operator.hpp:16-32, 66-82, 117-133): `make_creator`. -/
def makeCreator : List V → AnyOp V
  | [i] => .one true i
  | [i, j] => .two true i j
  | l => .many true l

/-- make.hpp:35-55 and the static functions of the same name: `make_annihilator`. -/
def makeAnnihilator : List V → AnyOp V
  | [i] => .one false i
  | [i, j] => .two false i j
  | l => .many false l

/-- get_index.hpp:17-42 and 70-96: `get_index<I>` of an operator (reference and const reference). -/
def getIndex (I : ℕ) : AnyOp V → Option V
  | .one _ i => if I = 0 then some i else none
  | .two _ i j => if I = 0 then some i else if I = 1 then some j else none
  | .many _ l => l[I]?

/-- get_index.hpp:17-42: the assignment `get_index<I>(op) = v` through the returned reference. -/
def setIndex (I : ℕ) (v : V) : AnyOp V → Option (AnyOp V)
  | .one c _ => if I = 0 then some (.one c v) else none
  | .two c i j => if I = 0 then some (.two c v j) else if I = 1 then some (.two c i v) else none
  | .many c l => if I < l.length then some (.many c (l.set I v)) else none

/-- get_index.hpp:98-117: `get_indices`. -/
def getIndices : AnyOp V → List V
  | .one _ i => [i]
  | .two _ i j => [i, j]
  | .many _ l => l

/-- operator.hpp:48, 98, 153: `index_tuple`. -/
def indexTuple : AnyOp V → List V
  | .one _ i => [i]
  | .two _ i j => [i, j]
  | .many _ l => l

/-! ### Types -/

/-- The types of indices, as far as the type traits distinguish them. `n` tells apart the types of one kind.
is_symbolic.hpp:10-36, operator_traits.hpp:16-40. -/
inductive Ty where
  | bool
  | integer (n : ℕ)
  | floating (n : ℕ)
  | other (n : ℕ)
  deriving DecidableEq

/-- `std::is_arithmetic`. is_symbolic.hpp:32-36 (library trait). -/
def Ty.isArithmetic : Ty → Bool
  | .bool => true
  | .integer _ => true
  | .floating _ => true
  | .other _ => false

/-- `std::is_integral`. operator_traits.hpp:24, 36-37 (library trait). -/
def Ty.isIntegral : Ty → Bool
  | .bool => true
  | .integer _ => true
  | .floating _ => false
  | .other _ => false

/-- get_index.hpp:13-16: `IndexType<I, Operator>::Type`. -/
def indexType (I : ℕ) (ts : List Ty) : Option Ty := ts[I]?

/-- is_symbolic.hpp:12-24: `IsSymbolicOperatorHelper<Op, I, N>`; the number of templates left is `N - I`. Both operands of
`||` are instantiated. -/
def isSymbolicHelper (ts : List Ty) (I : ℕ) : ℕ → Option Bool
  | 0 => (indexType I ts).map fun t => !t.isArithmetic
  | n + 1 => do
    let t ← indexType I ts
    let r ← isSymbolicHelper ts (I + 1) n
    return !t.isArithmetic || r

/-- is_symbolic.hpp:26-30: `IsSymbolicOperator`; `number_of_indices - 1` is computed in `size_t` and wraps around for an
operator without indices, for which the recursion fails. -/
def isSymbolicOperator (ts : List Ty) : Option Bool :=
  if ts.length = 0 then none else isSymbolicHelper ts 0 (ts.length - 1)

/-- is_symbolic.hpp:32-36: `IsSymbolicIndex`. -/
def isSymbolicIndex (I : ℕ) (ts : List Ty) : Option Bool := (indexType I ts).map fun t => !t.isArithmetic

/-- operator.hpp (algebra) 16-27: `HasIndexOfTypeHelper<Op, T, I, N>` with `N - I` templates left. -/
def hasIndexOfTypeHelper (ts : List Ty) (T : Ty) (I : ℕ) : ℕ → Option Bool
  | 0 => (indexType I ts).map fun t => t == T
  | n + 1 => do
    let t ← indexType I ts
    let r ← hasIndexOfTypeHelper ts T (I + 1) n
    return t == T || r

/-- operator.hpp (algebra) 30-36: `HasIndexOfType`; the last template index is `number_of_indices`. -/
def hasIndexOfType (ts : List Ty) (T : Ty) : Option Bool := hasIndexOfTypeHelper ts T 0 ts.length

/-- operator_traits.hpp:15-25 and 44-48: `Is1dHubbardOperator`. -/
def is1dHubbard : List Ty → Bool
  | [t1, t2] => t1.isIntegral && t2 == Ty.bool
  | _ => false

/-- operator_traits.hpp:27-40 and 50-54: `Is2dHubbardOperator`. -/
def is2dHubbard : List Ty → Bool
  | [t1, t2, t3] => t1.isIntegral && t2.isIntegral && t3 == Ty.bool
  | _ => false

/-- operator_traits.hpp:56-60: `IsHubbardOperator`. -/
def isHubbard (ts : List Ty) : Bool := is1dHubbard ts || is2dHubbard ts

/-- The member types `Index1` (only the two-index specialisation has it). operator/operator.hpp:109-135. -/
def memberIndex1 : List Ty → Option Ty
  | [t1, _] => some t1
  | _ => none

/-- operator_traits.hpp:62-71: `SpatialIndexType::Type`; the result is a list of one type or of the two types of a pair.
Both branches of `std::conditional` are instantiated. -/
def spatialIndexType (ts : List Ty) : Option (List Ty) :=
  if isHubbard ts then do
    let a ← memberIndex1 ts
    let b0 ← indexType 0 ts
    let b1 ← indexType 1 ts
    return if is1dHubbard ts then [a] else [b0, b1]
  else none

end OpIndex
end Ieompp
