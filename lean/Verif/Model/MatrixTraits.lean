import Mathlib.Data.Int.Notation
import Mathlib.Data.Nat.Notation

/-!
# Model of `include/ieompp/types/matrix.hpp`, `types/eigen/traits.hpp` and `types/blaze/traits.hpp`

A trait of a type is `some value`, or `none` when the program does not compile (ambiguous specialisation, missing member).
-/

set_option autoImplicit false

namespace Ieompp
namespace Traits

/-- The types the traits know. For `Eigen::Matrix` the compile-time sizes are given, `-1` is `Eigen::Dynamic`; the maximal
sizes have their default values (the sizes). types/eigen/traits.hpp:13-150, types/blaze/traits.hpp:15-199. -/
inductive MatTy where
  | eigenMatrix (rows cols : ℤ)
  | eigenSparse
  | blazeDynamicMatrix (storageOrder : Bool)
  | blazeCompressedMatrix (storageOrder : Bool)
  | blazeDynamicVector (transposeFlag : Bool)
  | blazeCompressedVector (transposeFlag : Bool)
  | blazeStaticVector (n : ℕ) (transposeFlag : Bool)
  | other
  deriving DecidableEq

/-- `blaze::rowVector`; `blaze::columnVector` is `false`. types/blaze/traits.hpp:37-52. -/
def rowVector : Bool := true

/-- Choice among the primary specialisation for `Eigen::Matrix` and those for one row and for one column; both match a
1×1 matrix, which is ambiguous. types/eigen/traits.hpp:13-26, 33-46. -/
def eigenChoice (rows cols : ℤ) (general row col : Bool) : Option Bool :=
  if rows = 1 ∧ cols = 1 then none else if rows = 1 then some row else if cols = 1 then some col else some general

/-- Choice when there is only a specialisation for one row. types/eigen/traits.hpp:53-61. -/
def eigenChoiceRow (rows : ℤ) (general row : Bool) : Option Bool := if rows = 1 then some row else some general

/-- matrix.hpp:8-11, eigen/traits.hpp:13-31, blaze/traits.hpp:16-24: `IsMatrix`. -/
def isMatrix : MatTy → Option Bool
  | .eigenMatrix r c => eigenChoice r c true false false
  | .eigenSparse => some true
  | .blazeDynamicMatrix _ => some true
  | .blazeCompressedMatrix _ => some true
  | _ => some false

/-- matrix.hpp:13-16, eigen/traits.hpp:33-51, blaze/traits.hpp:26-34: `IsVector`. -/
def isVector : MatTy → Option Bool
  | .eigenMatrix r c => eigenChoice r c false true true
  | .eigenSparse => some true
  | .blazeDynamicVector _ => some true
  | .blazeCompressedVector _ => some true
  | _ => some false

/-- matrix.hpp:18-21, eigen/traits.hpp:53-66, blaze/traits.hpp:36-44: `IsRowVector`. -/
def isRowVector : MatTy → Option Bool
  | .eigenMatrix r _ => eigenChoiceRow r false true
  | .eigenSparse => some true
  | .blazeDynamicVector t => some (t == rowVector)
  | .blazeCompressedVector t => some (t == rowVector)
  | _ => some false

/-- matrix.hpp:23-26, eigen/traits.hpp:68-81, blaze/traits.hpp:46-54: `IsColumnVector`. -/
def isColumnVector : MatTy → Option Bool
  | .eigenMatrix _ c => eigenChoiceRow c false true
  | .eigenSparse => some true
  | .blazeDynamicVector t => some (t != rowVector)
  | .blazeCompressedVector t => some (t != rowVector)
  | _ => some false

/-- eigen/traits.hpp:104-135: `IsEigenMatrix`, `IsEigenDenseMatrix`. -/
def isEigenDense : MatTy → Bool
  | .eigenMatrix _ _ => true
  | _ => false

/-- eigen/traits.hpp:137-151: `IsEigenSparseMatrix`. -/
def isEigenSparse : MatTy → Bool
  | .eigenSparse => true
  | _ => false

/-- blaze/traits.hpp:106-114: `IsBlazeDenseMatrix`. -/
def isBlazeDense : MatTy → Bool
  | .blazeDynamicMatrix _ => true
  | _ => false

/-- blaze/traits.hpp:116-124: `IsBlazeSparseMatrix`. -/
def isBlazeSparse : MatTy → Bool
  | .blazeCompressedMatrix _ => true
  | _ => false

/-- blaze/traits.hpp:126-130: `IsBlazeMatrix`. -/
def isBlazeMatrix (t : MatTy) : Bool := isBlazeDense t || isBlazeSparse t

/-- blaze/traits.hpp:132-145: `IsBlazeVector`. -/
def isBlazeVector : MatTy → Bool
  | .blazeDynamicVector _ => true
  | .blazeStaticVector _ _ => true
  | _ => false

/-- An object of one of the types, with its size: `rows() × columns()` of a matrix, `size()` of a vector.
types/blaze/traits.hpp:143-196. -/
structure Obj where
  ty : MatTy
  a : ℕ
  b : ℕ

/-- blaze/traits.hpp:147-195: `MatrixDimensionInfo<T>::rows` (only the Blaze types have it). -/
def dimRows (o : Obj) : Option ℕ :=
  match o.ty with
  | .blazeDynamicMatrix _ => some o.a
  | .blazeCompressedMatrix _ => some o.a
  | .blazeDynamicVector _ => some o.a
  | .blazeCompressedVector _ => some o.a
  | _ => none

/-- blaze/traits.hpp:147-195: `MatrixDimensionInfo<T>::columns`. -/
def dimColumns (o : Obj) : Option ℕ :=
  match o.ty with
  | .blazeDynamicMatrix _ => some o.b
  | .blazeCompressedMatrix _ => some o.b
  | .blazeDynamicVector _ => some 1
  | .blazeCompressedVector _ => some 1
  | _ => none

end Traits
end Ieompp
