import Verif.Model.MatrixTraits
import Mathlib.Tactic.SplitIfs

/-! # C76: the type traits classify matrices and vectors -/

set_option autoImplicit false
set_option linter.unusedSectionVars false

namespace Ieompp
namespace Traits

/-- What a type is. -/
inductive Spec.Class where
  | matrix
  | row
  | column
  | neither
  deriving DecidableEq

/-- The truth about the types; a fixed 1×1 Eigen matrix is a matrix. -/
def Spec.classOf : MatTy → Spec.Class
  | .eigenMatrix r c => if r = 1 ∧ c ≠ 1 then .row else if c = 1 ∧ r ≠ 1 then .column else .matrix
  | .eigenSparse => .matrix
  | .blazeDynamicMatrix _ => .matrix
  | .blazeCompressedMatrix _ => .matrix
  | .blazeDynamicVector t => if t then .row else .column
  | .blazeCompressedVector t => if t then .row else .column
  | .blazeStaticVector _ t => if t then .row else .column
  | .other => .neither

/-- The traits of the type compile and tell the truth. -/
def Spec.Classified (t : MatTy) : Prop :=
  isMatrix t = some (decide (Spec.classOf t = .matrix)) ∧
  isVector t = some (decide (Spec.classOf t = .row ∨ Spec.classOf t = .column)) ∧
  isRowVector t = some (decide (Spec.classOf t = .row)) ∧
  isColumnVector t = some (decide (Spec.classOf t = .column))

/-- **C76**, exactly: the traits are right for a type iff it is not an Eigen sparse matrix, not a Blaze static vector and
not an Eigen matrix of fixed size 1×1. -/
theorem classified_partial (t : MatTy) :
    Spec.Classified t ↔ t ≠ .eigenSparse ∧ t ≠ .eigenMatrix 1 1 ∧ ∀ n f, t ≠ .blazeStaticVector n f := by
  cases t with
  | eigenMatrix r c =>
    simp only [Spec.Classified, isMatrix, isVector, isRowVector, isColumnVector, eigenChoice, eigenChoiceRow, Spec.classOf]
    by_cases hr : r = 1 <;> by_cases hc : c = 1 <;> simp [hr, hc]
  | eigenSparse => simp [Spec.Classified, isMatrix, isVector, Spec.classOf]
  | blazeDynamicMatrix s => simp [Spec.Classified, isMatrix, isVector, isRowVector, isColumnVector, Spec.classOf]
  | blazeCompressedMatrix s => simp [Spec.Classified, isMatrix, isVector, isRowVector, isColumnVector, Spec.classOf]
  | blazeDynamicVector f =>
    cases f <;> simp [Spec.Classified, isMatrix, isVector, isRowVector, isColumnVector, Spec.classOf, rowVector]
  | blazeCompressedVector f =>
    cases f <;> simp [Spec.Classified, isMatrix, isVector, isRowVector, isColumnVector, Spec.classOf, rowVector]
  | blazeStaticVector n f =>
    cases f <;> simp [Spec.Classified, isMatrix, isVector, isRowVector, isColumnVector, Spec.classOf]
  | other => simp [Spec.Classified, isMatrix, isVector, isRowVector, isColumnVector, Spec.classOf]

/-- **C76** (refutation): an Eigen sparse matrix is reported as matrix, vector, row vector and column vector at once. -/
theorem eigenSparse_wrong : isMatrix .eigenSparse = some true ∧ isVector .eigenSparse = some true ∧
    isRowVector .eigenSparse = some true ∧ isColumnVector .eigenSparse = some true := ⟨rfl, rfl, rfl, rfl⟩

/-- **C76**: dense and sparse exclude each other, and the Blaze matrices and the Blaze vectors are disjoint. -/
theorem dense_sparse_exclusive (t : MatTy) :
    ¬ (isEigenDense t = true ∧ isEigenSparse t = true) ∧ ¬ (isBlazeDense t = true ∧ isBlazeSparse t = true) ∧
    ¬ (isBlazeMatrix t = true ∧ isBlazeVector t = true) ∧ ¬ (isBlazeMatrix t = true ∧ isEigenDense t = true) := by
  cases t <;> simp [isEigenDense, isEigenSparse, isBlazeDense, isBlazeSparse, isBlazeMatrix, isBlazeVector]

/-- The library a type comes from and its storage. -/
inductive Spec.Library where
  | eigenDense
  | eigenSparse
  | blazeDense
  | blazeSparse
  | none
  deriving DecidableEq

/-- The truth about the types. -/
def Spec.library : MatTy → Spec.Library
  | .eigenMatrix _ _ => .eigenDense
  | .eigenSparse => .eigenSparse
  | .blazeDynamicMatrix _ => .blazeDense
  | .blazeCompressedMatrix _ => .blazeSparse
  | .blazeDynamicVector _ => .blazeDense
  | .blazeCompressedVector _ => .blazeSparse
  | .blazeStaticVector _ _ => .blazeDense
  | .other => .none

/-- **C76**: the traits naming the library. `IsBlazeVector` holds for the dense vectors of Blaze only. -/
theorem library_partial (t : MatTy) :
    (isEigenDense t = true ↔ Spec.library t = .eigenDense) ∧
    (isEigenSparse t = true ↔ Spec.library t = .eigenSparse) ∧
    (isBlazeDense t = true ↔ Spec.library t = .blazeDense ∧ Spec.classOf t = .matrix) ∧
    (isBlazeSparse t = true ↔ Spec.library t = .blazeSparse ∧ Spec.classOf t = .matrix) ∧
    (isBlazeMatrix t = true ↔ (Spec.library t = .blazeDense ∨ Spec.library t = .blazeSparse) ∧ Spec.classOf t = .matrix) ∧
    (isBlazeVector t = true ↔ Spec.library t = .blazeDense ∧ (Spec.classOf t = .row ∨ Spec.classOf t = .column)) := by
  cases t with
  | blazeDynamicVector f => cases f <;> simp [isEigenDense, isEigenSparse, isBlazeDense, isBlazeSparse, isBlazeMatrix, isBlazeVector, Spec.library, Spec.classOf]
  | blazeCompressedVector f => cases f <;> simp [isEigenDense, isEigenSparse, isBlazeDense, isBlazeSparse, isBlazeMatrix, isBlazeVector, Spec.library, Spec.classOf]
  | blazeStaticVector n f => cases f <;> simp [isEigenDense, isEigenSparse, isBlazeDense, isBlazeSparse, isBlazeMatrix, isBlazeVector, Spec.library, Spec.classOf]
  | _ => simp [isEigenDense, isEigenSparse, isBlazeDense, isBlazeSparse, isBlazeMatrix, isBlazeVector, Spec.library, Spec.classOf]

/-- **C76** (refutation): a `CompressedVector` is a vector of Blaze (for `IsVector` too) but not for `IsBlazeVector`. -/
theorem compressedVector_wrong (f : Bool) : isVector (.blazeCompressedVector f) = some true ∧
    Spec.library (.blazeCompressedVector f) = .blazeSparse ∧ isBlazeVector (.blazeCompressedVector f) = false :=
  ⟨rfl, rfl, rfl⟩

/-- The shape of an object as a matrix. -/
def Spec.shape (o : Obj) : ℕ × ℕ :=
  match Spec.classOf o.ty with
  | .matrix => (o.a, o.b)
  | .row => (1, o.a)
  | .column => (o.a, 1)
  | .neither => (0, 0)

/-- **C76**: `MatrixDimensionInfo` gives the shape of every Blaze matrix and column vector; of a row vector it gives the
shape of the transposed vector, which is the right one only for one element. -/
theorem dimensionInfo_partial (o : Obj) (r c : ℕ) (hr : dimRows o = some r) (hc : dimColumns o = some c) :
    (Spec.classOf o.ty ≠ .row → (r, c) = Spec.shape o) ∧
    (Spec.classOf o.ty = .row → (c, r) = Spec.shape o ∧ ((r, c) = Spec.shape o ↔ o.a = 1)) := by
  obtain ⟨t, a, b⟩ := o
  cases t with
  | eigenMatrix _ _ => simp [dimRows] at hr
  | eigenSparse => simp [dimRows] at hr
  | blazeStaticVector _ _ => simp [dimRows] at hr
  | other => simp [dimRows] at hr
  | blazeDynamicMatrix s => simp [dimRows, dimColumns] at hr hc; subst hr hc; simp [Spec.classOf, Spec.shape]
  | blazeCompressedMatrix s => simp [dimRows, dimColumns] at hr hc; subst hr hc; simp [Spec.classOf, Spec.shape]
  | blazeDynamicVector f =>
    simp [dimRows, dimColumns] at hr hc; subst hr hc
    cases f <;> simp [Spec.classOf, Spec.shape]
    exact fun h => h.symm
  | blazeCompressedVector f =>
    simp [dimRows, dimColumns] at hr hc; subst hr hc
    cases f <;> simp [Spec.classOf, Spec.shape]
    exact fun h => h.symm

/-- **C76** (refutation): a row vector with two elements is reported as two rows and one column; so the assertion
`columns == 1` of the RK4 integrator (ode/rk4.hpp:38) accepts it, although `matrix * vector` needs a column. -/
theorem dimensionInfo_wrong : ∃ o : Obj, Spec.classOf o.ty = .row ∧ dimRows o = some 2 ∧ dimColumns o = some 1 ∧
    Spec.shape o = (1, 2) := ⟨⟨.blazeDynamicVector true, 2, 0⟩, rfl, rfl, rfl, rfl⟩

/-- The types the programs use are classified correctly. -/
example : Spec.Classified (.blazeCompressedMatrix false) ∧ Spec.Classified (.blazeDynamicVector false) :=
  ⟨(classified_partial _).2 ⟨by simp, by simp, by simp⟩, (classified_partial _).2 ⟨by simp, by simp, by simp⟩⟩

end Traits
end Ieompp
