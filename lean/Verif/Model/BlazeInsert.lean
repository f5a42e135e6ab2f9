import Verif.Model.Basic
import Mathlib.Logic.Function.Basic
import Mathlib.Data.List.Basic

/-!
# Model of `include/ieompp/types/blaze/matrix_insert.hpp`

`matrix_insert` for Blaze calls `insert` of `blaze::CompressedMatrix`, whose contract is modelled: the matrix is a sequence of
lines (rows if the storage order is row-major, columns if it is column-major) which are sorted by the other index; indices
outside the shape are undefined behaviour; if there is an element already an exception is thrown; otherwise the element is put
at its place in the line. Allocation is not modelled.
-/

set_option autoImplicit false

namespace Ieompp.BlazeInsert

variable {S : Type*}

/-- A compressed matrix: its shape, its storage order and the elements of its lines. types/blaze/matrix_insert.hpp:11. -/
structure CMatrix (S : Type*) where
  rows : ℕ
  cols : ℕ
  columnMajor : Bool
  lines : ℕ → List (ℕ × S)

/-- The results of an insertion. types/blaze/matrix_insert.hpp:14. -/
inductive Outcome (α : Type*) where
  | ok (a : α)
  | threw
  | ub

/-- An empty matrix. types/blaze/matrix_insert.hpp:11. -/
def CMatrix.empty (columnMajor : Bool) (rows cols : ℕ) : CMatrix S := ⟨rows, cols, columnMajor, fun _ => []⟩

/-- Insertion into a line: the first element which is not before the new one is found; if it has the same index the element
exists already. Library function, called in types/blaze/matrix_insert.hpp:14. -/
def insertLine (k : ℕ) (v : S) : List (ℕ × S) → Option (List (ℕ × S))
  | [] => some [(k, v)]
  | e :: l =>
    if e.1 < k then (insertLine k v l).map (e :: ·)
    else if e.1 = k then none
    else some ((k, v) :: e :: l)

/-- The line and the place in it of the element in a row and a column. Library function, called in
types/blaze/matrix_insert.hpp:14. -/
def CMatrix.position (m : CMatrix S) (row col : ℕ) : ℕ × ℕ := if m.columnMajor then (col, row) else (row, col)

/-- `matrix.insert(row, col, value)`. types/blaze/matrix_insert.hpp:14 (library function). -/
def CMatrix.insert (m : CMatrix S) (row col : ℕ) (value : S) : Outcome (CMatrix S) :=
  if row < m.rows ∧ col < m.cols then
    let p := m.position row col
    match insertLine p.2 value (m.lines p.1) with
    | some l => .ok { m with lines := Function.update m.lines p.1 l }
    | none => .threw
  else .ub

/-- types/blaze/matrix_insert.hpp:10-15, `matrix_insert`. -/
def matrixInsert (m : CMatrix S) (row col : ℕ) (value : S) : Outcome (CMatrix S) := m.insert row col value

/-- A sequence of insertions by a user of `matrix_insert`, until one throws. types/blaze/matrix_insert.hpp:10-15. -/
def insertAll (m : CMatrix S) : List (ℕ × ℕ × S) → Outcome (CMatrix S)
  | [] => .ok m
  | t :: ts =>
    match matrixInsert m t.1 t.2.1 t.2.2 with
    | .ok m' => insertAll m' ts
    | .threw => .threw
    | .ub => .ub

/-- `matrix(row, col)`, with which a user reads the matrix. types/blaze/matrix_insert.hpp:11 (library function). -/
def CMatrix.get [Zero S] (m : CMatrix S) (row col : ℕ) : S :=
  match (m.lines (m.position row col).1).find? (fun e => e.1 = (m.position row col).2) with
  | some e => e.2
  | none => 0

end Ieompp.BlazeInsert
