import Mathlib.Data.List.Basic
import Mathlib.Data.List.Perm.Basic

/-!
# Model of `include/ieompp/types/eigen/triplet_list.hpp`

Not modelled: the descriptions (lines 75-95).
-/

set_option autoImplicit false

namespace Ieompp.EigenTriplet

/-- triplet_list.hpp:17-25, `detail::Triplet`. -/
structure Entry (V : Type*) where
  row : ℕ
  column : ℕ
  value : V

/-- triplet_list.hpp:29-41: the list with its shape. -/
structure TList (V : Type*) where
  elements : List (Entry V)
  _rows : ℕ
  _cols : ℕ

variable {V : Type*}

/-- Line 41: the constructor. types/eigen/triplet_list.hpp:41. -/
def TList.make (rows cols : ℕ) : TList V := ⟨[], rows, cols⟩

/-- Line 43. types/eigen/triplet_list.hpp:43. -/
def TList.rows (l : TList V) : ℕ := l._rows

/-- Line 44: `Index cols() const { return _rows; }`. types/eigen/triplet_list.hpp:44. -/
def TList.cols (l : TList V) : ℕ := l._rows

/-- `matrix_insert`, lines 63-68. types/eigen/triplet_list.hpp:61-66. -/
def TList.insert (l : TList V) (row col : ℕ) (value : V) : TList V := { l with elements := l.elements ++ [⟨row, col, value⟩] }

/-- `std::sort(begin, end, cmp)`: the possible results (the algorithm is not stable, so there may be several).
Library function, called in types/eigen/triplet_list.hpp:48, 55. -/
def IsSort {α : Type*} (cmp : α → α → Prop) (l l' : List α) : Prop := l'.Perm l ∧ l'.Pairwise fun a b => ¬ cmp b a

/-- Lines 46-51, `sort_column_major`: the comparator compares rows. types/eigen/triplet_list.hpp:46-51. -/
def SortColumnMajor (l l' : TList V) : Prop :=
  IsSort (fun a b => a.row < b.row) l.elements l'.elements ∧ l'._rows = l._rows ∧ l'._cols = l._cols

/-- Lines 53-58, `sort_row_major`: the comparator compares columns. types/eigen/triplet_list.hpp:53-58. -/
def SortRowMajor (l l' : TList V) : Prop :=
  IsSort (fun a b => a.column < b.column) l.elements l'.elements ∧ l'._rows = l._rows ∧ l'._cols = l._cols

end Ieompp.EigenTriplet
