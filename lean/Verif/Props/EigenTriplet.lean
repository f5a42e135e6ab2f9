import Verif.Model.EigenTriplet
import Mathlib.Data.List.Sort
import Mathlib.Tactic.Common

/-!
# C53: the Eigen triplet list
-/

set_option autoImplicit false

namespace Ieompp.EigenTriplet

variable {V : Type*}

/-- Column-major order: by column, within a column by row. -/
def ColumnMajor (l : List (Entry V)) : Prop :=
  l.Pairwise fun a b => a.column < b.column ∨ a.column = b.column ∧ a.row ≤ b.row

/-- Row-major order: by row, within a row by column. -/
def RowMajor (l : List (Entry V)) : Prop :=
  l.Pairwise fun a b => a.row < b.row ∨ a.row = b.row ∧ a.column ≤ b.column

/-- **C53**: the shape after construction and any number of insertions: the number of rows is right, the number of columns is
right exactly when the matrix is square. -/
theorem tlist_shape (rows cols : ℕ) (es : List (Entry V)) :
    let l := es.foldl (fun l e => l.insert e.row e.column e.value) (TList.make rows cols)
    l.elements = es ∧ l.rows = rows ∧ (l.cols = cols ↔ rows = cols) := by
  have key : ∀ (es : List (Entry V)) (l : TList V), let l' := es.foldl (fun l e => l.insert e.row e.column e.value) l
      l'.elements = l.elements ++ es ∧ l'._rows = l._rows := by
    intro es
    induction es with
    | nil => intro l; simp
    | cons e es ih =>
      intro l
      obtain ⟨h1, h2⟩ := ih (l.insert e.row e.column e.value)
      refine ⟨?_, ?_⟩
      · rw [List.foldl_cons, h1]; simp [TList.insert]
      · rw [List.foldl_cons, h2]; rfl
  obtain ⟨h1, h2⟩ := key es (TList.make rows cols)
  refine ⟨by simpa [TList.make] using h1, h2, ?_⟩
  unfold TList.cols
  rw [h2]
  rfl

/-- **C53** (refutation): a list for a 2 x 3 matrix says it has 2 columns. -/
theorem tlist_cols_wrong : (TList.make 2 3 : TList V).cols = 2 := rfl

/-- **C53**: both sorting functions always have a result, and keep the elements and the shape. -/
theorem tlist_sort_keeps (l : TList V) :
    (∃ l', SortColumnMajor l l') ∧ (∃ l', SortRowMajor l l') ∧
    ∀ l', SortColumnMajor l l' ∨ SortRowMajor l l' → l'.elements.Perm l.elements ∧ l'.rows = l.rows ∧ l'.cols = l.cols := by
  have key : ∀ f : Entry V → ℕ, ∃ es : List (Entry V), IsSort (fun a b => f a < f b) l.elements es := by
    intro f
    refine ⟨l.elements.mergeSort fun a b => decide (f a ≤ f b), List.mergeSort_perm .., ?_⟩
    have := List.pairwise_mergeSort (le := fun a b => decide (f a ≤ f b))
      (by intro a b c; simp only [decide_eq_true_eq]; omega)
      (by intro a b; simp only [Bool.or_eq_true, decide_eq_true_eq]; omega) l.elements
    exact this.imp fun h => by simpa using h
  refine ⟨?_, ?_, ?_⟩
  · obtain ⟨es, h⟩ := key (·.row); exact ⟨⟨es, l._rows, l._cols⟩, h, rfl, rfl⟩
  · obtain ⟨es, h⟩ := key (·.column); exact ⟨⟨es, l._rows, l._cols⟩, h, rfl, rfl⟩
  · rintro l' (h | h) <;> exact ⟨h.1.1, h.2.1, h.2.1⟩

/-- **C53** (partial): `sort_column_major` sorts by row and `sort_row_major` by column. Missing: it is the other way round, and
elements of the same row (column) are in no particular order, see `tlist_sort_wrong`. -/
theorem tlist_sort_partial (l l' : TList V) :
    (SortColumnMajor l l' → l'.elements.Pairwise fun a b => a.row ≤ b.row) ∧
    (SortRowMajor l l' → l'.elements.Pairwise fun a b => a.column ≤ b.column) :=
  ⟨fun h => h.1.2.imp fun h => not_lt.1 h, fun h => h.1.2.imp fun h => not_lt.1 h⟩

theorem perm_two {α : Type*} {a b : α} {l : List α} (h : l.Perm [a, b]) : l = [a, b] ∨ l = [b, a] := by
  have hl := h.length_eq
  match l, hl with
  | [x, y], _ =>
    have hx : x ∈ [a, b] := h.subset (by simp)
    simp only [List.mem_cons, List.not_mem_nil, or_false] at hx
    rcases hx with rfl | rfl
    · have := (List.perm_cons _).1 h
      left; rw [List.perm_singleton.1 this]
    · have := (List.perm_cons _).1 (h.trans (List.Perm.swap _ _ _))
      right; rw [List.perm_singleton.1 this]

/-- **C53** (refutation): there is a list, namely an upper right and a lower left element, that `sort_column_major` never
brings into column-major order and `sort_row_major` never into row-major order. -/
theorem tlist_sort_wrong (v w : V) : ∃ l : TList V, (∀ l', SortColumnMajor l l' → ¬ ColumnMajor l'.elements) ∧
    (∀ l', SortRowMajor l l' → ¬ RowMajor l'.elements) := by
  refine ⟨⟨[⟨0, 1, v⟩, ⟨1, 0, w⟩], 2, 2⟩, ?_, ?_⟩
  · rintro l' ⟨⟨hp, hs⟩, -⟩ h
    have := perm_two hp
    rcases this with e | e <;> rw [e] at hs h <;> simp [ColumnMajor] at hs h
  · rintro l' ⟨⟨hp, hs⟩, -⟩ h
    have := perm_two hp
    rcases this with e | e <;> rw [e] at hs h <;> simp [RowMajor] at hs h

/-- **C53** (refutation): and the elements of one column may stay in the wrong order: both orders of two elements of the same
column are possible results of `sort_row_major`, likewise for one row and `sort_column_major`. -/
theorem tlist_sort_unordered (v w : V) :
    SortColumnMajor (⟨[⟨0, 1, v⟩, ⟨0, 0, w⟩], 2, 2⟩ : TList V) ⟨[⟨0, 1, v⟩, ⟨0, 0, w⟩], 2, 2⟩ ∧
    SortRowMajor (⟨[⟨1, 0, v⟩, ⟨0, 0, w⟩], 2, 2⟩ : TList V) ⟨[⟨1, 0, v⟩, ⟨0, 0, w⟩], 2, 2⟩ := by
  constructor <;> exact ⟨⟨List.Perm.refl _, by simp⟩, rfl, rfl⟩

end Ieompp.EigenTriplet
