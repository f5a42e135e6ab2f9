import Verif.Model.Sparse
import Verif.Props.Triplet
import Mathlib.Algebra.BigOperators.Group.Finset.Basic
import Mathlib.Algebra.BigOperators.GroupWithZero.Finset
import Mathlib.Algebra.Module.Basic
import Mathlib.Algebra.Module.BigOperators

/-! # Lemmas on filling a sparse matrix -/

set_option autoImplicit false
set_option linter.unusedSectionVars false

namespace Ieompp

open Spec

namespace Sparse
variable {S : Type*}

/-- What is stored for a list of triplets. -/
def stored (l : List (Triplet S)) : List (ℕ × S) := l.map fun t => (t.column, t.value)

theorem appendAll_val (row : ℕ) (l : List (Triplet S)) : ∀ m : Sparse S, row = m.done.length → row < m.rows →
    (∀ t ∈ l, t.column < m.columns) → StrictColumns l → (∀ e ∈ m.cur, ∀ t ∈ l, e.1 < t.column) →
    m.nonZeros + l.length ≤ m.capacity →
    m.appendAll row l = .val { m with cur := m.cur ++ stored l } := by
  induction l with
  | nil => intro m _ _ _ _ _ _; simp [appendAll, stored]
  | cons t l ih =>
    intro m h1 h2 h3 h4 h5 h6
    rw [List.length_cons] at h6
    unfold appendAll append
    rw [if_pos ⟨h1, h2, h3 t (by simp), fun e he => h5 e he t (by simp), by omega⟩, Res.bind_val]
    unfold StrictColumns at h4
    rw [List.pairwise_cons] at h4
    rw [ih ⟨m.rows, m.columns, m.capacity, m.done, m.cur ++ [(t.column, t.value)]⟩ h1 h2 (fun t ht => h3 t (by simp [ht])) h4.2 ?_ ?_]
    · simp [stored]
    · intro e he t' ht'
      rw [List.mem_append, List.mem_singleton] at he
      rcases he with he | rfl
      · exact h5 e he t' (by simp [ht'])
      · exact h4.1 t' ht'
    · unfold nonZeros at h6 ⊢
      simp only [List.length_append, List.length_singleton]; omega

/-- Only strictly increasing columns can be appended. -/
theorem appendAll_strict (row : ℕ) (l : List (Triplet S)) : ∀ m m' : Sparse S, m.appendAll row l = .val m' →
    StrictColumns l ∧ (∀ e ∈ m.cur, ∀ t ∈ l, e.1 < t.column) := by
  induction l with
  | nil => intro m m' _; exact ⟨List.Pairwise.nil, by simp⟩
  | cons t l ih =>
    intro m m' h
    unfold appendAll append at h
    split at h
    · rename_i hc
      rw [Res.bind_val] at h
      obtain ⟨h1, h2⟩ := ih _ _ h
      constructor
      · exact List.pairwise_cons.2 ⟨fun t' ht' => h2 (t.column, t.value) (by simp) t' ht', h1⟩
      · intro e he t' ht'
        rw [List.mem_cons] at ht'
        rcases ht' with rfl | ht'
        · exact hc.2.2.2.1 e he
        · exact h2 e (by simp [he]) t' ht'
    · simp at h

theorem append_cases (m : Sparse S) (row col : ℕ) (v : S) :
    m.append row col v = .ub ∨ ∃ m', m.append row col v = .val m' := by
  unfold append; split
  · exact Or.inr ⟨_, rfl⟩
  · exact Or.inl rfl

theorem appendAll_cases (row : ℕ) (l : List (Triplet S)) : ∀ m : Sparse S,
    m.appendAll row l = .ub ∨ ∃ m', m.appendAll row l = .val m' := by
  induction l with
  | nil => intro m; exact Or.inr ⟨m, rfl⟩
  | cons t l ih =>
    intro m
    unfold appendAll
    rcases append_cases m row t.column t.value with h | ⟨m', h⟩
    · rw [h]; exact Or.inl rfl
    · rw [h]; exact ih m'

/-- A row with a repeated column is undefined behaviour. -/
theorem appendAll_ub (m : Sparse S) (row : ℕ) (l : List (Triplet S)) (h : ¬ StrictColumns l) :
    m.appendAll row l = .ub := by
  rcases appendAll_cases row l m with h' | ⟨m', h'⟩
  · exact h'
  · exact absurd (appendAll_strict row l m m' h').1 h

/-- Filling rows `done.length, done.length + 1, ...` succeeds when every row is strictly increasing and in range and
the capacity suffices; the closed rows then are exactly the given lists. -/
theorem fillRows_val (triplets : ℕ → Option (List (Triplet S))) (L : ℕ → List (Triplet S)) (n : ℕ) :
    ∀ m : Sparse S, m.cur = [] → m.done.length + n ≤ m.rows →
    (∀ row, m.done.length ≤ row → row < m.done.length + n → triplets row = some (L row) ∧ StrictColumns (L row) ∧
      ∀ t ∈ L row, t.column < m.columns) →
    m.nonZeros + ((List.range' m.done.length n).map (fun r => (L r).length)).sum ≤ m.capacity →
    fillRows triplets (List.range' m.done.length n) m =
      .val { m with done := m.done ++ (List.range' m.done.length n).map (fun r => stored (L r)), cur := [] } := by
  induction n with
  | zero => intro m h _ _ _; cases m; simp only at h; subst h; simp [fillRows]
  | succ n ih =>
    intro m h1 h2 h3 h4
    rw [List.range'_succ] at h4 ⊢
    rw [List.map_cons, List.sum_cons] at h4
    obtain ⟨g1, g2, g3⟩ := h3 m.done.length (le_refl _) (by omega)
    unfold fillRows
    rw [g1]
    simp only
    rw [appendAll_val m.done.length (L m.done.length) m rfl (by omega) g3 g2 (by rw [h1]; simp) (by omega),
      Res.bind_val]
    unfold finalize
    rw [if_pos ⟨rfl, by simp only; omega⟩, Res.bind_val]
    simp only
    have := ih ⟨m.rows, m.columns, m.capacity, m.done ++ [m.cur ++ stored (L m.done.length)], []⟩ rfl
    simp only [List.length_append, List.length_singleton] at this
    rw [this (by omega) (fun row a b => h3 row (by omega) (by omega))]
    · simp [h1]
    · unfold nonZeros at h4 ⊢
      rw [h1] at h4 ⊢
      simp only [List.map_append, List.sum_append, List.map_cons, List.map_nil, List.sum_cons, List.sum_nil,
        List.nil_append, List.length_nil, stored, List.length_map] at h4 ⊢
      omega

/-- A row whose columns are not strictly increasing makes the whole assembly undefined. -/
theorem fillRows_ub (triplets : ℕ → Option (List (Triplet S))) (row : ℕ) (rows : List ℕ) (m : Sparse S)
    (l : List (Triplet S)) (h1 : triplets row = some l) (h2 : ¬ StrictColumns l) :
    fillRows triplets (row :: rows) m = .ub := by
  unfold fillRows
  rw [h1]
  simp only [appendAll_ub m row l h2, Res.bind_ub]

/-- The element read back from strictly increasing stored columns is the column sum. -/
theorem find_stored [AddCommMonoid S] (l : List (Triplet S)) (h : StrictColumns l) (c : ℕ) :
    (match (stored l).find? (fun e => e.1 = c) with | some e => e.2 | none => 0) = columnSum l c := by
  induction l with
  | nil => simp [stored]
  | cons t l ih =>
    unfold StrictColumns at h
    rw [List.pairwise_cons] at h
    rw [columnSum_cons]
    by_cases htc : t.column = c
    · simp only [stored, List.map_cons, List.find?_cons, htc, decide_true]
      rw [if_pos trivial, columnSum_eq_zero, add_zero]
      rintro ⟨t', ht', h'⟩
      have := h.1 t' ht'; omega
    · simp only [stored, List.map_cons, List.find?_cons, htc, decide_false]
      rw [if_neg not_false, zero_add]
      exact ih h.2

end Sparse

/-- Sum of `value • A column` over the triplets, computed column by column. -/
theorem sum_columnSum_smul {S R : Type*} [Semiring S] [AddCommMonoid R] [Module S R] (A : ℕ → R) (n : ℕ)
    (l : List (Triplet S)) (h : ∀ t ∈ l, t.column < n) :
    ∑ c ∈ Finset.range n, columnSum l c • A c = (l.map fun t => t.value • A t.column).sum := by
  induction l with
  | nil => simp
  | cons t l ih =>
    simp only [columnSum_cons, List.map_cons, List.sum_cons]
    rw [← ih (fun t ht => h t (by simp [ht]))]
    simp only [add_smul]
    rw [Finset.sum_add_distrib]
    congr 1
    have : ∀ c, (if t.column = c then t.value else 0) • A c = if t.column = c then t.value • A t.column else 0 := by
      intro c; split
      · rename_i h; rw [← h]
      · simp
    simp only [this]
    rw [Finset.sum_ite_eq]
    simp [h t (by simp)]

theorem strict_of_sorted_nodup {S : Type*} {l s : List (Triplet S)} (h : TripletList.Sorted l s)
    (hn : (l.map Triplet.column).Nodup) : StrictColumns s := by
  have hs : (s.map Triplet.column).Nodup := (h.1.map _).nodup_iff.2 hn
  unfold StrictColumns
  rw [List.Nodup, List.pairwise_map] at hs
  refine (h.2.and hs).imp ?_
  intro a b ⟨h1, h2⟩
  omega

theorem not_strict_of_dup {S : Type*} {l s : List (Triplet S)} (h : TripletList.Sorted l s)
    (hn : ¬ (l.map Triplet.column).Nodup) : ¬ StrictColumns s := by
  intro hs
  apply hn
  rw [← (h.1.map Triplet.column).nodup_iff, List.Nodup, List.pairwise_map]
  exact hs.imp (fun h => by omega)

end Ieompp
