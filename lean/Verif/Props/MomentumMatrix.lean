import Verif.Props.Flow
import Verif.Lemmas.Fermion
import Mathlib.Data.Int.ModEq

/-! # C30: the momentum-space Liouvillian matrix -/

set_option autoImplicit false
set_option linter.unusedSectionVars false

namespace Ieompp

open Ieompp.Spec

namespace MomentumSpace
variable {S : Type*} [Field S]

/-- Third momentum of the basis monomial `(i1, i2)`. -/
def third (N q i1 i2 : ℕ) : ℕ := siteMod (i1 + i2 - q) N

theorem third_lt {N : ℕ} (hN : 0 < N) (q i1 i2 : ℕ) : third N q i1 i2 < N := by
  unfold third siteMod
  have h1 := Int.emod_nonneg ((i1 : ℤ) + i2 - q) (show (N : ℤ) ≠ 0 by omega)
  have h2 := Int.emod_lt_of_pos ((i1 : ℤ) + i2 - q) (show (0 : ℤ) < N by omega)
  omega

theorem entries_length (N q : ℕ) : (Spec.entries N q).length = N * N + 1 := by
  unfold Spec.entries
  rw [List.length_cons, length_flatMap_range N N _ (by simp)]

theorem entries_getElem (N q : ℕ) {i1 i2 : ℕ} (h1 : i1 < N) (h2 : i2 < N) :
    (Spec.entries N q)[get3opIndex N i1 i2]? = some (RealSpace.Spec.three i1 i2 (third N q i1 i2)) := by
  unfold Spec.entries get3opIndex
  rw [show 1 + i1 * N + i2 = (i1 * N + i2) + 1 by ring, List.getElem?_cons_succ,
    getElem?_flatMap_range N N _ (by simp) i1 i2 h1 h2]
  simp [h2, third]

/-- Every row but the first belongs to exactly one pair of momenta. -/
theorem index_surj (N : ℕ) {p : ℕ} (h0 : p ≠ 0) (hp : p < N * N + 1) :
    ∃ i1 i2, i1 < N ∧ i2 < N ∧ p = get3opIndex N i1 i2 := by
  have hN : 0 < N := by rcases Nat.eq_zero_or_pos N with rfl | h <;> omega
  refine ⟨(p - 1) / N, (p - 1) % N, ?_, Nat.mod_lt _ hN, ?_⟩
  · exact Nat.div_lt_of_lt_mul (by omega)
  · unfold get3opIndex
    have := Nat.div_add_mod (p - 1) N
    rw [mul_comm] at this; omega

theorem index_inj {N i1 i2 j1 j2 : ℕ} (h2 : i2 < N) (k2 : j2 < N) :
    get3opIndex N i1 i2 = get3opIndex N j1 j2 ↔ i1 = j1 ∧ i2 = j2 := by
  unfold get3opIndex
  constructor
  · intro h
    have h : i1 * N + i2 = j1 * N + j2 := by omega
    have e1 : i1 = j1 := by
      have := congrArg (· / N) h
      simp only [mul_comm _ N] at this
      rwa [Nat.mul_add_div (by omega), Nat.mul_add_div (by omega), Nat.div_eq_of_lt h2, Nat.div_eq_of_lt k2,
        add_zero, add_zero] at this
    subst e1; omega
  · rintro ⟨rfl, rfl⟩; rfl

theorem index_lt {N i1 i2 : ℕ} (h1 : i1 < N) (h2 : i2 < N) : get3opIndex N i1 i2 < N * N + 1 := by
  unfold get3opIndex
  have : (i1 + 1) * N ≤ N * N := Nat.mul_le_mul_right _ h1
  nlinarith

/-- The elements of a row. -/
def rowList (N q : ℕ) (eps : ℕ → S) (U : S) (row : ℕ) : List (Triplet S) :=
  (rowTriplets (Spec.entries N q) eps U N row).getD []

theorem rowTriplets_zero (N q : ℕ) (eps : ℕ → S) (U : S) : rowTriplets (Spec.entries N q) eps U N 0 =
    some (⟨0, 0, eps q + U / 2⟩ :: (List.range' 1 (N * N)).map (fun i => ⟨0, i, U / (2 * (N : S))⟩)) := by
  unfold rowTriplets
  rw [if_pos rfl, entries_length, Nat.add_sub_cancel]
  rfl

theorem rowTriplets_three (N q : ℕ) (eps : ℕ → S) (U : S) {i1 i2 : ℕ} (h1 : i1 < N) (h2 : i2 < N) :
    rowTriplets (Spec.entries N q) eps U N (get3opIndex N i1 i2) =
    some [⟨get3opIndex N i1 i2, 0, U / (2 * (N : S))⟩, ⟨get3opIndex N i1 i2, get3opIndex N i1 i2,
      eps i1 + eps i2 - eps (third N q i1 i2) + U / 2⟩] := by
  unfold rowTriplets
  rw [if_neg (by unfold get3opIndex; omega)]
  unfold RealSpace.basisSites
  rw [entries_getElem N q h1 h2]
  rfl

theorem row_ok (N q : ℕ) (eps : ℕ → S) (U : S) {row : ℕ} (hr : row < N * N + 1) :
    rowTriplets (Spec.entries N q) eps U N row = some (rowList N q eps U row) ∧
    StrictColumns (rowList N q eps U row) ∧ (∀ t ∈ rowList N q eps U row, t.column < N * N + 1) ∧
    (rowList N q eps U row).length = if row = 0 then N * N + 1 else 2 := by
  by_cases h0 : row = 0
  · subst h0
    have e := rowTriplets_zero N q eps U
    unfold rowList
    rw [e]
    refine ⟨rfl, ?_, ?_, by simp⟩
    · simp only [Option.getD_some]
      unfold StrictColumns
      rw [List.pairwise_cons]
      constructor
      · intro t ht
        rw [List.mem_map] at ht
        obtain ⟨i, hi, rfl⟩ := ht
        rw [List.mem_range'_1] at hi
        simp only; omega
      · rw [List.pairwise_map]
        exact List.pairwise_lt_range'
    · simp only [Option.getD_some, List.mem_cons, List.mem_map, List.mem_range'_1]
      rintro t (rfl | ⟨i, hi, rfl⟩)
      · simp
      · simp only; omega
  · obtain ⟨i1, i2, h1, h2, rfl⟩ := index_surj N h0 hr
    have e := rowTriplets_three N q eps U h1 h2
    unfold rowList
    rw [e, if_neg h0]
    refine ⟨rfl, ?_, ?_, rfl⟩
    · simp only [Option.getD_some, StrictColumns, List.pairwise_cons, List.mem_singleton, forall_eq,
        List.not_mem_nil, false_imp_iff, implies_true, List.Pairwise.nil, and_true]
      omega
    · simp only [Option.getD_some, List.mem_cons, List.not_mem_nil, or_false]
      rintro t (rfl | rfl)
      · simp
      · exact hr

theorem sum_first {f : ℕ → ℕ} {b : ℕ} (n : ℕ) (h : ∀ r, r ≠ 0 → f r = b) :
    ((List.range' 0 (n + 1)).map f).sum = f 0 + n * b := by
  rw [List.range'_succ, List.map_cons, List.sum_cons, zero_add]
  congr 1
  have : ∀ s, s ≠ 0 → ((List.range' s n).map f).sum = n * b := by
    induction n with
    | zero => simp
    | succ n ih =>
      intro s hs
      rw [List.range'_succ, List.map_cons, List.sum_cons, ih (s + 1) (by omega), h s hs]; ring
  exact this 1 one_ne_zero

/-- C30 (and C26 in momentum space): the momentum-space matrix is assembled within its reservation, all columns
increasing, with exactly `3N² + 1` elements; its elements are those listed. -/
theorem momentumMatrix_ok {N : ℕ} (hN : 0 < N) (q : ℕ) (eps : ℕ → S) (U : S) :
    ∃ m, initMatrix (Spec.entries N q) N eps U N = .val m ∧ m.rows = N * N + 1 ∧ m.columns = N * N + 1 ∧
      m.done.length = N * N + 1 ∧ m.cur = [] ∧ m.nonZeros = 3 * (N * N) + 1 ∧ m.nonZeros ≤ m.capacity ∧
      (∀ row < N * N + 1, ∀ c, m.get row c = columnSum (rowList N q eps U row) c) ∧
      m.get 0 0 = eps q + U / 2 ∧
      (∀ i1 < N, ∀ i2 < N, m.get 0 (get3opIndex N i1 i2) = U / (2 * (N : S))) ∧
      (∀ i1 < N, ∀ i2 < N, m.get (get3opIndex N i1 i2) 0 = U / (2 * (N : S))) ∧
      (∀ i1 < N, ∀ i2 < N, ∀ j1 < N, ∀ j2 < N, m.get (get3opIndex N i1 i2) (get3opIndex N j1 j2) =
        if i1 = j1 ∧ i2 = j2 then eps i1 + eps i2 - eps (siteMod (i1 + i2 - q) N) + U / 2 else 0) := by
  have len : ((List.range' 0 (N * N + 1)).map (fun r => (rowList N q eps U r).length)).sum = 3 * (N * N) + 1 := by
    have : (List.range' 0 (N * N + 1)).map (fun r => (rowList N q eps U r).length) =
        (List.range' 0 (N * N + 1)).map (fun r => if r = 0 then N * N + 1 else 2) := by
      apply List.map_congr_left
      intro r hr
      rw [List.mem_range'_1] at hr
      exact (row_ok N q eps U (by omega)).2.2.2
    rw [this, sum_first (b := 2) (N * N) (by intro r hr; rw [if_neg hr])]
    simp only [if_true]; ring
  have cap : 3 * (N * N) + 1 ≤ numberOfMatrixElements N := by
    unfold numberOfMatrixElements
    have : N * (1 + 3 * N) = N + 3 * (N * N) := by ring
    omega
  have fill : initMatrix (Spec.entries N q) N eps U N = .val ⟨N * N + 1, N * N + 1, numberOfMatrixElements N,
      [] ++ (List.range' 0 (N * N + 1)).map (fun r => Sparse.stored (rowList N q eps U r)), []⟩ := by
    unfold initMatrix
    rw [List.range_eq_range', entries_length]
    refine Sparse.fillRows_val _ (rowList N q eps U) (N * N + 1)
      (Sparse.init (N * N + 1) (numberOfMatrixElements N)) rfl (by simp [Sparse.init]) ?_ ?_
    · intro row _ hr
      have hr : row < N * N + 1 := by simpa [Sparse.init] using hr
      obtain ⟨h1, h2, h3, _⟩ := row_ok N q eps U hr
      exact ⟨h1, h2, h3⟩
    · have : (Sparse.init (S := S) (N * N + 1) (numberOfMatrixElements N)).nonZeros = 0 := by
        simp [Sparse.init, Sparse.nonZeros]
      rw [this, zero_add]
      show ((List.range' 0 (N * N + 1)).map (fun r => (rowList N q eps U r).length)).sum ≤ numberOfMatrixElements N
      rw [len]; exact cap
  have nz : (⟨N * N + 1, N * N + 1, numberOfMatrixElements N,
      [] ++ (List.range' 0 (N * N + 1)).map (fun r => Sparse.stored (rowList N q eps U r)), []⟩ : Sparse S).nonZeros
      = 3 * (N * N) + 1 := by
    rw [← len]
    simp [Sparse.nonZeros, Function.comp_def, Sparse.stored]
  have get : ∀ row < N * N + 1, ∀ c, (⟨N * N + 1, N * N + 1, numberOfMatrixElements N,
      [] ++ (List.range' 0 (N * N + 1)).map (fun r => Sparse.stored (rowList N q eps U r)), []⟩ : Sparse S).get row c
      = columnSum (rowList N q eps U row) c := fun row hr c =>
    RealSpace.get_of_done (L := rowList N q eps U) (n := N * N + 1) rfl hr (row_ok N q eps U hr).2.1 c
  have z : (List.range' 1 (N * N)).map (fun i => (⟨0, i, U / (2 * (N : S))⟩ : Triplet S)) =
      (List.range' 1 (N * N)).map (fun i => ⟨0, (fun n => n) i, U / (2 * (N : S))⟩) := rfl
  have row0 : ∀ c, columnSum (rowList N q eps U 0) c = (if c = 0 then eps q + U / 2 else 0) +
      if c ∈ List.range' 1 (N * N) then U / (2 * (N : S)) else 0 := by
    intro c
    unfold rowList
    rw [rowTriplets_zero, Option.getD_some, columnSum_cons, z,
      columnSum_map 0 (List.range' 1 (N * N)) (fun n => n) _ _ (by simpa using List.nodup_range')]
    simp only [List.map_id', eq_comm]
  have row3 : ∀ i1 < N, ∀ i2 < N, ∀ c, columnSum (rowList N q eps U (get3opIndex N i1 i2)) c =
      (if 0 = c then U / (2 * (N : S)) else 0) + if get3opIndex N i1 i2 = c then
        eps i1 + eps i2 - eps (third N q i1 i2) + U / 2 else 0 := by
    intro i1 h1 i2 h2 c
    unfold rowList
    rw [rowTriplets_three N q eps U h1 h2, Option.getD_some, columnSum_cons, columnSum_cons, columnSum_nil, add_zero]
  have pos : ∀ i1 i2, get3opIndex N i1 i2 ≠ 0 := by intro i1 i2; unfold get3opIndex; omega
  refine ⟨_, fill, rfl, rfl, by simp, rfl, nz, by rw [nz]; exact cap, get, ?_, ?_, ?_, ?_⟩
  · rw [get 0 (by omega), row0, if_pos rfl, if_neg (by simp [List.mem_range'_1]), add_zero]
  · intro i1 h1 i2 h2
    have := index_lt h1 h2
    have h0 := pos i1 i2
    rw [get 0 (by omega), row0, if_neg h0, if_pos, zero_add]
    rw [List.mem_range'_1]; omega
  · intro i1 h1 i2 h2
    rw [get _ (index_lt h1 h2), row3 i1 h1 i2 h2, if_pos rfl, if_neg (pos i1 i2), add_zero]
  · intro i1 h1 i2 h2 j1 k1 j2 k2
    rw [get _ (index_lt h1 h2), row3 i1 h1 i2 h2, if_neg (pos j1 j2).symm, zero_add]
    simp only [index_inj h2 k2]
    rfl

/-- C29 in momentum space: the matrix is symmetric. -/
theorem momentumMatrix_symm {N : ℕ} (hN : 0 < N) (q : ℕ) (eps : ℕ → S) (U : S) :
    ∃ m, initMatrix (Spec.entries N q) N eps U N = .val m ∧
      ∀ i < m.rows, ∀ j < m.columns, m.get i j = m.get j i := by
  obtain ⟨m, h1, h2, h3, _, _, _, _, _, _, h5, h6, h7⟩ := momentumMatrix_ok hN q eps U
  refine ⟨m, h1, ?_⟩
  rw [h2, h3]
  intro i hi j hj
  rcases Nat.eq_zero_or_pos i with rfl | pi
  · rcases Nat.eq_zero_or_pos j with rfl | pj
    · rfl
    · obtain ⟨j1, j2, a, b, rfl⟩ := index_surj N (by omega) hj
      rw [h5 j1 a j2 b, h6 j1 a j2 b]
  · obtain ⟨i1, i2, a, b, rfl⟩ := index_surj N (by omega) hi
    rcases Nat.eq_zero_or_pos j with rfl | pj
    · rw [h5 i1 a i2 b, h6 i1 a i2 b]
    · obtain ⟨j1, j2, c, d, rfl⟩ := index_surj N (by omega) hj
      rw [h7 i1 a i2 b j1 c j2 d, h7 j1 c j2 d i1 a i2 b]
      by_cases h : i1 = j1 ∧ i2 = j2
      · obtain ⟨rfl, rfl⟩ := h; rfl
      · rw [if_neg h, if_neg (fun h' => h ⟨h'.1.symm, h'.2.symm⟩)]

/-- C29 in momentum space: the flow `v' = i M v` conserves the norm. -/
theorem momentumMatrix_flow_norm {N : ℕ} (hN : 0 < N) (q : ℕ) (eps : ℕ → ℝ) (U : ℝ) :
    ∃ m, initMatrix (Spec.entries N q) N eps U N = .val m ∧ m.rows = N * N + 1 ∧
      ∀ v : ℝ → ℕ → ℂ, (∀ t, ∀ p < m.rows, HasDerivAt (fun t => v t p)
        (Complex.I * ∑ q ∈ Finset.range m.rows, (m.get p q : ℂ) * v t q) t) →
      ∀ t s, ∑ p ∈ Finset.range m.rows, ‖v t p‖ ^ 2 = ∑ p ∈ Finset.range m.rows, ‖v s p‖ ^ 2 := by
  obtain ⟨m, h1, h2, h3, _⟩ := momentumMatrix_ok hN q eps U
  obtain ⟨m', h1', hs⟩ := momentumMatrix_symm hN q eps U
  rw [h1] at h1'
  cases h1'
  rw [h3, ← h2] at hs
  exact ⟨m, h1, h2, fun v hv t s => flow_norm m.rows (fun p q => m.get p q) hs v hv t s⟩

end MomentumSpace

end Ieompp
