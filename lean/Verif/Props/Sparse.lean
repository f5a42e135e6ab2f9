import Verif.Lemmas.Sparse
import Verif.Spec.Hubbard
import Verif.Props.Basis
import Verif.Props.Square
import Mathlib.Data.List.Sort
import Mathlib.Tactic.Linarith
import Mathlib.Algebra.BigOperators.Ring.List

/-! # C26, C29: assembly of the Liouvillian matrices, their elements and their symmetry -/

set_option autoImplicit false
set_option linter.unusedSectionVars false

namespace Ieompp

open Spec

/-! ## Regular lattices -/

section
variable {K : Type*} [Field K] [LinearOrder K] [IsStrictOrderedRing K] [FloorRing K]

/-- Every periodic chain with at least three sites is regular with coordination number 2. -/
theorem chain_regular {c : Chain K} {N : ℕ} (hc : c.Constructed N) (hN : 3 ≤ N) :
    RegularLattice N 2 c.neighbors where
  length _ _ := rfl
  lt a ha b hb := chain_neighbors_lt hc a ha b hb
  nodup a ha := (List.nodup_cons.1 (chain_neighbors_nodup hc hN a ha)).2
  irrefl a ha := (List.nodup_cons.1 (chain_neighbors_nodup hc hN a ha)).1
  symm a ha b hb h := (chain_neighbors_symm hc a b ha hb).1 h

/-- Every periodic square lattice N×N with N ≥ 3 is regular with coordination number 4. -/
theorem square_regular {s : Square K} {N : ℕ} (hs : s.Constructed N N) (hN : 3 ≤ N) :
    RegularLattice (N * N) 4 s.neighbors where
  length _ _ := rfl
  lt := (square_neighbors_partial hs).1
  nodup a ha := by
    obtain ⟨x, y, hx, hy, rfl⟩ : ∃ x y, x < N ∧ y < N ∧ s.index x y = a :=
      ⟨_, _, (((square_index_iff hs).2 rfl).2 a ha).1, (((square_index_iff hs).2 rfl).2 a ha).2.1,
        (((square_index_iff hs).2 rfl).2 a ha).2.2⟩
    rw [square_neighbors_index hs hy]
    simp only [List.nodup_cons, List.mem_cons, List.not_mem_nil, or_false, not_or, List.nodup_nil, not_false_iff,
      and_true]
    have hb1 : (if y = 0 then N - 1 else y - 1) < N := by split_ifs <;> omega
    have hb2 : (if y = N - 1 then 0 else y + 1) < N := by split_ifs <;> omega
    rw [square_index_inj hs hy hb1, square_index_inj hs hy hy, square_index_inj hs hy hb2,
      square_index_inj hs hb1 hy, square_index_inj hs hb1 hb2, square_index_inj hs hy hb2]
    refine ⟨⟨?_, ?_, ?_⟩, ⟨?_, ?_⟩, ?_⟩ <;> rintro ⟨p, q⟩ <;> split_ifs at p q <;> omega
  irrefl a ha := by
    obtain ⟨x, y, hx, hy, rfl⟩ : ∃ x y, x < N ∧ y < N ∧ s.index x y = a :=
      ⟨_, _, (((square_index_iff hs).2 rfl).2 a ha).1, (((square_index_iff hs).2 rfl).2 a ha).2.1,
        (((square_index_iff hs).2 rfl).2 a ha).2.2⟩
    rw [square_neighbors_index hs hy]
    have hb1 : (if y = 0 then N - 1 else y - 1) < N := by split_ifs <;> omega
    have hb2 : (if y = N - 1 then 0 else y + 1) < N := by split_ifs <;> omega
    simp only [List.mem_cons, List.not_mem_nil, or_false, not_or]
    rw [square_index_inj hs hy hy, square_index_inj hs hy hb1, square_index_inj hs hy hy, square_index_inj hs hy hb2]
    refine ⟨?_, ?_, ?_, ?_⟩ <;> rintro ⟨p, q⟩ <;> split_ifs at p q <;> omega
  symm a ha b hb h := ((square_neighbors_partial hs).2.2.1 a ha b hb).1 h

end

/-! ## C26: the assembly of the real-space matrices -/

/-- `sort` meets the contract of `std::sort` with the column comparator. -/
def IsSort {S : Type*} (sort : List (Triplet S) → List (Triplet S)) : Prop :=
  ∀ l, TripletList.Sorted l (sort l)

theorem sum_range'_le (f : ℕ → ℕ) (B a n : ℕ) (h : ∀ r, a ≤ r → r < a + n → f r ≤ B) :
    ((List.range' a n).map f).sum ≤ n * B := by
  induction n generalizing a with
  | zero => simp
  | succ n ih =>
    rw [List.range'_succ, List.map_cons, List.sum_cons]
    have h1 := h a (le_refl _) (by omega)
    have h2 := ih (a + 1) (fun r a b => h r (by omega) (by omega))
    have : (n + 1) * B = n * B + B := by ring
    omega

section Columns
variable {S : Type*} [AddCommMonoid S]

/-- Column sum of one group of triplets. -/
theorem columnSum_map (row : ℕ) (l : List ℕ) (f : ℕ → ℕ) (v : S) (c : ℕ) (hn : (l.map f).Nodup) :
    columnSum (l.map fun n => (⟨row, f n, v⟩ : Triplet S)) c = if c ∈ l.map f then v else 0 := by
  induction l with
  | nil => simp
  | cons n l ih =>
    rw [List.map_cons, List.nodup_cons] at hn
    rw [List.map_cons, columnSum_cons, ih hn.2]
    simp only [List.map_cons, List.mem_cons]
    by_cases h : f n = c
    · subst h
      simp [hn.1]
    · have : ¬ c = f n := fun e => h e.symm
      simp [h, this]

theorem columnSum_singleton (row col : ℕ) (v : S) (c : ℕ) :
    columnSum [(⟨row, col, v⟩ : Triplet S)] c = if c = col then v else 0 := by
  rw [columnSum_cons, columnSum_nil, add_zero]
  simp only [eq_comm]

end Columns

namespace RealSpace
variable {S : Type*} [Field S]

theorem get3opIndex_inj {N a b c a' b' c' : ℕ} (ha : a < N) (hb : b < N) (hc : c < N) (ha' : a' < N) (hb' : b' < N)
    (hc' : c' < N) : get3opIndex N a b c = get3opIndex N a' b' c' ↔ a = a' ∧ b = b' ∧ c = c' := by
  constructor
  · exact (realBasis_index_bijective N).2.2 a b c a' b' c' ha hb hc ha' hb' hc'
  · rintro ⟨rfl, rfl, rfl⟩; rfl

theorem basisSites_three {N a b c : ℕ} (ha : a < N) (hb : b < N) (hc : c < N) :
    basisSites (basis3 N) (get3opIndex N a b c) = some (a, b, c) := by
  unfold basisSites
  rw [(realBasis_getElem N).2 a b c ha hb hc]
  rfl

theorem rowTriplets_three {N a b c : ℕ} (nb : ℕ → List ℕ) (J U : S) (ha : a < N) (hb : b < N) (hc : c < N) :
    rowTriplets N nb J U (get3opIndex N a b c) = some (threeTriplets N nb J U (get3opIndex N a b c) a b c) := by
  unfold rowTriplets
  rw [if_neg (by have := ((realBasis_index_bijective N).1 a b c ha hb hc).1; omega), basisSites_three ha hb hc]
  rfl

theorem rowTriplets_one {N i : ℕ} (nb : ℕ → List ℕ) (J U : S) (hi : i < N) :
    rowTriplets N nb J U i = some (oneTriplets N nb J U i) := by
  unfold rowTriplets; rw [if_pos hi]

variable {N z : ℕ} {nb : ℕ → List ℕ}

theorem kinetic_columns (h : RegularLattice N z nb) (J : S) {i : ℕ} (hi : i < N) :
    ((kineticTriplets nb J i).map Triplet.column).Nodup ∧ (∀ t ∈ kineticTriplets nb J i, t.column < N) ∧
    (kineticTriplets nb J i).length = z := by
  refine ⟨?_, ?_, ?_⟩
  · simpa [kineticTriplets, Function.comp_def] using h.nodup i hi
  · intro t ht
    simp only [kineticTriplets, List.mem_map] at ht
    obtain ⟨n, hn, rfl⟩ := ht
    exact h.lt i hi n hn
  · simp [kineticTriplets, h.length i hi]

theorem one_columns (h : RegularLattice N z nb) (J U : S) {i : ℕ} (hi : i < N) :
    ((oneTriplets N nb J U i).map Triplet.column).Nodup ∧
    (∀ t ∈ oneTriplets N nb J U i, t.column < N + N * N * N) ∧ (oneTriplets N nb J U i).length = z + 2 := by
  have hb := (realBasis_index_bijective N).1 i i i hi hi hi
  refine ⟨?_, ?_, ?_⟩
  · have e : (oneTriplets N nb J U i).map Triplet.column = nb i ++ [i, get3opIndex N i i i] := by
      simp [oneTriplets, Function.comp_def]
    rw [e, List.nodup_append]
    refine ⟨h.nodup i hi, ?_, ?_⟩
    · simp only [List.nodup_cons, List.mem_singleton, List.not_mem_nil, not_false_iff, List.nodup_nil, and_true]
      omega
    · intro x hx y hy
      have := h.lt i hi x hx
      simp only [List.mem_cons, List.not_mem_nil, or_false] at hy
      rcases hy with rfl | rfl
      · rintro rfl; exact h.irrefl _ hi hx
      · omega
  · intro t ht
    simp only [oneTriplets, List.mem_append, List.mem_map, List.mem_cons, List.not_mem_nil, or_false] at ht
    rcases ht with ⟨n, hn, rfl⟩ | rfl | rfl
    · have := h.lt i hi n hn; simp only; omega
    · simp only; omega
    · exact hb.2
  · simp [oneTriplets, h.length i hi]

theorem three_columns (h : RegularLattice N z nb) (J U : S) {a b c : ℕ} (ha : a < N) (hb : b < N) (hc : c < N) :
    ((threeTriplets N nb J U (get3opIndex N a b c) a b c).map Triplet.column).Nodup ∧
    (∀ t ∈ threeTriplets N nb J U (get3opIndex N a b c) a b c, t.column < N + N * N * N) ∧
    (threeTriplets N nb J U (get3opIndex N a b c) a b c).length ≤ 3 * z + 2 := by
  have hbij := (realBasis_index_bijective N).1
  refine ⟨?_, ?_, ?_⟩
  · have e : (threeTriplets N nb J U (get3opIndex N a b c) a b c).map Triplet.column =
        (nb a).map (fun n => get3opIndex N n b c) ++ (nb b).map (fun n => get3opIndex N a n c) ++
        (nb c).map (fun n => get3opIndex N a b n) ++ (if a = b ∧ a = c then [a] else []) ++ [get3opIndex N a b c] := by
      unfold threeTriplets
      split_ifs <;> simp [Function.comp_def]
    rw [e]
    have n1 : ((nb a).map (fun n => get3opIndex N n b c)).Nodup := by
      refine List.Nodup.map_on ?_ (h.nodup a ha)
      intro x hx y hy hxy
      exact ((get3opIndex_inj (h.lt a ha x hx) hb hc (h.lt a ha y hy) hb hc).1 hxy).1
    have n2 : ((nb b).map (fun n => get3opIndex N a n c)).Nodup := by
      refine List.Nodup.map_on ?_ (h.nodup b hb)
      intro x hx y hy hxy
      exact ((get3opIndex_inj ha (h.lt b hb x hx) hc ha (h.lt b hb y hy) hc).1 hxy).2.1
    have n3 : ((nb c).map (fun n => get3opIndex N a b n)).Nodup := by
      refine List.Nodup.map_on ?_ (h.nodup c hc)
      intro x hx y hy hxy
      exact ((get3opIndex_inj ha hb (h.lt c hc x hx) ha hb (h.lt c hc y hy)).1 hxy).2.2
    have d12 : ∀ x ∈ (nb a).map (fun n => get3opIndex N n b c), ∀ y ∈ (nb b).map (fun n => get3opIndex N a n c),
        x ≠ y := by
      intro x hx y hy
      rw [List.mem_map] at hx hy
      obtain ⟨m, hm, rfl⟩ := hx
      obtain ⟨n, hn, rfl⟩ := hy
      rw [Ne, get3opIndex_inj (h.lt a ha m hm) hb hc ha (h.lt b hb n hn) hc]
      rintro ⟨rfl, _⟩; exact h.irrefl _ ha hm
    have d3 : ∀ x ∈ (nb a).map (fun n => get3opIndex N n b c) ++ (nb b).map (fun n => get3opIndex N a n c),
        ∀ y ∈ (nb c).map (fun n => get3opIndex N a b n), x ≠ y := by
      intro x hx y hy
      rw [List.mem_append, List.mem_map, List.mem_map] at hx
      rw [List.mem_map] at hy
      obtain ⟨n, hn, rfl⟩ := hy
      rcases hx with ⟨m, hm, rfl⟩ | ⟨m, hm, rfl⟩
      · rw [Ne, get3opIndex_inj (h.lt a ha m hm) hb hc ha hb (h.lt c hc n hn)]
        rintro ⟨rfl, _⟩; exact h.irrefl _ ha hm
      · rw [Ne, get3opIndex_inj ha (h.lt b hb m hm) hc ha hb (h.lt c hc n hn)]
        rintro ⟨_, rfl, _⟩; exact h.irrefl _ hb hm
    have big : ∀ x ∈ (nb a).map (fun n => get3opIndex N n b c) ++ (nb b).map (fun n => get3opIndex N a n c) ++
        (nb c).map (fun n => get3opIndex N a b n), N ≤ x ∧ x ≠ get3opIndex N a b c := by
      intro x hx
      rw [List.mem_append, List.mem_append, List.mem_map, List.mem_map, List.mem_map] at hx
      rcases hx with (⟨m, hm, rfl⟩ | ⟨m, hm, rfl⟩) | ⟨m, hm, rfl⟩
      · refine ⟨(hbij _ _ _ (h.lt a ha m hm) hb hc).1, ?_⟩
        rw [Ne, get3opIndex_inj (h.lt a ha m hm) hb hc ha hb hc]
        rintro ⟨rfl, _⟩; exact h.irrefl _ ha hm
      · refine ⟨(hbij _ _ _ ha (h.lt b hb m hm) hc).1, ?_⟩
        rw [Ne, get3opIndex_inj ha (h.lt b hb m hm) hc ha hb hc]
        rintro ⟨_, rfl, _⟩; exact h.irrefl _ hb hm
      · refine ⟨(hbij _ _ _ ha hb (h.lt c hc m hm)).1, ?_⟩
        rw [Ne, get3opIndex_inj ha hb (h.lt c hc m hm) ha hb hc]
        rintro ⟨_, _, rfl⟩; exact h.irrefl _ hc hm
    rw [List.nodup_append, List.nodup_append, List.nodup_append, List.nodup_append]
    refine ⟨⟨⟨⟨n1, n2, d12⟩, n3, d3⟩, ?_, ?_⟩, by simp, ?_⟩
    · split_ifs <;> simp
    · intro x hx y hy
      have h1 := big x hx
      split_ifs at hy
      · simp only [List.mem_singleton] at hy; omega
      · simp at hy
    · intro x hx y hy
      rw [List.mem_singleton] at hy
      subst hy
      rw [List.mem_append] at hx
      rcases hx with hx | hx
      · exact (big x hx).2
      · have := (hbij a b c ha hb hc).1
        split_ifs at hx
        · simp only [List.mem_singleton] at hx; omega
        · simp at hx
  · intro t ht
    unfold threeTriplets at ht
    simp only [List.mem_append, List.mem_map, List.mem_singleton] at ht
    rcases ht with (((⟨n, hn, rfl⟩ | ⟨n, hn, rfl⟩) | ⟨n, hn, rfl⟩) | ht) | rfl
    · exact (hbij _ _ _ (h.lt a ha n hn) hb hc).2
    · exact (hbij _ _ _ ha (h.lt b hb n hn) hc).2
    · exact (hbij _ _ _ ha hb (h.lt c hc n hn)).2
    · split_ifs at ht
      · rw [List.mem_singleton] at ht; subst ht; simp only; omega
      · simp at ht
    · exact (hbij _ _ _ ha hb hc).2
  · unfold threeTriplets
    simp only [List.length_append, List.length_map, List.length_singleton, h.length a ha, h.length b hb, h.length c hc]
    split_ifs <;> simp <;> omega

/-- The triplets of row `row` of the complete matrix. -/
noncomputable def rowList (N : ℕ) (nb : ℕ → List ℕ) (J U : S) (row : ℕ) : List (Triplet S) :=
  (rowTriplets N nb J U row).getD []

theorem row_columns (h : RegularLattice N z nb) (J U : S) {row : ℕ} (hr : row < N + N * N * N) :
    rowTriplets N nb J U row = some (rowList N nb J U row) ∧ ((rowList N nb J U row).map Triplet.column).Nodup ∧
    (∀ t ∈ rowList N nb J U row, t.column < N + N * N * N) ∧
    (rowList N nb J U row).length ≤ (if row < N then z + 2 else 3 * z + 2) := by
  by_cases hN : row < N
  · have e := rowTriplets_one nb J U hN
    have e' : rowList N nb J U row = oneTriplets N nb J U row := by unfold rowList; rw [e]; rfl
    rw [e', if_pos hN]
    obtain ⟨h1, h2, h3⟩ := one_columns h J U hN
    exact ⟨e, h1, h2, le_of_eq h3⟩
  · obtain ⟨a, b, c, ha, hb, hc, rfl⟩ := (realBasis_index_bijective N).2.1 row (by omega) hr
    have e := rowTriplets_three nb J U ha hb hc
    have e' : rowList N nb J U (get3opIndex N a b c) = threeTriplets N nb J U (get3opIndex N a b c) a b c := by
      unfold rowList; rw [e]; rfl
    rw [e', if_neg hN]
    obtain ⟨h1, h2, h3⟩ := three_columns h J U ha hb hc
    exact ⟨e, h1, h2, h3⟩

/-- A matrix assembled with strictly increasing rows holds the column sums. -/
theorem get_of_done {m : Sparse S} {L : ℕ → List (Triplet S)} {n : ℕ}
    (hd : m.done = (List.range' 0 n).map (fun r => Sparse.stored (L r))) {row : ℕ} (hr : row < n)
    (hs : StrictColumns (L row)) (c : ℕ) : m.get row c = columnSum (L row) c := by
  unfold Sparse.get
  have : m.done.getD row [] = Sparse.stored (L row) := by
    rw [hd]; simp [List.getD, hr]
  rw [this]
  exact Sparse.find_stored (L row) hs c

/-- C26: on every regular lattice the kinetic matrix is assembled without violating blaze's contract: no
out-of-order append, no overflow of the reservation; all N rows are finalised. -/
theorem initKineticMatrix_ok (h : RegularLattice N z nb) (sort : List (Triplet S) → List (Triplet S)) (hs : IsSort sort)
    (J : S) : ∃ m, initKineticMatrix sort N z nb J = .val m ∧ m.rows = N ∧ m.columns = N ∧ m.done.length = N ∧
      m.cur = [] ∧ m.nonZeros ≤ m.capacity ∧
      ∀ i < N, ∀ j < N, m.get i j = if j ∈ nb i then -J else 0 := by
  have hlen : (basis1 N).length = N := (realBasis_size N).1
  have hL : ∀ i < N, StrictColumns (sort (kineticTriplets nb J i)) := fun i hi =>
    strict_of_sorted_nodup (hs _) (kinetic_columns h J hi).1
  have cap : ((List.range' 0 N).map (fun r => (sort (kineticTriplets nb J r)).length)).sum ≤ N * z := by
    apply sum_range'_le
    intro r _ hr
    rw [(hs _).1.length_eq, (kinetic_columns h J (by omega)).2.2]
  have fill : initKineticMatrix sort N z nb J = .val ⟨N, N, numberOfKineticElements1 N z,
      [] ++ (List.range' 0 N).map (fun r => Sparse.stored (sort (kineticTriplets nb J r))), []⟩ := by
    unfold initKineticMatrix
    rw [List.range_eq_range', hlen]
    refine Sparse.fillRows_val _ (fun r => sort (kineticTriplets nb J r)) N (Sparse.init N (numberOfKineticElements1 N z))
      rfl (by simp [Sparse.init]) ?_ ?_
    · intro row _ hr
      have hr : row < N := by simpa [Sparse.init] using hr
      refine ⟨rfl, hL row hr, ?_⟩
      intro t ht
      exact (kinetic_columns h J hr).2.1 t ((hs _).1.mem_iff.1 ht)
    · simpa [Sparse.init, Sparse.nonZeros, numberOfKineticElements1] using cap
  · refine ⟨_, fill, rfl, rfl, by simp, rfl, ?_, ?_⟩
    · simp only [Sparse.nonZeros, numberOfKineticElements1, List.nil_append, List.map_map,
        List.length_nil, add_zero]
      simpa [Function.comp_def, Sparse.stored] using cap
    · intro i hi j hj
      rw [get_of_done (L := fun r => sort (kineticTriplets nb J r)) (n := N) rfl hi (hL i hi),
        columnSum_perm (hs _).1]
      unfold kineticTriplets
      rw [columnSum_map i (nb i) (fun n => n) (-J) j (by simpa using h.nodup i hi)]
      simp

theorem columnSum_one (h : RegularLattice N z nb) (J U : S) {i : ℕ} (hi : i < N) (y : Label) (hy : y.Valid N) :
    columnSum (oneTriplets N nb J U i) (y.pos N) = element nb J U (.one i) y := by
  unfold oneTriplets
  have e : ([⟨i, i, U / 2⟩, ⟨i, get3opIndex N i i i, U / 2⟩] : List (Triplet S))
      = [⟨i, i, U / 2⟩] ++ [⟨i, get3opIndex N i i i, U / 2⟩] := rfl
  have key : ∀ p, columnSum ((nb i).map (fun n => (⟨i, n, -J⟩ : Triplet S)) ++
      [⟨i, i, U / 2⟩, ⟨i, get3opIndex N i i i, U / 2⟩]) p = (if p ∈ nb i then -J else 0) +
      ((if p = i then U / 2 else 0) + if p = get3opIndex N i i i then U / 2 else 0) := by
    intro p
    rw [e, columnSum_append, columnSum_append, columnSum_singleton, columnSum_singleton,
      columnSum_map i (nb i) (fun n => n) (-J) _ (by simpa using h.nodup i hi)]
    simp only [List.map_id']
  have hbi := (realBasis_index_bijective N).1 i i i hi hi hi
  cases y with
  | one j =>
    rw [show Label.pos N (.one j) = j from rfl, key]
    simp only [Label.Valid] at hy
    have : ¬ j = get3opIndex N i i i := by omega
    rw [if_neg this, add_zero]
    simp only [element, eq_comm]
  | three a b c =>
    obtain ⟨ha, hb, hc⟩ := hy
    have hp : Label.pos N (.three a b c) = get3opIndex N a b c := rfl
    have hbx := (realBasis_index_bijective N).1 a b c ha hb hc
    rw [hp, key, if_neg (fun hm => by have := h.lt i hi _ hm; omega), if_neg (by omega), zero_add, zero_add]
    simp only [get3opIndex_inj ha hb hc hi hi hi, element]
    simp only [eq_comm]

theorem columnSum_three (h : RegularLattice N z nb) (J U : S) {a b c : ℕ} (ha : a < N) (hb : b < N) (hc : c < N)
    (y : Label) (hy : y.Valid N) :
    columnSum (threeTriplets N nb J U (get3opIndex N a b c) a b c) (y.pos N) = element nb J U (.three a b c) y := by
  have hbij := (realBasis_index_bijective N).1
  have hbx := hbij a b c ha hb hc
  have hn := (three_columns h J U ha hb hc).1
  unfold threeTriplets at hn ⊢
  simp only [List.map_append, List.map_map, Function.comp_def] at hn
  rw [List.nodup_append, List.nodup_append, List.nodup_append, List.nodup_append] at hn
  obtain ⟨⟨⟨⟨n1, n2, _⟩, n3, _⟩, _, _⟩, _⟩ := hn
  have key : ∀ p, columnSum (((((nb a).map fun n => (⟨get3opIndex N a b c, get3opIndex N n b c, -J⟩ : Triplet S)) ++
      (nb b).map fun n => ⟨get3opIndex N a b c, get3opIndex N a n c, -J⟩) ++
      (nb c).map fun n => ⟨get3opIndex N a b c, get3opIndex N a b n, J⟩) ++
      (if a = b ∧ a = c then [⟨get3opIndex N a b c, a, U / 2⟩] else []) ++
      [⟨get3opIndex N a b c, get3opIndex N a b c, U / 2⟩]) p =
      (if p ∈ (nb a).map (fun n => get3opIndex N n b c) then -J else 0) +
      (if p ∈ (nb b).map (fun n => get3opIndex N a n c) then -J else 0) +
      (if p ∈ (nb c).map (fun n => get3opIndex N a b n) then J else 0) +
      (if a = b ∧ a = c ∧ p = a then U / 2 else 0) + (if p = get3opIndex N a b c then U / 2 else 0) := by
    intro p
    rw [columnSum_append, columnSum_append, columnSum_append, columnSum_append, columnSum_singleton,
      columnSum_map _ (nb a) (fun n => get3opIndex N n b c) _ _ n1,
      columnSum_map _ (nb b) (fun n => get3opIndex N a n c) _ _ n2,
      columnSum_map _ (nb c) (fun n => get3opIndex N a b n) _ _ n3]
    congr 2
    by_cases hab : a = b ∧ a = c
    · rw [if_pos hab, columnSum_singleton]; simp only [hab.1.symm, hab.2.symm, true_and]
    · rw [if_neg hab, columnSum_nil, if_neg]
      rintro ⟨h1, h2, _⟩; exact hab ⟨h1, h2⟩
  have m1 : ∀ y, y < N → get3opIndex N a b c ≠ y := by intro y hy; omega
  cases y with
  | one j =>
    rw [show Label.pos N (.one j) = j from rfl, key]
    simp only [Label.Valid] at hy
    have q1 : ¬ j ∈ (nb a).map (fun n => get3opIndex N n b c) := by
      rw [List.mem_map]; rintro ⟨n, hn, e⟩
      have := (hbij n b c (h.lt a ha n hn) hb hc).1; omega
    have q2 : ¬ j ∈ (nb b).map (fun n => get3opIndex N a n c) := by
      rw [List.mem_map]; rintro ⟨n, hn, e⟩
      have := (hbij a n c ha (h.lt b hb n hn) hc).1; omega
    have q3 : ¬ j ∈ (nb c).map (fun n => get3opIndex N a b n) := by
      rw [List.mem_map]; rintro ⟨n, hn, e⟩
      have := (hbij a b n ha hb (h.lt c hc n hn)).1; omega
    rw [if_neg q1, if_neg q2, if_neg q3, if_neg (c := j = get3opIndex N a b c) (fun e => m1 j hy e.symm)]
    simp only [zero_add, add_zero, element]
    have : (a = b ∧ a = c ∧ j = a) ↔ (j = a ∧ j = b ∧ j = c) := by omega
    simp only [this]
  | three a' b' c' =>
    obtain ⟨ha', hb', hc'⟩ := hy
    have hp : Label.pos N (.three a' b' c') = get3opIndex N a' b' c' := rfl
    have hbx' := hbij a' b' c' ha' hb' hc'
    rw [hp]
    rw [key, if_neg (c := a = b ∧ a = c ∧ get3opIndex N a' b' c' = a) (by omega), add_zero]
    simp only [element]
    have i1 : get3opIndex N a' b' c' ∈ (nb a).map (fun n => get3opIndex N n b c) ↔ a' ∈ nb a ∧ b' = b ∧ c' = c := by
      rw [List.mem_map]
      constructor
      · rintro ⟨n, hn, e⟩
        rw [get3opIndex_inj (h.lt a ha n hn) hb hc ha' hb' hc'] at e
        exact ⟨e.1 ▸ hn, e.2.1.symm, e.2.2.symm⟩
      · rintro ⟨hn, rfl, rfl⟩; exact ⟨a', hn, rfl⟩
    have i2 : get3opIndex N a' b' c' ∈ (nb b).map (fun n => get3opIndex N a n c) ↔ a' = a ∧ b' ∈ nb b ∧ c' = c := by
      rw [List.mem_map]
      constructor
      · rintro ⟨n, hn, e⟩
        rw [get3opIndex_inj ha (h.lt b hb n hn) hc ha' hb' hc'] at e
        exact ⟨e.1.symm, e.2.1 ▸ hn, e.2.2.symm⟩
      · rintro ⟨rfl, hn, rfl⟩; exact ⟨b', hn, rfl⟩
    have i3 : get3opIndex N a' b' c' ∈ (nb c).map (fun n => get3opIndex N a b n) ↔ a' = a ∧ b' = b ∧ c' ∈ nb c := by
      rw [List.mem_map]
      constructor
      · rintro ⟨n, hn, e⟩
        rw [get3opIndex_inj ha hb (h.lt c hc n hn) ha' hb' hc'] at e
        exact ⟨e.1.symm, e.2.1.symm, e.2.2 ▸ hn⟩
      · rintro ⟨rfl, rfl, hn⟩; exact ⟨c', hn, rfl⟩
    simp only [i1, i2, i3, get3opIndex_inj ha' hb' hc' ha hb hc]

theorem label_of_lt {p : ℕ} (hp : p < N + N * N * N) : ∃ x : Label, x.Valid N ∧ x.pos N = p := by
  by_cases h : p < N
  · exact ⟨.one p, h, rfl⟩
  · obtain ⟨a, b, c, ha, hb, hc, rfl⟩ := (realBasis_index_bijective N).2.1 p (by omega) hp
    exact ⟨.three a b c, ⟨ha, hb, hc⟩, rfl⟩

theorem label_pos_lt {x : Label} (hx : x.Valid N) : x.pos N < N + N * N * N := by
  cases x with
  | one i => simp only [Label.pos, Label.Valid] at *; omega
  | three a b c => exact ((realBasis_index_bijective N).1 a b c hx.1 hx.2.1 hx.2.2).2

theorem columnSum_rowList (h : RegularLattice N z nb) (J U : S) {x y : Label} (hx : x.Valid N) (hy : y.Valid N) :
    columnSum (rowList N nb J U (x.pos N)) (y.pos N) = element nb J U x y := by
  unfold rowList
  cases x with
  | one i =>
    rw [show Label.pos N (.one i) = i from rfl, rowTriplets_one nb J U hx]
    exact columnSum_one h J U hx y hy
  | three a b c =>
    obtain ⟨ha, hb, hc⟩ := hx
    rw [show Label.pos N (.three a b c) = get3opIndex N a b c from rfl, rowTriplets_three nb J U ha hb hc]
    exact columnSum_three h J U ha hb hc y hy

/-- C26: on every regular lattice the complete matrix is assembled without violating blaze's contract, and its
elements are those of the projected Hubbard Liouvillian. -/
theorem initMatrix_ok (h : RegularLattice N z nb) (sort : List (Triplet S) → List (Triplet S)) (hs : IsSort sort)
    (J U : S) : ∃ m, initMatrix sort N z nb J U = .val m ∧ m.rows = N + N * N * N ∧ m.columns = N + N * N * N ∧
      m.done.length = N + N * N * N ∧ m.cur = [] ∧ m.nonZeros ≤ m.capacity ∧
      (∀ row < N + N * N * N, ∀ c, m.get row c = columnSum (rowList N nb J U row) c) ∧
      ∀ x y : Label, x.Valid N → y.Valid N → m.get (x.pos N) (y.pos N) = element nb J U x y := by
  have hlen : (basis3 N).length = N + N * N * N := (realBasis_size N).2
  set n := N + N * N * N with hn
  have hL : ∀ i < n, StrictColumns (sort (rowList N nb J U i)) := fun i hi =>
    strict_of_sorted_nodup (hs _) (row_columns h J U hi).2.1
  have cap : ((List.range' 0 n).map (fun r => (sort (rowList N nb J U r)).length)).sum ≤
      numberOfKineticElements3 N z + numberOfInteractionElements N := by
    rw [hn, show List.range' 0 (N + N * N * N) = List.range' 0 N ++ List.range' N (N * N * N) by
      have := List.range'_append_1 (s := 0) (m := N) (n := N * N * N); rw [← this, Nat.zero_add], List.map_append, List.sum_append]
    have s1 : ((List.range' 0 N).map (fun r => (sort (rowList N nb J U r)).length)).sum ≤ N * (z + 2) := by
      apply sum_range'_le
      intro r _ hr
      rw [(hs _).1.length_eq]
      have := (row_columns h J U (row := r) (by omega)).2.2.2
      rwa [if_pos (by omega)] at this
    have s2 : ((List.range' N (N * N * N)).map (fun r => (sort (rowList N nb J U r)).length)).sum
        ≤ (N * N * N) * (3 * z + 2) := by
      apply sum_range'_le
      intro r hr1 hr
      rw [(hs _).1.length_eq]
      have := (row_columns h J U (row := r) (by omega)).2.2.2
      rwa [if_neg (by omega)] at this
    unfold numberOfKineticElements3 numberOfInteractionElements
    rw [hlen]
    have e1 : N * (z + 2) = N * z + N * 2 := by ring
    have e2 : (N * N * N) * (3 * z + 2) = 3 * (N * N * N * z) + N * N * N * 2 := by ring
    have e3 : N * (N * N) * 6 * z = 6 * (N * N * N * z) := by ring
    have e4 : (N + N * N * N) * 2 = N * 2 + N * N * N * 2 := by ring
    omega
  have main : ∀ row < n, ∀ c, columnSum (sort (rowList N nb J U row)) c = columnSum (rowList N nb J U row) c :=
    fun row _ c => columnSum_perm (hs _).1 c
  have fill : initMatrix sort N z nb J U = .val ⟨n, n, numberOfKineticElements3 N z + numberOfInteractionElements N,
      [] ++ (List.range' 0 n).map (fun r => Sparse.stored (sort (rowList N nb J U r))), []⟩ := by
    unfold initMatrix
    rw [List.range_eq_range', hlen]
    refine Sparse.fillRows_val _ (fun r => sort (rowList N nb J U r)) n
      (Sparse.init n (numberOfKineticElements3 N z + numberOfInteractionElements N)) rfl (by simp [Sparse.init]) ?_ ?_
    · intro row _ hr
      have hr : row < n := by simpa [Sparse.init] using hr
      refine ⟨by rw [(row_columns h J U hr).1]; rfl, hL row hr, ?_⟩
      intro t ht
      exact (row_columns h J U hr).2.2.1 t ((hs _).1.mem_iff.1 ht)
    · simpa [Sparse.init, Sparse.nonZeros] using cap
  · have g : ∀ row < n, ∀ c, Sparse.get (⟨n, n, numberOfKineticElements3 N z + numberOfInteractionElements N,
        [] ++ (List.range' 0 n).map (fun r => Sparse.stored (sort (rowList N nb J U r))), []⟩ : Sparse S) row c
        = columnSum (rowList N nb J U row) c := by
      intro row hr c
      rw [get_of_done (L := fun r => sort (rowList N nb J U r)) (n := n) rfl hr (hL row hr), main row hr]
    refine ⟨_, fill, rfl, rfl, by simp, rfl, ?_, g, ?_⟩
    · simp only [Sparse.nonZeros, List.nil_append, List.map_map, List.length_nil, add_zero]
      simpa [Function.comp_def, Sparse.stored] using cap
    · intro x y hx hy
      exact (g (x.pos N) (label_pos_lt hx) (y.pos N)).trans (columnSum_rowList h J U hx hy)

/-- C26 is false of the code on lattices whose sites are their own neighbour twice, or have a repeated neighbour
(chains with one or two sites): whatever `std::sort` does, the contract of `append` is violated. -/
theorem realMatrix_ub_of_dup (hN : 0 < N) (hd : ¬ (nb 0).Nodup) (sort : List (Triplet S) → List (Triplet S))
    (hs : IsSort sort) (J U : S) :
    initKineticMatrix sort N z nb J = .ub ∧ initMatrix sort N z nb J U = .ub := by
  obtain ⟨n, rfl⟩ : ∃ n, N = n + 1 := ⟨N - 1, by omega⟩
  constructor
  · unfold initKineticMatrix
    rw [List.range_eq_range', List.range'_succ]
    refine Sparse.fillRows_ub _ _ _ _ _ rfl (not_strict_of_dup (hs _) ?_)
    simpa [kineticTriplets, Function.comp_def] using hd
  · unfold initMatrix
    rw [(realBasis_size _).2, List.range_eq_range',
      show (n + 1) + (n + 1) * (n + 1) * (n + 1) = (n + (n + 1) * (n + 1) * (n + 1)) + 1 by ring, List.range'_succ]
    refine Sparse.fillRows_ub _ 0 _ _ (sort (oneTriplets (n + 1) nb J U 0)) ?_ (not_strict_of_dup (hs _) ?_)
    · rw [rowTriplets_one nb J U hN]; rfl
    · intro h
      apply hd
      rw [oneTriplets, List.map_append, List.nodup_append] at h
      simpa [Function.comp_def] using h.1

/-- C26 fails for every chain with one or two sites. -/
theorem realMatrix_small_chain_ub {K : Type*} [Field K] [LinearOrder K] [IsStrictOrderedRing K] [FloorRing K]
    {c : Chain K} {n : ℕ} (hc : c.Constructed n) (hn : n = 1 ∨ n = 2) (sort : List (Triplet S) → List (Triplet S))
    (hs : IsSort sort) (J U : S) :
    initKineticMatrix sort n 2 c.neighbors J = .ub ∧ initMatrix sort n 2 c.neighbors J U = .ub := by
  refine realMatrix_ub_of_dup hc.pos_size ?_ sort hs J U
  rcases hn with rfl | rfl
  · rw [(chain_small_degenerate (c := c)).2 hc]; decide
  · rw [((chain_small_degenerate (c := c)).1 hc).1]; decide

/-! ## C29: symmetry -/

theorem element_symm (h : RegularLattice N z nb) (J U : S) {x y : Label} (hx : x.Valid N) (hy : y.Valid N) :
    element nb J U x y = element nb J U y x := by
  have sy : ∀ a b, a < N → b < N → (b ∈ nb a ↔ a ∈ nb b) := fun a b ha hb =>
    ⟨h.symm a ha b hb, h.symm b hb a ha⟩
  cases x with
  | one i =>
    cases y with
    | one j => simp only [element, sy i j hx hy, eq_comm]
    | three a b c => rfl
  | three a b c =>
    cases y with
    | one j => rfl
    | three a' b' c' =>
      simp only [Label.Valid] at hx hy
      simp only [element, sy a a' hx.1 hy.1, sy b b' hx.2.1 hy.2.1, sy c c' hx.2.2 hy.2.2]
      simp only [eq_comm]

/-- C29: the assembled complete matrix is symmetric. -/
theorem initMatrix_symm (h : RegularLattice N z nb) (sort : List (Triplet S) → List (Triplet S)) (hs : IsSort sort)
    (J U : S) : ∃ m, initMatrix sort N z nb J U = .val m ∧ m.rows = m.columns ∧
      ∀ p < m.rows, ∀ q < m.rows, m.get p q = m.get q p := by
  obtain ⟨m, h1, h2, h3, _, _, _, _, h4⟩ := initMatrix_ok h sort hs J U
  refine ⟨m, h1, by rw [h2, h3], ?_⟩
  intro p hp q hq
  rw [h2] at hp hq
  obtain ⟨x, hx, rfl⟩ := label_of_lt hp
  obtain ⟨y, hy, rfl⟩ := label_of_lt hq
  rw [h4 x y hx hy, h4 y x hy hx, element_symm h J U hx hy]

/-- C29: the assembled kinetic matrix is symmetric. -/
theorem initKineticMatrix_symm (h : RegularLattice N z nb) (sort : List (Triplet S) → List (Triplet S))
    (hs : IsSort sort) (J : S) : ∃ m, initKineticMatrix sort N z nb J = .val m ∧ m.rows = m.columns ∧
      ∀ p < m.rows, ∀ q < m.rows, m.get p q = m.get q p := by
  obtain ⟨m, h1, h2, h3, _, _, _, h4⟩ := initKineticMatrix_ok h sort hs J
  refine ⟨m, h1, by rw [h2, h3], ?_⟩
  intro p hp q hq
  rw [h2] at hp hq
  rw [h4 p hp q hq, h4 q hq p hp]
  have : q ∈ nb p ↔ p ∈ nb q := ⟨h.symm p hp q hq, h.symm q hq p hp⟩
  simp only [this]

end RealSpace

end Ieompp
