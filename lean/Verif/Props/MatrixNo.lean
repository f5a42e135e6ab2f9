import Verif.Props.Flow
import Verif.Props.Projection

/-! # C31: the matrix in the normal-ordered basis -/

set_option autoImplicit false
set_option linter.unusedSectionVars false

namespace Ieompp

open Spec

namespace RealSpace
variable {S : Type*} [Field S] [DecidableEq S] {N z : ℕ} {nb : ℕ → List ℕ}

/-- The triplets of a row before sorting and merging. -/
def rawNo (N : ℕ) (nb : ℕ → List ℕ) (J U : S) (ev : ℕ → ℕ → S) (row : ℕ) : List (Triplet S) :=
  if row < N then oneTripletsNo N nb J U ev row
  else ((basisSites (basis3 N) row).map fun s => threeTripletsNo N nb J U ev row s.1 s.2.1 s.2.2).getD []

theorem oneNo_columns (h : RegularLattice N z nb) (J U : S) (ev : ℕ → ℕ → S) {i : ℕ} (hi : i < N) :
    ((oneTripletsNo N nb J U ev i).map Triplet.column).Nodup ∧
    (∀ t ∈ oneTripletsNo N nb J U ev i, t.column < N + N * N * N) ∧ (oneTripletsNo N nb J U ev i).length = z + 2 := by
  have e : (oneTripletsNo N nb J U ev i).map Triplet.column = (oneTriplets N nb J U i).map Triplet.column := by
    unfold oneTripletsNo oneTriplets; simp
  obtain ⟨h1, h2, h3⟩ := one_columns h J U hi
  refine ⟨e ▸ h1, ?_, ?_⟩
  · intro t ht
    have : t.column ∈ (oneTripletsNo N nb J U ev i).map Triplet.column := List.mem_map_of_mem ht
    rw [e, List.mem_map] at this
    obtain ⟨t', ht', e'⟩ := this
    exact e' ▸ h2 t' ht'
  · have := congrArg List.length e
    simp only [List.length_map] at this
    rw [this, h3]

theorem threeNo_columns (h : RegularLattice N z nb) (J U : S) (ev : ℕ → ℕ → S) {row a b c : ℕ} (hr : row < N + N * N * N) (ha : a < N)
    (hb : b < N) (hc : c < N) : (∀ t ∈ threeTripletsNo N nb J U ev row a b c, t.column < N + N * N * N) ∧
    (threeTripletsNo N nb J U ev row a b c).length ≤ 3 * z + 8 ∧ threeTripletsNo N nb J U ev row a b c ≠ [] := by
  have hbij := (realBasis_index_bijective N).1
  refine ⟨?_, ?_, by unfold threeTripletsNo; simp⟩
  · intro t ht
    unfold threeTripletsNo at ht
    simp only [List.mem_append, List.mem_map, List.mem_cons, List.not_mem_nil, or_false] at ht
    rcases ht with ((((⟨n, hn, rfl⟩ | ⟨n, hn, rfl⟩) | ⟨n, hn, rfl⟩) | (rfl | rfl | rfl)) | (rfl | rfl | rfl)) | ht
    · exact (hbij _ _ _ (h.lt a ha n hn) hb hc).2
    · exact (hbij _ _ _ ha (h.lt b hb n hn) hc).2
    · exact (hbij _ _ _ ha hb (h.lt c hc n hn)).2
    · exact lt_of_lt_of_le ha (Nat.le_add_right _ _)
    · exact lt_of_lt_of_le hb (Nat.le_add_right _ _)
    · exact lt_of_lt_of_le hc (Nat.le_add_right _ _)
    · exact hr
    · exact (hbij _ _ _ ha ha hc).2
    · exact (hbij _ _ _ ha hb ha).2
    · split_ifs at ht
      · simp only [List.mem_cons, List.not_mem_nil, or_false] at ht
        rcases ht with rfl | rfl
        · exact (hbij _ _ _ hb hb hc).2
        · exact (hbij _ _ _ hc hb hc).2
      · simp at ht
  · unfold threeTripletsNo
    simp only [List.length_append, List.length_map, h.length a ha, h.length b hb, h.length c hc, List.length_cons,
      List.length_nil]
    split_ifs <;> simp <;> omega

theorem rowNo_ok (h : RegularLattice N z nb) (sort : List (Triplet S) → List (Triplet S)) (hs : IsSort sort)
    (isZero : S → Bool) (hz : ∀ x, isZero x = true → x = 0) (J U : S) (ev : ℕ → ℕ → S) {row : ℕ}
    (hr : row < N + N * N * N) : ∃ l, rowTripletsNo sort isZero N nb J U ev row = some l ∧ StrictColumns l ∧
      (∀ t ∈ l, t.column < N + N * N * N) ∧ l.length ≤ (if row < N then z + 2 else 3 * z + 8) ∧
      (∀ c, columnSum l c = columnSum (rawNo N nb J U ev row) c) ∧
      ∀ t ∈ rawNo N nb J U ev row, t.column < N + N * N * N := by
  unfold rowTripletsNo rawNo
  by_cases hN : row < N
  · simp only [if_pos hN]
    obtain ⟨h1, h2, h3⟩ := oneNo_columns h J U ev hN
    refine ⟨_, rfl, strict_of_sorted_nodup (hs _) h1, fun t ht => h2 t ((hs _).1.mem_iff.1 ht), ?_,
      fun c => columnSum_perm (hs _).1 c, h2⟩
    rw [(hs _).1.length_eq, h3]
  · simp only [if_neg hN]
    obtain ⟨a, b, c, ha, hb, hc, rfl⟩ := (realBasis_index_bijective N).2.1 row (by omega) hr
    rw [basisSites_three ha hb hc]
    simp only [Option.map_some, Option.bind_some, Option.getD_some]
    obtain ⟨h1, h2, h3⟩ := threeNo_columns h J U ev hr ha hb hc
    obtain ⟨r, e, g1, g2, _, _, _⟩ := makeColumnsUnique_correct isZero _ _ h3 (hs _)
    refine ⟨r, e, g1, ?_, ?_, fun c => makeColumnsUnique_columnSum isZero hz _ _ r (hs _) e c, h1⟩
    · intro t ht
      obtain ⟨⟨t', ht', e'⟩, _⟩ := g2 t.column ⟨t, ht, rfl⟩
      exact e' ▸ h1 t' ht'
    · refine le_trans ?_ h2
      have nd : (r.map Triplet.column).Nodup := by
        rw [List.Nodup, List.pairwise_map]
        exact g1.imp (fun h => by omega)
      have sub : r.map Triplet.column ⊆ (threeTripletsNo N nb J U ev (get3opIndex N a b c) a b c).map Triplet.column := by
        intro x hx
        rw [List.mem_map] at hx
        obtain ⟨t, ht, rfl⟩ := hx
        obtain ⟨⟨t', ht', e'⟩, _⟩ := g2 t.column ⟨t, ht, rfl⟩
        exact List.mem_map.2 ⟨t', ht', e'⟩
      have := (List.subperm_of_subset nd sub).length_le
      simpa using this

/-- C31 (and C26 for the normal-ordered variant): on every regular lattice the normal-ordered matrix is assembled
within its reservation, rows having unique increasing columns; each element is the sum of the contributions listed in the
code. -/
theorem initMatrixNo_ok_partial (h : RegularLattice N z nb) (sort : List (Triplet S) → List (Triplet S)) (hs : IsSort sort)
    (isZero : S → Bool) (hz : ∀ x, isZero x = true → x = 0) (J U : S) (ev : ℕ → ℕ → S) :
    ∃ m, initMatrixNo sort isZero N z nb J U ev = .val m ∧ m.rows = N + N * N * N ∧ m.columns = N + N * N * N ∧
      m.done.length = N + N * N * N ∧ m.cur = [] ∧ m.nonZeros ≤ m.capacity ∧
      (∀ row < N + N * N * N, ∀ c, m.get row c = columnSum (rawNo N nb J U ev row) c) := by
  have hlen : (basis3 N).length = N + N * N * N := (realBasis_size N).2
  set n := N + N * N * N with hn
  set L : ℕ → List (Triplet S) := fun r => (rowTripletsNo sort isZero N nb J U ev r).getD [] with hL
  have row : ∀ r < n, rowTripletsNo sort isZero N nb J U ev r = some (L r) ∧ StrictColumns (L r) ∧
      (∀ t ∈ L r, t.column < n) ∧ (L r).length ≤ (if r < N then z + 2 else 3 * z + 8) ∧
      (∀ c, columnSum (L r) c = columnSum (rawNo N nb J U ev r) c) := by
    intro r hr
    obtain ⟨l, e, h1, h2, h3, h4, _⟩ := rowNo_ok h sort hs isZero hz J U ev hr
    have : L r = l := by rw [hL]; simp only [e, Option.getD_some]
    rw [this]
    exact ⟨e, h1, h2, h3, h4⟩
  have cap : ((List.range' 0 n).map (fun r => (L r).length)).sum ≤
      numberOfKineticElementsNo3 N z + numberOfInteractionElementsNo N := by
    rw [hn, show List.range' 0 (N + N * N * N) = List.range' 0 N ++ List.range' N (N * N * N) by
      have := List.range'_append_1 (s := 0) (m := N) (n := N * N * N); rw [← this, Nat.zero_add], List.map_append, List.sum_append]
    have s1 : ((List.range' 0 N).map (fun r => (L r).length)).sum ≤ N * (z + 2) := by
      apply sum_range'_le
      intro r _ hr
      have := (row r (by omega)).2.2.2.1
      rwa [if_pos (by omega)] at this
    have s2 : ((List.range' N (N * N * N)).map (fun r => (L r).length)).sum ≤ (N * N * N) * (3 * z + 8) := by
      apply sum_range'_le
      intro r hr1 hr
      have := (row r (by omega)).2.2.2.1
      rwa [if_neg (by omega)] at this
    unfold numberOfKineticElementsNo3 numberOfInteractionElementsNo
    rw [hlen, hn, Nat.add_sub_cancel_left]
    have e1 : N * (z + 2) = N * z + N * 2 := by ring
    have e2 : (N * N * N) * (3 * z + 8) = 3 * (N * N * N * z) + N * N * N * 8 := by ring
    have e3 : N * N * N * 6 * z = 6 * (N * N * N * z) := by ring
    omega
  have fill : initMatrixNo sort isZero N z nb J U ev = .val ⟨n, n, numberOfKineticElementsNo3 N z + numberOfInteractionElementsNo N,
      [] ++ (List.range' 0 n).map (fun r => Sparse.stored (L r)), []⟩ := by
    unfold initMatrixNo
    rw [List.range_eq_range', hlen]
    refine Sparse.fillRows_val _ L n
      (Sparse.init n (numberOfKineticElementsNo3 N z + numberOfInteractionElementsNo N)) rfl (by simp [Sparse.init]) ?_ ?_
    · intro r _ hr
      have hr : r < n := by simpa [Sparse.init] using hr
      obtain ⟨g1, g2, g3, _⟩ := row r hr
      exact ⟨g1, g2, g3⟩
    · simpa [Sparse.init, Sparse.nonZeros] using cap
  refine ⟨_, fill, rfl, rfl, by simp, rfl, ?_, ?_⟩
  · simp only [Sparse.nonZeros, List.nil_append, List.map_map, List.length_nil, add_zero]
    simpa [Function.comp_def, Sparse.stored] using cap
  · intro r hr c
    rw [get_of_done (L := L) (n := n) rfl hr (row r hr).2.1]
    exact (row r hr).2.2.2.2 c

/-! ## Rows as commutators -/

variable {R : Type*} [Ring R] (C : CAROn N R) [Algebra S R]

/-- The normal-ordered operators. -/
def noOp (ev : ℕ → ℕ → S) : Label → R
  | .one i => C.cr (i, true)
  | .three a b c => C.cr (a, true) * (C.cr (b, false) * C.an (c, false) - ev b c • 1)

theorem noBasisOp_pos (ev : ℕ → ℕ → S) {x : Label} (hx : x.Valid N) :
    C.noBasisOp ev (basis3 N) (x.pos N) = noOp C ev x := by
  cases x with
  | one i =>
    unfold CAROn.noBasisOp
    rw [show Label.pos N (.one i) = i from rfl, ((realBasis_getElem N).1 i hx).2]
    rfl
  | three a b c =>
    unfold CAROn.noBasisOp
    rw [show Label.pos N (.three a b c) = get3opIndex N a b c from rfl, (realBasis_getElem N).2 a b c hx.1 hx.2.1 hx.2.2]
    rfl

theorem noRow_one (h : RegularLattice N z nb) (J U : S) (ev : ℕ → ℕ → S) {i : ℕ} (hi : i < N) :
    ((oneTripletsNo N nb J U ev i).map fun t => t.value • C.noBasisOp ev (basis3 N) t.column).sum =
      comm (C.hopping nb J) (C.cr (i, true)) + U • noOp C ev (.one i) + (U * ev i i) • noOp C ev (.three i i i) := by
  unfold oneTripletsNo
  rw [C.hopping_cr h J hi, List.map_append, List.sum_append, List.map_map]
  have e : (nb i).map ((fun t : Triplet S => t.value • C.noBasisOp ev (basis3 N) t.column) ∘ fun n => ⟨i, n, -J⟩) =
      (nb i).map fun n => (-J) • C.cr (n, true) := by
    apply List.map_congr_left
    intro n hn
    have := noBasisOp_pos C ev (x := .one n) (h.lt i hi n hn)
    rw [show noOp C ev (.one n) = C.cr (n, true) from rfl] at this
    rw [← this]; rfl
  rw [e]
  simp only [List.map_cons, List.map_nil, List.sum_cons, List.sum_nil, add_zero]
  rw [show C.noBasisOp ev (basis3 N) i = noOp C ev (.one i) from noBasisOp_pos C ev (x := .one i) hi,
    show C.noBasisOp ev (basis3 N) (get3opIndex N i i i) = noOp C ev (.three i i i) from
      noBasisOp_pos C ev (x := .three i i i) ⟨hi, hi, hi⟩]
  abel

/-- `[H, c†_i]` in the normal-ordered basis: coefficient `U ⟨n_i⟩` of `c†_i` and `U` of the three-operator monomial. -/
theorem comm_one_no (J U : S) (ev : ℕ → ℕ → S) {i : ℕ} (hi : i < N) :
    comm (C.hopping nb J + C.interaction U) (C.cr (i, true)) =
      comm (C.hopping nb J) (C.cr (i, true)) + (U * ev i i) • noOp C ev (.one i) + U • noOp C ev (.three i i i) := by
  rw [CAROn.comm_add_left, C.interaction_cr_up U hi, add_assoc]
  congr 1
  simp only [noOp, CAROn.num]
  rw [mul_sub, smul_sub, mul_smul_comm, mul_one, smul_smul]
  abel

/-- C31: the one-operator rows miss `[H, A_i]` by exactly `U (1 - ⟨n_i⟩) (A_i - A_iii)`: the two interaction coefficients
are exchanged in the code. -/
theorem noMatrix_one_row (h : RegularLattice N z nb) (sort : List (Triplet S) → List (Triplet S)) (hs : IsSort sort)
    (isZero : S → Bool) (hz : ∀ x, isZero x = true → x = 0) (J U : S) (ev : ℕ → ℕ → S) :
    ∃ m, initMatrixNo sort isZero N z nb J U ev = .val m ∧ m.columns = N + N * N * N ∧ ∀ i < N,
      ∑ p ∈ Finset.range m.columns, m.get i p • C.noBasisOp ev (basis3 N) p =
        comm (C.hopping nb J + C.interaction U) (C.noBasisOp ev (basis3 N) i) +
        (U * (1 - ev i i)) • (C.noBasisOp ev (basis3 N) i - C.noBasisOp ev (basis3 N) (get3opIndex N i i i)) := by
  obtain ⟨m, e1, _, e3, _, _, _, hg⟩ := initMatrixNo_ok_partial h sort hs isZero hz J U ev
  refine ⟨m, e1, e3, ?_⟩
  intro i hi
  rw [e3, Finset.sum_congr rfl (fun p _ => by rw [hg i (by omega) p]),
    sum_columnSum_smul _ _ _ (rowNo_ok h sort hs isZero hz J U ev (row := i) (by omega)).choose_spec.2.2.2.2.2]
  have : rawNo N nb J U ev i = oneTripletsNo N nb J U ev i := by unfold rawNo; rw [if_pos hi]
  rw [this, noRow_one C h J U ev hi,
    show C.noBasisOp ev (basis3 N) i = noOp C ev (.one i) from noBasisOp_pos C ev (x := .one i) hi,
    show C.noBasisOp ev (basis3 N) (get3opIndex N i i i) = noOp C ev (.three i i i) from
      noBasisOp_pos C ev (x := .three i i i) ⟨hi, hi, hi⟩]
  rw [show comm (C.hopping nb J + C.interaction U) (noOp C ev (.one i)) =
    comm (C.hopping nb J + C.interaction U) (C.cr (i, true)) from rfl, comm_one_no C J U ev hi, mul_sub, mul_one, sub_smul, smul_sub,
    smul_sub]
  abel

theorem noRow_three (h : RegularLattice N z nb) (J : S) (ev : ℕ → ℕ → S) {a b c : ℕ} (ha : a < N) (hb : b < N) (hc : c < N) :
    ((threeTripletsNo N nb J 0 ev (get3opIndex N a b c) a b c).map fun t => t.value • C.noBasisOp ev (basis3 N) t.column).sum =
      ((nb a).map fun n => (-J) • noOp C ev (.three n b c)).sum +
      ((nb b).map fun n => (-J) • noOp C ev (.three a n c)).sum +
      ((nb c).map fun n => J • noOp C ev (.three a b n)).sum := by
  unfold threeTripletsNo
  simp only [List.map_append, List.sum_append, List.map_map]
  have e1 : (nb a).map ((fun t : Triplet S => t.value • C.noBasisOp ev (basis3 N) t.column) ∘
      fun n => ⟨get3opIndex N a b c, get3opIndex N n b c, -J⟩) = (nb a).map fun n => (-J) • noOp C ev (.three n b c) := by
    apply List.map_congr_left
    intro n hn
    rw [← noBasisOp_pos C ev (x := .three n b c) ⟨h.lt a ha n hn, hb, hc⟩]; rfl
  have e2 : (nb b).map ((fun t : Triplet S => t.value • C.noBasisOp ev (basis3 N) t.column) ∘
      fun n => ⟨get3opIndex N a b c, get3opIndex N a n c, -J⟩) = (nb b).map fun n => (-J) • noOp C ev (.three a n c) := by
    apply List.map_congr_left
    intro n hn
    rw [← noBasisOp_pos C ev (x := .three a n c) ⟨ha, h.lt b hb n hn, hc⟩]; rfl
  have e3 : (nb c).map ((fun t : Triplet S => t.value • C.noBasisOp ev (basis3 N) t.column) ∘
      fun n => ⟨get3opIndex N a b c, get3opIndex N a b n, J⟩) = (nb c).map fun n => J • noOp C ev (.three a b n) := by
    apply List.map_congr_left
    intro n hn
    rw [← noBasisOp_pos C ev (x := .three a b n) ⟨ha, hb, h.lt c hc n hn⟩]; rfl
  rw [e1, e2, e3]
  split_ifs <;> simp

omit [DecidableEq S] in
theorem list_sum_const_smul (l : List ℕ) (f : ℕ → S) (x : R) : (l.map fun n => f n • x).sum = (l.map f).sum • x := by
  induction l with
  | nil => simp
  | cons a l ih => simp only [List.map_cons, List.sum_cons, ih, add_smul]

omit [DecidableEq S] in
theorem list_sum_mul (l : List ℕ) (f : ℕ → R) (x : R) : (l.map fun n => f n * x).sum = (l.map f).sum * x := by
  induction l with
  | nil => simp
  | cons a l ih => simp only [List.map_cons, List.sum_cons, ih, add_mul]

omit [DecidableEq S] in
theorem list_mul_sum (l : List ℕ) (f : ℕ → R) (x : R) : (l.map fun n => x * f n).sum = x * (l.map f).sum := by
  induction l with
  | nil => simp
  | cons a l ih => simp only [List.map_cons, List.sum_cons, ih, mul_add]

omit [DecidableEq S] in
theorem list_sum_sub (l : List ℕ) (f g : ℕ → R) : (l.map fun n => f n - g n).sum = (l.map f).sum - (l.map g).sum := by
  induction l with
  | nil => simp
  | cons a l ih => simp only [List.map_cons, List.sum_cons, ih]; abel

/-- Hopping commutator of a normal-ordered three-operator monomial, when the state is stationary under the hopping. -/
theorem hopping_three_no (h : RegularLattice N z nb) (J : S) (ev : ℕ → ℕ → S) {a b c : ℕ} (ha : a < N) (hb : b < N)
    (hc : c < N) (hst : ((nb b).map fun n => ev n c).sum = ((nb c).map fun n => ev b n).sum) :
    comm (C.hopping nb J) (noOp C ev (.three a b c)) =
      ((nb a).map fun n => (-J) • noOp C ev (.three n b c)).sum +
      ((nb b).map fun n => (-J) • noOp C ev (.three a n c)).sum +
      ((nb c).map fun n => J • noOp C ev (.three a b n)).sum := by
  simp only [noOp]
  have lhs : comm (C.hopping nb J) (C.cr (a, true) * (C.cr (b, false) * C.an (c, false) - ev b c • 1)) =
      comm (C.hopping nb J) (C.cr (a, true)) * (C.cr (b, false) * C.an (c, false) - ev b c • 1) +
      C.cr (a, true) * (comm (C.hopping nb J) (C.cr (b, false)) * C.an (c, false) +
        C.cr (b, false) * comm (C.hopping nb J) (C.an (c, false))) := by
    rw [CAROn.lie_mul]
    congr 2
    rw [← CAROn.lie_mul]
    unfold Spec.comm
    simp only [mul_sub, sub_mul, mul_smul_comm, smul_mul_assoc, mul_one, one_mul]
    abel
  rw [lhs, C.hopping_cr h J ha, C.hopping_cr h J hb, C.hopping_an h J hc]
  have t1 : ((nb a).map fun n => (-J) • (C.cr (n, true) * (C.cr (b, false) * C.an (c, false) - ev b c • 1))).sum =
      ((nb a).map fun n => (-J) • C.cr (n, true)).sum * (C.cr (b, false) * C.an (c, false) - ev b c • 1) := by
    rw [← list_sum_mul]; simp only [smul_mul_assoc]
  have t2 : ((nb b).map fun n => (-J) • (C.cr (a, true) * (C.cr (n, false) * C.an (c, false) - ev n c • 1))).sum =
      C.cr (a, true) * (((nb b).map fun n => (-J) • C.cr (n, false)).sum * C.an (c, false)) -
      ((-J) * ((nb b).map fun n => ev n c).sum) • C.cr (a, true) := by
    have : ∀ n ∈ nb b, (-J) • (C.cr (a, true) * (C.cr (n, false) * C.an (c, false) - ev n c • (1 : R))) =
        C.cr (a, true) * ((-J) • C.cr (n, false) * C.an (c, false)) - ((-J) * ev n c) • C.cr (a, true) := by
      intro n _
      rw [mul_sub, smul_sub, mul_smul_comm, mul_one, smul_smul, smul_mul_assoc, mul_smul_comm]
    rw [List.map_congr_left this, list_sum_sub, list_mul_sum, list_sum_mul, list_sum_const_smul, List.sum_map_mul_left]
  have t3 : ((nb c).map fun n => J • (C.cr (a, true) * (C.cr (b, false) * C.an (n, false) - ev b n • 1))).sum =
      C.cr (a, true) * (C.cr (b, false) * ((nb c).map fun n => J • C.an (n, false)).sum) -
      (J * ((nb c).map fun n => ev b n).sum) • C.cr (a, true) := by
    have : ∀ n ∈ nb c, J • (C.cr (a, true) * (C.cr (b, false) * C.an (n, false) - ev b n • (1 : R))) =
        C.cr (a, true) * (C.cr (b, false) * J • C.an (n, false)) - (J * ev b n) • C.cr (a, true) := by
      intro n _
      rw [mul_sub, smul_sub, mul_smul_comm, mul_one, smul_smul, mul_smul_comm, mul_smul_comm]
    rw [List.map_congr_left this, list_sum_sub, list_mul_sum, list_mul_sum, list_sum_const_smul, List.sum_map_mul_left]
  rw [t1, t2, t3, hst, mul_add, neg_mul, neg_smul]
  abel

/-- C31, the part that holds: without interaction every row of the normal-ordered matrix expands `[H, A_r]` exactly, for
every stationary `ev` (all expectation values used by the programs depend on the distance only and are stationary). -/
theorem noMatrix_hopping_partial (h : RegularLattice N z nb) (sort : List (Triplet S) → List (Triplet S)) (hs : IsSort sort)
    (isZero : S → Bool) (hz : ∀ x, isZero x = true → x = 0) (J : S) (ev : ℕ → ℕ → S)
    (hst : ∀ b < N, ∀ c < N, ((nb b).map fun n => ev n c).sum = ((nb c).map fun n => ev b n).sum) :
    ∃ m, initMatrixNo sort isZero N z nb J 0 ev = .val m ∧ m.rows = N + N * N * N ∧ m.columns = N + N * N * N ∧
      ∀ row < m.rows, ∑ p ∈ Finset.range m.columns, m.get row p • C.noBasisOp ev (basis3 N) p =
        comm (C.hopping nb J) (C.noBasisOp ev (basis3 N) row) := by
  obtain ⟨m, e1, e2, e3, _, _, _, hg⟩ := initMatrixNo_ok_partial h sort hs isZero hz J 0 ev
  refine ⟨m, e1, e2, e3, ?_⟩
  intro row hr
  rw [e2] at hr
  rw [e3, Finset.sum_congr rfl (fun p _ => by rw [hg row hr p]),
    sum_columnSum_smul _ _ _ (rowNo_ok h sort hs isZero hz J 0 ev hr).choose_spec.2.2.2.2.2]
  by_cases hN : row < N
  · have : rawNo N nb J 0 ev row = oneTripletsNo N nb J 0 ev row := by unfold rawNo; rw [if_pos hN]
    rw [this, noRow_one C h J 0 ev hN,
      show C.noBasisOp ev (basis3 N) row = noOp C ev (.one row) from noBasisOp_pos C ev (x := .one row) hN]
    simp [noOp]
  · obtain ⟨a, b, c, ha, hb, hc, rfl⟩ := (realBasis_index_bijective N).2.1 row (by omega) hr
    have : rawNo N nb J 0 ev (get3opIndex N a b c) = threeTripletsNo N nb J 0 ev (get3opIndex N a b c) a b c := by
      unfold rawNo; rw [if_neg hN, basisSites_three ha hb hc]; rfl
    rw [this, noRow_three C h J ev ha hb hc,
      show C.noBasisOp ev (basis3 N) (get3opIndex N a b c) = noOp C ev (.three a b c) from
        noBasisOp_pos C ev (x := .three a b c) ⟨ha, hb, hc⟩, hopping_three_no C h J ev ha hb hc (hst b hb c hc)]

/-- C31 is false of the code: in every realisation with a non-trivial trace, at half filling (`⟨n⟩ = 1/2`) and `U ≠ 0`, no
one-operator row expands `[H, A_i]`. -/
theorem noMatrix_one_row_wrong (h : RegularLattice N z nb) (sort : List (Triplet S) → List (Triplet S)) (hs : IsSort sort)
    (isZero : S → Bool) (hz : ∀ x, isZero x = true → x = 0) (J U : S) (ev : ℕ → ℕ → S) (h2 : (2 : S) ≠ 0) (hU : U ≠ 0)
    (hev : ∀ i, ev i i = 1 / 2) (τ : R →ₗ[S] S) (hτ : ∀ x y, τ (x * y) = τ (y * x)) (h1 : τ 1 ≠ 0) :
    ∃ m, initMatrixNo sort isZero N z nb J U ev = .val m ∧ ∀ i < N,
      ∑ p ∈ Finset.range m.columns, m.get i p • C.noBasisOp ev (basis3 N) p ≠
        comm (C.hopping nb J + C.interaction U) (C.noBasisOp ev (basis3 N) i) := by
  obtain ⟨m, e1, _, hrow⟩ := noMatrix_one_row C h sort hs isZero hz J U ev
  refine ⟨m, e1, ?_⟩
  intro i hi hc
  rw [hrow i hi, add_eq_left,
    show C.noBasisOp ev (basis3 N) i = noOp C ev (.one i) from noBasisOp_pos C ev (x := .one i) hi,
    show C.noBasisOp ev (basis3 N) (get3opIndex N i i i) = noOp C ev (.three i i i) from
      noBasisOp_pos C ev (x := .three i i i) ⟨hi, hi, hi⟩, hev] at hc
  have hU' : U * (1 - 1 / 2) ≠ 0 := mul_ne_zero hU (by
    rw [show (1 : S) - 1 / 2 = 1 / 2 by field_simp; norm_num]; exact one_div_ne_zero h2)
  have hd : noOp C ev (.one i) = noOp C ev (.three i i i) := by
    rcases smul_eq_zero.1 hc with h | h
    · exact absurd h hU'
    · exact sub_eq_zero.1 h
  have g1 := trace_gram C τ hτ h2 (x := .one i) (y := .one i) hi hi
  have g2 := trace_gram C τ hτ h2 (x := .three i i i) (y := .one i) ⟨hi, hi, hi⟩ hi
  rw [if_pos rfl] at g1
  rw [if_neg (by simp)] at g2
  have e : noOp C ev (.three i i i) = (1 / 2 : S) • C.labelOp (.three i i i) := by
    simp only [noOp, CAROn.labelOp, if_true, hev]
    rw [mul_sub, mul_sub, smul_sub, mul_smul_comm, mul_one, two_mul, mul_add, smul_add, ← add_smul]
    rw [show (1 / 2 + 1 / 2 : S) = 1 by field_simp; norm_num, one_smul]
  rw [show C.labelOp (.one i) = noOp C ev (.one i) from rfl, hd, e, mul_smul_comm, map_smul, g2, smul_zero] at g1
  exact (mul_ne_zero (one_div_ne_zero h2) h1) g1.symm

end RealSpace

/-- A four-site chain at half filling meets all the hypotheses of the refutation. -/
example : ∃ m, RealSpace.initMatrixNo (fun l : List (Triplet ℂ) => l.mergeSort (fun a b => a.column ≤ b.column))
    (fun x => decide (x = 0)) 4 2 (Chain.real (K := ℝ) 4 1).neighbors 1 1 (fun i j => if i = j then 1 / 2 else 0) = .val m ∧ ∀ i < 4,
      ∑ p ∈ Finset.range m.columns, m.get i p •
        (fockCAROn ℂ 4).noBasisOp (fun i j => if i = j then (1 / 2 : ℂ) else 0) (RealSpace.basis3 4) p ≠
        comm ((fockCAROn ℂ 4).hopping (Chain.real (K := ℝ) 4 1).neighbors (1 : ℂ) + (fockCAROn ℂ 4).interaction (1 : ℂ))
          ((fockCAROn ℂ 4).noBasisOp (fun i j => if i = j then (1 / 2 : ℂ) else 0) (RealSpace.basis3 4) i) := by
  obtain ⟨τ, hτ, h1⟩ := fock_trace 4
  exact RealSpace.noMatrix_one_row_wrong (fockCAROn ℂ 4) (chain_regular (.real (1:ℝ) (by omega) rfl) (by omega)) _
    mergeSort_isSort _ (by simp) 1 1 _ (by norm_num) (by norm_num) (by simp) τ hτ h1

end Ieompp
