import Verif.Props.Sparse
import Verif.Props.MatrixNo

/-!
# C26, exactly: on which lattices the assembly of the matrices is defined

Chains: exactly those with at least three sites. Square lattices: the complete matrix exactly for `Nx = Ny >= 3`; the
kinetic matrix also on some rectangular lattices, where its elements are wrong (C22).
-/

set_option autoImplicit false
set_option linter.unusedSectionVars false

namespace Ieompp

open Spec

namespace Sparse
variable {S : Type*}

theorem appendAll_columns (row : ℕ) (l : List (Triplet S)) : ∀ m m' : Sparse S, m.appendAll row l = .val m' →
    m'.columns = m.columns ∧ ∀ t ∈ l, t.column < m.columns := by
  induction l with
  | nil => intro m m' h; simp only [appendAll, Res.val.injEq] at h; subst h; simp
  | cons t l ih =>
    intro m m' h
    unfold appendAll append at h
    split at h
    · rename_i hc
      rw [Res.bind_val] at h
      obtain ⟨h1, h2⟩ := ih _ _ h
      refine ⟨h1, fun t' ht' => ?_⟩
      rcases List.mem_cons.1 ht' with rfl | ht'
      · exact hc.2.2.1
      · exact h2 t' ht'
    · simp at h

/-- If the assembly succeeds, the triplets of every row are defined, in range and strictly increasing. -/
theorem fillRows_inv (triplets : ℕ → Option (List (Triplet S))) (rows : List ℕ) : ∀ m m' : Sparse S,
    fillRows triplets rows m = .val m' → ∀ row ∈ rows, ∃ l, triplets row = some l ∧ StrictColumns l ∧
      ∀ t ∈ l, t.column < m.columns := by
  induction rows with
  | nil => intro m m' _ row hr; simp at hr
  | cons r rows ih =>
    intro m m' h row hrow
    unfold fillRows at h
    cases e : triplets r with
    | none => rw [e] at h; simp at h
    | some l =>
      rw [e] at h
      simp only at h
      rcases appendAll_cases r l m with e1 | ⟨m1, e1⟩
      · rw [e1] at h; simp at h
      · rw [e1, Res.bind_val] at h
        unfold finalize at h
        split at h
        · rw [Res.bind_val] at h
          obtain ⟨c1, c2⟩ := appendAll_columns r l m m1 e1
          rcases List.mem_cons.1 hrow with rfl | hrow
          · exact ⟨l, e, (appendAll_strict _ l m m1 e1).1, c2⟩
          · obtain ⟨l', g1, g2, g3⟩ := ih _ _ h row hrow
            exact ⟨l', g1, g2, fun t ht => by have := g3 t ht; rwa [← c1]⟩
        · simp at h

theorem fillRows_cases (triplets : ℕ → Option (List (Triplet S))) (rows : List ℕ) : ∀ m : Sparse S,
    fillRows triplets rows m = .ub ∨ ∃ m', fillRows triplets rows m = .val m' := by
  induction rows with
  | nil => intro m; exact Or.inr ⟨m, rfl⟩
  | cons r rows ih =>
    intro m
    unfold fillRows
    cases e : triplets r with
    | none => exact Or.inl rfl
    | some l =>
      simp only
      rcases appendAll_cases r l m with e1 | ⟨m1, e1⟩
      · rw [e1]; exact Or.inl rfl
      · rw [e1, Res.bind_val]
        unfold finalize
        split
        · rw [Res.bind_val]; exact ih _
        · exact Or.inl rfl

end Sparse

namespace RealSpace
variable {S : Type*} [Field S] {N z : ℕ} {nb : ℕ → List ℕ}

/-- Sufficient and necessary for the kinetic matrix on any lattice whose sites have at most `z` neighbours: neighbours in range
and different. -/
theorem initKineticMatrix_iff (hz : ∀ i < N, (nb i).length ≤ z) (sort : List (Triplet S) → List (Triplet S)) (hs : IsSort sort)
    (J : S) : (∃ m, initKineticMatrix sort N z nb J = .val m) ↔ ∀ i < N, (nb i).Nodup ∧ ∀ n ∈ nb i, n < N := by
  have hlen : (basis1 N).length = N := (realBasis_size N).1
  constructor
  · rintro ⟨m, hm⟩ i hi
    unfold initKineticMatrix at hm
    obtain ⟨l, e, h1, h2⟩ := Sparse.fillRows_inv _ _ _ _ hm i (List.mem_range.2 hi)
    simp only [Option.some.injEq] at e
    subst e
    constructor
    · by_contra hd
      refine not_strict_of_dup (hs (kineticTriplets nb J i)) ?_ h1
      simpa [kineticTriplets, Function.comp_def] using hd
    · intro n hn
      have := h2 ⟨i, n, -J⟩ ((hs _).1.mem_iff.2 (List.mem_map.2 ⟨n, hn, rfl⟩))
      simpa [Sparse.init, hlen] using this
  · intro h
    have cap : ((List.range' 0 N).map (fun r => (sort (kineticTriplets nb J r)).length)).sum ≤ N * z := by
      apply sum_range'_le
      intro r _ hr
      rw [(hs _).1.length_eq]
      simpa [kineticTriplets] using hz r (by omega)
    have fill : initKineticMatrix sort N z nb J = .val ⟨N, N, numberOfKineticElements1 N z,
        [] ++ (List.range' 0 N).map (fun r => Sparse.stored (sort (kineticTriplets nb J r))), []⟩ := by
      unfold initKineticMatrix
      rw [List.range_eq_range', hlen]
      refine Sparse.fillRows_val _ (fun r => sort (kineticTriplets nb J r)) N (Sparse.init N (numberOfKineticElements1 N z))
        rfl (by simp [Sparse.init]) ?_ ?_
      · intro row _ hr
        have hr : row < N := by simpa [Sparse.init] using hr
        refine ⟨rfl, strict_of_sorted_nodup (hs _) (by simpa [kineticTriplets, Function.comp_def] using (h row hr).1), ?_⟩
        intro t ht
        obtain ⟨n, hn, rfl⟩ := List.mem_map.1 ((hs _).1.mem_iff.1 ht)
        exact (h row hr).2 n hn
      · simpa [Sparse.init, Sparse.nonZeros, numberOfKineticElements1] using cap
    exact ⟨_, fill⟩

/-- Necessary for the complete matrix: no site has itself or twice the same site as neighbours, and neighbours are in range. -/
theorem initMatrix_necessary {sort : List (Triplet S) → List (Triplet S)} (hs : IsSort sort) {J U : S} {m : Sparse S}
    (hm : initMatrix sort N z nb J U = .val m) : ∀ i < N, (i :: nb i).Nodup ∧ ∀ n ∈ nb i, n < N := by
  intro i hi
  have hlen : (basis3 N).length = N + N * N * N := (realBasis_size N).2
  unfold initMatrix at hm
  have inv := Sparse.fillRows_inv _ _ _ _ hm
  rw [hlen] at inv
  constructor
  · obtain ⟨l, e, h1, -⟩ := inv i (List.mem_range.2 (by omega))
    rw [rowTriplets_one nb J U hi, Option.map_some, Option.some.injEq] at e
    subst e
    by_contra hd
    refine not_strict_of_dup (hs (oneTriplets N nb J U i)) ?_ h1
    intro hn
    apply hd
    rw [oneTriplets, List.map_append, List.nodup_append] at hn
    obtain ⟨n1, -, n3⟩ := hn
    rw [List.nodup_cons]
    refine ⟨fun hmem => ?_, by simpa [Function.comp_def] using n1⟩
    exact n3 i (by simpa using hmem) i (by simp) rfl
  · intro n hn
    have hrow := (realBasis_index_bijective N).1 i 0 0 hi (by omega) (by omega)
    obtain ⟨l, e, -, h2⟩ := inv (get3opIndex N i 0 0) (List.mem_range.2 hrow.2)
    rw [rowTriplets_three nb J U hi (by omega) (by omega), Option.map_some, Option.some.injEq] at e
    subst e
    have hmem : (⟨get3opIndex N i 0 0, get3opIndex N n 0 0, -J⟩ : Triplet S) ∈
        sort (threeTriplets N nb J U (get3opIndex N i 0 0) i 0 0) := by
      refine (hs _).1.mem_iff.2 ?_
      unfold threeTriplets
      simp only [List.mem_append, List.mem_map]
      exact Or.inl (Or.inl (Or.inl (Or.inl ⟨n, hn, rfl⟩)))
    have h3 := h2 _ hmem
    simp only [Sparse.init] at h3
    unfold get3opIndex at h3
    simp only at h3
    by_contra hge
    have : N * N * N ≤ N * N * n := Nat.mul_le_mul_left _ (by omega)
    omega

/-- Necessary for the normal-ordered matrix: no site has itself or twice the same site as neighbours. -/
theorem initMatrixNo_necessary {sort : List (Triplet S) → List (Triplet S)} (hs : IsSort sort) {isZero : S → Bool} {J U : S}
    {ev : ℕ → ℕ → S} {m : Sparse S} (hm : initMatrixNo sort isZero N z nb J U ev = .val m) : ∀ i < N, (i :: nb i).Nodup := by
  intro i hi
  have hlen : (basis3 N).length = N + N * N * N := (realBasis_size N).2
  unfold initMatrixNo at hm
  obtain ⟨l, e, h1, -⟩ := Sparse.fillRows_inv _ _ _ _ hm i (List.mem_range.2 (by omega))
  rw [rowTripletsNo, if_pos hi, Option.some.injEq] at e
  subst e
  by_contra hd
  refine not_strict_of_dup (hs (oneTripletsNo N nb J U ev i)) ?_ h1
  intro hn
  apply hd
  rw [oneTripletsNo, List.map_append, List.nodup_append] at hn
  obtain ⟨n1, -, n3⟩ := hn
  rw [List.nodup_cons]
  refine ⟨fun hmem => ?_, by simpa [Function.comp_def] using n1⟩
  exact n3 i (by simpa using hmem) i (by simp) rfl

end RealSpace

section
variable {K : Type*} [Field K] [LinearOrder K] [IsStrictOrderedRing K] [FloorRing K]
variable {S : Type*} [Field S]

/-- C26, exactly, for chains: the matrices are assembled if and only if there are at least three sites; otherwise the behaviour
is undefined. -/
theorem chain_assembly_iff {c : Chain K} {N : ℕ} (hc : c.Constructed N) (sort : List (Triplet S) → List (Triplet S))
    (hs : IsSort sort) (J U : S) :
    ((∃ m, RealSpace.initKineticMatrix sort N 2 c.neighbors J = .val m) ↔ 3 ≤ N) ∧
    ((∃ m, RealSpace.initMatrix sort N 2 c.neighbors J U = .val m) ↔ 3 ≤ N) ∧
    (RealSpace.initMatrix sort N 2 c.neighbors J U = .ub ↔ N < 3) := by
  have hpos := hc.pos_size
  by_cases h3 : 3 ≤ N
  · obtain ⟨m1, e1, _⟩ := RealSpace.initKineticMatrix_ok (chain_regular hc h3) sort hs J
    obtain ⟨m2, e2, _⟩ := RealSpace.initMatrix_ok (chain_regular hc h3) sort hs J U
    exact ⟨iff_of_true ⟨m1, e1⟩ h3, iff_of_true ⟨m2, e2⟩ h3, iff_of_false (by rw [e2]; simp) (by omega)⟩
  · obtain ⟨e1, e2⟩ := RealSpace.realMatrix_small_chain_ub hc (by omega) sort hs J U
    exact ⟨iff_of_false (by rintro ⟨m, h⟩; rw [e1] at h; cases h) h3,
      iff_of_false (by rintro ⟨m, h⟩; rw [e2] at h; cases h) h3, iff_of_true e2 (by omega)⟩

/-- C26, exactly, for chains and the normal-ordered matrix. -/
theorem chain_assemblyNo_iff [DecidableEq S] {c : Chain K} {N : ℕ} (hc : c.Constructed N)
    (sort : List (Triplet S) → List (Triplet S)) (hs : IsSort sort) (isZero : S → Bool) (hz : ∀ x, isZero x = true → x = 0)
    (J U : S) (ev : ℕ → ℕ → S) :
    (∃ m, RealSpace.initMatrixNo sort isZero N 2 c.neighbors J U ev = .val m) ↔ 3 ≤ N := by
  have hpos := hc.pos_size
  constructor
  · rintro ⟨m, hm⟩
    have := RealSpace.initMatrixNo_necessary hs hm 0 hpos
    by_contra h3
    have hn : N = 1 ∨ N = 2 := by omega
    rcases hn with rfl | rfl
    · rw [(chain_small_degenerate (c := c)).2 hc] at this; revert this; decide
    · rw [((chain_small_degenerate (c := c)).1 hc).1] at this; revert this; decide
  · intro h3
    obtain ⟨m, e, _⟩ := RealSpace.initMatrixNo_ok_partial (chain_regular hc h3) sort hs isZero hz J U ev
    exact ⟨m, e⟩

theorem square_neighbors_eq {s : Square K} {Nx Ny : ℕ} (hs : s.Constructed Nx Ny) (a : ℕ) :
    s.neighbors a = [(if a / Ny = 0 then Nx - 1 else a / Ny - 1) * Nx + a % Nx,
      a / Ny * Nx + (if a % Nx = 0 then Ny - 1 else a % Nx - 1),
      (if a / Ny = Nx - 1 then 0 else a / Ny + 1) * Nx + a % Nx,
      a / Ny * Nx + (if a % Nx = Ny - 1 then 0 else a % Nx + 1)] := by
  obtain ⟨h1, h2, _⟩ := hs.fields
  unfold Square.neighbors Square.index
  simp only [h1, h2]

/-- C26, exactly, for square lattices: the complete matrix is assembled if and only if `Nx = Ny >= 3`. -/
theorem square_assembly_iff {s : Square K} {Nx Ny : ℕ} (hs : s.Constructed Nx Ny) (sort : List (Triplet S) → List (Triplet S))
    (hsort : IsSort sort) (J U : S) :
    ((∃ m, RealSpace.initMatrix sort (Nx * Ny) 4 s.neighbors J U = .val m) ↔ Nx = Ny ∧ 3 ≤ Nx) ∧
    (RealSpace.initMatrix sort (Nx * Ny) 4 s.neighbors J U = .ub ↔ ¬ (Nx = Ny ∧ 3 ≤ Nx)) := by
  have main : (∃ m, RealSpace.initMatrix sort (Nx * Ny) 4 s.neighbors J U = .val m) ↔ Nx = Ny ∧ 3 ≤ Nx := by
    constructor
    · rintro ⟨m, hm⟩
      obtain ⟨px, py⟩ := hs.pos_size
      have nec := RealSpace.initMatrix_necessary hsort hm
      obtain ⟨n1, n2⟩ := nec 0 (Nat.mul_pos px py)
      rw [square_neighbors_eq hs] at n1 n2
      simp only [Nat.zero_div, Nat.zero_mod, if_true, Nat.zero_mul, Nat.zero_add, Nat.add_zero] at n1 n2
      have hle : Nx ≤ Ny := by
        have := n2 ((Nx - 1) * Nx) (by simp)
        rw [Nat.mul_comm (Nx - 1)] at this
        have := Nat.lt_of_mul_lt_mul_left this
        omega
      have h3 : 3 ≤ Nx := by
        by_contra h3
        have : Nx = 1 ∨ Nx = 2 := by omega
        rcases this with rfl | rfl
        · simp at n1
        · simp at n1
      refine ⟨?_, h3⟩
      by_contra hne
      have hlt : Nx < Ny := by omega
      obtain ⟨n3, -⟩ := nec Nx (by nlinarith)
      rw [square_neighbors_eq hs] at n3
      rw [Nat.div_eq_of_lt hlt, Nat.mod_self, if_neg (show ¬ (0 = Nx - 1) by omega)] at n3
      simp at n3
    · rintro ⟨rfl, h3⟩
      obtain ⟨m, e, _⟩ := RealSpace.initMatrix_ok (square_regular hs h3) sort hsort J U
      exact ⟨m, e⟩
  refine ⟨main, ?_⟩
  rw [← main]
  rcases Sparse.fillRows_cases (fun row => (RealSpace.rowTriplets (Nx * Ny) s.neighbors J U row).map sort)
    (List.range (RealSpace.basis3 (Nx * Ny)).length) (Sparse.init (RealSpace.basis3 (Nx * Ny)).length
      (RealSpace.numberOfKineticElements3 (Nx * Ny) 4 + RealSpace.numberOfInteractionElements (Nx * Ny))) with e | ⟨m, e⟩
  · exact iff_of_true e (by rintro ⟨m, h⟩; have h : _ = _ := h; unfold RealSpace.initMatrix at h; rw [e] at h; cases h)
  · refine iff_of_false (fun h => ?_) (fun h => h ⟨m, e⟩)
    unfold RealSpace.initMatrix at h; rw [e] at h; cases h

/-- C26, exactly, for square lattices: the kinetic matrix is assembled also on some rectangular lattices with `Nx < Ny`. -/
theorem square_kinetic_assembly_iff {s : Square K} {Nx Ny : ℕ} (hs : s.Constructed Nx Ny)
    (sort : List (Triplet S) → List (Triplet S)) (hsort : IsSort sort) (J : S) :
    (∃ m, RealSpace.initKineticMatrix sort (Nx * Ny) 4 s.neighbors J = .val m) ↔
      3 ≤ Nx ∧ Nx ≤ Ny ∧ Ny ≠ Nx + 1 ∧ Ny ≠ (Nx - 1) * Nx + 1 := by
  rw [RealSpace.initKineticMatrix_iff (nb := s.neighbors) (z := 4) (N := Nx * Ny) (fun i _ => by rw [square_neighbors_eq hs]; simp) sort hsort]
  obtain ⟨px, py⟩ := hs.pos_size
  constructor
  · intro nec
    obtain ⟨n1, n2⟩ := nec 0 (Nat.mul_pos px py)
    rw [square_neighbors_eq hs] at n1 n2
    simp only [Nat.zero_div, Nat.zero_mod, if_true, Nat.zero_mul, Nat.zero_add, Nat.add_zero] at n1 n2
    have hle : Nx ≤ Ny := by
      have := n2 ((Nx - 1) * Nx) (by simp)
      rw [Nat.mul_comm (Nx - 1)] at this
      have := Nat.lt_of_mul_lt_mul_left this
      omega
    have h3 : 3 ≤ Nx := by
      by_contra h3
      have : Nx = 1 ∨ Nx = 2 := by omega
      rcases this with rfl | rfl
      · simp at n1
      · simp at n1
    rw [if_neg (show ¬ (0 = Nx - 1) by omega), if_neg (show ¬ (0 = Ny - 1) by omega)] at n1
    simp only [List.nodup_cons, List.mem_cons, List.not_mem_nil, or_false, not_or] at n1
    exact ⟨h3, hle, by omega, by omega⟩
  · rintro ⟨h3, hle, hne1, hne2⟩ a ha
    rw [square_neighbors_eq hs]
    have hi : a / Ny < Nx := (Nat.div_lt_iff_lt_mul py).2 ha
    have hj : a % Nx < Nx := Nat.mod_lt _ px
    generalize a / Ny = i at hi
    generalize a % Nx = j at hj
    have hrange : ∀ x y, x < Nx → y < Nx → x * Nx + y < Nx * Ny := by
      intro x y hx hy
      have : (x + 1) * Nx ≤ Ny * Nx := Nat.mul_le_mul_right _ (by omega)
      rw [Nat.mul_comm Nx Ny]
      nlinarith
    have hrange' : ∀ x, x < Nx → x * Nx + (Ny - 1) < Nx * Ny := by
      intro x hx
      obtain ⟨d, rfl⟩ : ∃ d, Ny = Nx + d := ⟨Ny - Nx, by omega⟩
      obtain ⟨e, rfl⟩ : ∃ e, Nx = x + 1 + e := ⟨Nx - x - 1, by omega⟩
      have : x + 1 + e + d - 1 = x + e + d := by omega
      rw [this]
      nlinarith
    have hrange'' : ∀ x, x < Nx → Nx < Ny → x * Nx + Nx < Nx * Ny := by
      intro x hx hlt
      obtain ⟨d, rfl⟩ : ∃ d, Ny = Nx + d := ⟨Ny - Nx, by omega⟩
      obtain ⟨e, rfl⟩ : ∃ e, Nx = x + 1 + e := ⟨Nx - x - 1, by omega⟩
      have : 1 ≤ d := by omega
      nlinarith
    have inj : ∀ x x' y, y < Nx → x * Nx + y = x' * Nx + y → x = x' := by
      intro x x' y _ h
      exact Nat.eq_of_mul_eq_mul_right px (by omega)
    have step : ∀ x x' y y', y < Nx → y' < Nx → x * Nx + y = x' * Nx + y' → x = x' ∧ y = y' := by
      intro x x' y y' hy hy' h
      have e1 : (x * Nx + y) % Nx = (x' * Nx + y') % Nx := by rw [h]
      rw [Nat.mul_add_mod_self_right, Nat.mul_add_mod_self_right, Nat.mod_eq_of_lt hy, Nat.mod_eq_of_lt hy'] at e1
      subst e1
      exact ⟨inj x x' y hy h, rfl⟩
    constructor
    · -- the four neighbours differ
      have hmul : ∀ x x', x < x' → x * Nx + Nx ≤ x' * Nx := by
        intro x x' h
        have := Nat.mul_le_mul_right Nx (show x + 1 ≤ x' by omega)
        rw [Nat.add_mul, Nat.one_mul] at this
        exact this
      -- previous and next row
      set p := if i = 0 then Nx - 1 else i - 1 with hp
      set q := if i = Nx - 1 then 0 else i + 1 with hq
      have hpq : p ≠ q := by rw [hp, hq]; split_ifs <;> omega
      have hpi : p ≠ i := by rw [hp]; split_ifs <;> omega
      have hqi : q ≠ i := by rw [hq]; split_ifs <;> omega
      have hpN : p < Nx := by rw [hp]; split_ifs <;> omega
      have hqN : q < Nx := by rw [hq]; split_ifs <;> omega
      -- a neighbour in the row of another index
      have key : ∀ x, x < Nx → x ≠ i → (x = i + 1 ∨ x + 1 = i ∨ (x = Nx - 1 ∧ i = 0) ∨ (x = 0 ∧ i = Nx - 1)) →
          x * Nx + j ≠ i * Nx + (if j = 0 then Ny - 1 else j - 1) ∧
          x * Nx + j ≠ i * Nx + (if j = Ny - 1 then 0 else j + 1) := by
        intro x hx hxi hcase
        constructor
        · split_ifs with hj0
          · intro h
            rw [hj0, Nat.add_zero] at h
            rcases hcase with rfl | hc | ⟨rfl, rfl⟩ | ⟨rfl, hc⟩
            · rw [Nat.add_mul] at h; omega
            · have := hmul x i (by omega); omega
            · omega
            · have := hmul 0 i (by omega); omega
          · intro h
            have := step x i j (j - 1) hj (by omega) h
            omega
        · split_ifs with hj1
          · intro h
            have := step x i j 0 hj px h
            omega
          · intro h
            by_cases hjN : j + 1 < Nx
            · have := step x i j (j + 1) hj hjN h
              omega
            · have hjN : j + 1 = Nx := by omega
              rw [hjN] at h
              have h' : x * Nx + j = (i + 1) * Nx + 0 := by rw [Nat.add_mul, h]; omega
              have := step x (i + 1) j 0 hj px h'
              omega
      have kp := key p hpN hpi (by rw [hp]; split_ifs <;> omega)
      have kq := key q hqN hqi (by rw [hq]; split_ifs <;> omega)
      simp only [List.nodup_cons, List.mem_cons, List.not_mem_nil, or_false, not_or, List.nodup_nil, not_false_iff, and_true]
      refine ⟨⟨kp.1, fun h => hpq (inj p q j hj h), kp.2⟩, ⟨kq.1.symm, ?_⟩, kq.2⟩
      split_ifs <;> omega
    · intro n hn
      simp only [List.mem_cons, List.not_mem_nil, or_false] at hn
      rcases hn with rfl | rfl | rfl | rfl
      · exact hrange _ _ (by split_ifs <;> omega) hj
      · split_ifs
        · exact hrange' i hi
        · exact hrange _ _ hi (by omega)
      · exact hrange _ _ (by split_ifs <;> omega) hj
      · split_ifs with hjy
        · exact hrange _ _ hi px
        · by_cases hjN : j + 1 < Nx
          · exact hrange _ _ hi hjN
          · have : j + 1 = Nx := by omega
            rw [this]
            exact hrange'' i hi (by omega)

/-- A lattice of 3 x 5 sites: the kinetic matrix is assembled, the complete matrix is not. -/
example : (∃ m, RealSpace.initKineticMatrix (fun l : List (Triplet ℚ) => l.mergeSort (fun a b => a.column ≤ b.column)) (3 * 5) 4
      (Square.real (K := ℚ) 3 5 1 1).neighbors 1 = .val m) ∧
    RealSpace.initMatrix (fun l : List (Triplet ℚ) => l.mergeSort (fun a b => a.column ≤ b.column)) (3 * 5) 4
      (Square.real (K := ℚ) 3 5 1 1).neighbors 1 1 = .ub :=
  ⟨(square_kinetic_assembly_iff (.real 1 1 (by norm_num) (by norm_num) rfl) _ mergeSort_isSort 1).2 (by norm_num),
    (square_assembly_iff (.real 1 1 (by norm_num) (by norm_num) rfl) _ mergeSort_isSort 1 1).2.2 (by norm_num)⟩

end
end Ieompp
