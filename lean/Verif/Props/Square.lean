import Verif.Props.Chain
import Verif.Model.Square

/-! # C22, C23: the periodic square lattice

Every property holds for `Nx = Ny`; for `Nx ≠ Ny` the index arithmetic is wrong (`square_index_iff`). -/

set_option autoImplicit false
set_option linter.unusedSectionVars false

namespace Ieompp

open Spec

section Index
variable {K : Type*} [Field K]

/-- A lattice made by one of the two constructors (with its asserts). -/
inductive Square.Constructed (s : Square K) (Nx Ny : ℕ) : Prop
  | momentum (pi : K) (hx : 0 < Nx) (hy : 0 < Ny) (h : s = Square.momentum pi Nx Ny)
  | real (dx dy : K) (hx : 0 < Nx) (hy : 0 < Ny) (h : s = Square.real Nx Ny dx dy)

theorem Square.Constructed.pos_size {s : Square K} {Nx Ny : ℕ} (h : s.Constructed Nx Ny) : 0 < Nx ∧ 0 < Ny := by
  cases h <;> exact ⟨by assumption, by assumption⟩

theorem Square.Constructed.fields {s : Square K} {Nx Ny : ℕ} (h : s.Constructed Nx Ny) :
    s.sizeX = Nx ∧ s.sizeY = Ny ∧ s.size = Nx * Ny ∧ s.first = 0 ∧ s.last = Nx * Ny - 1 := by
  cases h with
  | momentum pi hx hy h => subst h; exact ⟨rfl, rfl, rfl, rfl, rfl⟩
  | real dx dy hx hy h => subst h; exact ⟨rfl, rfl, rfl, rfl, rfl⟩

/-- The consistency of the index functions that C22 asks for: `index` maps coordinates into the sites and
`x_index`, `y_index` are its inverse. -/
def Square.IndexOk (s : Square K) (Nx Ny : ℕ) : Prop :=
  (∀ x y, x < Nx → y < Ny → s.index x y < Nx * Ny ∧ s.xIndex (s.index x y) = x ∧ s.yIndex (s.index x y) = y) ∧
  (∀ i, i < Nx * Ny → s.xIndex i < Nx ∧ s.yIndex i < Ny ∧ s.index (s.xIndex i) (s.yIndex i) = i)

theorem square_coord {N x y : ℕ} (hy : y < N) : (x * N + y) / N = x ∧ (x * N + y) % N = y := by
  constructor
  · rw [mul_comm, Nat.mul_add_div (by omega), Nat.div_eq_of_lt hy, add_zero]
  · rw [mul_comm, Nat.mul_add_mod, Nat.mod_eq_of_lt hy]

/-- C22: the index functions are consistent exactly for square lattices `Nx = Ny`. The right-to-left direction
is the property for the sizes for which it holds, the other direction refutes it for all other sizes. -/
theorem square_index_iff {s : Square K} {Nx Ny : ℕ} (hs : s.Constructed Nx Ny) : s.IndexOk Nx Ny ↔ Nx = Ny := by
  obtain ⟨h1, h2, _⟩ := hs.fields
  obtain ⟨px, py⟩ := hs.pos_size
  unfold Square.IndexOk Square.index Square.xIndex Square.yIndex
  rw [h1]
  constructor
  · rintro ⟨hA, hB⟩
    by_contra hne
    rcases Nat.lt_or_ge Nx Ny with h | h
    · have := (hA 0 Nx px h).2.1
      rw [zero_mul, zero_add, Nat.div_self px] at this; omega
    · have hlt : Ny < Nx := by omega
      have := (hA (Nx - 1) (Ny - 1) (by omega) (by omega)).1
      obtain ⟨d, rfl⟩ : ∃ d, Nx = Ny + 1 + d := ⟨Nx - Ny - 1, by omega⟩
      have e : Ny + 1 + d - 1 = Ny + d := by omega
      rw [e] at this
      obtain ⟨m, rfl⟩ : ∃ m, Ny = m + 1 := ⟨Ny - 1, by omega⟩
      simp only [Nat.add_sub_cancel] at this
      nlinarith
  · rintro rfl
    refine ⟨fun x y hx hy => ?_, fun i hi => ?_⟩
    · obtain ⟨e1, e2⟩ := square_coord (x := x) hy
      refine ⟨?_, e1, e2⟩
      have : (x + 1) * Nx ≤ Nx * Nx := Nat.mul_le_mul_right _ hx
      nlinarith
    · refine ⟨Nat.div_lt_of_lt_mul hi, Nat.mod_lt _ px, ?_⟩
      rw [mul_comm]; exact Nat.div_add_mod i Nx

/-- For a square lattice every site has coordinates. -/
theorem square_exists_coord {s : Square K} {N : ℕ} (hs : s.Constructed N N) {i : ℕ} (hi : i < N * N) :
    ∃ x y, x < N ∧ y < N ∧ i = s.index x y := by
  obtain ⟨_, hB⟩ := (square_index_iff hs).2 rfl
  obtain ⟨h1, h2, h3⟩ := hB i hi
  exact ⟨_, _, h1, h2, h3.symm⟩

theorem square_index_inj {s : Square K} {N : ℕ} (hs : s.Constructed N N) {x y x' y' : ℕ} (hy : y < N) (hy' : y' < N) :
    s.index x y = s.index x' y' ↔ x = x' ∧ y = y' := by
  obtain ⟨h1, _⟩ := hs.fields
  unfold Square.index; rw [h1]
  constructor
  · intro h
    obtain ⟨e1, e2⟩ := square_coord (x := x) hy
    obtain ⟨e3, e4⟩ := square_coord (x := x') hy'
    rw [h] at e1 e2; exact ⟨by omega, by omega⟩
  · rintro ⟨rfl, rfl⟩; rfl

/-- `pred`/`succ` on a ring. -/
theorem square_neighbors_index {s : Square K} {N : ℕ} (hs : s.Constructed N N) {x y : ℕ} (hy : y < N) :
    s.neighbors (s.index x y) =
      [s.index (if x = 0 then N - 1 else x - 1) y, s.index x (if y = 0 then N - 1 else y - 1),
       s.index (if x = N - 1 then 0 else x + 1) y, s.index x (if y = N - 1 then 0 else y + 1)] := by
  obtain ⟨h1, h2, _⟩ := hs.fields
  obtain ⟨e1, e2⟩ := square_coord (x := x) hy
  unfold Square.neighbors Square.index
  simp only [h1, h2, e1, e2]

/-- C22 (Nx = Ny): neighbours are sites, are exactly the sites one step apart in one direction, neighbourhood is
mutual, and `neighboring` decides it. Missing for the full property: lattices with `Nx ≠ Ny`, for which it is
false (`square_index_iff`, `square_rect_broken`). -/
theorem square_neighbors_partial {s : Square K} {N : ℕ} (hs : s.Constructed N N) :
    (∀ a < N * N, ∀ b ∈ s.neighbors a, b < N * N) ∧
    (∀ x y x' y', x < N → y < N → x' < N → y' < N →
      (s.index x' y' ∈ s.neighbors (s.index x y) ↔
        (y' = y ∧ (x' = (x + 1) % N ∨ x = (x' + 1) % N)) ∨ (x' = x ∧ (y' = (y + 1) % N ∨ y = (y' + 1) % N)))) ∧
    (∀ a < N * N, ∀ b < N * N, (b ∈ s.neighbors a ↔ a ∈ s.neighbors b)) ∧
    (∀ a < N * N, ∀ b < N * N, (s.neighboring a b = true ↔ b ∈ s.neighbors a)) := by
  obtain ⟨h1, h2, _⟩ := hs.fields
  obtain ⟨hN, _⟩ := hs.pos_size
  have hA := ((square_index_iff hs).2 rfl).1
  have key : ∀ x y x' y', x < N → y < N → x' < N → y' < N →
      (s.index x' y' ∈ s.neighbors (s.index x y) ↔
        (y' = y ∧ (x' = (x + 1) % N ∨ x = (x' + 1) % N)) ∨ (x' = x ∧ (y' = (y + 1) % N ∨ y = (y' + 1) % N))) := by
    intro x y x' y' hx hy hx' hy'
    rw [square_neighbors_index hs hy]
    simp only [List.mem_cons, List.not_mem_nil, or_false]
    rw [square_index_inj hs hy' hy, square_index_inj hs hy' (by split_ifs <;> omega),
      square_index_inj hs hy' hy, square_index_inj hs hy' (by split_ifs <;> omega),
      succ_mod_cases hx, succ_mod_cases hx', succ_mod_cases hy, succ_mod_cases hy']
    constructor
    · rintro (⟨p, q⟩ | ⟨p, q⟩ | ⟨p, q⟩ | ⟨p, q⟩)
      · left; refine ⟨q, ?_⟩; split_ifs at p ⊢ <;> omega
      · right; refine ⟨p, ?_⟩; split_ifs at q ⊢ <;> omega
      · left; refine ⟨q, ?_⟩; split_ifs at p ⊢ <;> omega
      · right; refine ⟨p, ?_⟩; split_ifs at q ⊢ <;> omega
    · rintro (⟨p, q | q⟩ | ⟨p, q | q⟩)
      · right; right; left; refine ⟨?_, p⟩; split_ifs at q ⊢ <;> omega
      · left; refine ⟨?_, p⟩; split_ifs at q ⊢ <;> omega
      · right; right; right; refine ⟨p, ?_⟩; split_ifs at q ⊢ <;> omega
      · right; left; refine ⟨p, ?_⟩; split_ifs at q ⊢ <;> omega
  refine ⟨?_, key, ?_, ?_⟩
  · intro a ha b hb
    obtain ⟨x, y, hx, hy, rfl⟩ := square_exists_coord hs ha
    rw [square_neighbors_index hs hy] at hb
    simp only [List.mem_cons, List.not_mem_nil, or_false] at hb
    rcases hb with rfl | rfl | rfl | rfl
    · exact (hA _ _ (by split_ifs <;> omega) hy).1
    · exact (hA _ _ hx (by split_ifs <;> omega)).1
    · exact (hA _ _ (by split_ifs <;> omega) hy).1
    · exact (hA _ _ hx (by split_ifs <;> omega)).1
  · intro a ha b hb
    obtain ⟨x, y, hx, hy, rfl⟩ := square_exists_coord hs ha
    obtain ⟨x', y', hx', hy', rfl⟩ := square_exists_coord hs hb
    rw [key x y x' y' hx hy hx' hy', key x' y' x y hx' hy' hx hy]
    constructor
    · rintro (⟨p, q⟩ | ⟨p, q⟩)
      · exact Or.inl ⟨p.symm, q.symm⟩
      · exact Or.inr ⟨p.symm, q.symm⟩
    · rintro (⟨p, q⟩ | ⟨p, q⟩)
      · exact Or.inl ⟨p.symm, q.symm⟩
      · exact Or.inr ⟨p.symm, q.symm⟩
  · intro a ha b hb
    obtain ⟨x, y, hx, hy, rfl⟩ := square_exists_coord hs ha
    obtain ⟨x', y', hx', hy', rfl⟩ := square_exists_coord hs hb
    rw [key x y x' y' hx hy hx' hy']
    obtain ⟨_, a1, a2⟩ := hA x y hx hy
    obtain ⟨_, b1, b2⟩ := hA x' y' hx' hy'
    unfold Square.neighboring
    simp only [a1, a2, b1, b2, h1, h2]
    by_cases hxx : x = x'
    · subst hxx
      simp only [if_true, Bool.or_eq_true, beq_iff_eq, true_and]
      constructor
      · rintro (h | h)
        · exact Or.inr (Or.inl h.symm)
        · exact Or.inr (Or.inr h.symm)
      · rintro (⟨rfl, h⟩ | h | h)
        · -- only possible on one site
          have : N = 1 := by rw [succ_mod_cases hx] at h; split_ifs at h <;> omega
          subst this; left; omega
        · exact Or.inl h.symm
        · exact Or.inr h.symm
    · rw [if_neg hxx]
      by_cases hyy : y = y'
      · subst hyy
        rw [if_pos rfl]
        simp only [Bool.or_eq_true, beq_iff_eq, true_and]
        constructor
        · rintro (h | h)
          · exact Or.inl (Or.inl h.symm)
          · exact Or.inl (Or.inr h.symm)
        · rintro ((h | h) | ⟨h, _⟩)
          · exact Or.inl h.symm
          · exact Or.inr h.symm
          · exact absurd h.symm hxx
      · rw [if_neg hyy]
        simp only [Bool.false_eq_true, false_iff, not_or, not_and]
        exact ⟨fun h => absurd h.symm hyy, fun h => absurd h.symm hxx⟩

/-- C22 (Nx = Ny ≥ 3): the four neighbours are pairwise different and differ from the site; the unique
neighbours list every bond exactly once. -/
theorem square_uniqueNeighbors_partial {s : Square K} {N : ℕ} (hs : s.Constructed N N) (hN : 3 ≤ N) :
    (∀ a < N * N, (a :: s.neighbors a).Nodup) ∧
    (∀ a < N * N, ∀ b < N * N,
      (b ∈ s.neighbors a ↔ (b ∈ s.uniqueNeighbors a ∨ a ∈ s.uniqueNeighbors b)) ∧
      ¬ (b ∈ s.uniqueNeighbors a ∧ a ∈ s.uniqueNeighbors b)) := by
  obtain ⟨h1, h2, _⟩ := hs.fields
  have un : ∀ x y, y < N → s.uniqueNeighbors (s.index x y) =
      [s.index (if x = N - 1 then 0 else x + 1) y, s.index x (if y = N - 1 then 0 else y + 1)] := by
    intro x y hy
    obtain ⟨e1, e2⟩ := square_coord (x := x) hy
    unfold Square.uniqueNeighbors Square.index
    simp only [h1, h2, e1, e2]
  constructor
  · intro a ha
    obtain ⟨x, y, hx, hy, rfl⟩ := square_exists_coord hs ha
    rw [square_neighbors_index hs hy]
    have p1 : (if y = 0 then N - 1 else y - 1) < N := by split_ifs <;> omega
    have p2 : (if y = N - 1 then 0 else y + 1) < N := by split_ifs <;> omega
    simp only [List.nodup_cons, List.mem_cons, List.not_mem_nil, or_false, not_or, List.nodup_nil, not_false_iff,
      and_true]
    simp only [square_index_inj hs hy p1, square_index_inj hs hy p2, square_index_inj hs hy hy,
      square_index_inj hs p1 hy, square_index_inj hs p1 p2]
    refine ⟨⟨?_, ?_, ?_, ?_⟩, ⟨?_, ?_, ?_⟩, ⟨?_, ?_⟩, ?_⟩ <;> split_ifs <;> omega
  · intro a ha b hb
    obtain ⟨x, y, hx, hy, rfl⟩ := square_exists_coord hs ha
    obtain ⟨x', y', hx', hy', rfl⟩ := square_exists_coord hs hb
    rw [(square_neighbors_partial hs).2.1 x y x' y' hx hy hx' hy', un x y hy, un x' y' hy']
    have q1 : (if y = N - 1 then 0 else y + 1) < N := by split_ifs <;> omega
    have q2 : (if y' = N - 1 then 0 else y' + 1) < N := by split_ifs <;> omega
    simp only [List.mem_cons, List.not_mem_nil, or_false, square_index_inj hs hy' hy, square_index_inj hs hy hy',
      square_index_inj hs hy' q1, square_index_inj hs hy q2]
    rw [succ_mod_cases hx, succ_mod_cases hx', succ_mod_cases hy, succ_mod_cases hy']
    refine ⟨⟨?_, ?_⟩, ?_⟩
    · rintro (⟨p, q | q⟩ | ⟨p, q | q⟩)
      · left; left; refine ⟨?_, p⟩; split_ifs at q ⊢ <;> omega
      · right; left; refine ⟨?_, p.symm⟩; split_ifs at q ⊢ <;> omega
      · left; right; refine ⟨p, ?_⟩; split_ifs at q ⊢ <;> omega
      · right; right; refine ⟨p.symm, ?_⟩; split_ifs at q ⊢ <;> omega
    · rintro ((⟨p, q⟩ | ⟨p, q⟩) | (⟨p, q⟩ | ⟨p, q⟩))
      · left; refine ⟨q, ?_⟩; split_ifs at p ⊢ <;> omega
      · right; refine ⟨p, ?_⟩; split_ifs at q ⊢ <;> omega
      · left; refine ⟨q.symm, ?_⟩; split_ifs at p ⊢ <;> omega
      · right; refine ⟨p.symm, ?_⟩; split_ifs at q ⊢ <;> omega
    · rintro ⟨⟨p, q⟩ | ⟨p, q⟩, ⟨p', q'⟩ | ⟨p', q'⟩⟩ <;> split_ifs at p q p' q' <;> omega

/-- Ring distance as a number. -/
def ringDist (N a b : ℕ) : ℕ := (Chain.real (K := ℚ) N 1).latticeDistance a b

theorem ringDist_spec (N a b d : ℕ) : ringDist N a b = d ↔ IsRingDist N a b d := by
  unfold ringDist Chain.latticeDistance IsRingDist; simp only [Chain.real]; split_ifs <;> omega

theorem ringDist_pred {N a b : ℕ} (ha : a < N) (hb : b < N) (hpos : 0 < ringDist N a b) :
    ringDist N a (if b + 1 = N then 0 else b + 1) + 1 = ringDist N a b ∨
    ringDist N a (if b > 0 then b - 1 else N - 1) + 1 = ringDist N a b := by
  unfold ringDist Chain.latticeDistance at *
  simp only [Chain.real] at *
  split_ifs at hpos ⊢ <;> omega

theorem ringDist_step {N a b : ℕ} (ha : a < N) (hb : b < N) (hpos : 0 < ringDist N a b) :
    ∃ b', b' < N ∧ (b = (b' + 1) % N ∨ b' = (b + 1) % N) ∧ ringDist N a b' + 1 = ringDist N a b := by
  rcases ringDist_pred ha hb hpos with h | h
  · rw [← succ_mod_cases hb] at h
    exact ⟨_, Nat.mod_lt _ (by omega), Or.inr rfl, h⟩
  · have hlt : (if b > 0 then b - 1 else N - 1) < N := by split_ifs <;> omega
    refine ⟨_, hlt, Or.inl ?_, h⟩
    rw [succ_mod_cases hlt]; split_ifs <;> omega

theorem ringDist_adj {N a b c : ℕ} (ha : a < N) (hb : b < N) (hc : c < N)
    (h : b = (a + 1) % N ∨ a = (b + 1) % N) : ringDist N a c ≤ ringDist N b c + 1 := by
  rw [succ_mod_cases ha, succ_mod_cases hb] at h
  unfold ringDist Chain.latticeDistance
  simp only [Chain.real]
  rcases h with h | h <;> split_ifs at h ⊢ <;> omega

theorem ringDist_zero {N a b : ℕ} (ha : a < N) (hb : b < N) : ringDist N a b = 0 ↔ a = b :=
  (chain_distance_metric (.real 1 (by omega) rfl) a b b ha hb hb).2.1

theorem square_distance_eq {s : Square K} {N : ℕ} (hs : s.Constructed N N) {x y x' y' : ℕ}
    (hx : x < N) (hy : y < N) (hx' : x' < N) (hy' : y' < N) :
    s.latticeDistanceX (s.index x y) (s.index x' y') = some (ringDist N x x') ∧
    s.latticeDistanceY (s.index x y) (s.index x' y') = some (ringDist N y y') := by
  obtain ⟨h1, h2, _⟩ := hs.fields
  have hA := ((square_index_iff hs).2 rfl).1
  obtain ⟨_, a1, a2⟩ := hA x y hx hy
  obtain ⟨_, b1, b2⟩ := hA x' y' hx' hy'
  unfold Square.latticeDistanceX Square.latticeDistanceY
  simp only [a1, a2, b1, b2, h1, h2]
  constructor
  · rw [if_pos (by split_ifs <;> omega)]; congr 1; unfold ringDist Chain.latticeDistance; simp only [Chain.real]; split_ifs <;> omega
  · rw [if_pos (by split_ifs <;> omega)]; congr 1; unfold ringDist Chain.latticeDistance; simp only [Chain.real]; split_ifs <;> omega

/-- C22 (Nx = Ny): `lattice_distance_x` and `lattice_distance_y` are the ring distances of the coordinates and
their sum is the length of a shortest walk along neighbours (in particular a metric). -/
theorem square_distance_partial {s : Square K} {N : ℕ} (hs : s.Constructed N N) (x y x' y' : ℕ)
    (hx : x < N) (hy : y < N) (hx' : x' < N) (hy' : y' < N) :
    ∃ dx dy, s.latticeDistanceX (s.index x y) (s.index x' y') = some dx ∧
      s.latticeDistanceY (s.index x y) (s.index x' y') = some dy ∧ IsRingDist N x x' dx ∧ IsRingDist N y y' dy ∧
      Walk (fun a b => b ∈ s.neighbors a) (dx + dy) (s.index x y) (s.index x' y') ∧
      ∀ n, Walk (fun a b => b ∈ s.neighbors a) n (s.index x y) (s.index x' y') → dx + dy ≤ n := by
  obtain ⟨e1, e2⟩ := square_distance_eq hs hx hy hx' hy'
  obtain ⟨hval, hnb, _, _⟩ := square_neighbors_partial hs
  refine ⟨_, _, e1, e2, (ringDist_spec _ _ _ _).1 rfl, (ringDist_spec _ _ _ _).1 rfl, ?_, ?_⟩
  · clear e1 e2
    obtain ⟨d, hd⟩ : ∃ d, ringDist N x x' + ringDist N y y' = d := ⟨_, rfl⟩
    rw [hd]
    induction d generalizing x' y' with
    | zero =>
      have h1 : x = x' := (ringDist_zero hx hx').1 (by omega)
      have h2 : y = y' := (ringDist_zero hy hy').1 (by omega)
      subst h1; subst h2; exact Walk.refl _
    | succ d ih =>
      have step := fun a b ha hb hpos => ringDist_step (N := N) (a := a) (b := b) ha hb hpos
      by_cases hp : 0 < ringDist N x x'
      · obtain ⟨b', hb', hor, hr⟩ := step x x' hx hx' hp
        have := ih b' y' hb' hy' (by omega)
        exact this.snoc ((hnb b' y' x' y' hb' hy' hx' hy').2 (Or.inl ⟨rfl, hor⟩))
      · obtain ⟨b', hb', hor, hr⟩ := step y y' hy hy' (by omega)
        have := ih x' b' hx' hb' (by omega)
        exact this.snoc ((hnb x' b' x' y' hx' hb' hx' hy').2 (Or.inr ⟨rfl, hor⟩))
  · intro n hw
    obtain ⟨a, ha⟩ : ∃ a, a = s.index x y := ⟨_, rfl⟩
    obtain ⟨b, hb⟩ : ∃ b, b = s.index x' y' := ⟨_, rfl⟩
    rw [← ha, ← hb] at hw
    clear e1 e2
    induction hw generalizing x y with
    | refl a =>
      rw [hb, square_index_inj hs hy' hy] at ha
      obtain ⟨rfl, rfl⟩ := ha
      rw [(ringDist_zero hx' hx').2 rfl, (ringDist_zero hy' hy').2 rfl]
    | @step n a c b h1 _ ih =>
      rw [ha] at h1
      have hc := hval _ (((square_index_iff hs).2 rfl).1 x y hx hy).1 c h1
      obtain ⟨u, w, hu, hw', rfl⟩ := square_exists_coord hs hc
      have := ih u w hu hw' rfl hb
      rw [hnb x y u w hx hy hu hw'] at h1
      have hle : ringDist N x x' + ringDist N y y' ≤ ringDist N u x' + ringDist N w y' + 1 := by
        rcases h1 with ⟨rfl, h⟩ | ⟨rfl, h⟩
        · have := ringDist_adj (N := N) hx hu hx' h
          omega
        · have := ringDist_adj (N := N) hy hw' hy' h
          omega
      omega

/-- C22 is false of the code for rectangular lattices. On 2 x 3 sites: coordinates collide, a site's own
coordinates are wrong, the neighbourhood is not mutual; on 3 x 2 sites the corner is outside the lattice and a neighbour is out of
range; on 1 x 5 sites the distance subtraction wraps around. -/
theorem square_rect_broken :
    (let s := Square.real (K := ℚ) 2 3 1 1
     s.index 0 2 = s.index 1 0 ∧ ¬ (∀ a < 6, ∀ b < 6, b ∈ s.neighbors a → a ∈ s.neighbors b)) ∧
    (let s := Square.real (K := ℚ) 3 2 1 1
     s.index 2 1 = 7 ∧ s.size = 6 ∧ ∃ a < 6, ∃ b ∈ s.neighbors a, 6 ≤ b) ∧
    (let s := Square.real (K := ℚ) 1 5 1 1
     s.latticeDistanceX 0 4 = none) := by
  refine ⟨⟨by decide, by decide⟩, ⟨by decide, by decide, by decide⟩, by decide⟩

/-- C22, exact for the neighbours: on a lattice of `Nx × Ny` sites all neighbours are sites and the neighbourhood is mutual exactly for
`Nx = Ny` (and on the degenerate lattices of `1 × 2` and `1 × 3` sites). -/
theorem square_neighbors_iff {s : Square K} {Nx Ny : ℕ} (hs : s.Constructed Nx Ny) :
    ((∀ a < Nx * Ny, ∀ b ∈ s.neighbors a, b < Nx * Ny) ∧
      (∀ a < Nx * Ny, ∀ b < Nx * Ny, (b ∈ s.neighbors a ↔ a ∈ s.neighbors b))) ↔ Nx = Ny ∨ (Nx = 1 ∧ Ny ≤ 3) := by
  obtain ⟨h1, h2, _⟩ := hs.fields
  obtain ⟨px, py⟩ := hs.pos_size
  have hpos : 0 < Nx * Ny := Nat.mul_pos px py
  have hl : (Nx * Ny - 1) / Ny = Nx - 1 := by
    obtain ⟨m, rfl⟩ : ∃ m, Nx = m + 1 := ⟨Nx - 1, by omega⟩
    have e : (m + 1) * Ny - 1 = Ny - 1 + Ny * m := by
      have : (m + 1) * Ny = Ny * m + Ny := by ring
      omega
    rw [e, Nat.add_mul_div_left _ _ py, Nat.div_eq_of_lt (by omega)]; omega
  have hm : (Nx * Ny - 1) % Nx = Nx - 1 := by
    obtain ⟨m, rfl⟩ : ∃ m, Ny = m + 1 := ⟨Ny - 1, by omega⟩
    have e : Nx * (m + 1) - 1 = Nx - 1 + Nx * m := by
      have : Nx * (m + 1) = Nx * m + Nx := by ring
      omega
    rw [e, Nat.add_mul_mod_self_left, Nat.mod_eq_of_lt (by omega)]
  constructor
  · rintro ⟨hA, hB⟩
    by_contra hne
    rcases Nat.lt_or_ge Ny Nx with hlt | hge
    · -- the last site has a neighbour outside the lattice
      have hmem : (Nx - 1) * Nx + (Nx - 1 - 1) ∈ s.neighbors (Nx * Ny - 1) := by
        unfold Square.neighbors Square.index
        simp only [h1, h2, hl, hm]
        simp only [List.mem_cons]
        refine Or.inr (Or.inl ?_)
        rw [if_neg (by omega : ¬ Nx - 1 = 0)]
      have := hA _ (by omega) _ hmem
      obtain ⟨d, rfl⟩ : ∃ d, Nx = Ny + 1 + d := ⟨Nx - Ny - 1, by omega⟩
      obtain ⟨m, rfl⟩ : ∃ m, Ny = m + 1 := ⟨Ny - 1, by omega⟩
      have e1 : m + 1 + 1 + d - 1 = m + 1 + d := by omega
      have e2 : m + 1 + d - 1 = m + d := by omega
      rw [e1, e2] at this
      nlinarith
    · have hlt : Nx < Ny := by
        rcases Nat.lt_or_ge Nx Ny with h | h
        · exact h
        · exact absurd (Or.inl (by omega)) hne
      rcases Nat.lt_or_ge 1 Nx with h2x | h1x
      · -- the last site is nobody's neighbour
        have hbound : ∀ a < Nx * Ny, ∀ b ∈ s.neighbors a, b < Nx * Ny - 1 := by
          intro a ha b hb
          have hi : a / Ny < Nx := Nat.div_lt_of_lt_mul (by rw [Nat.mul_comm]; exact ha)
          have hj : a % Nx < Nx := Nat.mod_lt _ px
          unfold Square.neighbors Square.index at hb
          simp only [h1, h2] at hb
          generalize a / Ny = i at hi hb
          generalize a % Nx = j at hj hb
          obtain ⟨d, rfl⟩ : ∃ d, Ny = Nx + 1 + d := ⟨Ny - Nx - 1, by omega⟩
          have hS : Nx * (Nx + 1 + d) = Nx * Nx + Nx + Nx * d := by ring
          have hd : d ≤ Nx * d := Nat.le_mul_of_pos_left _ px
          have row : ∀ x ≤ Nx - 1, x * Nx + Nx ≤ Nx * Nx := by
            intro x hx
            have : (x + 1) * Nx ≤ Nx * Nx := Nat.mul_le_mul_right _ (by omega)
            have e : (x + 1) * Nx = x * Nx + Nx := by ring
            omega
          have hd2 : 2 * d ≤ Nx * d := Nat.mul_le_mul_right _ h2x
          simp only [List.mem_cons, List.not_mem_nil, or_false] at hb
          rcases hb with hb | hb | hb | hb
          · have := row (if i = 0 then Nx - 1 else i - 1) (by split_ifs <;> omega)
            rw [hb]; omega
          · have := row i (by omega)
            have h3 : (if j = 0 then Nx + 1 + d - 1 else j - 1) ≤ Nx + d := by split_ifs <;> omega
            rw [hb]; omega
          · have := row (if i = Nx - 1 then 0 else i + 1) (by split_ifs <;> omega)
            rw [hb]; omega
          · have := row i (by omega)
            have h3 : (if j = Nx + 1 + d - 1 then 0 else j + 1) ≤ Nx := by split_ifs <;> omega
            rw [hb]; omega
        obtain ⟨b, hb⟩ : ∃ b, b ∈ s.neighbors (Nx * Ny - 1) := by
          unfold Square.neighbors; exact ⟨_, List.mem_cons_self⟩
        have hb' := hbound _ (by omega) _ hb
        have := (hB (Nx * Ny - 1) (by omega) b (by omega)).1 hb
        have := hbound b (by omega) _ this
        omega
      · -- one column
        have hN1 : Nx = 1 := by omega
        subst hN1
        have hNy : 4 ≤ Ny := by
          by_contra hc
          exact hne (Or.inr ⟨rfl, by omega⟩)
        have hn : ∀ a < Ny, s.neighbors a = [0, Ny - 1, 0, 1] := by
          intro a ha
          unfold Square.neighbors Square.index
          simp only [h1, h2, Nat.div_eq_of_lt ha, Nat.mod_one]
          rw [if_neg (by omega : ¬ 0 = Ny - 1)]
          simp
        have := (hB 2 (by omega) 0 (by omega)).1 (by rw [hn 2 (by omega)]; simp)
        rw [hn 0 (by omega)] at this
        simp at this
        omega
  · rintro (rfl | ⟨rfl, h3⟩)
    · obtain ⟨a1, _, a3, _⟩ := square_neighbors_partial hs
      exact ⟨a1, a3⟩
    · have hn : ∀ a < Ny, s.neighbors a = [0, Ny - 1, 0, if Ny = 1 then 0 else 1] := by
        intro a ha
        unfold Square.neighbors Square.index
        simp only [h1, h2, Nat.div_eq_of_lt ha, Nat.mod_one]
        by_cases h : Ny = 1
        · subst h; simp
        · rw [if_neg (by omega : ¬ 0 = Ny - 1), if_neg h]
          simp
      have hall : ∀ a < Ny, ∀ b < Ny, b ∈ s.neighbors a := by
        intro a ha b hb
        rw [hn a ha]
        simp only [List.mem_cons, List.not_mem_nil, or_false]
        split_ifs <;> omega
      refine ⟨fun a ha b hb => ?_, fun a ha b hb => ?_⟩
      · rw [one_mul] at ha ⊢
        rw [hn a ha] at hb
        simp only [List.mem_cons, List.not_mem_nil, or_false] at hb
        split_ifs at hb <;> omega
      · rw [one_mul] at ha hb
        exact ⟨fun _ => hall b hb a ha, fun _ => hall a ha b hb⟩

end Index

/-! ## C23 -/

section Lookup
variable {K : Type*} [Field K] [LinearOrder K] [IsStrictOrderedRing K] [FloorRing K]

theorem coordIndex_real_lattice (N : ℕ) (hN : 0 < N) (dx : K) (hdx : 0 < dx) (z : ℤ) :
    coordIndex 0 (dx * ((N - 1 : ℕ) : K)) (N * dx) dx (z * dx) = .val (siteMod z N) := by
  have hN' : (0 : K) < N := by exact_mod_cast hN
  have hzN : z % (N : ℤ) + (N : ℤ) * (z / N) = z := Int.emod_add_mul_ediv z N
  have h1 := Int.emod_nonneg z (by omega : (N : ℤ) ≠ 0)
  have h2 := Int.emod_lt_of_pos z (by omega : (0 : ℤ) < N)
  have hw : ((z % N : ℤ) : K) * dx = z * dx + ((-(z / N) : ℤ) : K) * (N * dx) := by
    have := congrArg (Int.cast : ℤ → K) hzN
    push_cast at this ⊢
    rw [← this]; ring
  have hle : ((z % N : ℤ) : K) ≤ (N : K) - 1 := by
    have : z % (N : ℤ) ≤ N - 1 := by omega
    exact_mod_cast this
  rw [coordIndex_open dx _ _ N _ hN hdx hw (mul_nonneg (by exact_mod_cast h1) hdx.le) (by nlinarith),
    if_pos (by nlinarith)]
  congr 1
  have : ((z % N : ℤ) : K) * dx / dx = ((z % N : ℤ) : K) := by field_simp
  rw [this]
  have hf : ⌊((z % (N : ℤ) : ℤ) : K) + 1 / 2⌋ = z % N := by
    rw [Int.floor_eq_iff]; constructor <;> linarith
  rw [hf]; rfl

theorem coordIndex_momentum_lattice (N : ℕ) (hN : 0 < N) (pi : K) (hpi : 0 < pi) (z : ℤ) :
    coordIndex (-pi) pi (2 * pi) (2 * pi / N) (-pi + z * (2 * pi / N)) =
      .val (if (N : ℤ) ≤ z ∧ (N : ℤ) ∣ z then N else siteMod z N) := by
  have hN' : (0 : K) < N := by exact_mod_cast hN
  have hdx : 0 < 2 * pi / (N : K) := div_pos (by linarith) hN'
  obtain ⟨m, h1, h2, hm1, hm2, h3⟩ := coordIndex_closed (-pi) (2 * pi / N) (-pi + z * (2 * pi / N)) N hN hdx
  have e1 : (N : K) * (2 * pi / N) = 2 * pi := by field_simp
  have e2 : -pi + (N : K) * (2 * pi / N) = pi := by rw [e1]; ring
  rw [e2, e1] at h3
  rw [h3]
  have e : (-pi + z * (2 * pi / N) - -pi) / (2 * pi / (N : K)) = z := by field_simp; ring
  rw [e] at h1 h2 hm1 hm2 ⊢
  have e3 : (z : K) + m * N = ((z + m * N : ℤ) : K) := by push_cast; ring
  rw [e3] at h1 h2 hm1 hm2 ⊢
  have hf : ⌊((z + m * N : ℤ) : K) + 1 / 2⌋ = z + m * N := by
    rw [Int.floor_eq_iff]; constructor <;> linarith
  rw [hf]
  have g1 : 0 ≤ z + m * N := by exact_mod_cast h1
  have g2 : z + m * N ≤ N := by exact_mod_cast h2
  have k1 : 0 < m → z + m * N < N := fun h => by exact_mod_cast hm1 h
  have k2 : m < 0 → 0 < z + m * N := fun h => by exact_mod_cast hm2 h
  have hNi : (0 : ℤ) < N := by exact_mod_cast hN
  congr 1
  by_cases hc : (N : ℤ) ≤ z ∧ (N : ℤ) ∣ z
  · rw [if_pos hc]
    obtain ⟨hc1, t, ht⟩ := hc
    -- m ≤ 0
    have ht1 : 1 ≤ t := by
      by_contra hcon
      have : t ≤ 0 := by omega
      have : (N : ℤ) * t ≤ 0 := mul_nonpos_of_nonneg_of_nonpos hNi.le this
      omega
    have hmul : z + m * N = N * (t + m) := by rw [ht]; ring
    rw [hmul] at g1 g2 k1 k2 ⊢
    have u1 : 0 ≤ t + m := by
      by_contra hcon
      have : (N : ℤ) * (t + m) ≤ N * (-1) := mul_le_mul_of_nonneg_left (by omega) hNi.le
      omega
    have u2 : t + m ≤ 1 := by
      by_contra hcon
      have : (N : ℤ) * 2 ≤ N * (t + m) := mul_le_mul_of_nonneg_left (by omega) hNi.le
      omega
    have u3 : t + m = 1 := by
      rcases (by omega : t + m = 0 ∨ t + m = 1) with h | h
      · exfalso
        have := k2 (by omega)
        rw [h] at this; simp at this
      · exact h
    rw [u3]; simp
  · rw [if_neg hc]
    have hlt : z + m * N < N := by
      rcases lt_or_eq_of_le g2 with h | h
      · exact h
      · exfalso
        apply hc
        have hm0 : m ≤ 0 := by
          by_contra hcon
          have := k1 (by omega); omega
        have hz : z = N * (1 - m) := by linear_combination h
        refine ⟨?_, ⟨1 - m, hz⟩⟩
        have : (N : ℤ) * m ≤ 0 := mul_nonpos_of_nonneg_of_nonpos hNi.le hm0
        nlinarith
    unfold siteMod
    rw [← Int.add_mul_emod_self_right z m N, Int.emod_eq_of_lt g1 hlt]

/-- C23 (Nx = Ny): looking up the position of a site returns the site, in both spaces.
Missing for the full property: `Nx ≠ Ny` (`square_lookup_rect_broken`) and positions on the upper boundary in
momentum space (`square_lookup_momentum_out`), the undefined strip in real space (`square_lookup_real_ub`). -/
theorem square_lookup_pos_partial (N : ℕ) (i : ℕ) (hi : i < N * N) :
    (∀ pi : K, 0 < pi → (Square.momentum pi N N).lookup ((Square.momentum pi N N).pos i) = .val i) ∧
    (∀ dx dy : K, 0 < dx → 0 < dy → (Square.real N N dx dy).lookup ((Square.real N N dx dy).pos i) = .val i) := by
  have hN : 0 < N := by
    rcases Nat.eq_zero_or_pos N with h | h
    · subst h; simp at hi
    · exact h
  have hx : i / N < N := Nat.div_lt_of_lt_mul hi
  have hy : i % N < N := Nat.mod_lt _ hN
  have hdm : i / N * N + i % N = i := by rw [mul_comm]; exact Nat.div_add_mod i N
  constructor
  · intro pi hpi
    have c : ∀ j : ℕ, j < N → coordIndex (-pi) pi (2 * pi) (2 * pi / N) (-pi + (j : K) * (2 * pi / N)) = .val j := by
      intro j hj
      have := coordIndex_momentum_lattice N hN pi hpi (j : ℤ)
      rw [if_neg (by omega), siteMod_nat hj] at this
      simpa using this
    unfold Square.lookup Square.pos
    simp only [Square.momentum]
    rw [c _ hx, c _ hy]
    simp [hdm]
  · intro dx dy hdx hdy
    have c : ∀ (dx : K), 0 < dx → ∀ j : ℕ, j < N → coordIndex 0 (dx * ((N - 1 : ℕ) : K)) (N * dx) dx (0 + (j : K) * dx) = .val j := by
      intro dx hdx j hj
      have := coordIndex_real_lattice N hN dx hdx (j : ℤ)
      rw [siteMod_nat hj] at this
      simpa using this
    unfold Square.lookup Square.pos
    simp only [Square.real]
    rw [c dx hdx _ hx, c dy hdy _ hy]
    simp [hdm]

/-- C23 (Nx = Ny), any point of the infinitely repeated lattice, `z`, `w` arbitrary integers. In real space the
lookup is right. In momentum space it is right unless a coordinate is a positive multiple of `N`. -/
theorem square_lookup_lattice_partial (N : ℕ) (hN : 0 < N) (z w : ℤ) :
    (∀ dx dy : K, 0 < dx → 0 < dy → (Square.real N N dx dy).lookup (z * dx, w * dy)
      = .val (siteMod z N * N + siteMod w N)) ∧
    (∀ pi : K, 0 < pi → ¬ ((N : ℤ) ≤ z ∧ (N : ℤ) ∣ z) → ¬ ((N : ℤ) ≤ w ∧ (N : ℤ) ∣ w) →
      (Square.momentum pi N N).lookup (-pi + z * (2 * pi / N), -pi + w * (2 * pi / N))
        = .val (siteMod z N * N + siteMod w N)) := by
  constructor
  · intro dx dy hdx hdy
    unfold Square.lookup
    simp only [Square.real]
    rw [coordIndex_real_lattice N hN dx hdx, coordIndex_real_lattice N hN dy hdy]; rfl
  · intro pi hpi h1 h2
    unfold Square.lookup
    simp only [Square.momentum]
    rw [coordIndex_momentum_lattice N hN pi hpi, coordIndex_momentum_lattice N hN pi hpi, if_neg h1, if_neg h2]; rfl

/-- C23 is false of the code: in momentum space, for every size, looking up the corner `(π, π)` (equivalent to
site 0, and a legal sum of lattice momenta) returns an index outside the lattice, and `(-π, π)` returns site N
instead of site 0. -/
theorem square_lookup_momentum_out (N : ℕ) (hN : 0 < N) (pi : K) (hpi : 0 < pi) :
    (∃ r, (Square.momentum pi N N).lookup (pi, pi) = .val r ∧ N * N ≤ r) ∧
    (Square.momentum pi N N).lookup (-pi, pi) = .val N := by
  have hN' : (0 : K) < N := by exact_mod_cast hN
  have e : -pi + ((N : ℤ) : K) * (2 * pi / N) = pi := by push_cast; field_simp; ring
  have c1 : coordIndex (-pi) pi (2 * pi) (2 * pi / N) pi = .val N := by
    have := coordIndex_momentum_lattice N hN pi hpi (N : ℤ)
    rw [e, if_pos ⟨le_refl _, dvd_refl _⟩] at this; exact this
  have c2 : coordIndex (-pi) pi (2 * pi) (2 * pi / N) (-pi) = .val 0 := by
    have := coordIndex_momentum_lattice N hN pi hpi 0
    rw [if_neg (by omega)] at this
    simpa [siteMod] using this
  unfold Square.lookup
  simp only [Square.momentum]
  rw [c1, c2]
  exact ⟨⟨N * N + N, rfl, by omega⟩, by simp⟩

/-- C23 is false of the code in real space: a position within the period whose lookup is undefined. -/
theorem square_lookup_real_ub (N : ℕ) (hN : 0 < N) (dx dy : K) (hdx : 0 < dx) :
    (Square.real N N dx dy).lookup (dx * (N - 3 / 4), 0) = .ub := by
  have hN' : (1 : K) ≤ N := by exact_mod_cast hN
  have h0 : 0 < dx * ((N : K) - 3 / 4) := mul_pos hdx (by linarith)
  have h1 : dx * ((N : K) - 3 / 4) < N * dx := by nlinarith
  unfold Square.lookup
  simp only [Square.real]
  rw [coordIndex_open dx _ _ N 0 hN hdx (by simp) h0.le h1, if_neg (by nlinarith), if_pos (by nlinarith)]
  rfl

/-- C23 is false of the code for rectangular lattices: on 2 x 3 sites the lookup of the position of site 4 is
outside the lattice's period and comes back as another site. -/
theorem square_lookup_rect_broken :
    (Square.real (K := ℚ) 2 3 1 1).lookup ((Square.real (K := ℚ) 2 3 1 1).pos 4) = .val 0 := by
  have h1 := coordIndex_real_lattice (K := ℚ) 2 (by omega) 1 (by norm_num) 2
  have h2 := coordIndex_real_lattice (K := ℚ) 3 (by omega) 1 (by norm_num) 0
  have p : (Square.real (K := ℚ) 2 3 1 1).pos 4 = (2, 0) := by
    norm_num [Square.pos, Square.real]
  rw [p]
  unfold Square.lookup
  simp only [Square.real]
  norm_num [siteMod] at h1 h2 ⊢
  rw [h1, h2]; rfl

/-- **C23**, exactly, for the positions of the sites: in real space they are all found again if and only if `Nx = Ny`, in
momentum space if and only if `Nx` and `Ny` differ by at most one. -/
theorem square_lookup_pos_iff {Nx Ny : ℕ} (hx : 0 < Nx) (hy : 0 < Ny) :
    (∀ dx dy : K, 0 < dx → 0 < dy →
      ((∀ i < Nx * Ny, (Square.real Nx Ny dx dy).lookup ((Square.real Nx Ny dx dy).pos i) = .val i) ↔ Nx = Ny)) ∧
    (∀ pi : K, 0 < pi →
      ((∀ i < Nx * Ny, (Square.momentum pi Nx Ny).lookup ((Square.momentum pi Nx Ny).pos i) = .val i) ↔
        Nx ≤ Ny + 1 ∧ Ny ≤ Nx + 1)) := by
  have big : ∀ i < Nx * Ny, i / Nx < Ny ∧ i % Nx < Nx := fun i hi =>
    ⟨Nat.div_lt_of_lt_mul hi, Nat.mod_lt _ hx⟩
  have self : ∀ {k N : ℕ}, k < N → siteMod (k : ℤ) N = k := fun h => siteMod_nat h
  have over : ∀ (k N : ℕ), k < N → siteMod ((N + k : ℕ) : ℤ) N = k := by
    intro k N hk
    unfold siteMod
    rw [Nat.cast_add, Int.add_emod_left, Int.emod_eq_of_lt (by omega) (by omega)]; simp
  constructor
  · intro dx dy hdx hdy
    have val : ∀ i, (Square.real Nx Ny dx dy).lookup ((Square.real Nx Ny dx dy).pos i) =
        .val (siteMod (i / Nx : ℕ) Nx * Nx + siteMod (i % Nx : ℕ) Ny) := by
      intro i
      have h1 := coordIndex_real_lattice Nx hx dx hdx (i / Nx : ℕ)
      have h2 := coordIndex_real_lattice Ny hy dy hdy (i % Nx : ℕ)
      unfold Square.lookup Square.pos
      simp only [Square.real, zero_add]
      rw [Int.cast_natCast] at h1 h2
      rw [h1, h2]; rfl
    constructor
    · intro h
      by_contra hne
      rcases Nat.lt_or_gt_of_ne hne with hlt | hlt
      · have hi : Nx * Nx < Nx * Ny := by nlinarith
        have := h _ hi
        rw [val, Nat.mul_div_cancel _ hx, Nat.mul_mod_left] at this
        have e := over 0 Nx hx
        rw [Nat.add_zero] at e
        rw [e, self hy, Nat.zero_mul, Nat.zero_add] at this
        have := Res.val.inj this
        nlinarith
      · have hi : Ny < Nx * Ny := by nlinarith
        have := h _ hi
        rw [val, Nat.div_eq_of_lt hlt, Nat.mod_eq_of_lt hlt] at this
        have e := over 0 Ny hy
        rw [Nat.add_zero] at e
        rw [e, self hx, Nat.zero_mul, Nat.zero_add] at this
        have := Res.val.inj this
        omega
    · rintro rfl i hi
      rw [val, self (big i hi).1, self (big i hi).2, mul_comm, Nat.div_add_mod]
  · intro pi hpi
    have val : ∀ i, (Square.momentum pi Nx Ny).lookup ((Square.momentum pi Nx Ny).pos i) =
        .val ((if (Nx : ℤ) ≤ (i / Nx : ℕ) ∧ (Nx : ℤ) ∣ (i / Nx : ℕ) then Nx else siteMod (i / Nx : ℕ) Nx) * Nx +
          (if (Ny : ℤ) ≤ (i % Nx : ℕ) ∧ (Ny : ℤ) ∣ (i % Nx : ℕ) then Ny else siteMod (i % Nx : ℕ) Ny)) := by
      intro i
      have h1 := coordIndex_momentum_lattice Nx hx pi hpi (i / Nx : ℕ)
      have h2 := coordIndex_momentum_lattice Ny hy pi hpi (i % Nx : ℕ)
      unfold Square.lookup Square.pos
      simp only [Square.momentum]
      rw [Int.cast_natCast] at h1 h2
      rw [h1, h2]; rfl
    have coord : ∀ k N : ℕ, 0 < N → k ≤ N →
        (if (N : ℤ) ≤ (k : ℕ) ∧ (N : ℤ) ∣ (k : ℕ) then N else siteMod (k : ℕ) N) = k := by
      intro k N hN hk
      rcases Nat.lt_or_ge k N with h | h
      · rw [if_neg (by omega), self h]
      · obtain rfl : k = N := by omega
        rw [if_pos ⟨le_refl _, dvd_refl _⟩]
    have wrong : ∀ N : ℕ, 0 < N → 
        (if (N : ℤ) ≤ (N + 1 : ℕ) ∧ (N : ℤ) ∣ (N + 1 : ℕ) then N else siteMod (N + 1 : ℕ) N) ≤ N := by
      intro N hN
      split_ifs
      · exact le_refl _
      · unfold siteMod
        have := Int.emod_lt_of_pos ((N + 1 : ℕ) : ℤ) (by omega : (0 : ℤ) < N)
        omega
    constructor
    · intro h
      by_contra hne
      rcases Nat.lt_or_ge (Ny + 1) Nx with hlt | hle
      · have hi : Ny + 1 < Nx * Ny := by nlinarith
        have := h _ hi
        rw [val, Nat.div_eq_of_lt hlt, Nat.mod_eq_of_lt hlt, coord 0 Nx hx (by omega), Nat.zero_mul, Nat.zero_add] at this
        have e := Res.val.inj this
        have w := wrong Ny hy
        omega
      · have hlt : Nx + 1 < Ny := by omega
        have hi : Nx * (Nx + 1) < Nx * Ny := by nlinarith
        have := h _ hi
        rw [val, Nat.mul_div_cancel_left _ hx, Nat.mul_mod_right, coord 0 Ny hy (by omega), Nat.add_zero] at this
        have e := Res.val.inj this
        have w := wrong Nx hx
        nlinarith
    · rintro ⟨h1, h2⟩ i hi
      have hb := big i hi
      rw [val, coord _ _ hx (by omega), coord _ _ hy (by omega), mul_comm, Nat.div_add_mod]

/-- The position `v`, moved by periods into the zone by the loops of the lookup, ends in the upper half cell. -/
def UpperEdge (pi : K) (N : ℕ) (v : K) : Prop :=
  ∃ m : ℤ, pi - 2 * pi / N / 2 ≤ v + m * (2 * pi) ∧ v + m * (2 * pi) ≤ pi ∧ (v + m * (2 * pi) = pi → m ≤ 0)

open Classical in
theorem coordIndex_momentum_exact (N : ℕ) (hN : 0 < N) (pi : K) (hpi : 0 < pi) (v : K) :
    coordIndex (-pi) pi (2 * pi) (2 * pi / N) v =
      .val (if UpperEdge pi N v then N else siteMod ⌊(v + pi) / (2 * pi / N) + 1 / 2⌋ N) := by
  have hN' : (0 : K) < N := by exact_mod_cast hN
  have hdx : 0 < 2 * pi / (N : K) := div_pos (by linarith) hN'
  obtain ⟨m, h1, h2, hm1, hm2, h3⟩ := coordIndex_closed (-pi) (2 * pi / N) v N hN hdx
  have e1 : (N : K) * (2 * pi / N) = 2 * pi := by field_simp
  rw [e1, show -pi + 2 * pi = pi by ring, sub_neg_eq_add] at h3
  rw [sub_neg_eq_add] at h1 h2 hm1 hm2
  set d := 2 * pi / (N : K) with hd
  set r := (v + pi) / d + m * N with hr
  have hrd : r * d = v + m * (2 * pi) + pi := by
    rw [hr, add_mul, div_mul_cancel₀ _ hdx.ne', mul_assoc, e1]; ring
  rw [h3]
  have hup : UpperEdge pi N v ↔ (N : K) - 1 / 2 ≤ r := by
    constructor
    · rintro ⟨m', a1, a2, a3⟩
      have hr' : (r + (m' - m : ℤ) * N) * d = v + m' * (2 * pi) + pi := by
        push_cast; rw [add_mul, hrd, mul_assoc, e1]; ring
      have b1 : (N : K) - 1 / 2 ≤ r + (m' - m : ℤ) * N := by
        have : ((N : K) - 1 / 2) * d ≤ (r + (m' - m : ℤ) * N) * d := by
          rw [hr', sub_mul, e1]; rw [← hd] at a1; linarith
        exact le_of_mul_le_mul_right this hdx
      have b2 : r + (m' - m : ℤ) * N ≤ N := by
        have : (r + (m' - m : ℤ) * N) * d ≤ (N : K) * d := by rw [hr', e1]; linarith
        exact le_of_mul_le_mul_right this hdx
      rcases lt_trichotomy m' m with hlt | heq | hgt
      · exfalso
        have hk : ((m' - m : ℤ) : K) ≤ -1 := by exact_mod_cast (by omega : m' - m ≤ -1)
        have : ((m' - m : ℤ) : K) * N ≤ -1 * N := mul_le_mul_of_nonneg_right hk hN'.le
        have hN1 : (1 : K) ≤ N := by exact_mod_cast hN
        linarith
      · subst heq; simpa using b1
      · -- one period more: only possible from the lower edge, which the loops do not leave
        have hk : (1 : K) ≤ ((m' - m : ℤ) : K) := by exact_mod_cast (by omega : 1 ≤ m' - m)
        have hkN : 1 * (N : K) ≤ ((m' - m : ℤ) : K) * N := mul_le_mul_of_nonneg_right hk hN'.le
        have r0 : r = 0 := by linarith
        have hm' : ((m' - m : ℤ) : K) * N = N := by linarith
        have hmm : m' - m = 1 := by
          have : ((m' - m : ℤ) : K) = 1 := by
            have := mul_right_cancel₀ hN'.ne' (hm'.trans (one_mul (N : K)).symm)
            exact this
          exact_mod_cast this
        have hpi' : v + m' * (2 * pi) = pi := by
          have := hr'
          rw [r0, zero_add, hm', e1] at this
          linarith
        have hm'0 := a3 hpi'
        have : m < 0 := by omega
        have := hm2 this
        linarith
    · intro h
      refine ⟨m, ?_, ?_, ?_⟩
      · have := mul_le_mul_of_nonneg_right h hdx.le
        rw [hrd, sub_mul, e1] at this
        rw [← hd]; linarith
      · have := mul_le_mul_of_nonneg_right h2 hdx.le
        rw [hrd, e1] at this
        linarith
      · intro he
        by_contra hm
        have := mul_lt_mul_of_pos_right (hm1 (by omega)) hdx
        rw [hrd, e1] at this
        linarith
  by_cases h : UpperEdge pi N v
  · rw [if_pos h]
    have h' := hup.1 h
    have : ⌊r + 1 / 2⌋ = (N : ℤ) := by
      rw [Int.floor_eq_iff]; push_cast
      constructor <;> linarith
    rw [this]; simp
  · rw [if_neg h]
    have h' : r < N - 1 / 2 := not_le.1 fun hh => h (hup.2 hh)
    have f0 : 0 ≤ ⌊r + 1 / 2⌋ := Int.floor_nonneg.2 (by linarith)
    have f1 : ⌊r + 1 / 2⌋ < (N : ℤ) := by
      rw [Int.floor_lt]; push_cast; linarith
    have e2 : ⌊(v + pi) / d + 1 / 2⌋ = ⌊r + 1 / 2⌋ - m * N := by
      have : (v + pi) / d + 1 / 2 = r + 1 / 2 - ((m * N : ℤ) : K) := by rw [hr]; push_cast; ring
      rw [this, Int.floor_sub_intCast]
    rw [e2]
    unfold siteMod
    rw [Int.sub_mul_emod_self_right, Int.emod_eq_of_lt f0 f1]

open Classical in
/-- **C23**, exactly, for every position in momentum space: the lookup always finishes; it returns the nearest site (in both
directions, the site the chain finds, C20) if and only if neither coordinate ends in the upper half cell. -/
theorem square_lookup_momentum_iff {N : ℕ} (hN : 0 < N) {pi : K} (hpi : 0 < pi) (v : K × K) :
    (Square.momentum pi N N).lookup v =
      .val ((if UpperEdge pi N v.1 then N else siteMod ⌊(v.1 + pi) / (2 * pi / N) + 1 / 2⌋ N) * N +
        (if UpperEdge pi N v.2 then N else siteMod ⌊(v.2 + pi) / (2 * pi / N) + 1 / 2⌋ N)) ∧
    ((Square.momentum pi N N).lookup v =
      .val (siteMod ⌊(v.1 + pi) / (2 * pi / N) + 1 / 2⌋ N * N + siteMod ⌊(v.2 + pi) / (2 * pi / N) + 1 / 2⌋ N) ↔
      ¬ UpperEdge pi N v.1 ∧ ¬ UpperEdge pi N v.2) := by
  have e : (Square.momentum pi N N).lookup v =
      .val ((if UpperEdge pi N v.1 then N else siteMod ⌊(v.1 + pi) / (2 * pi / N) + 1 / 2⌋ N) * N +
        (if UpperEdge pi N v.2 then N else siteMod ⌊(v.2 + pi) / (2 * pi / N) + 1 / 2⌋ N)) := by
    unfold Square.lookup
    simp only [Square.momentum]
    rw [coordIndex_momentum_exact N hN pi hpi, coordIndex_momentum_exact N hN pi hpi]; rfl
  refine ⟨e, ?_⟩
  rw [e]
  have lt : ∀ z : ℤ, siteMod z N < N := by
    intro z
    unfold siteMod
    have := Int.emod_lt_of_pos z (by omega : (0 : ℤ) < N)
    have := Int.emod_nonneg z (by omega : (N : ℤ) ≠ 0)
    omega
  have l1 := lt ⌊(v.1 + pi) / (2 * pi / N) + 1 / 2⌋
  have l2 := lt ⌊(v.2 + pi) / (2 * pi / N) + 1 / 2⌋
  set a := siteMod ⌊(v.1 + pi) / (2 * pi / N) + 1 / 2⌋ N
  set b := siteMod ⌊(v.2 + pi) / (2 * pi / N) + 1 / 2⌋ N
  constructor
  · intro h
    have h := Res.val.inj h
    by_cases h1 : UpperEdge pi N v.1
    · exfalso
      rw [if_pos h1] at h
      split_ifs at h <;> nlinarith
    · refine ⟨h1, fun h2 => ?_⟩
      rw [if_neg h1, if_pos h2] at h
      omega
  · rintro ⟨h1, h2⟩
    rw [if_neg h1, if_neg h2]

/-- **C23**, exactly, for every position in real space (`w` is the image of `v` in the period): undefined if and only if a
coordinate lies between the last site and the middle of the last cell, otherwise the nearest site. -/
theorem square_lookup_real_exact {N : ℕ} (hN : 0 < N) {dx dy : K} (hdx : 0 < dx) (hdy : 0 < dy) {v w : K × K} {m n : ℤ}
    (h1 : w.1 = v.1 + m * (N * dx)) (h2 : w.2 = v.2 + n * (N * dy)) (b1 : 0 ≤ w.1) (c1 : w.1 < N * dx) (b2 : 0 ≤ w.2)
    (c2 : w.2 < N * dy) :
    (Square.real N N dx dy).lookup v =
      if (dx * (N - 1) < w.1 ∧ w.1 ≤ dx * (N - 1 / 2)) ∨ (dy * (N - 1) < w.2 ∧ w.2 ≤ dy * (N - 1 / 2)) then .ub
      else .val (siteMod ⌊w.1 / dx + 1 / 2⌋ N * N + siteMod ⌊w.2 / dy + 1 / 2⌋ N) := by
  have hN' : (0 : K) < N := by exact_mod_cast hN
  have one : ∀ (d x y : K) (k : ℤ), 0 < d → y = x + k * (N * d) → 0 ≤ y → y < N * d →
      coordIndex 0 (d * ((N - 1 : ℕ) : K)) (N * d) d x =
        if d * (N - 1) < y ∧ y ≤ d * (N - 1 / 2) then .ub else .val (siteMod ⌊y / d + 1 / 2⌋ N) := by
    intro d x y k hd he hy0 hy1
    rw [coordIndex_open d x y N k hN hd he hy0 hy1]
    have yd : y / d * d = y := div_mul_cancel₀ _ hd.ne'
    have q0 : 0 ≤ y / d := div_nonneg hy0 hd.le
    have q1 : y / d < N := by rw [div_lt_iff₀ hd]; exact hy1
    have f0 : 0 ≤ ⌊y / d + 1 / 2⌋ := Int.floor_nonneg.2 (by linarith)
    by_cases a : y ≤ d * (N - 1)
    · rw [if_pos a, if_neg (by rintro ⟨h, -⟩; linarith)]
      have : y / d ≤ N - 1 := by rw [div_le_iff₀ hd]; linarith
      have f1 : ⌊y / d + 1 / 2⌋ < (N : ℤ) := by rw [Int.floor_lt]; push_cast; linarith
      unfold siteMod
      rw [Int.emod_eq_of_lt f0 f1]
    · rw [if_neg a]
      push Not at a
      by_cases b : y ≤ d * (N - 1 / 2)
      · rw [if_pos b, if_pos ⟨a, b⟩]
      · rw [if_neg b, if_neg (fun h => b h.2)]
        push Not at b
        have : (N : K) - 1 / 2 < y / d := by rw [lt_div_iff₀ hd]; linarith
        have : ⌊y / d + 1 / 2⌋ = (N : ℤ) := by
          rw [Int.floor_eq_iff]; push_cast; constructor <;> linarith
        rw [this]; simp [siteMod]
  unfold Square.lookup
  simp only [Square.real]
  rw [one dx v.1 w.1 m hdx h1 b1 c1, one dy v.2 w.2 n hdy h2 b2 c2]
  by_cases s1 : dx * (N - 1) < w.1 ∧ w.1 ≤ dx * (N - 1 / 2)
  · rw [if_pos s1, if_pos (Or.inl s1)]; rfl
  · rw [if_neg s1]
    by_cases s2 : dy * (N - 1) < w.2 ∧ w.2 ≤ dy * (N - 1 / 2)
    · rw [if_pos s2, if_pos (Or.inr s2)]; rfl
    · rw [if_neg s2, if_neg (by rintro (h | h); exacts [s1 h, s2 h])]; rfl

/-- Non-trivial cases: the corner is on the upper edge, the origin of a zone with an even number of sites is not. -/
example : UpperEdge (K := ℚ) 3 4 3 ∧ ¬ UpperEdge (K := ℚ) 3 4 0 := by
  constructor
  · exact ⟨0, by norm_num, by norm_num, fun _ => le_refl _⟩
  · rintro ⟨m, h1, h2, -⟩
    have a : (0 : ℚ) < m := by push_cast at h1; linarith
    have b : (m : ℚ) < 1 := by push_cast at h2; linarith
    have a' : (0 : ℤ) < m := by exact_mod_cast a
    have b' : m < 1 := by exact_mod_cast b
    omega

end Lookup

example : (Square.real 3 3 (1 : ℚ) 2).Constructed 3 3 := .real 1 2 (by omega) (by omega) rfl
example : (Square.real 3 3 (1 : ℚ) 2).neighbors 0 = [6, 2, 3, 1] := by decide

end Ieompp
