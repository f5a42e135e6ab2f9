import Verif.Lemmas.Fermion
import Verif.Props.Sparse

/-! # C27, C28: the real-space matrices are the (projected) commutators with the Hubbard Hamiltonian -/

set_option autoImplicit false
set_option linter.unusedSectionVars false

namespace Ieompp

open Spec

namespace RealSpace
variable {N : ℕ} {R : Type*} [Ring R] (C : CAROn N R) {S : Type*} [Field S] [Algebra S R]
variable {z : ℕ} {nb : ℕ → List ℕ}

/-! ## Operators of the bases -/

theorem basisOp_pos {x : Label} (hx : x.Valid N) : C.basisOp (basis3 N) (x.pos N) = C.labelOp x := by
  cases x with
  | one i =>
    unfold CAROn.basisOp
    rw [show Label.pos N (.one i) = i from rfl, ((realBasis_getElem N).1 i hx).2]
    rfl
  | three a b c =>
    unfold CAROn.basisOp
    rw [show Label.pos N (.three a b c) = get3opIndex N a b c from rfl,
      (realBasis_getElem N).2 a b c hx.1 hx.2.1 hx.2.2]
    simp only [Spec.three, CAROn.labelOp, CAROn.cr, CAROn.an]
    by_cases h : b = c <;> simp [h] <;> noncomm_ring

theorem basisOp_basis1 {i : ℕ} (hi : i < N) : C.basisOp (basis1 N) i = C.labelOp (.one i) := by
  unfold CAROn.basisOp
  rw [((realBasis_getElem N).1 i hi).1]
  rfl

/-! ## C27: hopping -/

theorem comm_one_right (a : R) : comm a 1 = 0 := by unfold Spec.comm; simp
theorem comm_zero_right (a : R) : comm a 0 = 0 := by unfold Spec.comm; simp
theorem comm_add_right (a b c : R) : comm a (b + c) = comm a b + comm a c := by unfold Spec.comm; noncomm_ring
theorem comm_sub_right (a b c : R) : comm a (b - c) = comm a b - comm a c := by unfold Spec.comm; noncomm_ring
theorem comm_two_mul (a b : R) : comm a (2 * b) = 2 * comm a b := by unfold Spec.comm; noncomm_ring

/-- Commutator with `u (2 f g - δ)`. -/
theorem comm_three (T u f g : R) (p : Prop) [Decidable p] :
    comm T (u * (2 * (f * g) - if p then 1 else 0)) =
      comm T u * (2 * (f * g) - if p then 1 else 0) + u * (2 * (comm T f * g + f * comm T g)) := by
  rw [CAROn.lie_mul, comm_sub_right, comm_two_mul, CAROn.lie_mul]
  by_cases h : p
  · simp only [h, if_true, comm_one_right, sub_zero]
  · simp only [h, if_false, comm_zero_right, sub_zero]

theorem sum_left (l : List ℕ) (s : S) (f : ℕ → R) (g : R) :
    (l.map fun n => s • (f n * g)).sum = (l.map fun n => s • f n).sum * g := by
  induction l with
  | nil => simp
  | cons a l ih => simp only [List.map_cons, List.sum_cons, ih, add_mul, smul_mul_assoc]

theorem sum_mid (l : List ℕ) (s : S) (u g : R) (f : ℕ → R) (c : ℕ) :
    (l.map fun n => s • (u * (2 * (f n * g) - if n = c then 1 else 0))).sum =
      u * (2 * ((l.map fun n => s • f n).sum * g)) - (l.map fun n => if c = n then s • u else 0).sum := by
  induction l with
  | nil => simp
  | cons a l ih =>
    simp only [List.map_cons, List.sum_cons, ih]
    have e : s • (u * (2 * (f a * g) - if a = c then 1 else 0)) = u * (2 * (s • f a * g)) - (if c = a then s • u else 0) := by
      rw [mul_sub, smul_sub, smul_mul_assoc, mul_smul_comm, mul_smul_comm]
      by_cases h : c = a
      · subst h; simp
      · simp [h, Ne.symm h]
    rw [e, add_mul, mul_add, mul_add]; abel

theorem sum_right (l : List ℕ) (s : S) (u f : R) (g : ℕ → R) (b : ℕ) :
    (l.map fun n => s • (u * (2 * (f * g n) - if b = n then 1 else 0))).sum =
      u * (2 * (f * (l.map fun n => s • g n).sum)) - (l.map fun n => if b = n then s • u else 0).sum := by
  induction l with
  | nil => simp
  | cons a l ih =>
    simp only [List.map_cons, List.sum_cons, ih]
    have e : s • (u * (2 * (f * g a) - if b = a then 1 else 0)) = u * (2 * (f * s • g a)) - (if b = a then s • u else 0) := by
      rw [mul_sub, smul_sub, mul_smul_comm, mul_smul_comm, mul_smul_comm]
      by_cases h : b = a <;> simp [h]
    rw [e, mul_add, mul_add, mul_add]; abel

/-- The hopping moves one of the sites to a neighbour. -/
theorem hopping_three (h : RegularLattice N z nb) (J : S) {a b c : ℕ} (ha : a < N) (hb : b < N) (hc : c < N) :
    comm (C.hopping nb J) (C.labelOp (.three a b c)) =
      ((nb a).map fun n => (-J) • C.labelOp (.three n b c)).sum +
      ((nb b).map fun n => (-J) • C.labelOp (.three a n c)).sum +
      ((nb c).map fun n => J • C.labelOp (.three a b n)).sum := by
  simp only [CAROn.labelOp]
  rw [comm_three, C.hopping_cr h J ha, C.hopping_cr h J hb, C.hopping_an h J hc, sum_left, sum_mid, sum_right,
    CAROn.list_sum_ite _ (h.nodup b hb), CAROn.list_sum_ite _ (h.nodup c hc)]
  have : c ∈ nb b ↔ b ∈ nb c := ⟨h.symm b hb c hc, h.symm c hc b hb⟩
  simp only [this]
  rw [mul_add, mul_add]
  by_cases h' : b ∈ nb c <;> simp only [h', if_true, if_false] <;> simp only [neg_smul] <;> abel

/-- Sum of value times operator over the triplets of a row, before any sorting. -/
theorem sum_oneTriplets (J U : S) {i : ℕ} (hi : i < N) (h : RegularLattice N z nb) :
    ((oneTriplets N nb J U i).map fun t => t.value • C.basisOp (basis3 N) t.column).sum =
      ((nb i).map fun n => (-J) • C.labelOp (.one n)).sum + (U / 2) • C.labelOp (.one i) +
      (U / 2) • C.labelOp (.three i i i) := by
  unfold oneTriplets
  rw [List.map_append, List.sum_append, List.map_map]
  have e : (nb i).map ((fun t : Triplet S => t.value • C.basisOp (basis3 N) t.column) ∘ fun n => ⟨i, n, -J⟩) =
      (nb i).map fun n => (-J) • C.labelOp (.one n) := by
    apply List.map_congr_left
    intro n hn
    simp only [Function.comp]
    have := basisOp_pos C (x := .one n) (h.lt i hi n hn)
    rw [← this]; rfl
  rw [e]
  simp only [List.map_cons, List.map_nil, List.sum_cons, List.sum_nil, add_zero]
  rw [show C.basisOp (basis3 N) i = C.labelOp (.one i) from basisOp_pos C (x := .one i) hi,
    show C.basisOp (basis3 N) (get3opIndex N i i i) = C.labelOp (.three i i i) from
      basisOp_pos C (x := .three i i i) ⟨hi, hi, hi⟩]
  abel

theorem sum_threeTriplets (J U : S) {a b c : ℕ} (ha : a < N) (hb : b < N) (hc : c < N) (h : RegularLattice N z nb) :
    ((threeTriplets N nb J U (get3opIndex N a b c) a b c).map fun t => t.value • C.basisOp (basis3 N) t.column).sum =
      comm (C.hopping nb J) (C.labelOp (.three a b c)) +
      (if a = b ∧ a = c then (U / 2) • C.labelOp (.one a) else 0) + (U / 2) • C.labelOp (.three a b c) := by
  rw [hopping_three C h J ha hb hc]
  unfold threeTriplets
  simp only [List.map_append, List.sum_append, List.map_map]
  have e1 : (nb a).map ((fun t : Triplet S => t.value • C.basisOp (basis3 N) t.column) ∘
      fun n => ⟨get3opIndex N a b c, get3opIndex N n b c, -J⟩) = (nb a).map fun n => (-J) • C.labelOp (.three n b c) := by
    apply List.map_congr_left
    intro n hn
    rw [← basisOp_pos C (x := .three n b c) ⟨h.lt a ha n hn, hb, hc⟩]; rfl
  have e2 : (nb b).map ((fun t : Triplet S => t.value • C.basisOp (basis3 N) t.column) ∘
      fun n => ⟨get3opIndex N a b c, get3opIndex N a n c, -J⟩) = (nb b).map fun n => (-J) • C.labelOp (.three a n c) := by
    apply List.map_congr_left
    intro n hn
    rw [← basisOp_pos C (x := .three a n c) ⟨ha, h.lt b hb n hn, hc⟩]; rfl
  have e3 : (nb c).map ((fun t : Triplet S => t.value • C.basisOp (basis3 N) t.column) ∘
      fun n => ⟨get3opIndex N a b c, get3opIndex N a b n, J⟩) = (nb c).map fun n => J • C.labelOp (.three a b n) := by
    apply List.map_congr_left
    intro n hn
    rw [← basisOp_pos C (x := .three a b n) ⟨ha, hb, h.lt c hc n hn⟩]; rfl
  rw [e1, e2, e3]
  have e4 : C.basisOp (basis3 N) a = C.labelOp (.one a) := basisOp_pos C (x := .one a) ha
  have e5 : C.basisOp (basis3 N) (get3opIndex N a b c) = C.labelOp (.three a b c) :=
    basisOp_pos C (x := .three a b c) ⟨ha, hb, hc⟩
  congr 1
  · congr 1
    split_ifs <;> simp [e4]
  · simp [e5]

/-- C27, `Basis1Operator`: row `r` of the kinetic matrix expands `[T, A_r]` exactly. -/
theorem kineticMatrix_commutator (h : RegularLattice N z nb) (sort : List (Triplet S) → List (Triplet S))
    (hs : IsSort sort) (J : S) : ∃ m, initKineticMatrix sort N z nb J = .val m ∧ m.rows = N ∧ m.columns = N ∧
      ∀ row < N, ∑ p ∈ Finset.range m.columns, m.get row p • C.basisOp (basis1 N) p =
        comm (C.hopping nb J) (C.basisOp (basis1 N) row) := by
  obtain ⟨m, h1, h2, h3, _, _, _, h4⟩ := initKineticMatrix_ok h sort hs J
  refine ⟨m, h1, h2, h3, ?_⟩
  intro i hi
  rw [h3, basisOp_basis1 C hi]
  have : ∀ p ∈ Finset.range N, m.get i p • C.basisOp (basis1 N) p = if p ∈ nb i then (-J) • C.cr (p, true) else 0 := by
    intro p hp
    rw [h4 i hi p (Finset.mem_range.1 hp), basisOp_basis1 C (Finset.mem_range.1 hp)]
    split <;> simp [CAROn.labelOp]
  rw [Finset.sum_congr rfl this, CAROn.sum_range_mem (nb i) (h.nodup i hi) (h.lt i hi) (fun p => (-J) • C.cr (p, true))]
  exact (C.hopping_cr h J hi true).symm

/-- Row `x` of the complete matrix, summed up. -/
theorem matrix_row_sum (h : RegularLattice N z nb) (J U : S) {x : Label} (hx : x.Valid N) :
    ∑ p ∈ Finset.range (N + N * N * N), columnSum (rowList N nb J U (x.pos N)) p • C.basisOp (basis3 N) p =
      comm (C.hopping nb J) (C.labelOp x) + (U / 2) • C.labelOp x +
      (match x with
        | .one i => (U / 2) • C.labelOp (.three i i i)
        | .three a b c => if a = b ∧ a = c then (U / 2) • C.labelOp (.one a) else 0) := by
  rw [sum_columnSum_smul _ _ _ (row_columns h J U (label_pos_lt hx)).2.2.1]
  unfold rowList
  cases x with
  | one i =>
    rw [show Label.pos N (.one i) = i from rfl, rowTriplets_one nb J U hx, Option.getD_some,
      sum_oneTriplets C J U hx h]
    simp only [CAROn.labelOp]
    rw [C.hopping_cr h J hx]
  | three a b c =>
    rw [show Label.pos N (.three a b c) = get3opIndex N a b c from rfl,
      rowTriplets_three nb J U hx.1 hx.2.1 hx.2.2, Option.getD_some, sum_threeTriplets C J U hx.1 hx.2.1 hx.2.2 h]
    simp only
    abel

/-- C27, `Basis3Operator`: without interaction every row expands `[T, A_r]` exactly. -/
theorem matrix_hopping_commutator (h : RegularLattice N z nb) (sort : List (Triplet S) → List (Triplet S))
    (hs : IsSort sort) (J : S) : ∃ m, initMatrix sort N z nb J 0 = .val m ∧ m.rows = N + N * N * N ∧
      m.columns = N + N * N * N ∧
      ∀ row < N + N * N * N, ∑ p ∈ Finset.range m.columns, m.get row p • C.basisOp (basis3 N) p =
        comm (C.hopping nb J) (C.basisOp (basis3 N) row) := by
  obtain ⟨m, h1, h2, h3, _, _, _, h4, _⟩ := initMatrix_ok h sort hs J 0
  refine ⟨m, h1, h2, h3, ?_⟩
  intro row hr
  obtain ⟨x, hx, rfl⟩ := label_of_lt hr
  rw [h3, Finset.sum_congr rfl (fun p _ => by rw [h4 _ hr p]), matrix_row_sum C h J 0 hx, basisOp_pos C hx]
  cases x <;> simp

/-! ## C28: the interaction -/

/-- The part of `[H, A_abc]` that leaves the span of the basis. -/
def remainder (U : S) (a b c : ℕ) : R :=
  (if a ≠ b ∧ a ≠ c then (U / 2) • (C.cr (a, true) * (C.Z (a, false) *
      (2 * (C.cr (b, false) * C.an (c, false)) - if b = c then 1 else 0))) else 0) +
  (if a ≠ b then U • (C.cr (a, true) * (C.Z (b, true) * (C.cr (b, false) * C.an (c, false)))) else 0) -
  (if a ≠ c then U • (C.cr (a, true) * (C.Z (c, true) * (C.cr (b, false) * C.an (c, false)))) else 0)

theorem interaction_three_aux (U : S) (h2 : (2 : S) ≠ 0) {a b c : ℕ} (ha : a < N) (hb : b < N) (hc : c < N) :
    comm (C.interaction U) (C.labelOp (.three a b c)) =
      (U / 2) • (C.cr (a, true) * ((C.Z (a, false) + 1) *
        (2 * (C.cr (b, false) * C.an (c, false)) - if b = c then 1 else 0))) +
      U • (C.cr (a, true) * ((C.Z (b, true) + 1) * (C.cr (b, false) * C.an (c, false)))) -
      U • (C.cr (a, true) * ((C.Z (c, true) + 1) * (C.cr (b, false) * C.an (c, false)))) := by
  simp only [CAROn.labelOp]
  rw [comm_three, C.interaction_cr_up U ha, C.interaction_cr_down U hb, C.interaction_an_down U hc]
  have hz : ∀ x, C.Z x + 1 = (2 : S) • C.num x := by
    intro x; unfold CAROn.Z; rw [sub_add_cancel, two_smul, two_mul]
  have ht : ∀ w : R, 2 * w = (2 : S) • w := by intro w; rw [two_smul, two_mul]
  have c1 : Commute (C.num (c, true)) (C.cr (b, false)) := C.num_comm_cr hc hb (by simp)
  rw [hz, hz, hz]
  generalize (2 * (C.cr (b, false) * C.an (c, false)) - if b = c then (1 : R) else 0) = X
  rw [ht]
  simp only [smul_mul_assoc, mul_smul_comm, mul_add, mul_neg, smul_add, smul_neg, smul_smul]
  rw [div_mul_cancel₀ _ h2, ← mul_assoc (C.cr (b, false)) (C.num (c, true)), ← c1.eq, mul_comm (2 : S) U]
  simp only [mul_assoc]
  abel

/-- C28: the interaction part of a three-operator row, with the remainder. -/
theorem interaction_three (U : S) (h2 : (2 : S) ≠ 0) {a b c : ℕ} (ha : a < N) (hb : b < N) (hc : c < N) :
    comm (C.interaction U) (C.labelOp (.three a b c)) =
      (U / 2) • C.labelOp (.three a b c) + (if a = b ∧ a = c then (U / 2) • C.labelOp (.one a) else 0) +
      remainder C U a b c := by
  rw [interaction_three_aux C U h2 ha hb hc]
  simp only [CAROn.labelOp, remainder]
  have k0 : ∀ w : R, C.cr (a, true) * ((C.Z (a, true) + 1) * w) = 0 := by
    intro w
    rw [← mul_assoc, mul_add, C.cr_Z h2 ha, mul_one, neg_add_cancel, zero_mul]
  have split : ∀ (Y w : R), C.cr (a, true) * ((Y + 1) * w) = C.cr (a, true) * (Y * w) + C.cr (a, true) * w := by
    intro Y w; rw [add_mul, one_mul, mul_add]
  by_cases hab : a = b
  · subst hab
    by_cases hac : a = c
    · subst hac
      simp only [ne_eq, not_true_eq_false, and_self, if_false, if_true, add_zero, sub_zero]
      rw [k0, smul_zero, add_zero, sub_zero]
      have e : 2 * (C.cr (a, false) * C.an (a, false)) - 1 = C.Z (a, false) := rfl
      rw [e, split, C.Z_Z h2 ha, mul_one, smul_add, add_comm]
    · have : ¬ (a = a ∧ a = c) := fun h => hac h.2
      simp only [ne_eq, not_true_eq_false, false_and, hac, and_false, if_false, not_false_iff, if_true, add_zero,
        zero_sub, sub_zero]
      rw [k0, smul_zero, add_zero, split, split]
      have e : C.Z (a, false) * (2 * (C.cr (a, false) * C.an (c, false))) = 2 * (C.cr (a, false) * C.an (c, false)) := by
        rw [two_mul, mul_add, ← mul_assoc, C.Z_cr h2 ha]
      rw [e]
      have e2 : C.cr (a, true) * (2 * (C.cr (a, false) * C.an (c, false)))
          = (2 : S) • (C.cr (a, true) * (C.cr (a, false) * C.an (c, false))) := by
        rw [two_mul, mul_add, two_smul]
      rw [e2, smul_add, smul_add, smul_smul, div_mul_cancel₀ _ h2]
      abel
  · by_cases hac : a = c
    · subst hac
      have hba : ¬ b = a := fun h => hab h.symm
      simp only [ne_eq, not_true_eq_false, and_false, hab, hba, false_and, if_false, not_false_iff, if_true, add_zero,
        sub_zero, zero_add]
      rw [k0, smul_zero, sub_zero, split, split]
      have c1 : Commute (C.Z (a, false)) (C.cr (b, false)) := C.Z_comm_cr ha hb (by simp [hab])
      have e : C.Z (a, false) * (2 * (C.cr (b, false) * C.an (a, false))) = -(2 * (C.cr (b, false) * C.an (a, false))) := by
        rw [two_mul, mul_add, ← mul_assoc, c1.eq, mul_assoc, C.Z_an h2 ha, mul_neg]; abel
      rw [e]
      have e2 : C.cr (a, true) * (2 * (C.cr (b, false) * C.an (a, false)))
          = (2 : S) • (C.cr (a, true) * (C.cr (b, false) * C.an (a, false))) := by
        rw [two_mul, mul_add, two_smul]
      rw [mul_neg, e2, smul_add, smul_add, smul_neg, smul_smul, div_mul_cancel₀ _ h2]
      abel
    · simp only [ne_eq, hab, hac, if_false, not_false_iff, if_true, and_self, add_zero]
      rw [split, split, split]
      simp only [smul_add]
      abel

/-- C28: one-operator rows of the complete matrix expand `[H, A_r]` exactly. -/
theorem interaction_one (U : S) (h2 : (2 : S) ≠ 0) {i : ℕ} (hi : i < N) :
    comm (C.interaction U) (C.labelOp (.one i)) =
      (U / 2) • C.labelOp (.one i) + (U / 2) • C.labelOp (.three i i i) := by
  simp only [CAROn.labelOp, if_true]
  rw [C.interaction_cr_up U hi, ← smul_add]
  have : C.cr (i, true) + C.cr (i, true) * (2 * (C.cr (i, false) * C.an (i, false)) - 1)
      = (2 : S) • (C.cr (i, true) * C.num (i, false)) := by
    rw [two_smul]; unfold CAROn.num; noncomm_ring
  rw [this, smul_smul, div_mul_cancel₀ _ h2]

/-- C28: the complete matrix. Each one-operator row expands `[H, A_r]` exactly, each three-operator row up to the
explicit remainder. -/
theorem matrix_commutator (h : RegularLattice N z nb) (sort : List (Triplet S) → List (Triplet S))
    (hs : IsSort sort) (J U : S) (h2 : (2 : S) ≠ 0) :
    ∃ m, initMatrix sort N z nb J U = .val m ∧ m.rows = N + N * N * N ∧ m.columns = N + N * N * N ∧
      (∀ row < N, comm (C.hopping nb J + C.interaction U) (C.basisOp (basis3 N) row) =
        ∑ p ∈ Finset.range m.columns, m.get row p • C.basisOp (basis3 N) p) ∧
      (∀ a b c, a < N → b < N → c < N →
        comm (C.hopping nb J + C.interaction U) (C.basisOp (basis3 N) (get3opIndex N a b c)) =
        ∑ p ∈ Finset.range m.columns, m.get (get3opIndex N a b c) p • C.basisOp (basis3 N) p + remainder C U a b c) := by
  obtain ⟨m, h1, e2, h3, _, _, _, h4, _⟩ := initMatrix_ok h sort hs J U
  refine ⟨m, h1, e2, h3, ?_, ?_⟩
  · intro i hi
    have hx : Label.Valid N (.one i) := hi
    rw [h3, Finset.sum_congr rfl (fun p _ => by rw [h4 i (by omega) p]),
      show C.basisOp (basis3 N) i = C.labelOp (.one i) from basisOp_pos C hx, CAROn.comm_add_left,
      interaction_one C U h2 hi]
    have := matrix_row_sum C h J U hx
    rw [show Label.pos N (.one i) = i from rfl] at this
    rw [this]
    simp only
    abel
  · intro a b c ha hb hc
    have hx : Label.Valid N (.three a b c) := ⟨ha, hb, hc⟩
    rw [h3, Finset.sum_congr rfl (fun p _ => by rw [h4 (get3opIndex N a b c) (label_pos_lt hx) p]),
      show C.basisOp (basis3 N) (get3opIndex N a b c) = C.labelOp (.three a b c) from basisOp_pos C hx,
      CAROn.comm_add_left, interaction_three C U h2 ha hb hc]
    have := matrix_row_sum C h J U hx
    rw [show Label.pos N (.three a b c) = get3opIndex N a b c from rfl] at this
    rw [this]
    simp only
    abel

end RealSpace

end Ieompp
