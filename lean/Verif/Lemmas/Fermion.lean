import Verif.Spec.Hamiltonian
import Mathlib.Algebra.Ring.Commute
import Mathlib.Tactic.NoncommRing
import Mathlib.Tactic.Module
import Mathlib.Tactic.LinearCombination
import Mathlib.Tactic.Abel

/-! # Algebra of fermionic operators -/

set_option autoImplicit false
set_option linter.unusedSectionVars false

namespace Ieompp.Spec

/-- `a` and `b` anticommute. -/
def Anti {R : Type*} [Ring R] (a b : R) : Prop := a * b = -(b * a)

namespace Anti
variable {R : Type*} [Ring R] {a b c : R}

protected theorem eq (h : Anti a b) : a * b = -(b * a) := h

theorem symm (h : Anti a b) : Anti b a := by unfold Anti at *; rw [h, neg_neg]

theorem mul_right (h1 : Anti a b) (h2 : Anti a c) : Commute a (b * c) := by
  unfold Anti at *
  show a * (b * c) = b * c * a
  rw [← mul_assoc, h1, neg_mul, mul_assoc, h2, mul_neg, neg_neg, mul_assoc]

theorem mul_right_comm (h1 : Anti a b) (h2 : Commute a c) : Anti a (b * c) := by
  unfold Anti at *
  rw [← mul_assoc, h1, neg_mul, mul_assoc, h2.eq, mul_assoc]

theorem comm_mul_right (h1 : Commute a b) (h2 : Anti a c) : Anti a (b * c) := by
  unfold Anti at *
  rw [← mul_assoc, h1.eq, mul_assoc, h2, mul_neg, mul_assoc]

theorem add_right (h1 : Anti a b) (h2 : Anti a c) : Anti a (b + c) := by
  unfold Anti at *
  rw [mul_add, h1, h2, add_mul, neg_add]

theorem add_left (h1 : Anti a c) (h2 : Anti b c) : Anti (a + b) c := (h1.symm.add_right h2.symm).symm

theorem mul_left (h1 : Anti a c) (h2 : Anti b c) : Commute (a * b) c := (h1.symm.mul_right h2.symm).symm

end Anti

namespace CAROn
variable {N : ℕ} {R : Type*} [Ring R] (C : CAROn N R)

theorem cr_cr {x y : ℕ × Bool} (hx : x.1 < N) (hy : y.1 < N) : Anti (C.cr x) (C.cr y) := by
  have := C.anticomm ⟨true, x⟩ ⟨true, y⟩ hx hy
  simp only [ne_eq, not_true_eq_false, false_and, if_false] at this
  exact eq_neg_of_add_eq_zero_left this

theorem an_an {x y : ℕ × Bool} (hx : x.1 < N) (hy : y.1 < N) : Anti (C.an x) (C.an y) := by
  have := C.anticomm ⟨false, x⟩ ⟨false, y⟩ hx hy
  simp only [ne_eq, not_true_eq_false, false_and, if_false] at this
  exact eq_neg_of_add_eq_zero_left this

theorem an_cr {x y : ℕ × Bool} (hx : x.1 < N) (hy : y.1 < N) :
    C.an x * C.cr y = (if x = y then 1 else 0) - C.cr y * C.an x := by
  have := C.anticomm ⟨false, x⟩ ⟨true, y⟩ hx hy
  simp only [ne_eq, Bool.false_eq_true, not_false_iff, true_and] at this
  exact eq_sub_of_add_eq this

theorem an_cr_anti {x y : ℕ × Bool} (hx : x.1 < N) (hy : y.1 < N) (h : x ≠ y) : Anti (C.an x) (C.cr y) := by
  unfold Anti; rw [C.an_cr hx hy, if_neg h, zero_sub]

/-- `Z_x = 2 n_x - 1`. -/
def Z (x : ℕ × Bool) : R := 2 * C.num x - 1
/-- `P_x = c†_x + c_x`. -/
def P (x : ℕ × Bool) : R := C.cr x + C.an x

end CAROn

namespace CAROn
variable {N : ℕ} {R : Type*} [Ring R] (C : CAROn N R) {S : Type*} [Field S] [Algebra S R] (h2 : (2 : S) ≠ 0)
include h2

theorem eq_zero_of_add_self {M : Type*} [AddCommGroup M] [Module S M] {x : M} (h : x + x = 0) : x = 0 := by
  have : (2 : S) • x = 0 := by rw [two_smul]; exact h
  exact (smul_eq_zero_iff_right h2).1 this

theorem cr_sq {x : ℕ × Bool} (hx : x.1 < N) : C.cr x * C.cr x = 0 := by
  have := C.cr_cr hx hx
  unfold Anti at this
  exact eq_zero_of_add_self h2 (eq_neg_iff_add_eq_zero.1 this)

theorem an_sq {x : ℕ × Bool} (hx : x.1 < N) : C.an x * C.an x = 0 := by
  have := C.an_an hx hx
  unfold Anti at this
  exact eq_zero_of_add_self h2 (eq_neg_iff_add_eq_zero.1 this)

theorem num_cr {x : ℕ × Bool} (hx : x.1 < N) : C.num x * C.cr x = C.cr x := by
  unfold num
  rw [mul_assoc, C.an_cr hx hx, if_pos rfl, mul_sub, mul_one, ← mul_assoc, C.cr_sq h2 hx, zero_mul, sub_zero]

theorem cr_num {x : ℕ × Bool} (hx : x.1 < N) : C.cr x * C.num x = 0 := by
  unfold num; rw [← mul_assoc, C.cr_sq h2 hx, zero_mul]

theorem num_an {x : ℕ × Bool} (hx : x.1 < N) : C.num x * C.an x = 0 := by
  unfold num; rw [mul_assoc, C.an_sq h2 hx, mul_zero]

theorem an_num {x : ℕ × Bool} (hx : x.1 < N) : C.an x * C.num x = C.an x := by
  unfold num
  rw [← mul_assoc, C.an_cr hx hx, if_pos rfl, sub_mul, one_mul, mul_assoc, C.an_sq h2 hx, mul_zero, sub_zero]

theorem num_num {x : ℕ × Bool} (hx : x.1 < N) : C.num x * C.num x = C.num x := by
  conv_lhs => rw [num, mul_assoc, ← num, C.an_num h2 hx]
  rfl

theorem Z_Z {x : ℕ × Bool} (hx : x.1 < N) : C.Z x * C.Z x = 1 := by
  unfold Z
  have := C.num_num h2 hx
  have e : (2 * C.num x - 1) * (2 * C.num x - 1) = 4 * (C.num x * C.num x) - 4 * C.num x + 1 := by noncomm_ring
  rw [e, this]; simp

theorem P_P {x : ℕ × Bool} (hx : x.1 < N) : C.P x * C.P x = 1 := by
  unfold P
  rw [add_mul, mul_add, mul_add, C.cr_sq h2 hx, C.an_sq h2 hx, C.an_cr hx hx, if_pos rfl]
  abel

theorem Z_cr {x : ℕ × Bool} (hx : x.1 < N) : C.Z x * C.cr x = C.cr x := by
  unfold Z; rw [sub_mul, mul_assoc, C.num_cr h2 hx]; noncomm_ring

theorem cr_Z {x : ℕ × Bool} (hx : x.1 < N) : C.cr x * C.Z x = -C.cr x := by
  unfold Z
  have e : C.cr x * (2 * C.num x - 1) = 2 * (C.cr x * C.num x) - C.cr x := by noncomm_ring
  rw [e, C.cr_num h2 hx]; noncomm_ring

theorem Z_an {x : ℕ × Bool} (hx : x.1 < N) : C.Z x * C.an x = -C.an x := by
  unfold Z; rw [sub_mul, mul_assoc, C.num_an h2 hx]; noncomm_ring

theorem an_Z {x : ℕ × Bool} (hx : x.1 < N) : C.an x * C.Z x = C.an x := by
  unfold Z
  have e : C.an x * (2 * C.num x - 1) = 2 * (C.an x * C.num x) - C.an x := by noncomm_ring
  rw [e, C.an_num h2 hx]; noncomm_ring

theorem Z_anti_cr {x : ℕ × Bool} (hx : x.1 < N) : Anti (C.Z x) (C.cr x) := by
  unfold Anti; rw [C.Z_cr h2 hx, C.cr_Z h2 hx, neg_neg]

theorem Z_anti_an {x : ℕ × Bool} (hx : x.1 < N) : Anti (C.Z x) (C.an x) := by
  unfold Anti; rw [C.Z_an h2 hx, C.an_Z h2 hx]

theorem P_anti_Z {x : ℕ × Bool} (hx : x.1 < N) : Anti (C.P x) (C.Z x) :=
  ((C.Z_anti_cr h2 hx).symm).add_left ((C.Z_anti_an h2 hx).symm)

omit h2

theorem num_comm_cr {x y : ℕ × Bool} (hx : x.1 < N) (hy : y.1 < N) (h : x ≠ y) : Commute (C.num x) (C.cr y) :=
  (C.cr_cr hx hy).mul_left (C.an_cr_anti hx hy h)

theorem num_comm_an {x y : ℕ × Bool} (hx : x.1 < N) (hy : y.1 < N) (h : x ≠ y) : Commute (C.num x) (C.an y) :=
  ((C.an_cr_anti hy hx (Ne.symm h)).symm).mul_left (C.an_an hx hy)

theorem num_comm_num {x y : ℕ × Bool} (hx : x.1 < N) (hy : y.1 < N) (h : x ≠ y) : Commute (C.num x) (C.num y) :=
  (C.num_comm_cr hx hy h).mul_right (C.num_comm_an hx hy h)

theorem Z_comm_of_num {x : ℕ × Bool} {w : R} (h : Commute (C.num x) w) : Commute (C.Z x) w := by
  have e : C.Z x = C.num x + C.num x - 1 := by unfold Z; noncomm_ring
  rw [e]
  exact (h.add_left h).sub_left (Commute.one_left w)

theorem Z_comm_cr {x y : ℕ × Bool} (hx : x.1 < N) (hy : y.1 < N) (h : x ≠ y) : Commute (C.Z x) (C.cr y) :=
  C.Z_comm_of_num (C.num_comm_cr hx hy h)

theorem Z_comm_an {x y : ℕ × Bool} (hx : x.1 < N) (hy : y.1 < N) (h : x ≠ y) : Commute (C.Z x) (C.an y) :=
  C.Z_comm_of_num (C.num_comm_an hx hy h)

theorem Z_comm_num {x y : ℕ × Bool} (hx : x.1 < N) (hy : y.1 < N) : Commute (C.Z x) (C.num y) := by
  by_cases h : x = y
  · subst h; exact C.Z_comm_of_num (Commute.refl _)
  · exact C.Z_comm_of_num (C.num_comm_num hx hy h)

theorem Z_comm_Z {x y : ℕ × Bool} (hx : x.1 < N) (hy : y.1 < N) : Commute (C.Z x) (C.Z y) :=
  (C.Z_comm_of_num (C.Z_comm_num hy hx).symm)

theorem P_anti_cr {x y : ℕ × Bool} (hx : x.1 < N) (hy : y.1 < N) (h : x ≠ y) : Anti (C.P x) (C.cr y) :=
  (C.cr_cr hx hy).add_left (C.an_cr_anti hx hy h)

theorem P_anti_an {x y : ℕ × Bool} (hx : x.1 < N) (hy : y.1 < N) (h : x ≠ y) : Anti (C.P x) (C.an y) :=
  ((C.an_cr_anti hy hx (Ne.symm h)).symm).add_left (C.an_an hx hy)

theorem P_comm_num {x y : ℕ × Bool} (hx : x.1 < N) (hy : y.1 < N) (h : x ≠ y) : Commute (C.P x) (C.num y) :=
  (C.P_anti_cr hx hy h).mul_right (C.P_anti_an hx hy h)

theorem P_comm_Z {x y : ℕ × Bool} (hx : x.1 < N) (hy : y.1 < N) (h : x ≠ y) : Commute (C.P x) (C.Z y) :=
  (C.Z_comm_of_num (C.P_comm_num hx hy h).symm).symm

/-! ### Commutators with the Hamiltonian -/

theorem comm_def (a b : R) : comm a b = a * b - b * a := rfl

theorem comm_add_left (a b c : R) : comm (a + b) c = comm a c + comm b c := by unfold comm; noncomm_ring

theorem comm_smul (s : S) (a b : R) : comm (s • a) b = s • comm a b := by
  unfold comm; rw [smul_mul_assoc, mul_smul_comm, smul_sub]

theorem lie_mul (a b c : R) : comm (a) (b * c) = comm (a) (b) * c + b * comm (a) (c) := by
  unfold comm; noncomm_ring

theorem bilinear_cr {x y w : ℕ × Bool} (hx : x.1 < N) (hy : y.1 < N) (hw : w.1 < N) :
    comm (C.cr x * C.an y) (C.cr w) = if y = w then C.cr x else 0 := by
  rw [comm_def, mul_assoc, C.an_cr hy hw, mul_sub, ← mul_assoc, ← mul_assoc, (C.cr_cr hx hw : _ = _)]
  split <;> simp

theorem bilinear_an {x y w : ℕ × Bool} (hx : x.1 < N) (hy : y.1 < N) (hw : w.1 < N) :
    comm (C.cr x * C.an y) (C.an w) = if w = x then -C.an y else 0 := by
  rw [comm_def, ← mul_assoc, C.an_cr hw hx, sub_mul, mul_assoc, mul_assoc, (C.an_an hy hw : _ = _)]
  split
  · simp; abel
  · simp

theorem list_sum_lie {α : Type*} (l : List α) (f : α → R) (w : R) :
    comm ((l.map f).sum) (w) = (l.map fun j => comm (f j) (w)).sum := by
  induction l with
  | nil => simp [comm]
  | cons a l ih => simp only [List.map_cons, List.sum_cons, comm_add_left, ih]

theorem list_sum_ite {α M : Type*} [DecidableEq α] [AddCommMonoid M] (l : List α) (hn : l.Nodup) (k : α) (v : M) :
    (l.map fun j => if k = j then v else 0).sum = if k ∈ l then v else 0 := by
  induction l with
  | nil => simp
  | cons a l ih =>
    rw [List.nodup_cons] at hn
    rw [List.map_cons, List.sum_cons, ih hn.2]
    by_cases h : k = a
    · subst h; simp [hn.1]
    · simp [h]

theorem sum_range_mem {M : Type*} [AddCommMonoid M] (l : List ℕ) (hn : l.Nodup) (hl : ∀ i ∈ l, i < N) (f : ℕ → M) :
    ∑ i ∈ Finset.range N, (if i ∈ l then f i else 0) = (l.map f).sum := by
  rw [← List.sum_toFinset f hn, ← Finset.sum_filter]
  apply Finset.sum_congr
  · ext i; simp only [Finset.mem_filter, Finset.mem_range, List.mem_toFinset]
    exact ⟨fun h => h.2, fun h => ⟨hl i h, h⟩⟩
  · intros; rfl

variable {z : ℕ} {nb : ℕ → List ℕ}

theorem hopping_cr (h : RegularLattice N z nb) (J : S) {k : ℕ} (hk : k < N) (σ : Bool) :
    comm (C.hopping nb J) (C.cr (k, σ)) = ((nb k).map fun j => (-J) • C.cr (j, σ)).sum := by
  unfold hopping
  rw [comm_def, Finset.sum_mul, Finset.mul_sum, ← Finset.sum_sub_distrib]
  have key : ∀ i ∈ Finset.range N, ((nb i).map fun j => (-J) • (C.cr (j, true) * C.an (i, true) +
      C.cr (j, false) * C.an (i, false))).sum * C.cr (k, σ) - C.cr (k, σ) * ((nb i).map fun j => (-J) •
      (C.cr (j, true) * C.an (i, true) + C.cr (j, false) * C.an (i, false))).sum
      = if i = k then ((nb k).map fun j => (-J) • C.cr (j, σ)).sum else 0 := by
    intro i hi
    rw [Finset.mem_range] at hi
    rw [← comm_def, list_sum_lie]
    have : ∀ j ∈ nb i, comm ((-J) • (C.cr (j, true) * C.an (i, true) + C.cr (j, false) * C.an (i, false))) (C.cr (k, σ))
        = if i = k then (-J) • C.cr (j, σ) else 0 := by
      intro j hj
      have hj := h.lt i hi j hj
      rw [comm_smul, comm_add_left, C.bilinear_cr hj hi hk, C.bilinear_cr hj hi hk]
      by_cases hik : i = k <;> cases σ <;> simp [hik]
    rw [List.map_congr_left this]
    by_cases hik : i = k
    · subst hik; simp
    · simp [hik]
  rw [Finset.sum_congr rfl key, Finset.sum_ite_eq']
  simp [hk]

theorem hopping_an (h : RegularLattice N z nb) (J : S) {k : ℕ} (hk : k < N) (σ : Bool) :
    comm (C.hopping nb J) (C.an (k, σ)) = ((nb k).map fun j => J • C.an (j, σ)).sum := by
  unfold hopping
  rw [comm_def, Finset.sum_mul, Finset.mul_sum, ← Finset.sum_sub_distrib]
  have key : ∀ i ∈ Finset.range N, ((nb i).map fun j => (-J) • (C.cr (j, true) * C.an (i, true) +
      C.cr (j, false) * C.an (i, false))).sum * C.an (k, σ) - C.an (k, σ) * ((nb i).map fun j => (-J) •
      (C.cr (j, true) * C.an (i, true) + C.cr (j, false) * C.an (i, false))).sum
      = if i ∈ nb k then J • C.an (i, σ) else 0 := by
    intro i hi
    rw [Finset.mem_range] at hi
    rw [← comm_def, list_sum_lie]
    have : ∀ j ∈ nb i, comm ((-J) • (C.cr (j, true) * C.an (i, true) + C.cr (j, false) * C.an (i, false))) (C.an (k, σ))
        = if k = j then J • C.an (i, σ) else 0 := by
      intro j hj
      have hj := h.lt i hi j hj
      rw [comm_smul, comm_add_left, C.bilinear_an hj hi hk, C.bilinear_an hj hi hk]
      by_cases hik : k = j <;> cases σ <;> simp [hik]
    rw [List.map_congr_left this, list_sum_ite _ (h.nodup i hi)]
    have : k ∈ nb i ↔ i ∈ nb k := ⟨h.symm i hi k hk, h.symm k hk i hi⟩
    simp only [this]
  rw [Finset.sum_congr rfl key, sum_range_mem (nb k) (h.nodup k hk) (h.lt k hk)]

theorem interaction_mode (U : S) {k : ℕ} (hk : k < N) (w : R)
    (hw : ∀ i < N, i ≠ k → Commute (C.num (i, true) * C.num (i, false)) w) :
    comm (C.interaction U) (w) = U • comm (C.num (k, true) * C.num (k, false)) (w) := by
  unfold interaction
  rw [comm_def, Finset.sum_mul, Finset.mul_sum, ← Finset.sum_sub_distrib]
  rw [Finset.sum_eq_single k]
  · rw [← comm_def, comm_smul]
  · intro i hi hik
    rw [← comm_def, comm_smul, comm_def,
      (hw i (Finset.mem_range.1 hi) hik).eq, sub_self, smul_zero]
  · intro h; exact absurd (Finset.mem_range.2 hk) h

theorem num_lie_cr {x : ℕ × Bool} (hx : x.1 < N) : comm (C.num x) (C.cr x) = C.cr x := by
  have := C.bilinear_cr hx hx hx
  rw [if_pos rfl] at this; exact this

theorem num_lie_an {x : ℕ × Bool} (hx : x.1 < N) : comm (C.num x) (C.an x) = -C.an x := by
  have := C.bilinear_an hx hx hx
  rw [if_pos rfl] at this; exact this

theorem interaction_cr_up (U : S) {k : ℕ} (hk : k < N) :
    comm (C.interaction U) (C.cr (k, true)) = U • (C.cr (k, true) * C.num (k, false)) := by
  rw [C.interaction_mode U hk]
  · congr 1
    have c1 : Commute (C.num (k, false)) (C.cr (k, true)) := C.num_comm_cr hk hk (by simp)
    have := C.num_lie_cr (x := (k, true)) hk
    rw [comm_def] at this ⊢
    rw [mul_assoc, c1.eq, ← mul_assoc, ← mul_assoc, ← sub_mul, this]
  · intro i hi hik
    exact (C.num_comm_cr hi hk (by simp [hik])).mul_left (C.num_comm_cr hi hk (by simp))

theorem interaction_cr_down (U : S) {k : ℕ} (hk : k < N) :
    comm (C.interaction U) (C.cr (k, false)) = U • (C.num (k, true) * C.cr (k, false)) := by
  rw [C.interaction_mode U hk]
  · congr 1
    have c1 : Commute (C.num (k, true)) (C.cr (k, false)) := C.num_comm_cr hk hk (by simp)
    have := C.num_lie_cr (x := (k, false)) hk
    rw [comm_def] at this ⊢
    rw [mul_assoc, ← mul_assoc (C.cr (k, false)), ← c1.eq, mul_assoc, ← mul_sub, this]
  · intro i hi hik
    exact (C.num_comm_cr hi hk (by simp)).mul_left (C.num_comm_cr hi hk (by simp [hik]))

theorem interaction_an_down (U : S) {k : ℕ} (hk : k < N) :
    comm (C.interaction U) (C.an (k, false)) = -(U • (C.num (k, true) * C.an (k, false))) := by
  rw [C.interaction_mode U hk]
  · rw [← smul_neg]
    congr 1
    have c1 : Commute (C.num (k, true)) (C.an (k, false)) := C.num_comm_an hk hk (by simp)
    have := C.num_lie_an (x := (k, false)) hk
    rw [comm_def] at this ⊢
    rw [mul_assoc, ← mul_assoc (C.an (k, false)), ← c1.eq, mul_assoc, ← mul_sub, this, mul_neg]
  · intro i hi hik
    exact (C.num_comm_an hi hk (by simp)).mul_left (C.num_comm_an hi hk (by simp [hik]))

end CAROn

end Ieompp.Spec
