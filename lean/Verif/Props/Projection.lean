import Verif.Props.Liouvillian
import Mathlib.LinearAlgebra.Trace
import Mathlib.Data.Complex.Basic
import Mathlib.Algebra.Star.Basic
import Mathlib.Data.Fintype.Basic
import Mathlib.Data.Prod.Lex
import Mathlib.Tactic.FieldSimp

/-! # C28: orthogonality of the basis and of the remainder under every trace; the matrix is the projected Liouvillian -/

set_option autoImplicit false
set_option linter.unusedSectionVars false

namespace Ieompp

open Spec

namespace RealSpace
variable {N : ℕ} {R : Type*} [Ring R] (C : CAROn N R) {S : Type*} [Field S] [Algebra S R]
variable {z : ℕ} {nb : ℕ → List ℕ}

/-- `2 c†_{b↓} c_{c↓} - δ_bc`. -/
def X (b c : ℕ) : R := 2 * (C.cr (b, false) * C.an (c, false)) - if b = c then 1 else 0

theorem labelOp_three (a b c : ℕ) : C.labelOp (.three a b c) = C.cr (a, true) * X C b c := rfl

theorem labelOpAdj_three (a b c : ℕ) : C.labelOpAdj (.three a b c) = X C c b * C.an (a, true) := by
  unfold CAROn.labelOpAdj X
  simp only [eq_comm]

theorem X_self (b : ℕ) : X C b b = C.Z (b, false) := by unfold X CAROn.Z CAROn.num; simp

theorem X_ne {b c : ℕ} (h : b ≠ c) : X C b c = C.cr (b, false) * C.an (c, false) + C.cr (b, false) * C.an (c, false) := by
  unfold X; rw [if_neg h, sub_zero, two_mul]

theorem P_comm_X {x : ℕ × Bool} {b c : ℕ} (hx : x.1 < N) (hb : b < N) (hc : c < N) (h1 : x ≠ (b, false))
    (h2 : x ≠ (c, false)) : Commute (C.P x) (X C b c) := by
  have e : X C b c = (C.cr (b, false) * C.an (c, false) + C.cr (b, false) * C.an (c, false)) - if b = c then 1 else 0 := by
    unfold X; rw [two_mul]
  have k : Commute (C.P x) (C.cr (b, false) * C.an (c, false)) := (C.P_anti_cr hx hb h1).mul_right (C.P_anti_an hx hc h2)
  rw [e]
  refine (k.add_right k).sub_right ?_
  split
  · exact Commute.one_right _
  · exact Commute.zero_right _

theorem Z_comm_X {x : ℕ × Bool} {b c : ℕ} (hx : x.1 < N) (hb : b < N) (hc : c < N) (h1 : x ≠ (b, false))
    (h2 : x ≠ (c, false)) : Commute (C.Z x) (X C b c) := by
  have e : X C b c = (C.cr (b, false) * C.an (c, false) + C.cr (b, false) * C.an (c, false)) - if b = c then 1 else 0 := by
    unfold X; rw [two_mul]
  have k : Commute (C.Z x) (C.cr (b, false) * C.an (c, false)) := (C.Z_comm_cr hx hb h1).mul_right (C.Z_comm_an hx hc h2)
  rw [e]
  refine (k.add_right k).sub_right ?_
  split
  · exact Commute.one_right _
  · exact Commute.zero_right _

theorem Z_anti_X_left (h2 : (2 : S) ≠ 0) {b c : ℕ} (hb : b < N) (hc : c < N) (h : b ≠ c) :
    Anti (C.Z (b, false)) (X C b c) := by
  rw [X_ne C h]
  have k := (C.Z_anti_cr h2 (x := (b, false)) hb).mul_right_comm (C.Z_comm_an (y := (c, false)) hb hc (by simp [h]))
  exact k.add_right k

theorem Z_anti_X_right (h2 : (2 : S) ≠ 0) {b c : ℕ} (hb : b < N) (hc : c < N) (h : b ≠ c) :
    Anti (C.Z (c, false)) (X C b c) := by
  rw [X_ne C h]
  have k := Anti.comm_mul_right (C.Z_comm_cr (y := (b, false)) hc hb (by simp [Ne.symm h]))
    (C.Z_anti_an h2 (x := (c, false)) hc)
  exact k.add_right k

attribute [local irreducible] CAROn.P CAROn.Z CAROn.cr CAROn.an X Anti Commute

/-- Decide whether `Z_x` or `P_x` commutes or anticommutes with a product. -/
syntax "parity" : tactic
macro_rules
  | `(tactic| parity) => `(tactic| first
      | assumption
      | exact CAROn.P_anti_cr _ (by assumption) (by assumption) (by simp [*])
      | exact CAROn.P_anti_an _ (by assumption) (by assumption) (by simp [*])
      | exact CAROn.P_anti_Z _ (by assumption) (by assumption)
      | exact CAROn.P_comm_Z _ (by assumption) (by assumption) (by simp [*])
      | exact P_comm_X _ (by assumption) (by assumption) (by assumption) (by simp [*]) (by simp [*])
      | exact CAROn.Z_anti_cr _ (by assumption) (by assumption)
      | exact CAROn.Z_anti_an _ (by assumption) (by assumption)
      | exact CAROn.Z_comm_Z _ (by assumption) (by assumption)
      | exact CAROn.Z_comm_cr _ (by assumption) (by assumption) (by simp [*])
      | exact CAROn.Z_comm_an _ (by assumption) (by assumption) (by simp [*])
      | exact Z_anti_X_left _ (by assumption) (by assumption) (by assumption) (by assumption)
      | exact Z_anti_X_right _ (by assumption) (by assumption) (by assumption) (by assumption)
      | exact Z_comm_X _ (by assumption) (by assumption) (by assumption) (by simp [*]) (by simp [*])
      | (refine Commute.mul_right ?_ ?_ <;> parity)
      | (refine Anti.mul_right ?_ ?_ <;> parity)
      | (refine Anti.mul_right_comm ?_ ?_ <;> parity)
      | (refine Anti.comm_mul_right ?_ ?_ <;> parity))

variable (τ : R →ₗ[S] S) (hτ : ∀ x y, τ (x * y) = τ (y * x)) (h2 : (2 : S) ≠ 0)
include hτ h2

/-- A trace vanishes on what anticommutes with an involution. -/
theorem trace_anti {p w : R} (hp : p * p = 1) (h : Anti p w) : τ w = 0 := by
  have e : τ w = - τ w := by
    calc τ w = τ (w * (p * p)) := by rw [hp, mul_one]
      _ = τ (p * w * p) := by rw [← mul_assoc, hτ, ← mul_assoc]
      _ = - τ (w * (p * p)) := by rw [h.eq, neg_mul, map_neg, mul_assoc]
      _ = - τ w := by rw [hp, mul_one]
  have : (2 : S) * τ w = 0 := by rw [two_mul]; nth_rewrite 1 [e]; simp
  exact (mul_eq_zero.1 this).resolve_left h2

theorem trace_P {x : ℕ × Bool} (hx : x.1 < N) {w : R} (h : Anti (C.P x) w) : τ w = 0 :=
  trace_anti τ hτ h2 (C.P_P h2 hx) h

theorem trace_Z {x : ℕ × Bool} (hx : x.1 < N) {w : R} (h : Anti (C.Z x) w) : τ w = 0 :=
  trace_anti τ hτ h2 (C.Z_Z h2 hx) h

theorem trace_num {x : ℕ × Bool} (hx : x.1 < N) {w : R} (h : Commute (C.P x) w) :
    τ (C.cr x * C.an x * w) = 1 / 2 * τ w := by
  have e : (2 : S) • (C.cr x * C.an x * w) = w + C.Z x * w := by
    unfold CAROn.Z CAROn.num; rw [two_smul]; noncomm_ring
  have : (2 : S) * τ (C.cr x * C.an x * w) = τ w := by
    rw [← smul_eq_mul, ← map_smul, e, map_add, trace_P C τ hτ h2 hx ((C.P_anti_Z h2 hx).mul_right_comm h), add_zero]
  rw [← this]; field_simp

theorem trace_hole {x : ℕ × Bool} (hx : x.1 < N) {w : R} (h : Commute (C.P x) w) :
    τ (C.an x * C.cr x * w) = 1 / 2 * τ w := by
  have e : (2 : S) • (C.an x * C.cr x * w) = w - C.Z x * w := by
    rw [C.an_cr hx hx, if_pos rfl]
    unfold CAROn.Z CAROn.num; rw [two_smul]; noncomm_ring
  have : (2 : S) * τ (C.an x * C.cr x * w) = τ w := by
    rw [← smul_eq_mul, ← map_smul, e, map_sub, trace_P C τ hτ h2 hx ((C.P_anti_Z h2 hx).mul_right_comm h), sub_zero]
  rw [← this]; field_simp

theorem trace_remainder_one {a b c : ℕ} (ha : a < N) (hb : b < N) (hc : c < N) (hab : a ≠ b) (hac : a ≠ c)
    {y : Label} (hy : y.Valid N) :
    τ (C.labelOpAdj y * (C.cr (a, true) * (C.Z (a, false) * X C b c))) = 0 := by
  cases y with
  | one i =>
    have hi : i < N := hy
    refine trace_P C τ hτ h2 (x := (a, false)) ha ?_
    show Anti _ (C.an (i, true) * _)
    parity
  | three a' b' c' =>
    obtain ⟨ha', hb', hc'⟩ := hy
    rw [labelOpAdj_three]
    by_cases h1 : a = b'
    · subst h1
      by_cases h3 : c' = a
      · subst h3
        rw [X_self]
        by_cases hbc : b = c
        · subst hbc
          rw [X_self]
          have hab' := Ne.symm hab
          refine trace_P C τ hτ h2 (x := (b, false)) hb ?_
          parity
        · have hab' := Ne.symm hab
          refine trace_Z C τ hτ h2 (x := (b, false)) hb ?_
          parity
      · refine trace_Z C τ hτ h2 (x := (a, false)) ha ?_
        parity
    · by_cases h3 : c' = a
      · subst h3
        refine trace_Z C τ hτ h2 (x := (c', false)) ha ?_
        parity
      · have h3' : ¬ a = c' := fun h => h3 h.symm
        refine trace_P C τ hτ h2 (x := (a, false)) ha ?_
        parity

theorem trace_remainder_two {a b c e : ℕ} (ha : a < N) (hb : b < N) (hc : c < N) (he : e < N) (hae : a ≠ e)
    (hbc : b ≠ c) {y : Label} (hy : y.Valid N) :
    τ (C.labelOpAdj y * (C.cr (a, true) * (C.Z (e, true) * (C.cr (b, false) * C.an (c, false))))) = 0 := by
  have hea := Ne.symm hae
  cases y with
  | one i =>
    have hi : i < N := hy
    refine trace_Z C τ hτ h2 (x := (b, false)) hb ?_
    show Anti _ (C.an (i, true) * _)
    parity
  | three a' b' c' =>
    obtain ⟨ha', hb', hc'⟩ := hy
    rw [labelOpAdj_three]
    by_cases h1 : a = a'
    · subst h1
      refine trace_P C τ hτ h2 (x := (e, true)) he ?_
      parity
    · refine trace_Z C τ hτ h2 (x := (a, true)) ha ?_
      parity

/-- The remainder is orthogonal to every basis operator. -/
theorem trace_remainder (U : S) {a b c : ℕ} (ha : a < N) (hb : b < N) (hc : c < N) {y : Label} (hy : y.Valid N) :
    τ (C.labelOpAdj y * remainder C U a b c) = 0 := by
  unfold remainder
  rw [mul_sub, mul_add, map_sub, map_add]
  have t1 : τ (C.labelOpAdj y * (if a ≠ b ∧ a ≠ c then (U / 2) • (C.cr (a, true) * (C.Z (a, false) *
      (2 * (C.cr (b, false) * C.an (c, false)) - if b = c then 1 else 0))) else 0)) = 0 := by
    by_cases h : a ≠ b ∧ a ≠ c
    · have := trace_remainder_one C τ hτ h2 ha hb hc h.1 h.2 hy
      rw [if_pos h, mul_smul_comm, map_smul]
      unfold X at this
      rw [this, smul_zero]
    · rw [if_neg h, mul_zero, map_zero]
  rw [t1, zero_add]
  by_cases hbc : b = c
  · subst hbc; rw [sub_self]
  · have t2 : ∀ e, e < N → τ (C.labelOpAdj y * (if a ≠ e then U • (C.cr (a, true) * (C.Z (e, true) *
        (C.cr (b, false) * C.an (c, false)))) else 0)) = 0 := by
      intro e he
      split_ifs with h
      · rw [mul_smul_comm, map_smul, trace_remainder_two C τ hτ h2 ha hb hc he h hbc hy, smul_zero]
      · rw [mul_zero, map_zero]
    rw [t2 b hb, t2 c hc, sub_zero]

/-- The basis is orthogonal, all operators having the same norm, under every trace. -/
theorem trace_gram {x y : Label} (hx : x.Valid N) (hy : y.Valid N) :
    τ (C.labelOpAdj y * C.labelOp x) = if x = y then 1 / 2 * τ 1 else 0 := by
  cases x with
  | one j =>
    have hj : j < N := hx
    cases y with
    | one i =>
      have hi : i < N := hy
      show τ (C.an (i, true) * C.cr (j, true)) = _
      by_cases hij : i = j
      · subst hij
        have := trace_hole C τ hτ h2 (x := (i, true)) (w := 1) hi (Commute.one_right _)
        rw [mul_one] at this
        rw [this, if_pos rfl]
      · rw [if_neg (by simp [Ne.symm hij])]
        refine trace_Z C τ hτ h2 (x := (i, true)) hi ?_
        parity
    | three a b c =>
      obtain ⟨ha, hb, hc⟩ := hy
      rw [if_neg (by simp), labelOpAdj_three]
      show τ (X C c b * C.an (a, true) * C.cr (j, true)) = 0
      by_cases hbc : c = b
      · subst hbc
        rw [X_self]
        refine trace_P C τ hτ h2 (x := (c, false)) hc ?_
        parity
      · refine trace_Z C τ hτ h2 (x := (c, false)) hc ?_
        parity
  | three a b c =>
    obtain ⟨ha, hb, hc⟩ := hx
    rw [labelOp_three]
    cases y with
    | one i =>
      have hi : i < N := hy
      rw [if_neg (by simp)]
      show τ (C.an (i, true) * (C.cr (a, true) * X C b c)) = 0
      by_cases hbc : b = c
      · subst hbc
        rw [X_self]
        refine trace_P C τ hτ h2 (x := (b, false)) hb ?_
        parity
      · refine trace_Z C τ hτ h2 (x := (b, false)) hb ?_
        parity
    | three a' b' c' =>
      obtain ⟨ha', hb', hc'⟩ := hy
      rw [labelOpAdj_three]
      by_cases haa : a = a'
      · subst haa
        by_cases hbc : b = c
        · subst hbc
          rw [X_self]
          by_cases hbc' : c' = b'
          · subst hbc'
            rw [X_self]
            by_cases hbb : b = c'
            · subst hbb
              rw [if_pos rfl]
              have c1 : Commute (C.Z (b, false)) (C.an (a, true)) := C.Z_comm_an hb ha (by simp)
              have c2 : Commute (C.Z (b, false)) (C.cr (a, true)) := C.Z_comm_cr hb ha (by simp)
              have : C.Z (b, false) * C.an (a, true) * (C.cr (a, true) * C.Z (b, false))
                  = C.an (a, true) * C.cr (a, true) * 1 := by
                rw [c1.eq, ← c2.eq, mul_assoc, ← mul_assoc (C.Z (b, false)), C.Z_Z h2 (x := (b, false)) hb, one_mul,
                  mul_one]
              rw [this, trace_hole C τ hτ h2 (x := (a, true)) ha (Commute.one_right _)]
            · rw [if_neg (by simp [hbb])]
              refine trace_P C τ hτ h2 (x := (b, false)) hb ?_
              parity
          · rw [if_neg (by rintro h; injection h with _ h1 h3; exact hbc' (h3.symm.trans h1))]
            refine trace_Z C τ hτ h2 (x := (c', false)) hc' ?_
            parity
        · by_cases hbc' : c' = b'
          · subst hbc'
            rw [X_self, if_neg (by rintro h; injection h with _ h1 h3; exact hbc (h1.trans h3.symm))]
            refine trace_Z C τ hτ h2 (x := (b, false)) hb ?_
            parity
          · by_cases hb1 : b = b'
            · subst hb1
              by_cases hc1 : c = c'
              · subst hc1
                rw [if_pos rfl]
                have c1 : Commute (X C c b) (C.an (a, true)) := by
                  rw [X_ne C hbc']
                  have k : Commute (C.cr (c, false) * C.an (b, false)) (C.an (a, true)) :=
                    Anti.mul_left (C.an_cr_anti ha hc (by simp)).symm (C.an_an hb ha)
                  exact k.add_left k
                have c2 : Commute (X C c b) (C.cr (a, true)) := by
                  rw [X_ne C hbc']
                  have k : Commute (C.cr (c, false) * C.an (b, false)) (C.cr (a, true)) :=
                    Anti.mul_left (C.cr_cr hc ha) (C.an_cr_anti hb ha (by simp))
                  exact k.add_left k
                have c3 : Commute (C.an (b, false) * C.cr (b, false)) (C.cr (c, false)) :=
                  Anti.mul_left (C.an_cr_anti hb hc (by simp [hbc])) (C.cr_cr hb hc)
                have e1 : X C c b * C.an (a, true) * (C.cr (a, true) * X C b c) =
                    (4 : S) • (C.an (a, true) * C.cr (a, true) * (C.an (b, false) * C.cr (b, false) *
                      (C.cr (c, false) * C.an (c, false) * 1))) := by
                  rw [c1.eq, mul_assoc, ← mul_assoc (X C c b), c2.eq, mul_assoc, ← mul_assoc, X_ne C hbc', X_ne C hbc,
                    mul_one, ← mul_assoc (C.an (b, false) * C.cr (b, false)), c3.eq,
                    show (4 : S) = 1 + 1 + 1 + 1 by norm_num]
                  simp only [add_smul, one_smul]
                  noncomm_ring
                have p1 : Commute (C.P (a, true)) (C.an (b, false) * C.cr (b, false) *
                      (C.cr (c, false) * C.an (c, false) * 1)) := by
                  rw [mul_one]; parity
                have hcb : ¬ c = b := hbc'
                have p2 : Commute (C.P (b, false)) (C.cr (c, false) * C.an (c, false) * 1) := by
                  rw [mul_one]
                  exact (C.P_anti_cr hb hc (by simp [hbc])).mul_right (C.P_anti_an hb hc (by simp [hbc]))
                rw [e1, map_smul, trace_hole C τ hτ h2 (x := (a, true)) ha p1,
                  trace_hole C τ hτ h2 (x := (b, false)) hb p2,
                  trace_num C τ hτ h2 (x := (c, false)) hc (Commute.one_right _), smul_eq_mul]
                have : (4 : S) = 2 * 2 := by norm_num
                rw [this]; field_simp
              · rw [if_neg (by simp [hc1])]
                have hcb : ¬ c = b := fun h => hbc h.symm
                refine trace_Z C τ hτ h2 (x := (c, false)) hc ?_
                parity
            · rw [if_neg (by simp [hb1])]
              by_cases hb2 : b = c'
              · subst hb2
                by_cases hc1 : c = b'
                · subst hc1
                  have c1 : Commute (X C b c) (C.an (a, true)) := by
                    rw [X_ne C hbc']
                    have k : Commute (C.cr (b, false) * C.an (c, false)) (C.an (a, true)) :=
                      Anti.mul_left (C.an_cr_anti ha hb (by simp)).symm (C.an_an hc ha)
                    exact k.add_left k
                  have c2 : Commute (X C b c) (C.cr (a, true)) := by
                    rw [X_ne C hbc']
                    have k : Commute (C.cr (b, false) * C.an (c, false)) (C.cr (a, true)) :=
                      Anti.mul_left (C.cr_cr hb ha) (C.an_cr_anti hc ha (by simp))
                    exact k.add_left k
                  have e1 : X C b c * X C b c = 0 := by
                    have : C.cr (b, false) * C.an (c, false) * (C.cr (b, false) * C.an (c, false)) = 0 := by
                      rw [mul_assoc, ← mul_assoc (C.an (c, false)),
                        (C.an_cr_anti (x := (c, false)) (y := (b, false)) hc hb (by simp [Ne.symm hbc])).eq, neg_mul,
                        mul_neg, mul_assoc, C.an_sq h2 hc]
                      simp
                    rw [X_ne C hbc', add_mul, mul_add, this]; simp
                  rw [c1.eq, mul_assoc, ← mul_assoc (X C b c), c2.eq, mul_assoc, e1, mul_zero, mul_zero, map_zero]
                · have hcb : ¬ c = b := fun h => hbc h.symm
                  refine trace_Z C τ hτ h2 (x := (c, false)) hc ?_
                  parity
              · refine trace_Z C τ hτ h2 (x := (b, false)) hb ?_
                parity
      · rw [if_neg (by simp [haa])]
        refine trace_Z C τ hτ h2 (x := (a, true)) ha ?_
        parity

/-- C28: the complete matrix is the projected Liouvillian. For every trace `τ` (in particular the trace of the finite
Fock space, i.e. the infinite-temperature scalar product), the scalar product of basis operator `q` with `[H, A_p]` is
the matrix element times the norm of `A_q`: `⟨A_q, [H, A_p]⟩ = M(p, q) ⟨A_q, A_q⟩`, and different basis operators are
orthogonal. -/
theorem matrix_projection (h : RegularLattice N z nb) (sort : List (Triplet S) → List (Triplet S))
    (hs : IsSort sort) (J U : S) : ∃ m, initMatrix sort N z nb J U = .val m ∧
      ∀ x y : Label, x.Valid N → y.Valid N →
        τ (C.labelOpAdj y * comm (C.hopping nb J + C.interaction U) (C.labelOp x)) =
          m.get (x.pos N) (y.pos N) * τ (C.labelOpAdj y * C.labelOp y) ∧
        τ (C.labelOpAdj y * C.labelOp y) = 1 / 2 * τ 1 ∧
        (x ≠ y → τ (C.labelOpAdj y * C.labelOp x) = 0) := by
  obtain ⟨m, h1, _, h3, hrow, hrow3⟩ := matrix_commutator C h sort hs J U h2
  refine ⟨m, h1, ?_⟩
  intro x y hx hy
  refine ⟨?_, by rw [trace_gram C τ hτ h2 hy hy, if_pos rfl], fun hne => by
    rw [trace_gram C τ hτ h2 hx hy, if_neg hne]⟩
  have sum : τ (C.labelOpAdj y * ∑ p ∈ Finset.range m.columns, m.get (x.pos N) p • C.basisOp (basis3 N) p) =
      m.get (x.pos N) (y.pos N) * τ (C.labelOpAdj y * C.labelOp y) := by
    rw [h3, Finset.mul_sum, map_sum, Finset.sum_eq_single (y.pos N)]
    · rw [mul_smul_comm, map_smul, basisOp_pos C hy, smul_eq_mul]
    · intro p hp hne
      obtain ⟨w, hw, rfl⟩ := label_of_lt (Finset.mem_range.1 hp)
      rw [mul_smul_comm, map_smul, basisOp_pos C hw, trace_gram C τ hτ h2 hw hy, if_neg, smul_zero]
      rintro rfl; exact hne rfl
    · intro hn; exact absurd (Finset.mem_range.2 (label_pos_lt hy)) hn
  rw [← sum]
  cases x with
  | one i =>
    have := hrow i hx
    rw [show C.basisOp (basis3 N) i = C.labelOp (.one i) from basisOp_pos C (x := .one i) hx] at this
    rw [this]
    rfl
  | three a b c =>
    have := hrow3 a b c hx.1 hx.2.1 hx.2.2
    rw [show C.basisOp (basis3 N) (get3opIndex N a b c) = C.labelOp (.three a b c) from
      basisOp_pos C (x := .three a b c) hx] at this
    rw [this, mul_add, map_add, trace_remainder C τ hτ h2 U hx.1 hx.2.1 hx.2.2 hy, add_zero]
    rfl

end RealSpace

/-- `labelOpAdj` is the adjoint in every realisation by a star ring. -/
theorem labelOpAdj_star {N : ℕ} {R : Type*} [Ring R] [StarRing R] (C : CAROn N R)
    (hC : ∀ x, star (C.cr x) = C.an x) (x : Label) : C.labelOpAdj x = star (C.labelOp x) := by
  have hC' : ∀ x, star (C.an x) = C.cr x := fun x => by rw [← hC, star_star]
  cases x with
  | one i => exact (hC _).symm
  | three a b c =>
    simp only [CAROn.labelOp, CAROn.labelOpAdj, star_mul, star_sub, hC, hC']
    have : star (2 : R) = 2 := by simp
    rw [this]
    by_cases h : b = c
    · simp [h, mul_two, two_mul]
    · simp [h, mul_two, two_mul]

/-! ## The finite Fock space realises all of this -/

/-- The Fock space with sites `0, ..., N-1`. -/
noncomputable def fockCAROn (K : Type*) [Field K] (N : ℕ) :
    CAROn N (Module.End K (Finset (Fin N ×ₗ Bool) → K)) where
  c x := if h : x.index.1 < N then fockOp K ⟨x.creator, toLex (⟨x.index.1, h⟩, x.index.2)⟩ else 0
  anticomm x y hx hy := by
    rw [dif_pos hx, dif_pos hy]
    rw [show fockOp K ⟨x.creator, toLex ((⟨x.index.1, hx⟩ : Fin N), x.index.2)⟩ = (fockCAR K).c _ from rfl,
      show fockOp K ⟨y.creator, toLex ((⟨y.index.1, hy⟩ : Fin N), y.index.2)⟩ = (fockCAR K).c _ from rfl,
      (fockCAR K).anticomm]
    congr 1
    simp only [EmbeddingLike.apply_eq_iff_eq, Fin.mk.injEq, Prod.ext_iff]

/-- C28, non-vacuity: on the finite Fock space over ℂ the trace is a trace in the above sense and `τ 1 ≠ 0`, so the
matrix elements are determined by the Hamiltonian. -/
theorem fock_trace (N : ℕ) : ∃ τ : Module.End ℂ (Finset (Fin N ×ₗ Bool) → ℂ) →ₗ[ℂ] ℂ,
    (∀ x y, τ (x * y) = τ (y * x)) ∧ τ 1 ≠ 0 := by
  refine ⟨LinearMap.trace ℂ _, fun x y => LinearMap.trace_mul_comm ℂ x y, ?_⟩
  rw [LinearMap.trace_one]
  simp

end Ieompp
