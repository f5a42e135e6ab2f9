import Verif.Lemmas.Commutator
import Verif.Props.Operator
import Mathlib.Logic.Encodable.Pi
import Mathlib.Data.Fin.VecNotation
import Mathlib.LinearAlgebra.Span.Basic
import Mathlib.Algebra.Module.LinearMap.Basic

/-!
# C06, C07, C08: commutators
-/

set_option autoImplicit false
set_option linter.unusedSectionVars false

namespace Ieompp

open Spec

section Concrete
variable {ι K R : Type*} [DecidableEq ι] [CommRing K] [Ring R] [Algebra K R]

theorem anticommutates_iff (x y : Op ι) : anticommutates x y = true ↔
    ¬ (x.creator ≠ y.creator ∧ x.index = y.index) := by
  obtain ⟨cx, i⟩ := x; obtain ⟨cy, j⟩ := y
  cases cx <;> cases cy <;> simp [anticommutates, Op.sameIndices]

/-- C07: `anticommutates` is true exactly when the anticommutator vanishes; otherwise it is 1. -/
theorem anticommutates_correct (A : CAR ι R) [Nontrivial R] (x y : Op ι) :
    (anticommutates x y = true ↔ A.c x * A.c y + A.c y * A.c x = 0) ∧
    (anticommutates x y = false ↔ A.c x * A.c y + A.c y * A.c x = 1) := by
  rw [A.anticomm]
  by_cases h : x.creator ≠ y.creator ∧ x.index = y.index
  · have h' : anticommutates x y = false := by
      rw [Bool.eq_false_iff]; exact fun h' => (anticommutates_iff x y).mp h' h
    rw [if_pos h, h']; simp
  · rw [if_neg h, (anticommutates_iff x y).mpr h]; simp

/-- C07: `anticommutates` is symmetric, an operator anticommutes with itself, and not with its conjugate. -/
theorem anticommutates_symm (x y : Op ι) : anticommutates x y = anticommutates y x ∧
    anticommutates x x = true ∧ anticommutates x x.getConjugate = false := by
  refine ⟨?_, ?_, ?_⟩
  · rw [Bool.eq_iff_iff, anticommutates_iff, anticommutates_iff, ne_comm, eq_comm (a := x.index)]
  · simp [anticommutates]
  · cases x; simp [anticommutates, Op.getConjugate, Op.sameIndices]

/-- C06 (general): for words of any lengths the appended terms sum to the graded commutator
`ab - (-1)^{nm} ba`; nothing that was in the container is touched, and no access is out of range. -/
theorem commutate_graded (A : CAR ι R) (a b : Term K (Op ι)) (c : List (Term K (Op ι))) :
    ∃ new, commutate a b c = some (c ++ new) ∧
      evalTerms A.c new = evalTerm A.c a * evalTerm A.c b
        - (-1 : K) ^ (a.operators.length * b.operators.length) •
          (evalTerm A.c b * evalTerm A.c a) := by
  obtain ⟨new, h1, h2⟩ := commutateWith_sound (· * ·) (fun p s => p * (s : K)) anticommutates
    (fun _ _ p => p) a b A.c
    (fun x y => if x.creator ≠ y.creator ∧ x.index = y.index then (1 : K) else 0) id
    (by intro x y; rw [A.anticomm]; split <;> simp)
    (fun _ _ => rfl) (fun _ _ => rfl)
    (by intro x y h; rw [anticommutates_iff] at h; rw [if_neg h])
    (by
      intro x y p h
      rw [Bool.eq_false_iff, Ne, anticommutates_iff, not_not] at h
      rw [if_pos h]; simp)
    c
  refine ⟨new, h1, ?_⟩
  simp only [id] at h2
  unfold evalTerms evalTerm
  rw [h2, smul_mul_smul_comm, smul_mul_smul_comm, smul_sub]
  congr 1
  rw [smul_comm, mul_comm b.prefactor]

/-- C06: under the asserted precondition (even product of the lengths) `commutate` computes the commutator. -/
theorem commutate_sound (A : CAR ι R) (a b : Term K (Op ι)) (c : List (Term K (Op ι)))
    (hassert : b.operators.length * a.operators.length % 2 = 0) :
    ∃ new, commutate a b c = some (c ++ new) ∧
      evalTerms A.c new = evalTerm A.c a * evalTerm A.c b - evalTerm A.c b * evalTerm A.c a := by
  obtain ⟨new, h1, h2⟩ := commutate_graded A a b c
  refine ⟨new, h1, ?_⟩
  rw [h2, Even.neg_one_pow (by rw [Nat.even_iff, mul_comm]; exact hassert), one_smul]

/-- C06: with the assertion compiled out and an odd product of lengths the result is the anticommutator. -/
theorem commutate_odd (A : CAR ι R) (a b : Term K (Op ι)) (c : List (Term K (Op ι)))
    (hodd : b.operators.length * a.operators.length % 2 = 1) :
    ∃ new, commutate a b c = some (c ++ new) ∧
      evalTerms A.c new = evalTerm A.c a * evalTerm A.c b + evalTerm A.c b * evalTerm A.c a := by
  obtain ⟨new, h1, h2⟩ := commutate_graded A a b c
  refine ⟨new, h1, ?_⟩
  rw [h2, Odd.neg_one_pow (by rw [Nat.odd_iff, mul_comm]; exact hodd), neg_smul, one_smul, sub_neg_eq_add]

/-- C06: every term produced comes from contracting a pair of mutually conjugate operators, one of `a` at `k`, one
of `b` at `l`; it is two operators shorter than `a` and `b` together. -/
theorem commutate_terms (a b : Term K (Op ι)) (c : List (Term K (Op ι))) :
    ∃ new, commutate a b c = some (c ++ new) ∧ ∀ t ∈ new, ∃ (a₁ a₂ b₁ b₂ : List (Op ι)) (x y : Op ι),
      a.operators = a₁ ++ x :: a₂ ∧ b.operators = b₁ ++ y :: b₂ ∧ IsAdjoint x y ∧
      t.operators = a₁ ++ b₁ ++ b₂ ++ a₂ ∧
      (t.prefactor = a.prefactor * b.prefactor ∨ t.prefactor = -(a.prefactor * b.prefactor)) := by
  refine ⟨_, commutateWith_eq _ _ _ _ a b c, fun t ht => ?_⟩
  simp only [List.mem_flatMap, List.mem_range] at ht
  obtain ⟨k, hk, l, hl, ht⟩ := ht
  unfold commNew at ht
  simp only [List.getElem?_eq_getElem hk, List.getElem?_eq_getElem hl] at ht
  split at ht
  · simp at ht
  · rename_i hx
    simp only [List.mem_singleton] at ht
    subst ht
    rw [anticommutates_iff, not_not] at hx
    refine ⟨a.operators.take k, a.operators.drop (k + 1), b.operators.take l, b.operators.drop (l + 1),
      a.operators[k], b.operators[l], ?_, ?_, hx, rfl, ?_⟩
    · rw [List.getElem_cons_drop, List.take_append_drop]
    · rw [List.getElem_cons_drop, List.take_append_drop]
    · simp only [commTerm, commSign]
      split
      · right; simp
      · left; simp

end Concrete

/-- Non-vacuity: the Fock space over `ℕ` is a realisation of the CAR (any commutative ring of scalars, e.g. `ℤ`),
it is non-trivial, and the hypothesis of C06 holds for these terms. -/
example : Nonempty (CAR ℕ (Module.End ℤ (Finset ℕ → ℤ))) ∧ Nontrivial (Module.End ℤ (Finset ℕ → ℤ)) ∧
    ∀ (a b : Term ℤ (Op ℕ)), a = ⟨2, [Op.makeCreator 1, Op.makeAnnihilator 2]⟩ →
      b = ⟨3, [Op.makeCreator 2]⟩ → b.operators.length * a.operators.length % 2 = 0 :=
  ⟨⟨fockCAR ℤ⟩, inferInstance, by rintro a b rfl rfl; rfl⟩

/-- The model computes: `[c₁† c₂, c₂†] = c₁†`, appended after what was there. -/
example : commutate (K := ℤ) ⟨2, [Op.makeCreator 1, Op.makeAnnihilator 2]⟩ ⟨3, [Op.makeCreator 2]⟩
    [⟨7, []⟩] = some [⟨7, []⟩, ⟨6, [Op.makeCreator 1]⟩] := by decide

/-! ## C08 -/

section Symbolic
variable {n : ℕ} {α : Fin n → Type*} [∀ i, DecidableEq (α i)] {σ V K R : Type*} [DecidableEq V]
  [CommRing K] [Ring R] [Algebra K R] (sym : Fin n → Bool) (str : ∀ i, α i → σ) (ρ : σ → V)

theorem anticommutatesHelper_iff (a b : ∀ i, α i) (I : ℕ) :
    anticommutatesHelper sym a b I = true ↔ ∃ i : Fin n, I ≤ i.val ∧ sym i = false ∧ a i ≠ b i := by
  fun_induction anticommutatesHelper sym a b I with
  | case1 I h hs ih =>
    rw [ih]
    constructor
    · rintro ⟨i, h1, h2⟩; exact ⟨i, by omega, h2⟩
    · rintro ⟨i, h1, h2, h3⟩
      refine ⟨i, ?_, h2, h3⟩
      rcases Nat.lt_or_ge I i.val with hlt | hge
      · omega
      · have : i = ⟨I, h⟩ := Fin.ext (by simp; omega)
        subst this; simp [hs] at h2
  | case2 I h hs hne => exact ⟨fun _ => ⟨⟨I, h⟩, le_refl _, by simpa using hs, hne⟩, fun _ => rfl⟩
  | case3 I h hs heq ih =>
    rw [ih]
    simp only [ne_eq, Decidable.not_not] at heq
    constructor
    · rintro ⟨i, h1, h2⟩; exact ⟨i, by omega, h2⟩
    · rintro ⟨i, h1, h2, h3⟩
      refine ⟨i, ?_, h2, h3⟩
      rcases Nat.lt_or_ge I i.val with hlt | hge
      · omega
      · have : i = ⟨I, h⟩ := Fin.ext (by simp; omega)
        subst this; exact absurd heq h3
  | case4 I h =>
    constructor
    · simp
    · rintro ⟨i, h1, _⟩; omega

theorem evalPrefactor_mulKronecker (p : Prefactor K σ) (k : Kronecker σ) :
    evalPrefactor ρ (p.mulKronecker k) = evalPrefactor ρ p * evalKronecker ρ k := by
  simp [evalPrefactor, Prefactor.mulKronecker, mul_assoc]

theorem evalPrefactor_mul (p q : Prefactor K σ) :
    evalPrefactor ρ (p.mul q) = evalPrefactor ρ p * evalPrefactor ρ q := by
  simp only [evalPrefactor, Prefactor.mul, Prefactor.mulAssign, List.map_append, List.prod_append]
  ring

theorem evalPrefactor_mulNumber (p : Prefactor K σ) (x : K) :
    evalPrefactor ρ (p.mulNumber x) = evalPrefactor ρ p * x := by
  simp only [evalPrefactor, Prefactor.mulNumber]; ring

theorem evalPrefactor_helper (a b : ∀ i, α i) (I : ℕ) (p : Prefactor K σ) :
    evalPrefactor ρ (anticommutatorHelper sym str a b I p) = evalPrefactor ρ p *
      (if ∀ i : Fin n, I ≤ i.val → sym i = true → ρ (str i (a i)) = ρ (str i (b i)) then 1 else 0) := by
  fun_induction anticommutatorHelper sym str a b I p with
  | case1 I p h hs hne ih =>
    rw [ih, evalPrefactor_mulKronecker, mul_assoc]
    congr 1
    by_cases hρ : ρ (str ⟨I, h⟩ (a ⟨I, h⟩)) = ρ (str ⟨I, h⟩ (b ⟨I, h⟩))
    · simp only [evalKronecker, hρ, if_true, one_mul]
      congr 1
      apply propext
      constructor
      · intro hall i hi hsi
        rcases Nat.lt_or_ge I i.val with hlt | hge
        · exact hall i (by omega) hsi
        · have : i = ⟨I, h⟩ := Fin.ext (by simp; omega)
          subst this; exact hρ
      · intro hall i hi hsi; exact hall i (by omega) hsi
    · have hn : ¬ ∀ i : Fin n, I ≤ i.val → sym i = true → ρ (str i (a i)) = ρ (str i (b i)) :=
        fun hall => hρ (hall ⟨I, h⟩ (le_refl _) hs)
      rw [if_neg hn]
      simp [evalKronecker, hρ]
  | case2 I p h hs heq ih =>
    rw [ih]
    simp only [ne_eq, Decidable.not_not] at heq
    congr 2
    apply propext
    constructor
    · intro hall i hi hsi
      rcases Nat.lt_or_ge I i.val with hlt | hge
      · exact hall i (by omega) hsi
      · have : i = ⟨I, h⟩ := Fin.ext (by simp; omega)
        subst this; rw [heq]
    · intro hall i hi hsi; exact hall i (by omega) hsi
  | case3 I p h hs ih =>
    rw [ih]
    congr 2
    apply propext
    constructor
    · intro hall i hi hsi
      rcases Nat.lt_or_ge I i.val with hlt | hge
      · exact hall i (by omega) hsi
      · have : i = ⟨I, h⟩ := Fin.ext (by simp; omega)
        subst this; exact absurd hsi hs
    · intro hall i hi hsi; exact hall i (by omega) hsi
  | case4 I p h =>
    rw [if_pos (fun i hi => by omega)]; simp

theorem substIndex_eq_iff (a b : ∀ i, α i) : substIndex sym str ρ a = substIndex sym str ρ b ↔
    (∀ i, sym i = true → ρ (str i (a i)) = ρ (str i (b i))) ∧ (∀ i, sym i = false → a i = b i) := by
  unfold substIndex
  rw [funext_iff]
  constructor
  · intro h
    refine ⟨fun i hi => ?_, fun i hi => ?_⟩
    · have := h i; simpa [hi] using this
    · have := h i; simpa [hi] using this
  · rintro ⟨h1, h2⟩ i
    cases hi : sym i
    · simp [h2 i hi]
    · simp [h1 i hi]

/-- C08: under every valuation `ρ` of the symbols, and in every realisation of the CAR, the result of the symbolic
`commutate` with the symbols substituted is the commutator of the substituted terms. -/
theorem commutateSym_sound (A : CAR (∀ i, V ⊕ α i) R)
    (a b : Term (Prefactor K σ) (Op (∀ i, α i))) (c : List (Term (Prefactor K σ) (Op (∀ i, α i))))
    (hassert : b.operators.length * a.operators.length % 2 = 0) :
    ∃ new, commutateSym sym str a b c = some (c ++ new) ∧
      evalTerms A.c (new.map (substTerm sym str ρ)) =
        evalTerm A.c (substTerm sym str ρ a) * evalTerm A.c (substTerm sym str ρ b)
        - evalTerm A.c (substTerm sym str ρ b) * evalTerm A.c (substTerm sym str ρ a) := by
  obtain ⟨new, h1, h2⟩ := commutateWith_sound Prefactor.mul (fun p s => p.mulNumber (s : K))
    (anticommutatesSym sym) (anticommutatorSym sym str) a b (fun x => A.c (substOp sym str ρ x))
    (fun x y => if x.creator ≠ y.creator ∧
      substIndex sym str ρ x.index = substIndex sym str ρ y.index then (1 : K) else 0)
    (evalPrefactor ρ)
    (by
      intro x y
      rw [A.anticomm, apply_ite (algebraMap K R), map_one, map_zero]
      rfl)
    (evalPrefactor_mul ρ) (fun p s => evalPrefactor_mulNumber ρ p _)
    (by
      intro x y h
      rw [if_neg]
      rintro ⟨h1, h2⟩
      rw [substIndex_eq_iff] at h2
      simp only [anticommutatesSym, Bool.or_eq_true, beq_iff_eq] at h
      rcases h with h | h
      · exact h1 h
      · rw [anticommutatesHelper_iff] at h
        obtain ⟨i, _, hs, hne⟩ := h
        exact hne (h2.2 i hs))
    (by
      intro x y p h
      simp only [anticommutatesSym, Bool.or_eq_false_iff, beq_eq_false_iff_ne] at h
      have h2 : ∀ i, sym i = false → x.index i = y.index i := by
        intro i hi
        by_contra hne
        have := (anticommutatesHelper_iff sym x.index y.index 0).mpr ⟨i, Nat.zero_le _, hi, hne⟩
        rw [h.2] at this; exact absurd this (by simp)
      rw [anticommutatorSym, evalPrefactor_helper]
      congr 2
      rw [substIndex_eq_iff]
      simp [h.1]
      intro _; exact h2)
    c
  refine ⟨new, h1, ?_⟩
  have e : ∀ t : Term (Prefactor K σ) (Op (∀ i, α i)),
      evalTerm A.c (substTerm sym str ρ t) =
        evalPrefactor ρ t.prefactor • word (fun x => A.c (substOp sym str ρ x)) t.operators := by
    intro t; simp [evalTerm, substTerm, word, Function.comp_def]
  have e2 : evalTerms A.c (new.map (substTerm sym str ρ)) =
      (new.map fun t => evalPrefactor ρ t.prefactor •
        word (fun x => A.c (substOp sym str ρ x)) t.operators).sum := by
    simp only [evalTerms, List.map_map]
    congr 1
    apply List.map_congr_left
    intro t _; exact e t
  rw [e2, h2, e, e, smul_mul_smul_comm, smul_mul_smul_comm, smul_sub,
    Even.neg_one_pow (by rw [Nat.even_iff, mul_comm]; exact hassert), one_smul, mul_comm (evalPrefactor ρ b.prefactor)]

end Symbolic

/-- A realisation of the CAR restricted to part of the modes. -/
def CAR.comap {ι κ R : Type*} [DecidableEq ι] [DecidableEq κ] [Ring R] (A : CAR κ R) (f : ι → κ)
    (hf : Function.Injective f) : CAR ι R where
  c x := A.c ⟨x.creator, f x.index⟩
  anticomm x y := by rw [A.anticomm]; simp [hf.eq_iff]

/-- C08 non-vacuity: there is a realisation for symbolic site and concrete spin indices (two indices; symbols and
values are numbers). -/
example : Nonempty (CAR (∀ _ : Fin 2, ℕ ⊕ ℕ) (Module.End ℤ (Finset ℕ → ℤ))) :=
  ⟨CAR.comap (fockCAR ℤ) Encodable.encode Encodable.encode_injective⟩

/-- C08: the model computes `[c†_{a↑} c_{b↑}, c†_{d↑}] = δ_{b,d} c†_{a↑}` (index 0 is a symbol, index 1 the spin). -/
example : commutateSym (K := ℤ) (n := 2) (α := fun _ => ℕ) (σ := ℕ) (fun i => i = 0) (fun _ s => s)
      ⟨⟨1, []⟩, [⟨true, ![10, 1]⟩, ⟨false, ![11, 1]⟩]⟩ ⟨⟨1, []⟩, [⟨true, ![12, 1]⟩]⟩ [] =
    some [⟨⟨1, [⟨11, 12⟩]⟩, [⟨true, ![10, 1]⟩]⟩] := by
  simp [commutateSym, commutateWith, commutateStep, anticommutatesSym, anticommutatorSym,
    anticommutatesHelper, anticommutatorHelper, commSign, Prefactor.mul, Prefactor.mulAssign,
    Prefactor.mulNumber, Prefactor.mulKronecker, List.range']

end Ieompp
