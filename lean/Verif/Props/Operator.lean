import Verif.Spec.Operator
import Mathlib.Order.Fin.Basic
import Mathlib.Data.Nat.Find
import Mathlib.Data.Fin.VecNotation
import Mathlib.Tactic.Tauto

/-!
# C01, C02, C03: operators
-/

set_option autoImplicit false
set_option linter.unusedSectionVars false

namespace Ieompp

open Spec

/-! ## C01 -/

section C01
variable {ι : Type*} [DecidableEq ι]

/-- C01 (generic and one-index): `==` is equality of flag and indices. -/
theorem op_eq_iff (a b : Op ι) :
    a.eqB b = true ↔ (a.creator = b.creator ∧ a.index = b.index) := by
  simp [Op.eqB]

/-- C01: `!=` is the complement of `==`. -/
theorem op_ne_eq_not (a b : Op ι) : a.neB b = !(a.eqB b) := by
  simp [Op.neB, Op.eqB, bne]

/-- C01: `==` is an equality test (Leibniz equality of the objects). -/
theorem op_eq_iff_eq (a b : Op ι) : a.eqB b = true ↔ a = b := by
  cases a; cases b; simp [Op.eqB]

variable {κ : Type*} [DecidableEq κ]

/-- C01 (two indices): `==`. -/
theorem op2_eq_iff (a b : Op2 ι κ) :
    a.eqB b = true ↔ (a.creator = b.creator ∧ a.index1 = b.index1 ∧ a.index2 = b.index2) := by
  simp [Op2.eqB, and_assoc]

/-- C01 (two indices): `!=`. -/
theorem op2_ne_eq_not (a b : Op2 ι κ) : a.neB b = !(a.eqB b) := by
  simp [Op2.neB, Op2.eqB, bne]

/-- C01: the specialisation agrees with the generic class on all comparisons. -/
theorem op2_agrees_with_generic (a b : Op2 ι κ) :
    a.eqB b = a.toGeneric.eqB b.toGeneric ∧ a.neB b = a.toGeneric.neB b.toGeneric ∧
    a.sameIndices b = a.toGeneric.sameIndices b.toGeneric := by
  refine ⟨?_, ?_, ?_⟩
  · rw [Bool.eq_iff_iff]; simp [Op2.eqB, Op.eqB, Op2.toGeneric, and_assoc]
  · rw [op2_ne_eq_not, op_ne_eq_not]; congr 1
    rw [Bool.eq_iff_iff]; simp [Op2.eqB, Op.eqB, Op2.toGeneric, and_assoc]
  · rw [Bool.eq_iff_iff]; simp [Op2.sameIndices, Op.sameIndices, Op2.toGeneric]

end C01

example : (Op2.mk true 3 false).neB (Op2.mk true 3 true) = true ∧
    (Op2.mk true 3 false).eqB (Op2.mk true 3 false) = true := by decide

/-! ## C02 -/

section C02
variable {ι : Type*} [DecidableEq ι]

/-- C02: conjugating twice gives the operator back. -/
theorem op_conjugate_involutive (a : Op ι) : a.conjugate.conjugate = a ∧
    a.getConjugate.getConjugate = a := by
  cases a; simp [Op.conjugate, Op.getConjugate]

/-- C02: in-place and copying conjugation agree. -/
theorem op_conjugate_eq_getConjugate (a : Op ι) : a.conjugate = a.getConjugate := rfl

/-- C02: the conjugate is the adjoint. -/
theorem op_getConjugate_isAdjoint (a b : Op ι) : b = a.getConjugate ↔ IsAdjoint a b := by
  obtain ⟨c, i⟩ := a; obtain ⟨c', i'⟩ := b
  cases c <;> cases c' <;> simp [Op.getConjugate, IsAdjoint, eq_comm]

/-- C02: `is_conjugate` recognises exactly the adjoint. -/
theorem op_isConjugate_iff (a b : Op ι) : a.isConjugate b = true ↔ IsAdjoint a b := by
  obtain ⟨c, i⟩ := a; obtain ⟨c', i'⟩ := b
  cases c <;> cases c' <;> simp [Op.isConjugate, Op.sameIndices, IsAdjoint]

/-- C02: `is_conjugate` is symmetric. -/
theorem op_isConjugate_comm (a b : Op ι) : a.isConjugate b = b.isConjugate a := by
  rw [Bool.eq_iff_iff, op_isConjugate_iff, op_isConjugate_iff]
  unfold IsAdjoint; constructor <;> rintro ⟨h1, h2⟩ <;> exact ⟨h1.symm, h2.symm⟩

/-- C02: an operator is never its own conjugate. -/
theorem op_isConjugate_irrefl (a : Op ι) : a.isConjugate a = false := by
  rw [Bool.eq_false_iff, Ne, op_isConjugate_iff]; simp [IsAdjoint]

variable {κ : Type*} [DecidableEq κ]

/-- C02: the two-index specialisation agrees with the generic class. -/
theorem op2_conjugate_agrees (a b : Op2 ι κ) :
    a.conjugate.toGeneric = a.toGeneric.conjugate ∧
    a.getConjugate.toGeneric = a.toGeneric.getConjugate ∧
    a.isConjugate b = a.toGeneric.isConjugate b.toGeneric := by
  refine ⟨rfl, rfl, ?_⟩
  rw [Bool.eq_iff_iff]
  simp [Op2.isConjugate, Op.isConjugate, Op2.sameIndices, Op.sameIndices, Op2.toGeneric]

/-- C02: `make_creator` and `make_annihilator` build the creators and the annihilators, every operator is made by exactly one
of them, and with the same index they build adjoint operators. -/
theorem op_make (i : ι) (a : Op ι) :
    (a = Op.makeCreator i ↔ a.creator = true ∧ a.index = i) ∧ (a = Op.makeAnnihilator i ↔ a.creator = false ∧ a.index = i) ∧
    IsAdjoint (Op.makeCreator i) (Op.makeAnnihilator i) ∧ (Op.makeCreator i).getConjugate = Op.makeAnnihilator i ∧
    (Op.makeAnnihilator i).getConjugate = Op.makeCreator i := by
  obtain ⟨c, j⟩ := a
  simp [Op.makeCreator, Op.makeAnnihilator, IsAdjoint, Op.getConjugate]

end C02

example : IsAdjoint (Op.makeCreator 3) (Op.makeAnnihilator 3) ∧
    (Op.makeCreator 3).isConjugate (Op.makeAnnihilator 3) = true ∧
    (Op.makeCreator 3).isConjugate (Op.makeAnnihilator 4) = false := by
  refine ⟨⟨by decide, rfl⟩, by decide, by decide⟩

/-! ## C03 -/

section C03

variable {n : ℕ} {α : Fin n → Type*} [∀ i, LinearOrder (α i)]

theorem smallerRec_iff (a b : ∀ i, α i) (I : ℕ) :
    smallerRec a b I = true ↔
      ∃ i : Fin n, I ≤ i.val ∧ (∀ j : Fin n, I ≤ j.val → j < i → a j = b j) ∧ a i < b i := by
  fun_induction smallerRec a b I with
  | case1 I h hne =>
    simp only [decide_eq_true_eq]
    constructor
    · intro hlt
      exact ⟨⟨I, h⟩, le_refl _, fun j hj hji => absurd hj (by simp [Fin.lt_def] at hji; omega), hlt⟩
    · rintro ⟨i, hi, hall, hlt⟩
      by_cases hiI : i = ⟨I, h⟩
      · subst hiI; exact hlt
      · exact absurd (hall ⟨I, h⟩ (le_refl _) (by
          rw [Fin.lt_def]; have : i.val ≠ I := fun h' => hiI (Fin.ext h'); simp; omega)) hne
  | case2 I h heq ih =>
    rw [ih]
    simp only [ne_eq, Decidable.not_not] at heq
    constructor
    · rintro ⟨i, hi, hall, hlt⟩
      refine ⟨i, by omega, fun j hj hji => ?_, hlt⟩
      by_cases hjI : j = ⟨I, h⟩
      · subst hjI; exact heq
      · exact hall j (by have : j.val ≠ I := fun h' => hjI (Fin.ext h'); omega) hji
    · rintro ⟨i, hi, hall, hlt⟩
      have hiI : i.val ≠ I := by
        intro h'; have : i = ⟨I, h⟩ := Fin.ext h'
        subst this; exact absurd heq (ne_of_lt hlt)
      exact ⟨i, by omega, fun j hj hji => hall j (by omega) hji, hlt⟩
  | case3 I h =>
    constructor
    · simp
    · rintro ⟨i, hi, _⟩; omega

theorem greaterRec_eq (a b : ∀ i, α i) (I : ℕ) : greaterRec a b I = smallerRec b a I := by
  fun_induction greaterRec a b I with
  | case1 I h hne => rw [smallerRec]; simp [h, Ne.symm hne]
  | case2 I h heq ih =>
    simp only [ne_eq, Decidable.not_not] at heq
    rw [smallerRec]; simp [h, heq, ih]
  | case3 I h => rw [smallerRec]; simp [h]

/-- C03: the generic `OperatorSmaller` is "creators first, then lexicographic in the indices". -/
theorem opN_smaller_iff (a b : Op (∀ i, α i)) :
    OpN.smaller a b = true ↔ CreatorsFirst LexLt a b := by
  unfold OpN.smaller CreatorsFirst LexLt
  split
  · rename_i h
    cases ha : a.creator <;> cases hb : b.creator <;> simp_all
  · rename_i h
    rw [smallerRec_iff]
    simp only [ne_eq, Decidable.not_not] at h
    simp only [h, true_and, Nat.zero_le, forall_const]
    cases b.creator <;> simp

/-- C03: the generic `OperatorGreater` is the converse of `OperatorSmaller`. -/
theorem opN_greater_eq (a b : Op (∀ i, α i)) : OpN.greater a b = OpN.smaller b a := by
  unfold OpN.greater OpN.smaller
  rw [greaterRec_eq]
  by_cases h : a.creator = b.creator <;> simp [h, eq_comm]

variable {ι κ : Type*} [LinearOrder ι] [LinearOrder κ]

/-- C03: one index. -/
theorem op_smaller_iff (a b : Op ι) : a.smaller b = true ↔ CreatorsFirst (· < ·) a b := by
  unfold Op.smaller CreatorsFirst
  cases ha : a.creator <;> cases hb : b.creator <;> simp

/-- C03: one index, converse. -/
theorem op_greater_eq (a b : Op ι) : a.greater b = b.smaller a := by
  unfold Op.greater Op.smaller
  by_cases h : a.creator = b.creator <;> simp [h, eq_comm]

/-- C03: two indices, lexicographic. -/
theorem op2_smaller_iff (a b : Op2 ι κ) : a.smaller b = true ↔
    CreatorsFirst (fun x y : ι × κ => x.1 < y.1 ∨ (x.1 = y.1 ∧ x.2 < y.2)) a.toGeneric b.toGeneric := by
  unfold Op2.smaller CreatorsFirst Op2.toGeneric
  by_cases h1 : a.index1 = b.index1 <;>
    cases ha : a.creator <;> cases hb : b.creator <;> simp [h1]

/-- C03: two indices, converse. -/
theorem op2_greater_eq (a b : Op2 ι κ) : a.greater b = b.smaller a := by
  unfold Op2.greater Op2.smaller
  by_cases h : a.creator = b.creator <;> by_cases h1 : a.index1 = b.index1 <;>
    simp [h, h1, eq_comm]

/-- From a characterisation by a strict total relation to the `std::sort` requirements. -/
theorem strictTotal_of_iff {τ : Type*} {lt : τ → τ → Bool} {R : τ → τ → Prop}
    (h : ∀ a b, lt a b = true ↔ R a b) (hi : ∀ a, ¬ R a a)
    (ht : ∀ a b c, R a b → R b c → R a c) (htot : ∀ a b, R a b ∨ a = b ∨ R b a) :
    StrictTotal lt where
  irrefl a := by rw [Bool.eq_false_iff, Ne, h]; exact hi a
  trans a b c := by rw [h, h, h]; exact ht a b c
  incomp_trans a b c h1 h2 h3 h4 := by
    rw [Bool.eq_false_iff, Ne, h] at h1 h2 h3 h4
    have e1 : a = b := by rcases htot a b with h' | h' | h' <;> tauto
    have e2 : b = c := by rcases htot b c with h' | h' | h' <;> tauto
    subst e1; subst e2
    rw [Bool.eq_false_iff, Ne, h]; exact ⟨h1, h1⟩
  total a b := by rw [h, h]; exact htot a b

theorem creatorsFirst_total {τ : Type*} {lt : τ → τ → Prop} (hi : ∀ a, ¬ lt a a)
    (ht : ∀ a b c, lt a b → lt b c → lt a c) (htot : ∀ a b, lt a b ∨ a = b ∨ lt b a) :
    (∀ a : Op τ, ¬ CreatorsFirst lt a a) ∧
    (∀ a b c : Op τ, CreatorsFirst lt a b → CreatorsFirst lt b c → CreatorsFirst lt a c) ∧
    (∀ a b : Op τ, CreatorsFirst lt a b ∨ a = b ∨ CreatorsFirst lt b a) := by
  refine ⟨?_, ?_, ?_⟩
  · rintro ⟨c, i⟩; have := hi i; cases c <;> simp [CreatorsFirst, this]
  · rintro ⟨c, i⟩ ⟨c', i'⟩ ⟨c'', i''⟩
    have := ht i i' i''
    cases c <;> cases c' <;> cases c'' <;> simp [CreatorsFirst] <;> tauto
  · rintro ⟨c, i⟩ ⟨c', i'⟩
    have := htot i i'
    cases c <;> cases c' <;> simp [CreatorsFirst] <;> tauto

theorem lexLt_total :
    (∀ a : ∀ i, α i, ¬ LexLt a a) ∧
    (∀ a b c : ∀ i, α i, LexLt a b → LexLt b c → LexLt a c) ∧
    (∀ a b : ∀ i, α i, LexLt a b ∨ a = b ∨ LexLt b a) := by
  refine ⟨?_, ?_, ?_⟩
  · rintro a ⟨i, _, h⟩; exact lt_irrefl _ h
  · rintro a b c ⟨i, hi, hlt⟩ ⟨j, hj, hlt'⟩
    rcases lt_trichotomy i j with h | h | h
    · exact ⟨i, fun k hk => (hi k hk).trans (hj k (hk.trans h)), by rw [← hj i h]; exact hlt⟩
    · subst h; exact ⟨i, fun k hk => (hi k hk).trans (hj k hk), hlt.trans hlt'⟩
    · exact ⟨j, fun k hk => (hi k (hk.trans h)).trans (hj k hk), by rw [hi j h]; exact hlt'⟩
  · intro a b
    by_cases hab : a = b
    · exact Or.inr (Or.inl hab)
    · have hex : ∃ i : ℕ, ∃ h : i < n, a ⟨i, h⟩ ≠ b ⟨i, h⟩ := by
        by_contra hc
        push Not at hc
        exact hab (funext fun i => hc i.val i.isLt)
      classical
      obtain ⟨hlt, hne⟩ := Nat.find_spec hex
      have hmin : ∀ j : Fin n, j < ⟨Nat.find hex, hlt⟩ → a j = b j := by
        intro j hj
        by_contra hc
        exact Nat.find_min hex (m := j.val) (by simpa [Fin.lt_def] using hj) ⟨j.isLt, hc⟩
      rcases lt_or_gt_of_ne hne with h | h
      · exact Or.inl ⟨_, hmin, h⟩
      · exact Or.inr (Or.inr ⟨_, fun j hj => (hmin j hj).symm, h⟩)

/-- C03: the generic comparator is a strict total order (any number of indices of any ordered types). -/
theorem opN_smaller_strictTotal : StrictTotal (OpN.smaller (n := n) (α := α)) := by
  obtain ⟨h1, h2, h3⟩ := lexLt_total (n := n) (α := α)
  obtain ⟨g1, g2, g3⟩ := creatorsFirst_total h1 h2 h3
  exact strictTotal_of_iff opN_smaller_iff g1 g2 g3

/-- C03: the one-index comparator is a strict total order. -/
theorem op_smaller_strictTotal : StrictTotal (Op.smaller (ι := ι)) := by
  obtain ⟨g1, g2, g3⟩ := creatorsFirst_total (lt := ((· < ·) : ι → ι → Prop)) (fun a => lt_irrefl a)
    (fun a b c => lt_trans) (fun a b => lt_trichotomy a b)
  exact strictTotal_of_iff op_smaller_iff g1 g2 g3

/-- C03: the two-index comparator is a strict total order. -/
theorem op2_smaller_strictTotal : StrictTotal (Op2.smaller (ι₁ := ι) (ι₂ := κ)) := by
  have key := creatorsFirst_total
    (lt := fun x y : ι × κ => x.1 < y.1 ∨ (x.1 = y.1 ∧ x.2 < y.2))
    (by rintro ⟨a, b⟩; simp)
    (by
      rintro ⟨a, b⟩ ⟨c, d⟩ ⟨e, f⟩ (h | ⟨rfl, h⟩) (h' | ⟨rfl, h'⟩)
      · exact Or.inl (lt_trans h h')
      · exact Or.inl h
      · exact Or.inl h'
      · exact Or.inr ⟨rfl, lt_trans h h'⟩)
    (by
      rintro ⟨a, b⟩ ⟨c, d⟩
      rcases lt_trichotomy a c with h | rfl | h
      · exact Or.inl (Or.inl h)
      · rcases lt_trichotomy b d with h | rfl | h
        · exact Or.inl (Or.inr ⟨rfl, h⟩)
        · exact Or.inr (Or.inl rfl)
        · exact Or.inr (Or.inr (Or.inr ⟨rfl, h⟩))
      · exact Or.inr (Or.inr (Or.inl h)))
  obtain ⟨g1, g2, g3⟩ := key
  refine strictTotal_of_iff op2_smaller_iff (fun a => g1 _) (fun a b c => g2 _ _ _) (fun a b => ?_)
  rcases g3 a.toGeneric b.toGeneric with h | h | h
  · exact Or.inl h
  · refine Or.inr (Or.inl ?_)
    cases a; cases b; simp [Op2.toGeneric] at h; simp [h]
  · exact Or.inr (Or.inr h)

end C03

example : (Op2.mk true 7 true).smaller (Op2.mk false 0 false) = true ∧
    (Op2.mk true 1 false).smaller (Op2.mk true 1 true) = true ∧
    (Op2.mk true 2 false).smaller (Op2.mk true 1 true) = false := by decide

example : OpN.smaller (n := 3) (α := fun _ => ℕ) ⟨true, ![1, 2, 3]⟩ ⟨true, ![1, 2, 4]⟩ = true := by
  rw [opN_smaller_iff]
  exact Or.inr ⟨rfl, 2, by decide, by decide⟩

end Ieompp
