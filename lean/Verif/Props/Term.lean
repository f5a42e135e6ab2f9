import Verif.Spec.Term
import Verif.Props.Commutator
import Verif.Props.Monomial
import Mathlib.Algebra.BigOperators.Group.List.Lemmas

/-!
# C12, C13, C14, C15: terms
-/

set_option autoImplicit false
set_option linter.unusedSectionVars false

namespace Ieompp

open Spec

/-! ## C12 -/

section C12
variable {P ω : Type*} {ne lt gt : ω → ω → Bool}

theorem cmpLoop_iff (hne : ∀ x y, ne x y = true ↔ x ≠ y) (a b : List ω) (h : a.length = b.length) :
    Term.cmpLoop ne lt a b = true ↔ ∃ (p s s' : List ω) (x y : ω),
      a = p ++ x :: s ∧ b = p ++ y :: s' ∧ x ≠ y ∧ lt x y = true := by
  induction a generalizing b with
  | nil =>
    simp only [Term.cmpLoop, Bool.false_eq_true, false_iff]
    rintro ⟨p, s, s', x, y, h1, _⟩
    simp at h1
  | cons x xs ih =>
    cases b with
    | nil => simp at h
    | cons y ys =>
      simp only [List.length_cons, Nat.add_right_cancel_iff] at h
      simp only [Term.cmpLoop]
      by_cases hxy : x = y
      · subst hxy
        have : ne x x = false := by rw [Bool.eq_false_iff, Ne, hne]; simp
        rw [this, if_neg (by simp), ih ys h]
        constructor
        · rintro ⟨p, s, s', u, v, h1, h2, h3⟩
          exact ⟨x :: p, s, s', u, v, by simp [h1], by simp [h2], h3⟩
        · rintro ⟨p, s, s', u, v, h1, h2, h3, h4⟩
          cases p with
          | nil => simp at h1 h2; exact absurd (h1.1.symm.trans h2.1) h3
          | cons z p =>
            simp at h1 h2
            exact ⟨p, s, s', u, v, h1.2, h2.2, h3, h4⟩
      · rw [(hne x y).mpr hxy, if_pos rfl]
        constructor
        · intro hlt; exact ⟨[], xs, ys, x, y, rfl, rfl, hxy, hlt⟩
        · rintro ⟨p, s, s', u, v, h1, h2, h3, h4⟩
          cases p with
          | nil => simp at h1 h2; rw [h1.1, h2.1]; exact h4
          | cons z p => simp at h1 h2; exact absurd (h1.1.trans h2.1.symm) hxy

/-- C12: `TermSmaller` is "shorter first, then by the first operator that differs"; the prefactors play no role. -/
theorem term_smaller_iff (hne : ∀ x y, ne x y = true ↔ x ≠ y) (a b : Term P ω) :
    Term.smaller ne lt a b = true ↔ WordLt lt a.operators b.operators := by
  unfold Term.smaller WordLt
  simp only
  split
  · rename_i h
    simp [h]
  · rename_i h
    simp only [ne_eq, Decidable.not_not] at h
    rw [cmpLoop_iff hne _ _ h]
    simp [h]

theorem cmpLoop_swap (hne : ∀ x y, ne x y = true ↔ x ≠ y) (hgt : ∀ x y, gt x y = lt y x)
    (a b : List ω) (h : a.length = b.length) :
    Term.cmpLoop ne gt a b = Term.cmpLoop ne lt b a := by
  induction a generalizing b with
  | nil => cases b <;> simp_all [Term.cmpLoop]
  | cons x xs ih =>
    cases b with
    | nil => simp at h
    | cons y ys =>
      simp only [List.length_cons, Nat.add_right_cancel_iff] at h
      simp only [Term.cmpLoop, ih ys h, hgt]
      have : ne x y = ne y x := by rw [Bool.eq_iff_iff, hne, hne, ne_comm]
      rw [this]

/-- C12: `TermGreater` is the converse of `TermSmaller`. -/
theorem term_greater_eq (hne : ∀ x y, ne x y = true ↔ x ≠ y) (hgt : ∀ x y, gt x y = lt y x)
    (a b : Term P ω) : Term.greater ne gt a b = Term.smaller ne lt b a := by
  unfold Term.greater Term.smaller
  simp only
  by_cases h : a.operators.length = b.operators.length
  · rw [if_neg (by simpa using h), if_neg (by simpa using h.symm), cmpLoop_swap hne hgt _ _ h]
  · rw [if_pos h, if_pos (fun h' => h h'.symm)]

theorem wordLt_irrefl (a : List ω) : ¬ WordLt lt a a := by
  rintro (h | ⟨_, p, s, s', x, y, h1, h2, h3, _⟩)
  · exact lt_irrefl _ h
  · rw [h1] at h2
    simp at h2
    exact h3 h2.1

theorem wordLt_trans (hlt : StrictTotal lt) (a b c : List ω) :
    WordLt lt a b → WordLt lt b c → WordLt lt a c := by
  rintro (h | ⟨hl, p, s, s', x, y, rfl, rfl, h3, h4⟩) (h' | ⟨hl', q, t, t', u, v, h1', rfl, h3', h4'⟩)
  · exact Or.inl (h.trans h')
  · exact Or.inl (hl' ▸ h)
  · exact Or.inl (hl ▸ h')
  · refine Or.inr ⟨hl.trans hl', ?_⟩
    -- p ++ y :: s' = q ++ u :: t
    rw [List.append_eq_append_iff] at h1'
    rcases h1' with ⟨r, hr1, hr2⟩ | ⟨r, hr1, hr2⟩
    · -- q = p ++ r, y :: s' = r ++ u :: t
      cases r with
      | nil =>
        simp at hr1 hr2
        obtain ⟨rfl, rfl⟩ := hr2
        subst hr1
        refine ⟨q, s, t', x, v, rfl, rfl, ?_, hlt.trans _ _ _ h4 h4'⟩
        rintro rfl
        have := hlt.trans _ _ _ h4 h4'
        rw [hlt.irrefl] at this; exact absurd this (by simp)
      | cons z r =>
        simp at hr2
        obtain ⟨rfl, rfl⟩ := hr2
        subst hr1
        exact ⟨p, s, r ++ v :: t', x, y, rfl, by simp, h3, h4⟩
    · -- p = q ++ r, u :: t = r ++ y :: s'
      cases r with
      | nil =>
        simp at hr1 hr2
        obtain ⟨rfl, rfl⟩ := hr2
        subst hr1
        refine ⟨p, s, t', x, v, rfl, rfl, ?_, hlt.trans _ _ _ h4 h4'⟩
        rintro rfl
        have := hlt.trans _ _ _ h4 h4'
        rw [hlt.irrefl] at this; exact absurd this (by simp)
      | cons z r =>
        simp at hr2
        obtain ⟨rfl, rfl⟩ := hr2
        subst hr1
        exact ⟨q, r ++ x :: s, t', u, v, by simp, rfl, h3', h4'⟩

theorem wordLt_total (hlt : StrictTotal lt) (a b : List ω) : WordLt lt a b ∨ a = b ∨ WordLt lt b a := by
  rcases Nat.lt_trichotomy a.length b.length with h | h | h
  · exact Or.inl (Or.inl h)
  · suffices H : (∃ (p s s' : List ω) (x y : ω), a = p ++ x :: s ∧ b = p ++ y :: s' ∧ x ≠ y) ∨ a = b by
      rcases H with ⟨p, s, s', x, y, h1, h2, h3⟩ | H
      · rcases hlt.total x y with h' | h' | h'
        · exact Or.inl (Or.inr ⟨h, p, s, s', x, y, h1, h2, h3, h'⟩)
        · exact absurd h' h3
        · exact Or.inr (Or.inr (Or.inr ⟨h.symm, p, s', s, y, x, h2, h1, Ne.symm h3, h'⟩))
      · exact Or.inr (Or.inl H)
    induction a generalizing b with
    | nil => cases b <;> simp_all
    | cons x xs ih =>
      cases b with
      | nil => simp at h
      | cons y ys =>
        by_cases hxy : x = y
        · subst hxy
          rcases ih ys (by simpa using h) with ⟨p, s, s', u, v, h1, h2, h3⟩ | h'
          · exact Or.inl ⟨x :: p, s, s', u, v, by simp [h1], by simp [h2], h3⟩
          · exact Or.inr (by rw [h'])
        · exact Or.inl ⟨[], xs, ys, x, y, rfl, rfl, hxy⟩
  · exact Or.inr (Or.inr (Or.inl h))

/-- C12: `TermSmaller` is a strict weak order whose incomparable pairs are exactly the terms with the same
operators. -/
theorem term_smaller_strictWeak (hne : ∀ x y, ne x y = true ↔ x ≠ y) (hlt : StrictTotal lt) :
    StrictWeak (Term.smaller (P := P) ne lt) ∧
    ∀ a b : Term P ω, (Term.smaller ne lt a b = false ∧ Term.smaller ne lt b a = false) ↔
      a.operators = b.operators := by
  have hiff : ∀ a b : Term P ω, (Term.smaller ne lt a b = false ∧ Term.smaller ne lt b a = false) ↔
      a.operators = b.operators := by
    intro a b
    simp only [Bool.eq_false_iff, Ne, term_smaller_iff hne]
    constructor
    · rintro ⟨h1, h2⟩
      rcases wordLt_total hlt a.operators b.operators with h | h | h
      · exact absurd h h1
      · exact h
      · exact absurd h h2
    · intro h; rw [h]; exact ⟨wordLt_irrefl _, wordLt_irrefl _⟩
  refine ⟨⟨?_, ?_, ?_⟩, hiff⟩
  · intro a; exact ((hiff a a).mpr rfl).1
  · intro a b c
    rw [term_smaller_iff hne, term_smaller_iff hne, term_smaller_iff hne]
    exact wordLt_trans hlt _ _ _
  · intro a b c h1 h2 h3 h4
    exact (hiff a c).mpr (((hiff a b).mp ⟨h1, h2⟩).trans ((hiff b c).mp ⟨h3, h4⟩))

end C12

/-- C12, instantiated with the one-index operator's `!=`, `OperatorSmaller`, `OperatorGreater`. -/
theorem term_smaller_op {P ι : Type*} [LinearOrder ι] :
    StrictWeak (Term.smaller (P := P) Op.neB (Op.smaller (ι := ι))) ∧
    (∀ a b : Term P (Op ι), (Term.smaller Op.neB Op.smaller a b = false ∧
      Term.smaller Op.neB Op.smaller b a = false) ↔ a.haveSameOperators b = true) ∧
    (∀ a b : Term P (Op ι), Term.greater Op.neB Op.greater a b = Term.smaller Op.neB Op.smaller b a) := by
  have hne : ∀ x y : Op ι, x.neB y = true ↔ x ≠ y := by
    intro x y; rw [op_ne_eq_not, Bool.not_eq_true', Bool.eq_false_iff, Ne, op_eq_iff_eq]
  obtain ⟨h1, h2⟩ := term_smaller_strictWeak (P := P) hne (op_smaller_strictTotal (ι := ι))
  refine ⟨h1, fun a b => ?_, fun a b => term_greater_eq hne op_greater_eq a b⟩
  rw [h2, ← monomial_eq_iff]; rfl

/-- C12, instantiated with the two-index operator used by the Hubbard programs (`Operator<uint64_t, bool>`). -/
theorem term_smaller_op2 {P ι κ : Type*} [LinearOrder ι] [LinearOrder κ] :
    StrictWeak (Term.smaller (P := P) Op2.neB (Op2.smaller (ι₁ := ι) (ι₂ := κ))) ∧
    (∀ a b : Term P (Op2 ι κ), (Term.smaller Op2.neB Op2.smaller a b = false ∧
      Term.smaller Op2.neB Op2.smaller b a = false) ↔ a.operators = b.operators) ∧
    (∀ a b : Term P (Op2 ι κ),
      Term.greater Op2.neB Op2.greater a b = Term.smaller Op2.neB Op2.smaller b a) := by
  have hne : ∀ x y : Op2 ι κ, x.neB y = true ↔ x ≠ y := by
    intro x y; rw [op2_ne_eq_not, Bool.not_eq_true', Bool.eq_false_iff, Ne, op2_eq_iff]
    cases x; cases y; simp
  obtain ⟨h1, h2⟩ := term_smaller_strictWeak (P := P) hne (op2_smaller_strictTotal (ι := ι) (κ := κ))
  exact ⟨h1, h2, fun a b => term_greater_eq hne op2_greater_eq a b⟩

example : Term.smaller Op.neB Op.smaller (⟨1, [Op.makeCreator 3]⟩ : Term ℤ (Op ℕ))
      ⟨5, [Op.makeCreator 1, Op.makeAnnihilator 2]⟩ = true ∧
    Term.smaller Op.neB Op.smaller (⟨1, [Op.makeCreator 1, Op.makeAnnihilator 2]⟩ : Term ℤ (Op ℕ))
      ⟨5, [Op.makeCreator 1, Op.makeAnnihilator 1]⟩ = false := by decide

/-! ## C13 -/

section C13
variable {K ω : Type*} [AddCommMonoid K] [DecidableEq ω] {lt same : Term K ω → Term K ω → Bool}
  (R : List ω → List ω → Prop) (hlt : ∀ a b, lt a b = true ↔ R a.operators b.operators)
  (hsame : ∀ a b, same a b = true ↔ a.operators = b.operators)
  (hirr : ∀ a, ¬ R a a) (htr : ∀ a b c, R a b → R b c → R a c) (htot : ∀ a b, R a b ∨ a = b ∨ R b a)

theorem or_lemma1 {a b c : Prop} : (a ∨ b ∨ c) ↔ ((a ∨ b ∨ c) ∨ b) := by tauto
theorem or_lemma2 {a b c d : Prop} : (a ∨ b ∨ c ∨ d) ↔ ((a ∨ c ∨ d) ∨ b) := by tauto
theorem or_lemma3 {a b c : Prop} : ((a ∨ b) ∨ c) ↔ (a ∨ b ∨ c) := by tauto

/-- The list is strictly increasing in the operator words. -/
def SortedBy (l : List (Term K ω)) : Prop := l.Pairwise (fun a b => R a.operators b.operators)

theorem weight_append (w : List ω) (l l' : List (Term K ω)) :
    weight w (l ++ l') = weight w l + weight w l' := by simp [weight]

theorem weight_cons (w : List ω) (t : Term K ω) (l : List (Term K ω)) :
    weight w (t :: l) = (if t.operators = w then t.prefactor else 0) + weight w l := by
  by_cases h : t.operators = w <;> simp [weight, h]

include hlt hsame htr htot in
theorem insertUnique_spec (l : List (Term K ω)) (t : Term K ω) (hs : SortedBy R l) :
    SortedBy R (Term.insertUnique lt same l t) ∧
    (∀ w, weight w (Term.insertUnique lt same l t) = weight w l + weight w [t]) ∧
    (∀ w, (∃ u ∈ Term.insertUnique lt same l t, u.operators = w) ↔
      ((∃ u ∈ l, u.operators = w) ∨ t.operators = w)) := by
  set f : Term K ω → Bool := fun x => lt x t with hf
  have hsplit := List.takeWhile_append_dropWhile (p := f) (l := l)
  have hA : ∀ x ∈ l.takeWhile f, R x.operators t.operators := by
    intro x hx
    exact (hlt x t).mp (List.all_eq_true.mp (List.all_takeWhile (p := f) (l := l)) x hx)
  generalize hAeq : l.takeWhile f = A at *
  generalize hBeq : l.dropWhile f = B at *
  have hpos : Term.lowerBound lt l t = A.length := by
    unfold Term.lowerBound; rw [← hAeq]
  unfold Term.insertUnique
  simp only [hpos]
  unfold SortedBy at hs ⊢
  rw [← hsplit] at hs ⊢
  cases B with
  | nil =>
    simp only [List.append_nil, List.getElem?_length]
    simp only [List.append_nil] at hs
    refine ⟨?_, ?_, ?_⟩
    · rw [List.pairwise_append]
      refine ⟨hs, by simp, ?_⟩
      intro a ha b hb
      simp only [List.mem_singleton] at hb
      subst hb; exact hA a ha
    · intro w; rw [weight_append]
    · intro w; simp [or_and_right, exists_or]
  | cons p B' =>
    have hp : ¬ R p.operators t.operators := by
      rw [← hlt]
      have := List.head_dropWhile_not (p := f) (l := l) (by rw [hBeq]; simp)
      simp only [hBeq, List.head_cons] at this
      simpa [hf] using this
    have hget : (A ++ p :: B')[A.length]? = some p := by simp
    rw [hget]
    simp only
    rw [List.pairwise_append, List.pairwise_cons] at hs
    obtain ⟨hsA, ⟨hpB, hsB⟩, hAB⟩ := hs
    by_cases hst : same p t = true
    · rw [if_pos hst]
      have hpt := (hsame p t).mp hst
      have hset : (A ++ p :: B').set A.length { p with prefactor := p.prefactor + t.prefactor }
          = A ++ { p with prefactor := p.prefactor + t.prefactor } :: B' := by
        rw [List.set_append_right _ _ (le_refl _)]; simp
      rw [hset]
      refine ⟨?_, ?_, ?_⟩
      · rw [List.pairwise_append, List.pairwise_cons]
        refine ⟨hsA, ⟨hpB, hsB⟩, ?_⟩
        intro a ha b hb
        simp only [List.mem_cons] at hb
        rcases hb with rfl | hb
        · exact hAB a ha p (by simp)
        · exact hAB a ha b (by simp [hb])
      · intro w
        simp only [weight_append, weight_cons, hpt]
        by_cases hw : t.operators = w
        · simp only [hw, if_true]
          simp only [weight, List.filter_nil, List.map_nil, List.sum_nil, add_zero]
          abel
        · simp [hw, weight]
      · intro w
        simp only [List.mem_append, List.mem_cons, or_and_right, exists_or, exists_eq_left, hpt]
        exact or_lemma1
    · rw [if_neg hst]
      have hpt : p.operators ≠ t.operators := fun h => hst ((hsame p t).mpr h)
      have htp : R t.operators p.operators := by
        rcases htot t.operators p.operators with h | h | h
        · exact h
        · exact absurd h.symm hpt
        · exact absurd h hp
      simp only [List.take_left', List.drop_left']
      refine ⟨?_, ?_, ?_⟩
      · rw [List.pairwise_append, List.pairwise_cons, List.pairwise_cons]
        refine ⟨hsA, ⟨?_, hpB, hsB⟩, ?_⟩
        · intro b hb
          simp only [List.mem_cons] at hb
          rcases hb with rfl | hb
          · exact htp
          · exact htr _ _ _ htp (hpB b hb)
        · intro a ha b hb
          simp only [List.mem_cons] at hb
          rcases hb with rfl | hb
          · exact hA a ha
          · exact hAB a ha b (by simpa using hb)
      · intro w
        simp only [weight_append, weight_cons]
        simp only [weight, List.filter_nil, List.map_nil, List.sum_nil, add_zero]
        abel
      · intro w
        simp only [List.mem_append, List.mem_cons, or_and_right, exists_or, exists_eq_left]
        exact or_lemma2

include hlt hsame htr htot in
theorem foldl_insertUnique_spec (orig l : List (Term K ω)) (hs : SortedBy R l) :
    SortedBy R (orig.foldl (Term.insertUnique lt same) l) ∧
    (∀ w, weight w (orig.foldl (Term.insertUnique lt same) l) = weight w l + weight w orig) ∧
    (∀ w, (∃ u ∈ orig.foldl (Term.insertUnique lt same) l, u.operators = w) ↔
      ((∃ u ∈ l, u.operators = w) ∨ ∃ u ∈ orig, u.operators = w)) := by
  induction orig generalizing l with
  | nil => exact ⟨hs, by intro w; simp [weight], by intro w; simp⟩
  | cons t orig ih =>
    obtain ⟨h1, h2, h3⟩ := insertUnique_spec R hlt hsame htr htot l t hs
    obtain ⟨g1, g2, g3⟩ := ih (Term.insertUnique lt same l t) h1
    refine ⟨g1, fun w => ?_, fun w => ?_⟩
    · have e : weight w [t] = if t.operators = w then t.prefactor else 0 := by
        rw [weight_cons]; simp [weight]
      rw [List.foldl_cons, g2, h2, weight_cons w t orig, e, add_assoc]
    · rw [List.foldl_cons, g3, h3]
      simp only [List.mem_cons, or_and_right, exists_or, exists_eq_left]
      exact or_lemma3

end C13

/-- C13: `copy_as_unique_terms` appends, after what the result held before, a list of terms that is strictly
increasing under `TermSmaller` (so every operator word occurs at most once), contains exactly the words of the input, and
carries for every word the total prefactor of the input.  (For the evident fix of the misspelt method name.) -/
theorem copyAsUniqueTerms_correct {K ι : Type*} [AddCommMonoid K] [LinearOrder ι]
    (original result : List (Term K (Op ι))) :
    ∃ new, Term.copyAsUniqueTerms (Term.smaller Op.neB Op.smaller) Term.haveSameOperators original result
        = result ++ new ∧
      new.Pairwise (fun a b => Term.smaller Op.neB Op.smaller a b = true) ∧
      (new.map (·.operators)).Nodup ∧
      (∀ w, (∃ t ∈ new, t.operators = w) ↔ ∃ t ∈ original, t.operators = w) ∧
      ∀ w, weight w new = weight w original := by
  have hne : ∀ x y : Op ι, x.neB y = true ↔ x ≠ y := by
    intro x y; rw [op_ne_eq_not, Bool.not_eq_true', Bool.eq_false_iff, Ne, op_eq_iff_eq]
  have hlt := term_smaller_iff (P := K) (lt := Op.smaller (ι := ι)) hne
  have hsame : ∀ a b : Term K (Op ι), a.haveSameOperators b = true ↔ a.operators = b.operators := by
    intro a b; rw [← monomial_eq_iff]; rfl
  obtain ⟨h1, h2, h3⟩ := foldl_insertUnique_spec (WordLt Op.smaller) hlt hsame
    (wordLt_trans op_smaller_strictTotal) (wordLt_total op_smaller_strictTotal) original []
    (by simp [SortedBy])
  refine ⟨_, rfl, ?_, ?_, ?_, ?_⟩
  · refine h1.imp ?_
    intro a b h; exact (hlt a b).mpr h
  · rw [List.Nodup, List.pairwise_map]
    refine h1.imp ?_
    intro a b h heq
    rw [heq] at h; exact wordLt_irrefl _ h
  · intro w; rw [h3]; simp
  · intro w; rw [h2]; simp [weight]

/-- C13 in an algebra: the collected terms mean the same operator. -/
theorem copyAsUniqueTerms_value {K R ι : Type*} [CommRing K] [Ring R] [Algebra K R] [LinearOrder ι]
    (c : Op ι → R) (original result : List (Term K (Op ι))) :
    evalTerms c (Term.copyAsUniqueTerms (Term.smaller Op.neB Op.smaller) Term.haveSameOperators
      original result) = evalTerms c result + evalTerms c original := by
  obtain ⟨new, h, _, hnd, hmem, hw⟩ := copyAsUniqueTerms_correct original result
  rw [h]
  have key : ∀ l : List (Term K (Op ι)), ∀ s : Finset (List (Op ι)), (∀ t ∈ l, t.operators ∈ s) →
      evalTerms c l = ∑ w ∈ s, weight w l • word c w := by
    intro l s hs
    induction l with
    | nil => simp [evalTerms, weight]
    | cons t l ih =>
      have e1 : evalTerms c (t :: l) = evalTerm c t + evalTerms c l := by simp [evalTerms]
      rw [e1, ih (fun u hu => hs u (by simp [hu]))]
      simp only [weight_cons, add_smul, Finset.sum_add_distrib]
      congr 1
      rw [Finset.sum_eq_single t.operators]
      · simp [evalTerm]
      · intro w _ hne; simp [Ne.symm hne]
      · intro hn; exact absurd (hs t (by simp)) hn
  have e2 : evalTerms c (result ++ new) = evalTerms c result + evalTerms c new := by simp [evalTerms]
  rw [e2]
  congr 1
  set s := (original.map (·.operators)).toFinset with hsdef
  rw [key new s, key original s]
  · exact Finset.sum_congr rfl (fun w _ => by rw [hw])
  · intro t ht; simp only [hsdef, List.mem_toFinset, List.mem_map]; exact ⟨t, ht, rfl⟩
  · intro t ht
    obtain ⟨u, hu, he⟩ := (hmem t.operators).mp ⟨t, ht, rfl⟩
    simp only [hsdef, List.mem_toFinset, List.mem_map]; exact ⟨u, hu, he⟩

example : Term.copyAsUniqueTerms (P := ℤ) (Term.smaller Op.neB Op.smaller) Term.haveSameOperators
    [⟨2, [Op.makeCreator 1]⟩, ⟨1, [Op.makeCreator 0]⟩, ⟨3, [Op.makeCreator 1]⟩, ⟨7, []⟩] [⟨9, []⟩]
    = [⟨9, []⟩, ⟨7, []⟩, ⟨1, [Op.makeCreator 0]⟩, ⟨5, [Op.makeCreator 1]⟩] := by decide

/-! ## C14 -/

section C14
variable {K R ι : Type*} [CommRing K] [StarRing K] [Ring R] [StarRing R] [Algebra K R] [StarModule K R]
  [DecidableEq ι]

/-- C14: `*` and `*=` agree and mean the product. -/
theorem term_mul_value {ω : Type*} (c : ω → R) (a b : Term K ω) :
    a.mul b = a.mulAssign b ∧ evalTerm c (a.mul b) = evalTerm c a * evalTerm c b := by
  refine ⟨rfl, ?_⟩
  rw [evalTerm, evalTerm, evalTerm, smul_mul_smul_comm, ← word_append]; rfl

/-- C14: the term product is associative. -/
theorem term_mul_assoc {ω : Type*} (a b c : Term K ω) : (a.mul b).mul c = a.mul (b.mul c) := by
  simp [Term.mul, mul_assoc]

theorem word_conjugate (c : Op ι → R) (hc : ∀ x y, IsAdjoint x y → c y = star (c x)) (w : List (Op ι)) :
    word c (w.reverse.map Op.conjugate) = star (word c w) := by
  induction w with
  | nil => simp
  | cons x w ih =>
    rw [List.reverse_cons, List.map_append, word_append, ih, word_cons, star_mul]
    congr 1
    simp only [List.map_cons, List.map_nil, word_cons, word_nil, mul_one]
    exact hc x x.conjugate (by rw [← op_getConjugate_isAdjoint]; rfl)

/-- C14: in every star algebra in which the operators are mutually adjoint as ladder operators are, `get_conjugate` of a
term means the adjoint. -/
theorem term_getConjugate_value (c : Op ι → R) (hc : ∀ x y, IsAdjoint x y → c y = star (c x))
    (t : Term K (Op ι)) : evalTerm c (t.getConjugate star) = star (evalTerm c t) := by
  unfold evalTerm Term.getConjugate
  simp only [List.nil_append]
  rw [word_conjugate c hc, star_smul]

/-- C04/C14: the same for monomials. -/
theorem monomial_getConjugate_value (c : Op ι → R) (hc : ∀ x y, IsAdjoint x y → c y = star (c x))
    (m : Monomial ι) : word c m.getConjugate = star (word c m) := by
  unfold Monomial.getConjugate
  simp only [List.nil_append]
  exact word_conjugate c hc m

/-- C14: conjugation of terms is an involution and reverses products. -/
theorem term_getConjugate_mul (a b : Term K (Op ι)) :
    (a.getConjugate star).getConjugate star = a ∧
    (a.mul b).getConjugate star = (b.getConjugate star).mul (a.getConjugate star) := by
  constructor
  · cases a with
    | mk p ops =>
      simp only [Term.getConjugate, List.nil_append, star_star, Term.mk.injEq, true_and]
      have := monomial_getConjugate_involutive ops
      simpa [Monomial.getConjugate] using this
  · simp [Term.getConjugate, Term.mul, mul_comm]

end C14

/-- C14 non-vacuity: over the integers with trivial star, mapping every operator to an integer that only depends on the
index meets the adjointness hypothesis. -/
example : ∀ x y : Op ℤ, IsAdjoint x y → (fun o : Op ℤ => o.index) y = star ((fun o : Op ℤ => o.index) x) := by
  rintro x y ⟨_, h⟩; simp [h]

/-! ## C15 -/

section C15
variable {P ω : Type*} (creator : ω → Bool)

theorem foldl_charge {G : Type*} [AddCommGroup G] (q : ω → G) (l : List ω) (g : G) :
    l.foldl (fun p op => if creator op then p + q op else p - q op) g = g + charge creator q l := by
  induction l generalizing g with
  | nil => simp [charge]
  | cons x l ih =>
    rw [List.foldl_cons, ih]
    simp only [charge, List.map_cons, List.sum_cons]
    split <;> abel

/-- C15: `total_creations` counts creators minus annihilators. -/
theorem totalCreations_eq (t : Term P ω) : t.totalCreations creator =
    ((t.operators.filter (fun x => creator x)).length : ℤ)
      - (t.operators.filter (fun x => !creator x)).length := by
  have h := foldl_charge creator (fun _ => (1 : ℤ)) t.operators 0
  unfold Term.totalCreations
  rw [h, zero_add]
  induction t.operators with
  | nil => simp [charge]
  | cons x l ih =>
    simp only [charge, List.map_cons, List.sum_cons] at ih ⊢
    rw [ih]
    cases hx : creator x <;> simp [hx] <;> ring

theorem totalCreations_charge (t : Term P ω) :
    t.totalCreations creator = charge creator (fun _ => (1 : ℤ)) t.operators := by
  have h := foldl_charge creator (fun _ => (1 : ℤ)) t.operators 0
  rw [zero_add] at h; exact h

theorem totalSpin_charge (spin : ω → Bool) (t : Term P ω) :
    t.totalSpin creator spin = charge creator (fun x => if spin x then (1 : ℤ) else -1) t.operators := by
  have h := foldl_charge creator (fun x => if spin x then (1 : ℤ) else -1) t.operators 0
  rw [zero_add] at h; exact h

theorem totalMomentum_charge {V : Type*} [AddCommGroup V] (k : ω → V) (t : Term P ω) :
    t.totalMomentum creator k = charge creator k t.operators := by
  have h := foldl_charge creator k t.operators 0
  rw [zero_add] at h; exact h

theorem charge_append {G : Type*} [AddCommGroup G] (q : ω → G) (a b : List ω) :
    charge creator q (a ++ b) = charge creator q a + charge creator q b := by
  simp [charge]

/-- C15: the counters are additive under the term product. -/
theorem counters_mul [Mul P] {V : Type*} [AddCommGroup V] (spin : ω → Bool) (k : ω → V) (a b : Term P ω) :
    (a.mul b).totalCreations creator = a.totalCreations creator + b.totalCreations creator ∧
    (a.mul b).totalSpin creator spin = a.totalSpin creator spin + b.totalSpin creator spin ∧
    (a.mul b).totalMomentum creator k = a.totalMomentum creator k + b.totalMomentum creator k := by
  simp only [totalCreations_charge, totalSpin_charge, totalMomentum_charge, Term.mul, charge_append,
    and_self]

theorem charge_conjugate {ι G : Type*} [DecidableEq ι] [AddCommGroup G] (q : ι → G) (w : List (Op ι)) :
    charge Op.creator (fun x => q x.index) (w.reverse.map Op.conjugate)
      = - charge Op.creator (fun x => q x.index) w := by
  induction w with
  | nil => simp [charge]
  | cons x w ih =>
    rw [List.reverse_cons, List.map_append, charge_append, ih]
    obtain ⟨c, i⟩ := x
    simp only [charge, List.map_cons, List.map_nil, List.sum_cons, List.sum_nil, Op.conjugate]
    cases c <;> simp

/-- C15: the counters change sign under conjugation (any charge that depends on the index). -/
theorem counters_conjugate {ι V : Type*} [DecidableEq ι] [AddCommGroup V] (conjP : P → P)
    (spin : ι → Bool) (k : ι → V) (t : Term P (Op ι)) :
    (t.getConjugate conjP).totalCreations Op.creator = - t.totalCreations Op.creator ∧
    (t.getConjugate conjP).totalSpin Op.creator (fun x => spin x.index)
      = - t.totalSpin Op.creator (fun x => spin x.index) ∧
    (t.getConjugate conjP).totalMomentum Op.creator (fun x => k x.index)
      = - t.totalMomentum Op.creator (fun x => k x.index) := by
  simp only [totalCreations_charge, totalSpin_charge, totalMomentum_charge, Term.getConjugate,
    List.nil_append]
  exact ⟨charge_conjugate (fun _ => (1 : ℤ)) _, charge_conjugate (fun i => if spin i then (1 : ℤ) else -1) _,
    charge_conjugate k _⟩

theorem charge_contract {ι G : Type*} [AddCommGroup G] (q : ι → G) (a₁ a₂ b₁ b₂ : List (Op ι)) (x y : Op ι)
    (hxy1 : x.creator ≠ y.creator) (hxy2 : x.index = y.index) :
    charge Op.creator (fun x => q x.index) (a₁ ++ b₁ ++ b₂ ++ a₂) =
      charge Op.creator (fun x => q x.index) (a₁ ++ x :: a₂)
        + charge Op.creator (fun x => q x.index) (b₁ ++ y :: b₂) := by
  have hx : charge Op.creator (fun x => q x.index) (a₁ ++ x :: a₂)
      = charge Op.creator (fun x => q x.index) a₁ + (if x.creator then q x.index else - q x.index)
        + charge Op.creator (fun x => q x.index) a₂ := by
    rw [charge_append]; simp [charge, add_assoc]
  have hy : charge Op.creator (fun x => q x.index) (b₁ ++ y :: b₂)
      = charge Op.creator (fun x => q x.index) b₁ + (if y.creator then q y.index else - q y.index)
        + charge Op.creator (fun x => q x.index) b₂ := by
    rw [charge_append]; simp [charge, add_assoc]
  rw [hx, hy, charge_append, charge_append, charge_append, ← hxy2]
  cases hcx : x.creator <;> cases hcy : y.creator <;> simp_all <;> abel

/-- C15: conservation: every term produced by `commutate(a, b)` has the particle number, spin and momentum of the
product of `a` and `b`. -/
theorem commutate_conserves {K ι V : Type*} [CommRing K] [DecidableEq ι] [AddCommGroup V]
    (spin : ι → Bool) (k : ι → V) (a b : Term K (Op ι)) (c : List (Term K (Op ι))) :
    ∃ new, commutate a b c = some (c ++ new) ∧ ∀ t ∈ new,
      t.totalCreations Op.creator = a.totalCreations Op.creator + b.totalCreations Op.creator ∧
      t.totalSpin Op.creator (fun x => spin x.index) =
        a.totalSpin Op.creator (fun x => spin x.index) + b.totalSpin Op.creator (fun x => spin x.index) ∧
      t.totalMomentum Op.creator (fun x => k x.index) =
        a.totalMomentum Op.creator (fun x => k x.index)
          + b.totalMomentum Op.creator (fun x => k x.index) := by
  obtain ⟨new, h, ht⟩ := commutate_terms a b c
  refine ⟨new, h, fun t hmem => ?_⟩
  obtain ⟨a₁, a₂, b₁, b₂, x, y, ha, hb, ⟨hxy1, hxy2⟩, hops, _⟩ := ht t hmem
  simp only [totalCreations_charge, totalSpin_charge, totalMomentum_charge, ha, hb, hops]
  exact ⟨charge_contract (fun _ => (1 : ℤ)) a₁ a₂ b₁ b₂ x y hxy1 hxy2,
    charge_contract (fun i => if spin i then (1 : ℤ) else -1) a₁ a₂ b₁ b₂ x y hxy1 hxy2,
    charge_contract k a₁ a₂ b₁ b₂ x y hxy1 hxy2⟩

end C15

example : Term.totalCreations Op.creator
    (⟨1, [Op.makeCreator 1, Op.makeCreator 2, Op.makeAnnihilator 1]⟩ : Term ℤ (Op ℕ)) = 1 := by decide

end Ieompp
