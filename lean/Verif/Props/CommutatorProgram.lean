import Verif.Spec.CommutatorProgram
import Verif.Props.Commutator
import Verif.Props.Kronecker
import Verif.Props.Print
import Verif.Props.Basis
import Verif.Spec.Hamiltonian
import Mathlib.Tactic.NoncommRing

/-! # C66, C67: the programs which print commutators, and the printing of terms -/

set_option autoImplicit false
set_option linter.unusedSectionVars false

namespace Ieompp.Program

open Ieompp.Spec IO

section
variable {K : Type*} [CommRing K] [DecidableEq K]

/-- The symbolic `commutate` for operators with a symbol and a spin. -/
theorem commutateSym_meaning (a b : PTerm K) (c : List (PTerm K))
    (hassert : b.operators.length * a.operators.length % 2 = 0) (hlen : 3 ≤ a.operators.length + b.operators.length) :
    ∃ new, commutateSym psym pstr a b c = some (c ++ new) ∧ (∀ t ∈ new, t.operators ≠ []) ∧
      ∀ {R V : Type*} [Ring R] [Algebra K R] [DecidableEq V] (A : CAR (V × Bool) R) (ρ : Text → V),
        (new.map (meaning A ρ)).sum = meaning A ρ a * meaning A ρ b - meaning A ρ b * meaning A ρ a := by
  refine ⟨_, commutateWith_eq _ _ _ _ a b c, ?_, ?_⟩
  · intro t ht
    simp only [List.mem_flatMap, List.mem_range] at ht
    obtain ⟨k, hk, l, hl, ht⟩ := ht
    unfold commNew at ht
    rw [List.getElem?_eq_getElem hk, List.getElem?_eq_getElem hl] at ht
    simp only at ht
    split_ifs at ht
    · simp at ht
    · rw [List.mem_singleton] at ht
      rw [← List.length_pos_iff, ht]
      simp only [commTerm, List.length_append, List.length_take, List.length_drop]
      omega
  · intro R V _ _ _ A ρ
    obtain ⟨new, h1, h2⟩ := commutateWith_sound Prefactor.mul (fun p s => p.mulNumber (s : K))
      (anticommutatesSym psym) (anticommutatorSym psym pstr) a b
      (fun x : POp => A.c ⟨x.creator, (ρ x.site.text, x.spin)⟩)
      (fun x y : POp => if x.creator ≠ y.creator ∧ ρ x.site.text = ρ y.site.text ∧ x.spin = y.spin then (1 : K) else 0)
      (evalPrefactor ρ)
      (by
        intro x y
        rw [A.anticomm, apply_ite (algebraMap K R), map_one, map_zero]
        simp only [Prod.mk.injEq])
      (evalPrefactor_mul ρ) (fun p s => evalPrefactor_mulNumber ρ p _)
      (by
        intro x y h
        rw [if_neg]
        rintro ⟨h1, h2, h3⟩
        simp only [anticommutatesSym, Bool.or_eq_true, beq_iff_eq] at h
        rcases h with h | h
        · exact h1 h
        · rw [anticommutatesHelper_iff] at h
          obtain ⟨i, _, hs, hne⟩ := h
          fin_cases i
          · simp [psym] at hs
          · exact hne h3)
      (by
        intro x y p h
        simp only [anticommutatesSym, Bool.or_eq_false_iff, beq_eq_false_iff_ne] at h
        have h2 : POp.spin x = POp.spin y := by
          by_contra hne
          have := (anticommutatesHelper_iff psym x.index y.index 0).mpr ⟨1, Nat.zero_le _, by simp [psym], hne⟩
          rw [h.2] at this; exact absurd this (by simp)
        rw [anticommutatorSym, evalPrefactor_helper]
        congr 2
        apply propext
        constructor
        · intro hall
          exact ⟨h.1, hall 0 (Nat.zero_le _) (by simp [psym]), h2⟩
        · rintro ⟨_, h3, _⟩ i _ hi
          fin_cases i
          · exact h3
          · simp [psym] at hi)
      c
    rw [commutateWith_eq] at h1
    have e := (List.append_right_inj c).1 (Option.some.inj h1)
    rw [e]
    have e2 : (new.map (meaning A ρ)).sum = (new.map fun t => evalPrefactor ρ t.prefactor •
        word (fun x : POp => A.c ⟨x.creator, (ρ x.site.text, x.spin)⟩) t.operators).sum := rfl
    rw [e2, h2]
    unfold meaning
    rw [smul_mul_smul_comm, smul_mul_smul_comm, smul_sub,
      Even.neg_one_pow (by rw [Nat.even_iff, mul_comm]; exact hassert), one_smul, mul_comm (evalPrefactor ρ b.prefactor)]
    rfl

theorem commutators_meaning (hs : List (PTerm K)) (t : PTerm K) (comm : List (PTerm K))
    (heven : ∀ h ∈ hs, t.operators.length * h.operators.length % 2 = 0)
    (hlen : ∀ h ∈ hs, 3 ≤ h.operators.length + t.operators.length) :
    ∃ new, commutators hs t comm = .val (comm ++ new) ∧ (∀ t ∈ new, t.operators ≠ []) ∧
      ∀ {R V : Type*} [Ring R] [Algebra K R] [DecidableEq V] (A : CAR (V × Bool) R) (ρ : Text → V),
        (new.map (meaning A ρ)).sum = Spec.comm (hs.map (meaning A ρ)).sum (meaning A ρ t) := by
  induction hs generalizing comm with
  | nil => exact ⟨[], by simp [commutators], by simp, by intros; simp [Spec.comm]⟩
  | cons h hs ih =>
    obtain ⟨n1, e1, o1, m1⟩ := commutateSym_meaning h t comm (heven h List.mem_cons_self) (hlen h List.mem_cons_self)
    obtain ⟨n2, e2, o2, m2⟩ := ih (comm ++ n1) (fun h hh => heven h (List.mem_cons_of_mem _ hh))
      (fun h hh => hlen h (List.mem_cons_of_mem _ hh))
    refine ⟨n1 ++ n2, ?_, ?_, ?_⟩
    · rw [commutators, e1]
      simp only
      rw [e2, List.append_assoc]
    · intro t ht
      rcases List.mem_append.1 ht with ht | ht
      · exact o1 t ht
      · exact o2 t ht
    · intro R V _ _ _ A ρ
      rw [List.map_append, List.sum_append, m1 A ρ, m2 A ρ, List.map_cons, List.sum_cons]
      unfold Spec.comm
      noncomm_ring

theorem printSeparated_eq {τ : Type*} (f : τ → Text) {l : List τ} (h : l ≠ []) :
    printSeparated f l = .val (List.intercalate [' '] (l.map f)) := by
  unfold printSeparated
  rw [dif_neg h]
  congr 1
  induction l with
  | nil => exact absurd rfl h
  | cons x l ih =>
    cases l with
    | nil => simp [List.intercalate]
    | cons y l =>
      have := ih (by simp)
      simp only [List.dropLast_cons_cons, List.map_cons, List.flatten_cons, List.getLast_cons_cons] at this ⊢
      rw [List.append_assoc, this]
      simp [List.intercalate]

theorem printPrefactor_val (shw : K → Text) (p : Prefactor K Text) : ∃ x, printPrefactor shw p = .val x := by
  unfold printPrefactor
  split_ifs with h
  · exact ⟨_, rfl⟩
  all_goals
    rw [printSeparated_eq _ (by simpa using h)]
    exact ⟨_, rfl⟩

/-- Terms with at least one operator can be printed. -/
theorem printTerm_val (shw : K → Text) {t : PTerm K} (h : t.operators ≠ []) : ∃ x, printTerm shw t = .val x := by
  unfold printTerm
  obtain ⟨x, hx⟩ := printPrefactor_val shw t.prefactor
  rw [hx, printSeparated_eq _ h]
  exact ⟨_, rfl⟩

theorem printLoop_block (sort : List (Kronecker Text) → List (Kronecker Text)) (shw : K → Text) (ts : List (PTerm K))
    (h : ∀ t ∈ ts, t.operators ≠ []) : ∃ x, printLoop sort shw ts = .val x ∧ IsBlock shw (ts.map (orderTerm sort)) x := by
  induction ts with
  | nil => exact ⟨[], rfl, [], by simp, by simp⟩
  | cons t ts ih =>
    obtain ⟨x, hx, texts, f, e⟩ := ih fun t ht => h t (List.mem_cons_of_mem _ ht)
    obtain ⟨y, hy⟩ := printTerm_val shw (t := orderTerm sort t) (h t List.mem_cons_self)
    refine ⟨_, ?_, y :: texts, List.Forall₂.cons hy f, rfl⟩
    rw [printLoop, hy, Res.bind_val, hx, e]
    simp

/-- **C66** (general): for any Hamiltonian terms and any term, whatever the addresses of the symbols and the algorithm of
`std::sort`, the block printed consists of the texts of terms whose deltas are ordered and which, for all values of the symbols
and in every realisation of the anticommutation relations, sum to the commutator. -/
theorem printCommutators_correct {sort : List (Kronecker Text) → List (Kronecker Text)}
    (hsort : ∀ l, (sort l).Perm l) (shw : K → Text) (hs : List (PTerm K)) (t : PTerm K)
    (heven : ∀ h ∈ hs, t.operators.length * h.operators.length % 2 = 0)
    (hlen : ∀ h ∈ hs, 3 ≤ h.operators.length + t.operators.length) :
    ∃ block ts, printCommutators sort shw hs t = .val block ∧ IsBlock shw ts block ∧
      (∀ x ∈ ts, ∀ k ∈ x.prefactor.kroneckers, k.a ≤ k.b) ∧
      ∀ {R V : Type*} [Ring R] [Algebra K R] [DecidableEq V] (A : CAR (V × Bool) R) (ρ : Text → V),
        (ts.map (meaning A ρ)).sum = Spec.comm (hs.map (meaning A ρ)).sum (meaning A ρ t) := by
  obtain ⟨new, e1, o1, m1⟩ := commutators_meaning hs t [] heven hlen
  obtain ⟨x, hx, hb⟩ := printLoop_block sort shw new o1
  refine ⟨x, new.map (orderTerm sort), ?_, hb, ?_, ?_⟩
  · rw [printCommutators, e1, List.nil_append, Res.bind_val, hx]
  · intro y hy k hk
    obtain ⟨z, _, rfl⟩ := List.mem_map.1 hy
    have := (hsort _).mem_iff.1 hk
    obtain ⟨k', _, rfl⟩ := List.mem_map.1 this
    exact kronecker_order_le k'
  · intro R V _ _ _ A ρ
    rw [← m1 A ρ, List.map_map]
    congr 1
    refine List.map_congr_left fun y _ => ?_
    unfold Function.comp meaning
    congr 1
    show evalPrefactor ρ _ = _
    unfold evalPrefactor orderTerm
    congr 1
    refine (((hsort _).map _).prod_eq).trans ?_
    rw [List.map_map]
    congr 1
    refine List.map_congr_left fun k _ => ?_
    exact (kronecker_order_value ρ k).2

/-! ### Printed terms can be told apart -/

/-- Two operators which look the same: kind, symbol and spin agree (the address of the literal is invisible). -/
def SameLook (x y : POp) : Prop := x.creator = y.creator ∧ x.site.text = y.site.text ∧ x.spin = y.spin

/-- A symbol which contains no comma, blank or closing brace. -/
def CleanSymbol (s : Text) : Prop := ',' ∉ s ∧ ' ' ∉ s ∧ '}' ∉ s

/-- All symbols of a term are clean. -/
def CleanTerm (t : PTerm K) : Prop :=
  (∀ x ∈ t.operators, CleanSymbol x.site.text) ∧ ∀ k ∈ t.prefactor.kroneckers, CleanSymbol k.a ∧ CleanSymbol k.b

theorem printPOp_inj {x y : POp} (hx : CleanSymbol x.site.text) (hy : CleanSymbol y.site.text)
    (h : printPOp x = printPOp y) : SameLook x y := by
  unfold printPOp printOperator2 printHead at h
  simp only [printIndex, List.append_assoc, List.cons_append, List.nil_append, List.cons.injEq, true_and] at h
  have key : x.creator = y.creator ∧ x.site.text ++ ',' :: ((if x.spin then ['↑'] else ['↓']) ++ ['}']) =
      y.site.text ++ ',' :: ((if y.spin then ['↑'] else ['↓']) ++ ['}']) := by
    cases hcx : x.creator <;> cases hcy : y.creator <;> rw [hcx, hcy] at h <;> simp at h ⊢
    · simpa using h
    · simpa using h
  obtain ⟨h1, h2⟩ := append_sep_inj hx.1 hy.1 key.2
  refine ⟨key.1, h1, ?_⟩
  cases hsx : x.spin <;> cases hsy : y.spin <;> rw [hsx, hsy] at h2 <;> simp at h2 ⊢

theorem printKronecker_inj {x y : Kronecker Text} (hx : CleanSymbol x.a ∧ CleanSymbol x.b) (hy : CleanSymbol y.a ∧ CleanSymbol y.b)
    (h : printKronecker x = printKronecker y) : x = y := by
  unfold printKronecker at h
  simp only [List.append_assoc, List.cons_append, List.nil_append, List.cons.injEq, true_and] at h
  obtain ⟨h1, h2⟩ := append_sep_inj hx.1.1 hy.1.1 h
  obtain ⟨h3, _⟩ := append_sep_inj hx.2.2.2 hy.2.2.2 h2
  obtain ⟨a, b⟩ := x
  obtain ⟨c, d⟩ := y
  simp_all

theorem printPOp_shape {x : POp} (hx : CleanSymbol x.site.text) : ' ' ∉ printPOp x ∧ ∃ r, printPOp x = 'c' :: r := by
  unfold printPOp printOperator2 printHead
  refine ⟨?_, _, rfl⟩
  have := hx.2.1
  cases x.creator <;> cases x.spin <;> simp [printIndex, this]

theorem printKronecker_shape {k : Kronecker Text} (hk : CleanSymbol k.a ∧ CleanSymbol k.b) :
    ' ' ∉ printKronecker k ∧ ∃ r, printKronecker k = 'δ' :: r := by
  unfold printKronecker
  refine ⟨?_, _, rfl⟩
  simp [hk.1.2.1, hk.2.2.1]

/-- The words of the text of a term. -/
def termWords (shw : K → Text) (t : PTerm K) : List Text :=
  (match t.prefactor.kroneckers with
    | [] => [shw t.prefactor.value]
    | k :: ks =>
      if t.prefactor.value = -1 then ('-' :: printKronecker k) :: ks.map printKronecker
      else if t.prefactor.value = 1 then printKronecker k :: ks.map printKronecker
      else shw t.prefactor.value :: ['⋅'] :: printKronecker k :: ks.map printKronecker) ++ [['⋅']] ++ t.operators.map printPOp

theorem intercalate_append {a b : List Text} (ha : a ≠ []) (hb : b ≠ []) :
    List.intercalate [' '] (a ++ b) = List.intercalate [' '] a ++ [' '] ++ List.intercalate [' '] b := by
  induction a with
  | nil => exact absurd rfl ha
  | cons x a ih =>
    cases a with
    | nil =>
      cases b with
      | nil => exact absurd rfl hb
      | cons y b => simp [List.intercalate]
    | cons y a =>
      have e : ∀ (x y : Text) (l : List Text), List.intercalate [' '] (x :: y :: l) = x ++ [' '] ++ List.intercalate [' '] (y :: l) := by
        intro x y l; simp [List.intercalate]
      rw [List.cons_append, List.cons_append, e, e, ← List.cons_append, ih (by simp)]
      simp

/-- The text of a term: its words, separated by single blanks. -/
theorem printTerm_words (shw : K → Text) {t : PTerm K} (h : t.operators ≠ []) :
    printTerm shw t = .val (List.intercalate [' '] (termWords shw t)) := by
  obtain ⟨⟨v, ks⟩, ops⟩ := t
  simp only at h
  have ho : ops.map printPOp ≠ [] := by simpa using h
  have one : ∀ x : Text, List.intercalate [' '] [x] = x := by intro x; simp [List.intercalate]
  unfold printTerm termWords printPrefactor
  rw [printSeparated_eq _ h]
  cases ks with
  | nil =>
    simp only [List.isEmpty_nil, if_true, Res.bind_val, Res.map_val]
    rw [intercalate_append (by simp) ho, intercalate_append (by simp) (by simp), one, one]
    simp
  | cons k ks =>
    simp only [List.isEmpty_cons, Bool.false_eq_true, if_false]
    rw [printSeparated_eq _ (by simp), Res.map_val, Res.bind_val, Res.map_val]
    rw [intercalate_append (by simp) ho, intercalate_append (by split_ifs <;> simp) (by simp), one]
    congr 1
    simp only [List.append_assoc]
    have e : ∀ (x y : Text) (l : List Text), List.intercalate [' '] (x :: y :: l) = x ++ [' '] ++ List.intercalate [' '] (y :: l) := by
      intro x y l; simp [List.intercalate]
    by_cases h1 : v = -1
    · simp only [if_pos h1]
      cases ks with
      | nil => simp [List.intercalate]
      | cons k' ks => simp [e]
    · by_cases h2 : v = 1
      · rw [if_neg h1, if_neg h1, if_pos h2, if_neg (by simpa using h2)]
        simp
      · rw [if_neg h1, if_neg h1, if_neg h2, if_pos h2, e, e]
        simp

theorem intercalate_inj {a b : List Text} (ha : a ≠ []) (hb : b ≠ []) (hwa : ∀ w ∈ a, ' ' ∉ w) (hwb : ∀ w ∈ b, ' ' ∉ w)
    (h : List.intercalate [' '] a = List.intercalate [' '] b) : a = b := by
  have e : ∀ (x y : Text) (l : List Text), List.intercalate [' '] (x :: y :: l) = x ++ ' ' :: List.intercalate [' '] (y :: l) := by
    intro x y l; simp [List.intercalate]
  have one : ∀ x : Text, List.intercalate [' '] [x] = x := by intro x; simp [List.intercalate]
  induction a generalizing b with
  | nil => exact absurd rfl ha
  | cons x a ih =>
    cases b with
    | nil => exact absurd rfl hb
    | cons y b =>
      have hx := hwa x List.mem_cons_self
      have hy := hwb y List.mem_cons_self
      cases a with
      | nil =>
        cases b with
        | nil => rw [one, one] at h; rw [h]
        | cons y' b =>
          rw [one, e] at h
          exact absurd (h ▸ List.mem_append_right _ List.mem_cons_self) hx
      | cons x' a =>
        cases b with
        | nil =>
          rw [one, e] at h
          exact absurd (h ▸ List.mem_append_right _ List.mem_cons_self) hy
        | cons y' b =>
          rw [e, e] at h
          obtain ⟨h1, h2⟩ := append_sep_inj hx hy h
          rw [h1, ih (by simp) (by simp) (fun w hw => hwa w (List.mem_cons_of_mem _ hw))
            (fun w hw => hwb w (List.mem_cons_of_mem _ hw)) h2]

theorem map_inj_on {τ : Type*} {f : τ → Text} {P : τ → Prop} {r : τ → τ → Prop} (hf : ∀ x y, P x → P y → f x = f y → r x y)
    {a b : List τ} (ha : ∀ x ∈ a, P x) (hb : ∀ x ∈ b, P x) (h : a.map f = b.map f) : List.Forall₂ r a b := by
  induction a generalizing b with
  | nil => cases b with
    | nil => exact .nil
    | cons y b => simp at h
  | cons x a ih => cases b with
    | nil => simp at h
    | cons y b =>
      simp only [List.map_cons, List.cons.injEq] at h
      exact .cons (hf x y (ha x List.mem_cons_self) (hb y List.mem_cons_self) h.1)
        (ih (fun z hz => ha z (List.mem_cons_of_mem _ hz)) (fun z hz => hb z (List.mem_cons_of_mem _ hz)) h.2)

theorem append_sep_inj_right {α : Type*} {x : α} {a b c d : List α} (hb : x ∉ b) (hd : x ∉ d) (h : a ++ [x] ++ b = c ++ [x] ++ d) :
    a = c ∧ b = d := by
  have h' := congrArg List.reverse h
  simp only [List.reverse_append, List.reverse_cons, List.reverse_nil, List.nil_append, List.cons_append] at h'
  obtain ⟨h1, h2⟩ := append_sep_inj (by simpa using hb) (by simpa using hd) h'
  exact ⟨List.reverse_injective h2, List.reverse_injective h1⟩

/-- **C67**: two terms which print the same text have the same number, the same deltas in the same order, and operators which
look the same, provided that the numbers print differently (and without blanks and deltas) and the symbols contain no comma,
blank or brace. -/
theorem printTerm_injective {shw : K → Text} (hshw : Function.Injective shw) (hblank : ∀ v, ' ' ∉ shw v) (hdelta : ∀ v, 'δ' ∉ shw v)
    {s t : PTerm K} (hs : CleanTerm s) (ht : CleanTerm t) (hos : s.operators ≠ []) (hot : t.operators ≠ [])
    (h : printTerm shw s = printTerm shw t) :
    s.prefactor = t.prefactor ∧ List.Forall₂ SameLook s.operators t.operators := by
  rw [printTerm_words shw hos, printTerm_words shw hot] at h
  injection h with h
  have words : ∀ {t : PTerm K}, CleanTerm t → ∀ w ∈ termWords shw t, ' ' ∉ w := by
    intro t ht w hw
    have hk : ∀ k ∈ t.prefactor.kroneckers, ' ' ∉ printKronecker k := fun k hk => (printKronecker_shape (ht.2 k hk)).1
    unfold termWords at hw
    simp only [List.mem_append, List.mem_singleton, List.mem_map] at hw
    rcases hw with (hw | rfl) | ⟨x, hx, rfl⟩
    · revert hw hk
      cases hks : t.prefactor.kroneckers with
      | nil => intro _ hw; simp only [List.mem_singleton] at hw; rw [hw]; exact hblank _
      | cons k ks =>
        intro hk hw
        have hk0 := hk k List.mem_cons_self
        have hks' : ∀ w ∈ ks.map printKronecker, ' ' ∉ w := by
          intro w hw
          obtain ⟨k', hk', rfl⟩ := List.mem_map.1 hw
          exact hk k' (List.mem_cons_of_mem _ hk')
        simp only at hw
        split_ifs at hw
        · rcases List.mem_cons.1 hw with rfl | hw
          · simpa using hk0
          · exact hks' w hw
        · rcases List.mem_cons.1 hw with rfl | hw
          · exact hk0
          · exact hks' w hw
        · rcases List.mem_cons.1 hw with rfl | hw
          · exact hblank _
          · rcases List.mem_cons.1 hw with rfl | hw
            · decide
            · rcases List.mem_cons.1 hw with rfl | hw
              · exact hk0
              · exact hks' w hw
    · decide
    · exact (printPOp_shape (ht.1 x hx)).1
  have hw := intercalate_inj (by simp [termWords]) (by simp [termWords]) (words hs) (words ht) h
  unfold termWords at hw
  have nodot : ∀ {t : PTerm K}, CleanTerm t → ['⋅'] ∉ t.operators.map printPOp := by
    intro t ht hm
    obtain ⟨x, hx, e⟩ := List.mem_map.1 hm
    obtain ⟨r, hr⟩ := (printPOp_shape (ht.1 x hx)).2
    rw [hr] at e
    exact absurd (List.cons.inj e).1 (by decide)
  obtain ⟨h1, h2⟩ := append_sep_inj_right (nodot hs) (nodot ht) hw
  refine ⟨?_, map_inj_on (P := fun x : POp => CleanSymbol x.site.text) (fun x y => printPOp_inj) hs.1 ht.1 h2⟩
  obtain ⟨⟨v, ks⟩, ops⟩ := s
  obtain ⟨⟨v', ks'⟩, ops'⟩ := t
  have hks := hs.2
  have hks' := ht.2
  simp only at h1 hks hks'
  have krs : ∀ {a b : List (Kronecker Text)}, (∀ k ∈ a, CleanSymbol k.a ∧ CleanSymbol k.b) →
      (∀ k ∈ b, CleanSymbol k.a ∧ CleanSymbol k.b) → a.map printKronecker = b.map printKronecker → a = b := by
    intro a b ha hb hab
    have := map_inj_on (r := Eq) (fun x y => printKronecker_inj) ha hb hab
    exact List.forall₂_eq_eq_eq ▸ this
  have nd : ∀ {k : Kronecker Text}, (CleanSymbol k.a ∧ CleanSymbol k.b) → 'δ' ∈ printKronecker k := by
    intro k hk
    obtain ⟨r, hr⟩ := (printKronecker_shape hk).2
    rw [hr]; exact List.mem_cons_self
  have minus : ∀ {k k' : Kronecker Text}, (CleanSymbol k'.a ∧ CleanSymbol k'.b) → '-' :: printKronecker k ≠ printKronecker k' := by
    intro k k' hk e
    obtain ⟨r, hr⟩ := (printKronecker_shape hk).2
    rw [hr] at e
    exact absurd (List.cons.inj e).1 (by decide)
  cases ks with
  | nil =>
    cases ks' with
    | nil =>
      simp only [List.cons.injEq, and_true] at h1
      rw [hshw h1]
    | cons k' ks' =>
      exfalso
      have hk' := hks' k' List.mem_cons_self
      simp only at h1
      split_ifs at h1
      · exact hdelta v ((List.cons.inj h1).1 ▸ List.mem_cons_of_mem _ (nd hk'))
      · exact hdelta v ((List.cons.inj h1).1 ▸ nd hk')
      · simp at h1
  | cons k ks =>
    have hk := hks k List.mem_cons_self
    cases ks' with
    | nil =>
      exfalso
      simp only at h1
      split_ifs at h1
      · exact hdelta v' ((List.cons.inj h1).1 ▸ List.mem_cons_of_mem _ (nd hk))
      · exact hdelta v' ((List.cons.inj h1).1 ▸ nd hk)
      · simp at h1
    | cons k' ks' =>
      have hk' := hks' k' List.mem_cons_self
      simp only at h1
      have fin : printKronecker k :: ks.map printKronecker = printKronecker k' :: ks'.map printKronecker → k :: ks = k' :: ks' :=
        fun e => krs hks hks' (by simpa using e)
      split_ifs at h1 with c1 c2 c3 c4 c5 c6 c7 c8
      · obtain ⟨e1, e2⟩ := List.cons.inj h1
        rw [fin (by rw [(List.cons.inj e1).2, e2]), c1, c2]
      · exact absurd (List.cons.inj h1).1 (minus hk')
      · exact absurd ((List.cons.inj h1).1 ▸ List.mem_cons_of_mem _ (nd hk)) (hdelta v')
      · exact absurd (List.cons.inj h1).1.symm (minus hk)
      · rw [fin h1, c4, c6]
      · exact absurd ((List.cons.inj h1).1 ▸ nd hk) (hdelta v')
      · exact absurd ((List.cons.inj h1).1.symm ▸ List.mem_cons_of_mem _ (nd hk')) (hdelta v)
      · exact absurd ((List.cons.inj h1).1.symm ▸ nd hk') (hdelta v)
      · obtain ⟨e1, e2⟩ := List.cons.inj h1
        rw [hshw e1, fin (List.cons.inj e2).2]

/-! ### The two programs -/

theorem meaning_makeTerm {R V : Type*} [Ring R] [Algebra K R] [DecidableEq V] (A : CAR (V × Bool) R) (ρ : Text → V) (ops : List POp) :
    meaning A ρ (makeTerm ops : PTerm K) = (ops.map fun x : POp => A.c ⟨x.creator, (ρ x.site.text, x.spin)⟩).prod := by
  simp [meaning, makeTerm, evalPrefactor]

/-- The text of a term with the prefactor 1 and the given operators. -/
def unitText (shw : K → Text) (ops : String) : Text := shw 1 ++ " ⋅ ".toList ++ ops.toList

theorem terms_text (addr : ℕ → ℕ) (shw : K → Text) :
    printTerm shw (hopping1k (K := K) addr) = .val (unitText shw "c^†_{k,↑} c_{k,↑}") ∧
    printTerm shw (hopping2k (K := K) addr) = .val (unitText shw "c^†_{k,↓} c_{k,↓}") ∧
    printTerm shw (interactionk (K := K) addr) = .val (unitText shw "c^†_{k_1,↑} c_{k_2,↑} c^†_{k_3,↓} c_{k_4,↓}") ∧
    printTerm shw (t1k (K := K) addr) = .val (unitText shw "c^†_{q,↑}") ∧
    printTerm shw (t2k (K := K) addr) = .val (unitText shw "c^†_{q_1,↑} c^†_{q_2,↓} c_{q_3,↓}") ∧
    printTerm shw (interactionr (K := K) addr) = .val (unitText shw "c^†_{r_i,↑} c_{r_i,↑} c^†_{r_i,↓} c_{r_i,↓}") ∧
    (hoppingr (K := K) addr).map (printTerm shw) = [.val (unitText shw "c^†_{r_i,↑} c_{r_i+δ_j,↑}"),
      .val (unitText shw "c^†_{r_i+δ_j,↑} c_{r_i,↑}"), .val (unitText shw "c^†_{r_i,↓} c_{r_i+δ_j,↓}"),
      .val (unitText shw "c^†_{r_i+δ_j,↓} c_{r_i,↓}")] :=
  ⟨rfl, rfl, rfl, rfl, rfl, rfl, rfl⟩

theorem printHeading_one {shw : K → Text} {x t : PTerm K} {tx tt : Text} (hx : printTerm shw x = .val tx)
    (ht : printTerm shw t = .val tt) :
    printHeading shw [x] t = .val ("\t[ ".toList ++ tx ++ "  ,  ".toList ++ tt ++ " ]=\n".toList) := by
  simp [printHeading, hx, ht, MomentumSpace.collect, Res.bind, Res.map]

theorem printHeading_two {shw : K → Text} {x y t : PTerm K} {tx ty tt : Text} (hx : printTerm shw x = .val tx)
    (hy : printTerm shw y = .val ty) (ht : printTerm shw t = .val tt) :
    printHeading shw [x, y] t = .val ("\t[ ".toList ++ tx ++ " + ".toList ++ ty ++ "  ,  ".toList ++ tt ++ " ]=\n".toList) := by
  simp [printHeading, hx, hy, ht, MomentumSpace.collect, Res.bind, Res.map]

/-- **C66**: the momentum space program prints, after the titles, the terms of `[c†_k↑ c_k↑ + c†_k↓ c_k↓, T]` and of
`[c†_{k1}↑ c_{k2}↑ c†_{k3}↓ c_{k4}↓, T]` for the one-operator term and for the three-operator term, and nothing else. -/
theorem commutatorsMomentum_correct (addr : ℕ → ℕ) {sort : List (Kronecker Text) → List (Kronecker Text)}
    (hsort : ∀ l, (sort l).Perm l) (shw : K → Text) :
    ∃ b₁ b₂ b₃ b₄ : Text, ∃ ts₁ ts₂ ts₃ ts₄ : List (PTerm K),
      (let hopText := unitText shw "c^†_{k,↑} c_{k,↑}" ++ " + ".toList ++ unitText shw "c^†_{k,↓} c_{k,↓}"
      let intText := unitText shw "c^†_{k_1,↑} c_{k_2,↑} c^†_{k_3,↓} c_{k_4,↓}"
      let oneText := unitText shw "c^†_{q,↑}"
      let threeText := unitText shw "c^†_{q_1,↑} c^†_{q_2,↓} c_{q_3,↓}"
      let heading := fun a b : Text => "\t[ ".toList ++ a ++ "  ,  ".toList ++ b ++ " ]=\n".toList
      commutatorsMomentum (K := K) addr sort shw = .val ["One operator:\n".toList,
        heading hopText oneText, b₁, ['\n'], heading intText oneText, b₂, ['\n', '\n'],
        "Three operators:\n".toList, heading hopText threeText, b₃, ['\n'], heading intText threeText, b₄]) ∧
      IsBlock shw ts₁ b₁ ∧ IsBlock shw ts₂ b₂ ∧ IsBlock shw ts₃ b₃ ∧ IsBlock shw ts₄ b₄ ∧
      ∀ {R V : Type*} [Ring R] [Algebra K R] [DecidableEq V] (A : CAR (V × Bool) R) (ρ : Text → V),
        let hop := cre A ρ "k" true * ann A ρ "k" true + cre A ρ "k" false * ann A ρ "k" false
        let int := cre A ρ "k_1" true * ann A ρ "k_2" true * cre A ρ "k_3" false * ann A ρ "k_4" false
        let one := cre A ρ "q" true
        let three := cre A ρ "q_1" true * cre A ρ "q_2" false * ann A ρ "q_3" false
        (ts₁.map (meaning A ρ)).sum = Spec.comm hop one ∧ (ts₂.map (meaning A ρ)).sum = Spec.comm int one ∧
        (ts₃.map (meaning A ρ)).sum = Spec.comm hop three ∧ (ts₄.map (meaning A ρ)).sum = Spec.comm int three := by
  obtain ⟨p1, p2, p3, p4, p5, -, -⟩ := terms_text (K := K) addr shw
  obtain ⟨b1, ts1, e1, i1, -, m1⟩ := printCommutators_correct (K := K) hsort shw [hopping1k addr, hopping2k addr] (t1k addr)
    (by simp [hopping1k, hopping2k, t1k, makeTerm]) (by simp [hopping1k, hopping2k, t1k, makeTerm])
  obtain ⟨b2, ts2, e2, i2, -, m2⟩ := printCommutators_correct (K := K) hsort shw [interactionk addr] (t1k addr)
    (by simp [interactionk, t1k, makeTerm]) (by simp [interactionk, t1k, makeTerm])
  obtain ⟨b3, ts3, e3, i3, -, m3⟩ := printCommutators_correct (K := K) hsort shw [hopping1k addr, hopping2k addr] (t2k addr)
    (by simp [hopping1k, hopping2k, t2k, makeTerm]) (by simp [hopping1k, hopping2k, t2k, makeTerm])
  obtain ⟨b4, ts4, e4, i4, -, m4⟩ := printCommutators_correct (K := K) hsort shw [interactionk addr] (t2k addr)
    (by simp [interactionk, t2k, makeTerm]) (by simp [interactionk, t2k, makeTerm])
  refine ⟨b1, b2, b3, b4, ts1, ts2, ts3, ts4, ?_, i1, i2, i3, i4, ?_⟩
  · unfold commutatorsMomentum
    simp only [printHeading_two p1 p2 p4, printHeading_two p1 p2 p5, printHeading_one p3 p4, printHeading_one p3 p5, e1, e2, e3, e4,
      MomentumSpace.collect, Res.bind, Res.map, List.append_assoc]
  · intro R V _ _ _ A ρ
    refine ⟨?_, ?_, ?_, ?_⟩
    · rw [m1 A ρ]
      simp [hopping1k, hopping2k, t1k, meaning_makeTerm, makeOp, POp.site, POp.spin, cre, ann]
    · rw [m2 A ρ]
      simp [interactionk, t1k, meaning_makeTerm, makeOp, POp.site, POp.spin, cre, ann, mul_assoc]
    · rw [m3 A ρ]
      simp [hopping1k, hopping2k, t2k, meaning_makeTerm, makeOp, POp.site, POp.spin, cre, ann, mul_assoc]
    · rw [m4 A ρ]
      simp [interactionk, t2k, meaning_makeTerm, makeOp, POp.site, POp.spin, cre, ann, mul_assoc]

/-- **C66**: the real space program prints the four hopping terms and the interaction term, and then the terms of their
commutators with the one-operator term and with the three-operator term. -/
theorem commutatorsReal_correct (addr : ℕ → ℕ) {sort : List (Kronecker Text) → List (Kronecker Text)}
    (hsort : ∀ l, (sort l).Perm l) (shw : K → Text) :
    ∃ b₁ b₂ b₃ b₄ : Text, ∃ ts₁ ts₂ ts₃ ts₄ : List (PTerm K),
      (let line := fun ops : String => '\t' :: unitText shw ops ++ ['\n']
      commutatorsReal (K := K) addr sort shw = .val ["Kinetic terms in Hamiltonian\n".toList,
        line "c^†_{r_i,↑} c_{r_i+δ_j,↑}", line "c^†_{r_i+δ_j,↑} c_{r_i,↑}", line "c^†_{r_i,↓} c_{r_i+δ_j,↓}", line "c^†_{r_i+δ_j,↓} c_{r_i,↓}",
        ['\n'], "Interaction terms in Hamiltonian\n".toList, line "c^†_{r_i,↑} c_{r_i,↑} c^†_{r_i,↓} c_{r_i,↓}", ['\n'],
        "One operator:\n".toList, "\tKinetic terms:\n".toList, b₁, ['\n'], "\tInteraction terms:\n".toList, b₂, ['\n', '\n'],
        "Three operators:\n".toList, "\tKinetic terms:\n".toList, b₃, ['\n'], "\tInteraction terms:\n".toList, b₄]) ∧
      IsBlock shw ts₁ b₁ ∧ IsBlock shw ts₂ b₂ ∧ IsBlock shw ts₃ b₃ ∧ IsBlock shw ts₄ b₄ ∧
      ∀ {R V : Type*} [Ring R] [Algebra K R] [DecidableEq V] (A : CAR (V × Bool) R) (ρ : Text → V),
        let hop := cre A ρ "r_i" true * ann A ρ "r_i+δ_j" true + cre A ρ "r_i+δ_j" true * ann A ρ "r_i" true +
          cre A ρ "r_i" false * ann A ρ "r_i+δ_j" false + cre A ρ "r_i+δ_j" false * ann A ρ "r_i" false
        let int := cre A ρ "r_i" true * ann A ρ "r_i" true * cre A ρ "r_i" false * ann A ρ "r_i" false
        let one := cre A ρ "ρ" true
        let three := cre A ρ "ρ_1" true * cre A ρ "ρ_2" false * ann A ρ "ρ_3" false
        (ts₁.map (meaning A ρ)).sum = Spec.comm hop one ∧ (ts₂.map (meaning A ρ)).sum = Spec.comm int one ∧
        (ts₃.map (meaning A ρ)).sum = Spec.comm hop three ∧ (ts₄.map (meaning A ρ)).sum = Spec.comm int three := by
  obtain ⟨-, -, -, -, -, p6, p7⟩ := terms_text (K := K) addr shw
  obtain ⟨b1, ts1, e1, i1, -, m1⟩ := printCommutators_correct (K := K) hsort shw (hoppingr addr) (t1r addr)
    (by simp [hoppingr, t1r, makeTerm]) (by simp [hoppingr, t1r, makeTerm])
  obtain ⟨b2, ts2, e2, i2, -, m2⟩ := printCommutators_correct (K := K) hsort shw [interactionr addr] (t1r addr)
    (by simp [interactionr, t1r, makeTerm]) (by simp [interactionr, t1r, makeTerm])
  obtain ⟨b3, ts3, e3, i3, -, m3⟩ := printCommutators_correct (K := K) hsort shw (hoppingr addr) (t2r addr)
    (by simp [hoppingr, t2r, makeTerm]) (by simp [hoppingr, t2r, makeTerm])
  obtain ⟨b4, ts4, e4, i4, -, m4⟩ := printCommutators_correct (K := K) hsort shw [interactionr addr] (t2r addr)
    (by simp [interactionr, t2r, makeTerm]) (by simp [interactionr, t2r, makeTerm])
  have hl : (hoppingr (K := K) addr).map (printLine shw) =
      ((hoppingr (K := K) addr).map (printTerm shw)).map fun r => r.map fun x => ['\t'] ++ x ++ ['\n'] := by
    rw [List.map_map]; rfl
  rw [p7] at hl
  have hl5 : printLine shw (interactionr (K := K) addr) = (Res.val _).map fun x => ['\t'] ++ x ++ ['\n'] := congrArg _ p6
  refine ⟨b1, b2, b3, b4, ts1, ts2, ts3, ts4, ?_, i1, i2, i3, i4, ?_⟩
  · unfold commutatorsReal
    simp only [hl, hl5, e1, e2, e3, e4]
    rfl
  · intro R V _ _ _ A ρ
    refine ⟨?_, ?_, ?_, ?_⟩
    · rw [m1 A ρ]
      simp [hoppingr, t1r, meaning_makeTerm, makeOp, POp.site, POp.spin, cre, ann, add_assoc]
    · rw [m2 A ρ]
      simp [interactionr, t1r, meaning_makeTerm, makeOp, POp.site, POp.spin, cre, ann, mul_assoc]
    · rw [m3 A ρ]
      simp [hoppingr, t2r, meaning_makeTerm, makeOp, POp.site, POp.spin, cre, ann, mul_assoc, add_assoc]
    · rw [m4 A ρ]
      simp [interactionr, t2r, meaning_makeTerm, makeOp, POp.site, POp.spin, cre, ann, mul_assoc]

end


/-- The commutator of `c†_k↑ c_k↑` with `c†_q↑` is printed as `δ_{k,q} ⋅ c^†_{k,↑}`. -/
example : printCommutators id (fun v : ℤ => (toString v).toList) [hopping1k fun _ => 0] (t1k fun _ => 0) =
    .val ['\t', '\t', 'δ', '_', '{', 'k', ',', 'q', '}', ' ', '⋅', ' ', 'c', '^', '†', '_', '{', 'k', ',', '↑', '}', '\n'] := by
  have h : commutators (K:=ℤ) [hopping1k fun _ => 0] (t1k fun _ => 0) [] = .val [⟨⟨1,[⟨['k'],['q']⟩]⟩,[makeOp true ⟨0,['k']⟩ true]⟩] := by
    simp [commutators, commutateSym, commutateWith, hopping1k, t1k, makeTerm, makeOp, commutateStep, List.range', anticommutatesSym, anticommutatorSym, anticommutatesHelper, anticommutatorHelper, psym, pstr, Prefactor.mul, Prefactor.mulNumber]
    rfl
    
  rw [printCommutators, h]
  decide +kernel

/-- The hypotheses of the injectivity of printing can be met by a term with a number, deltas and operators. -/
example : CleanTerm (⟨⟨(-3 : ℤ), [⟨['k'], ['q']⟩]⟩, [makeOp true ⟨0, ['k', '_', '1']⟩ true, makeOp false ⟨1, ['q']⟩ false]⟩ : PTerm ℤ) := by
  refine ⟨?_, ?_⟩
  · simp [makeOp, CleanSymbol, POp.site]
  · simp [CleanSymbol]

end Ieompp.Program
