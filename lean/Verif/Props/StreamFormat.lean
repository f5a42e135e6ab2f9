import Verif.Model.StreamFormat
import Verif.Props.Print
import Mathlib.Tactic.Common
import Mathlib.Data.List.Count

/-!
# C88: printing and the format settings of the stream
-/

set_option autoImplicit false
set_option linter.unusedSectionVars false

namespace Ieompp.StreamFormat
open Ieompp.IO

variable {S : Type*} (put : Fmt → S → Text)

/-- Not a manipulator: a text or a number. -/
def Ins.plain : Ins S → Prop
  | .fixed => False
  | .setprecision _ => False
  | .showpos => False
  | _ => True

/-- The text of one insertion under fixed settings, without padding. -/
def chunk (f : Fmt) : Ins S → Text
  | .text t => t
  | .unsigned n => printNat n
  | .signed n => signedText f.showpos n
  | .scalar x => put f x
  | _ => []

theorem pad_zero {f : Fmt} (h : f.width = 0) (t : Text) : pad f t = t := by
  simp [pad, h]

theorem insert_plain {i : Ins S} (h : i.plain) (s : OStream) : insert put s i = emit s (chunk put s.fmt i) := by
  cases i <;> first | rfl | exact h.elim

theorem insertAll_plain_zero (l : List (Ins S)) (h : ∀ i ∈ l, i.plain) (s : OStream) (hw : s.fmt.width = 0) :
    insertAll put s l = ⟨s.fmt, s.out ++ l.flatMap (chunk put s.fmt)⟩ := by
  induction l generalizing s with
  | nil => simp [insertAll]
  | cons i l ih =>
    have e : insertAll put s (i :: l) = insertAll put (insert put s i) l := rfl
    have e' : insert put s i = ⟨s.fmt, s.out ++ chunk put s.fmt i⟩ := by
      rw [insert_plain put (h i (by simp)), emit, pad_zero hw]
      cases hs : s.fmt; simp [hs] at hw ⊢; exact hw.symm
    rw [e, e', ih (fun j hj => h j (by simp [hj])) ⟨s.fmt, s.out ++ chunk put s.fmt i⟩ hw]
    simp [List.append_assoc]

theorem insertAll_plain (l : List (Ins S)) (h : ∀ i ∈ l, i.plain) (s : OStream) :
    (insertAll put s l).fmt = { s.fmt with width := if l = [] then s.fmt.width else 0 } := by
  cases l with
  | nil => simp [insertAll]
  | cons i l =>
    have e : insertAll put s (i :: l) = insertAll put (insert put s i) l := rfl
    have e' : (insert put s i).fmt = { s.fmt with width := 0 } := by rw [insert_plain put (h i (by simp))]; rfl
    rw [e, insertAll_plain_zero put l (fun j hj => h j (by simp [hj])) _ (by rw [e'])]
    simp [e']

theorem indexIns_plain (i : Idx) : (indexIns i : Ins S).plain := by cases i <;> trivial

theorem indicesIns_plain (idx : List Idx) : ∀ i ∈ (indicesIns idx : List (Ins S)), i.plain := by
  induction idx using indicesIns.induct with
  | case1 => simp [indicesIns]
  | case2 i => simp [indicesIns, indexIns_plain]
  | case3 i j l ih =>
    intro x hx
    simp only [indicesIns, List.mem_cons] at hx
    rcases hx with rfl | rfl | hx
    · exact indexIns_plain i
    · trivial
    · exact ih x (by simpa [indicesIns] using hx)

theorem operatorIns_plain (creator : Bool) (idx : List Idx) : ∀ i ∈ (operatorIns creator idx : List (Ins S)), i.plain := by
  intro i hi
  simp only [operatorIns, headIns, List.mem_append, List.mem_singleton] at hi
  rcases hi with (((rfl | hi) | rfl) | hi) | rfl
  · trivial
  · cases creator <;> simp at hi; subst hi; trivial
  · trivial
  · exact indicesIns_plain idx i hi
  · trivial

theorem separatedIns_plain {τ : Type*} {f : τ → List (Ins S)} (hf : ∀ x, ∀ i ∈ f x, i.plain) {l : List τ}
    {r : List (Ins S)} (h : separatedIns f l = .val r) : ∀ i ∈ r, i.plain := by
  unfold separatedIns at h
  split at h
  · cases h
  · injection h with h
    subst h
    intro i hi
    simp only [List.mem_append, List.mem_flatMap, List.mem_singleton] at hi
    rcases hi with ⟨x, _, hi | rfl⟩ | hi
    · exact hf x i hi
    · trivial
    · exact hf _ i hi

theorem kroneckerIns_plain (k : Kronecker Text) : ∀ i ∈ (kroneckerIns k : List (Ins S)), i.plain := by
  intro i hi
  simp only [kroneckerIns, List.mem_cons, List.not_mem_nil, or_false] at hi
  rcases hi with rfl | rfl | rfl | rfl | rfl <;> trivial

theorem prefactorIns_plain {isOne isMinusOne : S → Bool} {value : S} {ks : List (Kronecker Text)} {r : List (Ins S)}
    (h : prefactorIns isOne isMinusOne value ks = .val r) : ∀ i ∈ r, i.plain := by
  unfold prefactorIns at h
  split at h
  · injection h with h; subst h; intro i hi; simp at hi; subst hi; trivial
  · cases e : separatedIns (kroneckerIns (S := S)) ks with
    | val l =>
      rw [e] at h
      simp only [Res.map] at h
      injection h with h
      subst h
      intro i hi
      rw [List.mem_append] at hi
      rcases hi with hi | hi
      · split at hi
        · simp at hi; subst hi; trivial
        · split at hi
          · simp at hi
          · simp at hi; rcases hi with rfl | rfl <;> trivial
      · exact separatedIns_plain kroneckerIns_plain e i hi
    | ub => rw [e] at h; cases h
    | diverges => rw [e] at h; cases h

/-! ## Operators, monomials, prefactors, terms, triplet lists -/

/-- **C88**: printing an operator changes no setting but the width, which is used up. -/
theorem operator_keeps_format (s : OStream) (creator : Bool) (idx : List Idx) :
    (insertAll put s (operatorIns creator idx)).fmt = { s.fmt with width := 0 } := by
  rw [insertAll_plain put _ (operatorIns_plain creator idx), if_neg (by simp [operatorIns, headIns])]

theorem monomialIns_ne {m : List (Bool × List Idx)} {r : List (Ins S)} (h : monomialIns m = .val r) : r ≠ [] := by
  unfold monomialIns separatedIns at h
  split at h
  · cases h
  · injection h with h; subst h; simp [operatorIns, headIns]

theorem monomialIns_plain {m : List (Bool × List Idx)} {r : List (Ins S)} (h : monomialIns m = .val r) :
    ∀ i ∈ r, i.plain :=
  separatedIns_plain (f := fun x : Bool × List Idx => operatorIns x.1 x.2) (l := m)
    (fun x => operatorIns_plain x.1 x.2) h

theorem termIns_plain {isOne isMinusOne : S → Bool} {value : S} {ks : List (Kronecker Text)}
    {ops : List (Bool × List Idx)} {r : List (Ins S)} (h : termIns isOne isMinusOne value ks ops = .val r) :
    r ≠ [] ∧ ∀ i ∈ r, i.plain := by
  unfold termIns at h
  cases e : prefactorIns isOne isMinusOne value ks with
  | ub => rw [e] at h; cases h
  | diverges => rw [e] at h; cases h
  | val p =>
    rw [e] at h
    cases e' : monomialIns (S := S) ops with
    | ub => rw [e'] at h; cases h
    | diverges => rw [e'] at h; cases h
    | val o =>
      rw [e'] at h
      have h : p ++ [.text [' ', '⋅', ' ']] ++ o = r := by injection h
      subst h
      refine ⟨by simp, fun i hi => ?_⟩
      rw [List.mem_append, List.mem_append, List.mem_singleton] at hi
      rcases hi with (hi | rfl) | hi
      · exact prefactorIns_plain e i hi
      · trivial
      · exact monomialIns_plain e' i hi

/-- **C88**: nor does printing a monomial with at least one operator. -/
theorem monomial_keeps_format (s : OStream) {m : List (Bool × List Idx)} {r : List (Ins S)} (h : monomialIns m = .val r) :
    (insertAll put s r).fmt = { s.fmt with width := 0 } := by
  rw [insertAll_plain put r (monomialIns_plain h), if_neg (monomialIns_ne h)]

/-- **C88**: nor does printing a term with at least one operator. -/
theorem term_keeps_format (s : OStream) {isOne isMinusOne : S → Bool} {value : S} {ks : List (Kronecker Text)}
    {ops : List (Bool × List Idx)} {r : List (Ins S)} (h : termIns isOne isMinusOne value ks ops = .val r) :
    (insertAll put s r).fmt = { s.fmt with width := 0 } := by
  rw [insertAll_plain put r (termIns_plain h).2, if_neg (termIns_plain h).1]

/-- **C88**: nor does printing a prefactor. -/
theorem prefactor_keeps_format (s : OStream) {isOne isMinusOne : S → Bool} {value : S} {ks : List (Kronecker Text)}
    {r : List (Ins S)} (h : prefactorIns isOne isMinusOne value ks = .val r) :
    (insertAll put s r).fmt = { s.fmt with width := 0 } := by
  have hr : r ≠ [] := by
    unfold prefactorIns at h
    split at h
    · injection h with h; subst h; simp
    · rename_i hk
      have hk : ks ≠ [] := by simpa using hk
      rw [separatedIns, dif_neg hk] at h
      injection h with h
      intro hr
      rw [hr] at h
      simp [kroneckerIns] at h
  rw [insertAll_plain put r (prefactorIns_plain h), if_neg hr]

/-- **C88**: nor does writing a triplet list. -/
theorem tripletList_keeps_format (s : OStream) (l : List (ℕ × ℕ × S)) :
    (insertAll put s (tripletListIns l)).fmt = { s.fmt with width := 0 } := by
  rw [insertAll_plain put, if_neg (by simp [tripletListIns])]
  intro i hi
  simp only [tripletListIns, List.mem_append, List.mem_cons, List.mem_flatMap, List.not_mem_nil, or_false] at hi
  rcases hi with (rfl | rfl) | ⟨e, _, rfl | rfl | rfl | rfl | rfl | rfl⟩ <;> trivial

/-- **C88**: nor does printing the timer, and its text is the text of the number of seconds followed by the unit. -/
theorem timer_keeps_format (s : OStream) (seconds : S) :
    (insertAll put s (timerIns seconds)).fmt = { s.fmt with width := 0 } ∧
    (s.fmt.width = 0 → (insertAll put s (timerIns seconds)).out = s.out ++ put s.fmt seconds ++ ['s']) := by
  have h : ∀ i ∈ timerIns seconds, i.plain := by
    intro i hi
    simp only [timerIns, List.mem_cons, List.not_mem_nil, or_false] at hi
    rcases hi with rfl | rfl <;> trivial
  refine ⟨by rw [insertAll_plain put _ h, if_neg (by simp [timerIns])], fun hw => ?_⟩
  rw [insertAll_plain_zero put _ h s hw]
  simp [timerIns, chunk]

/-! ## What an operator looks like on a stream -/

/-- The index as the printing model of C54 takes it. -/
def Idx.val (showpos : Bool) : Idx → IndexVal
  | .boolean b => .boolean b
  | .unsigned n => .other (printNat n)
  | .signed n => .other (signedText showpos n)
  | .string t => .other t

theorem chunk_indexIns (f : Fmt) (i : Idx) : chunk put f (indexIns i) = printIndex (i.val f.showpos) := by
  cases i with
  | boolean b => cases b <;> rfl
  | _ => rfl

theorem chunk_indices (f : Fmt) (idx : List Idx) :
    (indicesIns idx).flatMap (chunk put f) = List.intercalate [','] (idx.map fun i => printIndex (i.val f.showpos)) := by
  induction idx using indicesIns.induct with
  | case1 => rfl
  | case2 i => simp [indicesIns, chunk_indexIns, List.intercalate]
  | case3 i j l ih =>
    rw [indicesIns, List.flatMap_cons, List.flatMap_cons, ih, chunk_indexIns]
    simp [List.intercalate, chunk]

/-- **C88**: the text of an operator: the letter, the dagger of creators, the indices separated by commas; only the sign of
signed indices depends on the stream. -/
theorem operator_text (s : OStream) (hw : s.fmt.width = 0) (creator : Bool) (idx : List Idx) :
    (insertAll put s (operatorIns creator idx)).out = s.out ++ (['c'] ++ (if creator then ['^', '†'] else []) ++ ['_', '{']
      ++ List.intercalate [','] (idx.map fun i => printIndex (i.val s.fmt.showpos)) ++ ['}']) := by
  rw [insertAll_plain_zero put _ (operatorIns_plain creator idx) s hw]
  cases creator <;> simp [operatorIns, headIns, chunk_indices, chunk]

/-- **C88**: the operators of the Hubbard programs have the same text on every stream without a width. -/
theorem hubbard_operator_text (s : OStream) (hw : s.fmt.width = 0) (x : HOp) :
    (insertAll put s (operatorIns x.creator [.unsigned x.index.1, .boolean x.index.2])).out = s.out ++ printHOp x := by
  rw [operator_text put s hw]
  cases hc : x.creator <;>
    simp [printHOp, printOperator2, printHead, hc, Idx.val, printIndex, List.intercalate]

theorem length_intercalate_congr (a b : List Text) (h : a.length = b.length) :
    (List.intercalate [','] a).length + b.flatten.length = (List.intercalate [','] b).length + a.flatten.length := by
  induction a generalizing b with
  | nil => cases b <;> simp_all [List.intercalate]
  | cons x a ih =>
    cases b with
    | nil => simp at h
    | cons y b =>
      cases a with
      | nil =>
        have : b = [] := by simpa using h
        subst this; simp [List.intercalate]; omega
      | cons x' a =>
        cases b with
        | nil => simp at h
        | cons y' b =>
          have := ih (y' :: b) (by simpa using h)
          simp only [List.intercalate, List.intersperse_cons_cons, List.flatten_cons, List.length_append,
            List.length_cons, List.length_nil] at this ⊢
          omega

theorem index_length (i : Idx) : (printIndex (i.val false)).length ≤ (printIndex (i.val true)).length ∧
    ((printIndex (i.val false)).length = (printIndex (i.val true)).length ↔ ∀ n : ℤ, 0 ≤ n → i ≠ .signed n) := by
  cases i with
  | signed n =>
    by_cases h : n < 0
    · simp only [Idx.val, printIndex, signedText, h, if_true]
      refine ⟨le_refl _, iff_of_true trivial fun k hk e => ?_⟩
      cases e; omega
    · simp only [Idx.val, printIndex, signedText, h, if_false, if_true, Bool.false_eq_true]
      exact ⟨by simp, by simp; omega⟩
  | _ => exact ⟨le_refl _, iff_of_true rfl (by simp)⟩

theorem indices_length (idx : List Idx) :
    ((idx.map fun i => printIndex (i.val false)).flatten.length ≤ (idx.map fun i => printIndex (i.val true)).flatten.length) ∧
    ((idx.map fun i => printIndex (i.val false)).flatten.length = (idx.map fun i => printIndex (i.val true)).flatten.length ↔
      ∀ i ∈ idx, ∀ n : ℤ, 0 ≤ n → i ≠ .signed n) := by
  induction idx with
  | nil => simp
  | cons i idx ih =>
    obtain ⟨h1, h2⟩ := ih
    obtain ⟨h3, h4⟩ := index_length i
    simp only [List.map_cons, List.flatten_cons, List.length_append, List.forall_mem_cons]
    refine ⟨by omega, ?_⟩
    rw [← h4, ← h2]
    omega

theorem val_congr (idx : List Idx) (h : ∀ i ∈ idx, ∀ n : ℤ, 0 ≤ n → i ≠ .signed n) (a b : Bool) :
    (idx.map fun i => printIndex (i.val a)) = idx.map fun i => printIndex (i.val b) := by
  refine List.map_congr_left fun i hi => ?_
  cases i with
  | signed n =>
    have hn : n < 0 := by
      by_contra hn
      exact h _ hi n (by omega) rfl
    simp [Idx.val, signedText, hn]
  | _ => rfl

/-- **C88**: an operator prints the same on all streams without a width exactly if it has no signed index which is not
negative. -/
theorem operator_text_iff (creator : Bool) (idx : List Idx) :
    (∀ s s' : OStream, s.fmt.width = 0 → s'.fmt.width = 0 → s.out = s'.out →
      (insertAll put s (operatorIns creator idx)).out = (insertAll put s' (operatorIns creator idx)).out) ↔
    ∀ i ∈ idx, ∀ n : ℤ, 0 ≤ n → i ≠ .signed n := by
  constructor
  · intro h
    have := h ⟨⟨.default, 6, false, 0, ' ', false, 0⟩, []⟩ ⟨⟨.default, 6, true, 0, ' ', false, 0⟩, []⟩ rfl rfl rfl
    rw [operator_text put _ rfl, operator_text put _ rfl] at this
    have hl := congrArg List.length this
    simp only [List.length_append] at hl
    have h3 := length_intercalate_congr (idx.map fun i => printIndex (i.val false)) (idx.map fun i => printIndex (i.val true))
      (by simp)
    rw [← (indices_length idx).2]
    have h4 : (List.intercalate [','] (idx.map fun i => printIndex (i.val false))).length =
        (List.intercalate [','] (idx.map fun i => printIndex (i.val true))).length := by omega
    omega
  · intro h s s' hw hw' ho
    rw [operator_text put s hw, operator_text put s' hw', ho, val_congr idx h]

/-! ## Matrices -/

theorem matrixRow_plain (m : Mat S) (row : ℕ) : ∀ i ∈ matrixRow m row, i.plain := by
  intro i hi
  simp only [matrixRow, List.mem_append, List.mem_flatMap, List.mem_cons, List.not_mem_nil, or_false] at hi
  rcases hi with ⟨_, _, rfl | rfl⟩ | rfl <;> trivial

/-- The settings under which `FunctionMatrix` prints its elements. -/
def matrixFmt (f : Fmt) : Fmt := { f with floatfield := .fixed, precision := 1, showpos := true }

theorem printMatrix_eq (s : OStream) (m : Mat S) :
    printMatrix put s m = insertAll put ⟨matrixFmt s.fmt, s.out⟩ ((List.range m.rows).flatMap (matrixRow m)) := rfl

theorem rows_plain (m : Mat S) : ∀ i ∈ (List.range m.rows).flatMap (matrixRow m), i.plain := by
  intro i hi
  obtain ⟨r, _, hi⟩ := List.mem_flatMap.1 hi
  exact matrixRow_plain m r i hi

/-- **C88**: the text of a matrix: one line for every row, every element in fixed notation with one digit after the point and
its sign, followed by a space. -/
theorem matrix_text (s : OStream) (hw : s.fmt.width = 0) (m : Mat S) :
    (printMatrix put s m).out = s.out ++ (List.range m.rows).flatMap fun row =>
      ((List.range m.cols).flatMap fun col =>
        put { s.fmt with floatfield := .fixed, precision := 1, showpos := true } (m.at' row col) ++ [' ']) ++ ['\n'] := by
  rw [printMatrix_eq, insertAll_plain_zero put _ (rows_plain m) ⟨matrixFmt s.fmt, s.out⟩ hw]
  show s.out ++ _ = _
  congr 1
  rw [List.flatMap_assoc]
  refine List.flatMap_congr fun row _ => ?_
  rw [matrixRow, List.flatMap_append, List.flatMap_assoc]
  simp [chunk, matrixFmt]

/-- **C88**: `rows` line ends and `rows * cols` separators, if the texts of the elements contain neither. -/
theorem matrix_shape (s : OStream) (hw : s.fmt.width = 0) (ho : s.out = []) (m : Mat S)
    (h : ∀ f x, ' ' ∉ put f x ∧ '\n' ∉ put f x) :
    (printMatrix put s m).out.count '\n' = m.rows ∧ (printMatrix put s m).out.count ' ' = m.rows * m.cols := by
  have h1 : ∀ f x, (put f x).count '\n' = 0 := fun f x => List.count_eq_zero.2 (h f x).2
  have h2 : ∀ f x, (put f x).count ' ' = 0 := fun f x => List.count_eq_zero.2 (h f x).1
  have e : ∀ (l : List ℕ) (g : ℕ → Text) (c : Char) (k : ℕ), (∀ x, (g x).count c = k) → (l.flatMap g).count c = l.length * k := by
    intro l g c k hg
    induction l with
    | nil => simp
    | cons a l ih => rw [List.flatMap_cons, List.count_append, ih, hg, List.length_cons, Nat.add_mul]; omega
  rw [matrix_text put s hw, ho, List.nil_append]
  constructor
  · rw [e _ _ _ 1, List.length_range, Nat.mul_one]
    intro row
    rw [List.count_append, e _ _ _ 0]
    · simp
    · intro col; rw [List.count_append, h1]; rfl
  · rw [e _ _ _ m.cols, List.length_range]
    intro row
    rw [List.count_append, e _ _ _ 1]
    · simp
    · intro col; rw [List.count_append, h2]; rfl

/-- **C88** (refutation): what remains of the settings after printing a matrix: fixed notation, one digit, signs. -/
theorem matrix_format (s : OStream) (m : Mat S) :
    (printMatrix put s m).fmt = { s.fmt with
      floatfield := .fixed, precision := 1, showpos := true, width := if m.rows = 0 then s.fmt.width else 0 } := by
  rw [printMatrix_eq, insertAll_plain put _ (rows_plain m)]
  have : ((List.range m.rows).flatMap (matrixRow m) = []) ↔ m.rows = 0 := by
    constructor
    · intro h
      by_contra h0
      have := List.flatMap_eq_nil_iff.1 h 0 (List.mem_range.2 (by omega))
      simp [matrixRow] at this
    · intro h; simp [h]
  simp only [this]
  rfl

/-- **C88**: printing a matrix leaves the settings (but for the width) as they were exactly if they already were those of
the matrix. -/
theorem matrix_keeps_format_iff (s : OStream) (hw : s.fmt.width = 0) (m : Mat S) :
    (printMatrix put s m).fmt = s.fmt ↔ s.fmt.floatfield = .fixed ∧ s.fmt.precision = 1 ∧ s.fmt.showpos = true := by
  rw [matrix_format]
  cases hs : s.fmt with
  | mk a b c d e f g =>
    rw [hs] at hw
    simp only [Fmt.mk.injEq] at hw ⊢
    constructor
    · rintro ⟨h1, h2, h3, -⟩; exact ⟨h1.symm, h2.symm, h3.symm⟩
    · rintro ⟨h1, h2, h3⟩
      refine ⟨h1.symm, h2.symm, h3.symm, ?_, trivial, trivial, trivial⟩
      subst hw; split <;> rfl

/-- **C88**: what was printed before does not matter for the text of a matrix, and printing it again gives the same text. -/
theorem matrix_twice (s : OStream) (hw : s.fmt.width = 0) (m : Mat S) :
    ∃ t, (printMatrix put s m).out = s.out ++ t ∧
      (printMatrix put (printMatrix put s m) m).out = s.out ++ t ++ t := by
  refine ⟨_, matrix_text put s hw m, ?_⟩
  have h0 : (printMatrix put s m).fmt.width = 0 := by rw [matrix_format]; simp [hw]
  rw [matrix_text put _ h0, matrix_text put s hw, matrix_format]
  simp only [hw, ite_self]

/-- **C88** (refutation): a stream with the initial settings, a matrix and an operator with the signed index 3: printed after
the matrix the operator reads `c_{+3}`. -/
theorem matrix_then_operator (m : Mat S) (other : ℕ) :
    let s : OStream := ⟨⟨.default, 6, false, 0, ' ', false, other⟩, []⟩
    (insertAll put s (operatorIns false [.signed 3])).out = "c_{3}".toList ∧
    (insertAll put (printMatrix put s m) (operatorIns false [.signed 3])).out =
      (printMatrix put s m).out ++ "c_{+3}".toList := by
  intro s
  refine ⟨by rw [operator_text put s rfl]; rfl, ?_⟩
  have hf := matrix_format put s m
  have h0 : (printMatrix put s m).fmt.width = 0 := by rw [hf]; simp [s]
  rw [operator_text put _ h0, hf]
  rfl

/-- The hypotheses are met: a 1 x 2 matrix of integers printed with their signs. -/
example : (printMatrix (fun f (x : ℤ) => signedText f.showpos x) ⟨⟨.default, 6, false, 0, ' ', false, 0⟩, []⟩
    ⟨1, 2, fun i j => i - j⟩).out = "+0 -1 \n".toList := by decide

/-- The hypotheses of `monomial_keeps_format` and `term_keeps_format` are met: a monomial and a term. -/
example : (∃ r, monomialIns (S := ℤ) [(true, [.unsigned 3, .boolean true]), (false, [.signed (-2)])] = .val r) ∧
    ∃ r, termIns (S := ℤ) (· == 1) (· == -1) 2 [⟨['i'], ['j']⟩] [(true, [.unsigned 3])] = .val r :=
  ⟨⟨_, rfl⟩, ⟨_, rfl⟩⟩

end Ieompp.StreamFormat
