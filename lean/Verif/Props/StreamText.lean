import Verif.Props.StreamFormat

/-!
# C88, C124: the texts on a stream, and the field width
-/

set_option autoImplicit false
set_option linter.unusedSectionVars false

namespace Ieompp.StreamFormat
open Ieompp.IO

/-! ## Specification -/

/-- An operator in text: the letter, a dagger for creation operators, the indices in braces. -/
def operatorText (showpos : Bool) (x : Bool × List Idx) : Text :=
  (if x.1 then "c^†_{".toList else "c_{".toList) ++ List.intercalate [','] (x.2.map fun i => printIndex (i.val showpos)) ++ ['}']

/-- A Kronecker symbol in text. -/
def kroneckerText (k : Kronecker Text) : Text := "δ_{".toList ++ k.a ++ [','] ++ k.b ++ ['}']

variable {S : Type*} (put : Fmt → S → Text)

/-- A prefactor in text: without Kronecker symbols the number; with Kronecker symbols these separated by spaces after the number and
a dot, where the number one is omitted and minus one is a sign. -/
def prefactorText (isOne isMinusOne : S → Bool) (f : Fmt) (value : S) (ks : List (Kronecker Text)) : Text :=
  if ks = [] then put f value
  else (if isMinusOne value then ['-'] else if isOne value then [] else put f value ++ " ⋅ ".toList) ++
    List.intercalate [' '] (ks.map kroneckerText)

/-! ## The texts -/

theorem separated_text {τ : Type*} (f : τ → List (Ins S)) (fmt : Fmt) (text : τ → Text)
    (hf : ∀ x, (f x).flatMap (chunk put fmt) = text x) {l : List τ} (hl : l ≠ []) :
    ∃ r, separatedIns f l = .val r ∧ r.flatMap (chunk put fmt) = List.intercalate [' '] (l.map text) := by
  refine ⟨_, by rw [separatedIns, dif_neg hl], ?_⟩
  rw [List.flatMap_append, hf]
  induction l with
  | nil => exact absurd rfl hl
  | cons x l ih =>
    cases l with
    | nil => simp [List.intercalate]
    | cons y l =>
      have := ih (by simp)
      rw [List.getLast_cons (by simp), List.dropLast_cons_of_ne_nil (by simp), List.flatMap_cons, List.flatMap_append,
        List.flatMap_append, hf, List.append_assoc, this]
      simp [List.intercalate, chunk]

theorem operator_chunks (fmt : Fmt) (x : Bool × List Idx) :
    (operatorIns x.1 x.2).flatMap (chunk put fmt) = operatorText fmt.showpos x := by
  obtain ⟨c, idx⟩ := x
  cases c <;> simp [operatorIns, headIns, chunk_indices, chunk, operatorText]

theorem kronecker_chunks (fmt : Fmt) (k : Kronecker Text) : (kroneckerIns k).flatMap (chunk put fmt) = kroneckerText k := by
  simp [kroneckerIns, chunk, kroneckerText]

theorem prefactor_chunks (isOne isMinusOne : S → Bool) (fmt : Fmt) (value : S) (ks : List (Kronecker Text)) :
    ∃ r, prefactorIns isOne isMinusOne value ks = .val r ∧
      r.flatMap (chunk put fmt) = prefactorText put isOne isMinusOne fmt value ks := by
  by_cases hk : ks = []
  · subst hk
    exact ⟨_, rfl, by simp [chunk, prefactorText]⟩
  · obtain ⟨r, hr, ht⟩ := separated_text put (kroneckerIns (S := S)) fmt kroneckerText (kronecker_chunks put fmt) hk
    refine ⟨_, by rw [prefactorIns, if_neg (by simpa using hk), hr]; rfl, ?_⟩
    rw [List.flatMap_append, ht, prefactorText, if_neg hk]
    congr 1
    split_ifs <;> simp [chunk]

/-- **C88**: a monomial is printed as its operators separated by single spaces. -/
theorem monomial_text (s : OStream) (hw : s.fmt.width = 0) {m : List (Bool × List Idx)} (hm : m ≠ []) :
    ∃ r, monomialIns m = .val r ∧
      (insertAll put s r).out = s.out ++ List.intercalate [' '] (m.map (operatorText s.fmt.showpos)) := by
  obtain ⟨r, hr, ht⟩ := separated_text put (fun x : Bool × List Idx => operatorIns x.1 x.2) s.fmt (operatorText s.fmt.showpos)
    (operator_chunks put s.fmt) hm
  exact ⟨r, hr, by rw [insertAll_plain_zero put r (monomialIns_plain hr) s hw, ht]⟩

/-- **C88**: the text of a prefactor. -/
theorem prefactor_text (s : OStream) (hw : s.fmt.width = 0) (isOne isMinusOne : S → Bool) (value : S) (ks : List (Kronecker Text)) :
    ∃ r, prefactorIns isOne isMinusOne value ks = .val r ∧
      (insertAll put s r).out = s.out ++ prefactorText put isOne isMinusOne s.fmt value ks := by
  obtain ⟨r, hr, ht⟩ := prefactor_chunks put isOne isMinusOne s.fmt value ks
  exact ⟨r, hr, by rw [insertAll_plain_zero put r (prefactorIns_plain hr) s hw, ht]⟩

/-- **C88**: a term is printed as its prefactor, a dot and its operators. -/
theorem term_text (s : OStream) (hw : s.fmt.width = 0) (isOne isMinusOne : S → Bool) (value : S) (ks : List (Kronecker Text))
    {m : List (Bool × List Idx)} (hm : m ≠ []) :
    ∃ r, termIns isOne isMinusOne value ks m = .val r ∧
      (insertAll put s r).out = s.out ++ (prefactorText put isOne isMinusOne s.fmt value ks ++ " ⋅ ".toList ++
        List.intercalate [' '] (m.map (operatorText s.fmt.showpos))) := by
  obtain ⟨p, hp, tp⟩ := prefactor_chunks put isOne isMinusOne s.fmt value ks
  obtain ⟨r, hr, tr⟩ := separated_text put (fun x : Bool × List Idx => operatorIns x.1 x.2) s.fmt (operatorText s.fmt.showpos)
    (operator_chunks put s.fmt) hm
  have hr' : monomialIns (S := S) m = .val r := hr
  have ht : termIns isOne isMinusOne value ks m = .val (p ++ [.text [' ', '⋅', ' ']] ++ r) := by
    rw [termIns, hp, Res.bind_val, hr']; rfl
  refine ⟨_, ht, ?_⟩
  rw [insertAll_plain_zero put _ (termIns_plain ht).2 s hw]
  show s.out ++ _ = _
  rw [List.flatMap_append, List.flatMap_append, tp, tr]
  simp [chunk]

/-- **C88**: a term without operators is undefined (the last element of an empty container), as is a monomial. -/
theorem empty_undefined (isOne isMinusOne : S → Bool) (value : S) (ks : List (Kronecker Text)) :
    monomialIns (S := S) [] = .ub ∧ termIns isOne isMinusOne value ks [] = .ub := by
  have h : monomialIns (S := S) [] = .ub := rfl
  refine ⟨h, ?_⟩
  obtain ⟨p, hp, -⟩ := prefactor_chunks (fun _ _ => []) isOne isMinusOne ⟨.default, 0, false, 0, ' ', false, 0⟩ value ks
  rw [termIns, hp, Res.bind_val, h]; rfl

/-- **C88**: a list of triplets is its number of elements and one line of three columns for every element. -/
theorem tripletList_text (s : OStream) (hw : s.fmt.width = 0) (l : List (ℕ × ℕ × S)) :
    (insertAll put s (tripletListIns l)).out = s.out ++ printNat l.length ++ ['\n'] ++
      l.flatMap fun e => printNat e.1 ++ ['\t'] ++ printNat e.2.1 ++ ['\t'] ++ put s.fmt e.2.2 ++ ['\n'] := by
  have h : ∀ i ∈ tripletListIns l, i.plain := by
    intro i hi
    simp only [tripletListIns, List.mem_append, List.mem_cons, List.mem_flatMap, List.not_mem_nil, or_false] at hi
    rcases hi with (rfl | rfl) | ⟨e, _, rfl | rfl | rfl | rfl | rfl | rfl⟩ <;> trivial
  rw [insertAll_plain_zero put _ h s hw]
  simp only [tripletListIns, List.flatMap_append, List.flatMap_assoc]
  simp [chunk]

/-! ## The field width -/

/-- With a field width only the first piece is padded. -/
theorem insertAll_width (i : Ins S) (l : List (Ins S)) (h : ∀ j ∈ i :: l, j.plain) (s : OStream) :
    (insertAll put s (i :: l)).out =
      s.out ++ pad s.fmt (chunk put s.fmt i) ++ l.flatMap (chunk put { s.fmt with width := 0 }) := by
  have e : insertAll put s (i :: l) = insertAll put (insert put s i) l := rfl
  rw [e, insert_plain put (h i (by simp)), insertAll_plain_zero put l (fun j hj => h j (by simp [hj])) _ rfl]
  rfl

theorem operatorText_cons (b : Bool) (x : Bool × List Idx) : ∃ t, operatorText b x = 'c' :: t ∧ 2 ≤ t.length := by
  obtain ⟨c, idx⟩ := x
  cases c
  · exact ⟨['_', '{'] ++ _ ++ ['}'], rfl, by simp⟩
  · exact ⟨['^', '†', '_', '{'] ++ _ ++ ['}'], rfl, by simp⟩

/-- **C124** (refutation): an operator printed into a field of width `w`: the padding belongs to the letter `c` alone. For streams
which adjust to the left the fill characters come between this letter and the rest, otherwise the operator follows the padding. -/
theorem operator_padded (s : OStream) (creator : Bool) (idx : List Idx) :
    ∃ rest, operatorText s.fmt.showpos (creator, idx) = 'c' :: rest ∧
      (insertAll put s (operatorIns creator idx)).out = s.out ++
        (if s.fmt.left then 'c' :: (List.replicate (s.fmt.width - 1) s.fmt.fill ++ rest)
          else List.replicate (s.fmt.width - 1) s.fmt.fill ++ 'c' :: rest) := by
  have hc := operator_chunks put { s.fmt with width := 0 } (creator, idx)
  obtain ⟨l, hl⟩ : ∃ l, operatorIns (S := S) creator idx = .text ['c'] :: l := ⟨_, rfl⟩
  have hp := operatorIns_plain (S := S) creator idx
  rw [hl] at hp
  simp only at hc
  rw [hl, List.flatMap_cons] at hc
  refine ⟨_, hc.symm, ?_⟩
  rw [hl, insertAll_width put _ _ hp]
  unfold pad
  split_ifs <;> simp [chunk]

/-- **C124**: the number of characters an operator takes in a field of width `w`. -/
theorem operator_width (s : OStream) (creator : Bool) (idx : List Idx) :
    (insertAll put s (operatorIns creator idx)).out.length =
      s.out.length + (operatorText s.fmt.showpos (creator, idx)).length + (s.fmt.width - 1) := by
  obtain ⟨rest, h1, h2⟩ := operator_padded put s creator idx
  rw [h1, h2]
  cases s.fmt.left <;> simp <;> omega

/-- **C124** (refutation): an operator fills a field (that is, takes as many characters as the field has or the operator needs,
whichever is more) exactly if no width was requested at all or the width is one. -/
theorem operator_fills_field_iff (s : OStream) (creator : Bool) (idx : List Idx) :
    (insertAll put s (operatorIns creator idx)).out.length =
      s.out.length + max s.fmt.width (operatorText s.fmt.showpos (creator, idx)).length ↔ s.fmt.width ≤ 1 := by
  obtain ⟨t, ht, hl⟩ := operatorText_cons s.fmt.showpos (creator, idx)
  rw [operator_width, ht]
  simp only [List.length_cons]
  omega

/-- **C124** (refutation): of a matrix only the first element is printed with the width. -/
theorem matrix_width (s : OStream) (m : Mat S) (hr : 0 < m.rows) (hc : 0 < m.cols) :
    ∃ rest, (∀ w, (printMatrix put ⟨{ s.fmt with width := w }, s.out⟩ m).out =
      s.out ++ pad { matrixFmt s.fmt with width := w } (put { matrixFmt s.fmt with width := w } (m.at' 0 0)) ++ rest) := by
  obtain ⟨r, hr⟩ : ∃ r, m.rows = r + 1 := ⟨m.rows - 1, by omega⟩
  obtain ⟨c, hc⟩ : ∃ c, m.cols = c + 1 := ⟨m.cols - 1, by omega⟩
  obtain ⟨l, hl⟩ : ∃ l, (List.range m.rows).flatMap (matrixRow m) = .scalar (m.at' 0 0) :: l := by
    rw [hr, List.range_succ_eq_map, List.flatMap_cons]
    unfold matrixRow
    rw [hc, List.range_succ_eq_map, List.flatMap_cons]
    exact ⟨_, rfl⟩
  refine ⟨l.flatMap (chunk put { matrixFmt s.fmt with width := 0 }), fun w => ?_⟩
  rw [printMatrix_eq, hl]
  have hp := rows_plain m
  rw [hl] at hp
  rw [insertAll_width put _ _ hp]
  rfl

/-- A run: the creation operator of the site 3 with spin up in a field of width 6, adjusted to the left, to the right. -/
example : (insertAll (fun _ (_ : ℤ) => []) ⟨⟨.default, 6, false, 6, '.', true, 0⟩, []⟩
      (operatorIns true [.unsigned 3, .boolean true])).out = "c.....^†_{3,↑}".toList ∧
    (insertAll (fun _ (_ : ℤ) => []) ⟨⟨.default, 6, false, 6, '.', false, 0⟩, []⟩
      (operatorIns true [.unsigned 3, .boolean true])).out = ".....c^†_{3,↑}".toList := by
  decide

/-- The texts of a term with a Kronecker symbol. -/
example : ∃ r, termIns (S := ℤ) (· == 1) (· == -1) (-1) [⟨['i'], ['j']⟩, ⟨['k'], ['l']⟩]
      [(true, [.unsigned 3, .boolean true]), (false, [.signed (-2)])] = .val r ∧
    (insertAll (fun f (x : ℤ) => signedText f.showpos x) ⟨⟨.default, 6, false, 0, ' ', false, 0⟩, []⟩ r).out =
      "-δ_{i,j} δ_{k,l} ⋅ c^†_{3,↑} c_{-2}".toList := ⟨_, rfl, by decide⟩

end Ieompp.StreamFormat
