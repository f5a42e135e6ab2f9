import Verif.Model.Print
import Verif.Props.Checkpoint
import Verif.Props.CleanOutput
import Mathlib.Data.List.Basic
import Mathlib.Tactic.Common

/-!
# C52, C54, C57: printing
-/

set_option autoImplicit false
set_option linter.unusedSectionVars false

namespace Ieompp.IO

open Ieompp.Spec

/-! ## C54: tuples and operators -/

theorem tuplePrinter_eq (t : List Text) (delimiter : Text) (N k : ℕ) :
    tuplePrinter t delimiter N k = delimiter.intercalate (List.replicate (k + 1) (t.getD N [])) := by
  induction k with
  | zero => simp [tuplePrinter, List.intercalate]
  | succ k ih =>
    rw [tuplePrinter, ih, List.replicate_succ (n := k + 1), List.replicate_succ (n := k)]
    simp [List.intercalate]

/-- **C54** (refutation): `print_tuple` prints the last component once for every component. -/
theorem printTuple_eq {t : List Text} (h : t ≠ []) (delimiter left right : Text) :
    printTuple t delimiter left right =
      left ++ delimiter.intercalate (List.replicate t.length (t.getLast h)) ++ right := by
  have hl := List.length_pos_iff.2 h
  unfold printTuple
  rw [tuplePrinter_eq, Nat.sub_add_cancel hl, List.getD_eq_getElem?_getD, List.getElem?_eq_getElem (by omega),
    List.getLast_eq_getElem]
  rfl

/-- **C54** (partial): tuples with one component are printed correctly. -/
theorem printTuple_single_partial (a delimiter left right : Text) : printTuple [a] delimiter left right = left ++ a ++ right := by
  rw [printTuple_eq (by simp)]; simp [List.intercalate]

/-- **C54** (refutation): the pair `(1, 2)` is printed as `(2,2)`. -/
theorem printTuple_wrong :
    printTuple [['1'], ['2']] [','] ['('] [')'] = ['(', '2', ',', '2', ')'] ∧
    printTuple [['1'], ['2']] [','] ['('] [')'] ≠ ['('] ++ List.intercalate [','] [['1'], ['2']] ++ [')'] := by decide

theorem printHelper_eq (idx : List IndexVal) (I k : ℕ) (h : I + k + 1 = idx.length) :
    printHelper idx I k = List.intercalate [','] ((idx.drop I).map printIndex) := by
  induction k generalizing I with
  | zero =>
    have hI : I < idx.length := by omega
    rw [printHelper, List.getD_eq_getElem?_getD, List.getElem?_eq_getElem hI, List.drop_eq_getElem_cons hI,
      List.drop_eq_nil_of_le (by omega)]
    simp [List.intercalate]
  | succ k ih =>
    have hI : I < idx.length := by omega
    have hI' : I + 1 < idx.length := by omega
    rw [printHelper, ih (I + 1) (by omega), List.getD_eq_getElem?_getD, List.getElem?_eq_getElem hI,
      List.drop_eq_getElem_cons hI, List.drop_eq_getElem_cons hI']
    simp only [List.map_cons, List.intercalate, List.intersperse_cons_cons, List.flatten_cons, List.append_assoc,
      Option.getD_some]

/-- **C54**: operators print every index exactly once, in order, separated by commas, for any number of indices; the
overloads for one and two indices print the same. -/
theorem printOperator_correct (creator : Bool) (idx : List IndexVal) (h : idx ≠ []) :
    printOperatorN creator idx =
      ['c'] ++ (if creator then ['^', '†'] else []) ++ ['_', '{'] ++ List.intercalate [','] (idx.map printIndex) ++ ['}'] ∧
    (∀ i, printOperator1 creator i = printOperatorN creator [i]) ∧
    (∀ i j, printOperator2 creator i j = printOperatorN creator [i, j]) := by
  have hl := List.length_pos_iff.2 h
  refine ⟨?_, ?_, ?_⟩
  · unfold printOperatorN
    rw [printHelper_eq idx 0 _ (by omega), List.drop_zero]
    simp [printHead]
  · intro i; rfl
  · intro i j
    simp [printOperator2, printOperatorN, printHelper]

/-! ## C57: printing is injective -/

theorem printNat_isDigit {n : ℕ} {c : Char} (h : c ∈ printNat n) : c.isDigit :=
  Nat.isDigit_of_mem_toDigits (by decide) (by decide) h

theorem append_sep_inj {α : Type*} {x : α} {a b c d : List α} (ha : x ∉ a) (hc : x ∉ c) (h : a ++ x :: b = c ++ x :: d) :
    a = c ∧ b = d := by
  induction a generalizing c with
  | nil =>
    cases c with
    | nil => simpa using h
    | cons y c =>
      simp only [List.nil_append, List.cons_append, List.cons.injEq] at h
      exact absurd (h.1 ▸ List.mem_cons_self ..) hc
  | cons y a ih =>
    cases c with
    | nil =>
      simp only [List.nil_append, List.cons_append, List.cons.injEq] at h
      exact absurd (h.1 ▸ List.mem_cons_self ..) ha
    | cons z c =>
      simp only [List.cons_append, List.cons.injEq] at h
      obtain ⟨e1, e2⟩ := ih (fun hx => ha (List.mem_cons_of_mem _ hx)) (fun hx => hc (List.mem_cons_of_mem _ hx)) h.2
      exact ⟨by rw [h.1, e1], e2⟩

/-- **C57**: two operators of the programs with the same text are equal. -/
theorem printHOp_injective {x y : HOp} (h : printHOp x = printHOp y) : x = y := by
  obtain ⟨cx, nx, sx⟩ := x
  obtain ⟨cy, ny, sy⟩ := y
  unfold printHOp printOperator2 printHead at h
  simp only [printIndex, List.append_assoc, List.cons_append, List.nil_append, List.cons.injEq, true_and] at h
  have hcomma : ∀ n, ',' ∉ printNat n := fun n hm => by
    have := printNat_isDigit hm
    revert this; decide
  have hc : cx = cy ∧ printNat nx ++ ',' :: ((if sx then ['↑'] else ['↓']) ++ ['}']) =
      printNat ny ++ ',' :: ((if sy then ['↑'] else ['↓']) ++ ['}']) := by
    cases cx <;> cases cy
    · simp at h; simp [h]
    · simp at h
    · simp at h
    · simp at h; simp [h]
  obtain ⟨hcc, h'⟩ := hc
  subst hcc
  obtain ⟨e1, e2⟩ := append_sep_inj (hcomma nx) (hcomma ny) h'
  have hn := toDigits_inj e1
  subst hn
  have hs : sx = sy := by
    revert e2
    cases sx <;> cases sy <;> decide
  subst hs
  rfl

theorem printHOp_no_space (x : HOp) : ' ' ∉ printHOp x := by
  unfold printHOp printOperator2 printHead
  have hsp : ' ' ∉ printNat x.index.1 := fun hm => by
    have := printNat_isDigit hm
    revert this; decide
  cases x.creator <;> cases x.index.2 <;> simp [printIndex, hsp]

/-- **C57**: a non-empty monomial prints its operators in order, separated by single spaces; an empty one is undefined. -/
theorem printMonomial_eq (m : HMonomial) :
    (m ≠ [] → printMonomial m = .val (List.intercalate [' '] (m.map printHOp))) ∧ (m = [] → printMonomial m = .ub) := by
  constructor
  · intro h
    unfold printMonomial
    rw [dif_neg h]
    congr 1
    induction m with
    | nil => exact absurd rfl h
    | cons x m ih =>
      cases m with
      | nil => simp [List.intercalate]
      | cons y m =>
        have := ih (by simp)
        rw [List.dropLast_cons_cons, List.map_cons, List.flatten_cons, List.getLast_cons (by simp), List.append_assoc, this]
        simp [List.intercalate]
  · rintro rfl; rfl

/-- **C57**: two non-empty monomials with the same text are equal. -/
theorem printMonomial_injective {m n : HMonomial} (hm : m ≠ []) (hn : n ≠ []) (h : printMonomial m = printMonomial n) : m = n := by
  rw [(printMonomial_eq m).1 hm, (printMonomial_eq n).1 hn] at h
  injection h with h
  have key : ∀ (m n : HMonomial), m ≠ [] → n ≠ [] →
      List.intercalate [' '] (m.map printHOp) = List.intercalate [' '] (n.map printHOp) → m = n := by
    intro m
    induction m with
    | nil => intro n h; exact absurd rfl h
    | cons x m ih =>
      intro n _ hn h
      cases n with
      | nil => exact absurd rfl hn
      | cons y n =>
        cases m with
        | nil =>
          cases n with
          | nil =>
            simp [List.intercalate] at h
            rw [printHOp_injective h]
          | cons z n =>
            exfalso
            simp only [List.map_cons, List.map_nil, List.intercalate, List.intersperse_cons_cons, List.intersperse_singleton,
              List.flatten_cons, List.flatten_nil, List.append_nil] at h
            apply printHOp_no_space x
            rw [h]; simp
        | cons w m =>
          cases n with
          | nil =>
            exfalso
            simp only [List.map_cons, List.map_nil, List.intercalate, List.intersperse_cons_cons, List.intersperse_singleton,
              List.flatten_cons, List.flatten_nil, List.append_nil] at h
            apply printHOp_no_space y
            rw [← h]; simp
          | cons z n =>
            simp only [List.map_cons, List.intercalate, List.intersperse_cons_cons, List.flatten_cons, List.cons_append,
              List.nil_append] at h
            obtain ⟨e1, e2⟩ := append_sep_inj (printHOp_no_space x) (printHOp_no_space y) h
            rw [printHOp_injective e1, ih (z :: n) (by simp) (by simp) (by
              simp only [List.map_cons, List.intercalate]; exact e2)]
  exact key m n hm hn h

/-- A concrete text. -/
example : printMonomial [⟨true, (12, true)⟩, ⟨false, (3, false)⟩] =
    .val ['c', '^', '†', '_', '{', '1', '2', ',', '↑', '}', ' ', 'c', '_', '{', '3', ',', '↓', '}'] := by decide

/-! ## C52: headers -/

/-- The line written for one entry: the prefix, the key, and the value after a colon at a fixed column. -/
def entryLine (pre : Text) (w : ℕ) (e : Entry) : Text :=
  if e.1 = [] then pre
  else if e.2 = [] then pre ++ ' ' :: e.1
  else pre ++ ' ' :: e.1 ++ ':' :: List.replicate (w + 1 - e.1.length) ' ' ++ e.2

theorem headerEntry_eq (pre : Text) (w : ℕ) (e : Entry) : headerEntry pre w e = entryLine pre w e ++ ['\n'] := by
  unfold headerEntry entryLine spaces
  split_ifs <;> simp

/-- The text consisting of the given lines, each terminated by a newline. -/
def unlines (ls : List Text) : Text := (ls.map (· ++ ['\n'])).flatten

theorem unlines_append (a b : List Text) : unlines (a ++ b) = unlines a ++ unlines b := by simp [unlines]

/-- The lines of a header. -/
def headerLines (pre time : Text) (ds : List (List Entry)) : List Text :=
  (pre ++ [' ', 'C', 'r', 'e', 'a', 't', 'e', 'd', ':'] ++ List.replicate (maxKeyLen ds + 1 - 7) ' ' ++ time) ::
    (ds.takeWhile (· ≠ [])).flatMap fun d => ['#'] :: d.map (entryLine pre (maxKeyLen ds))

theorem headerBody_eq (pre : Text) (w : ℕ) (ds : List (List Entry)) :
    headerBody pre w ds = unlines ((ds.takeWhile (· ≠ [])).flatMap fun d => ['#'] :: d.map (entryLine pre w)) := by
  induction ds with
  | nil => rfl
  | cons d ds ih =>
    unfold headerBody
    by_cases hd : d = []
    · rw [if_pos hd, List.takeWhile_cons_of_neg (by simp [hd])]; rfl
    · rw [if_neg hd, List.takeWhile_cons_of_pos (by simp [hd]), List.flatMap_cons, unlines_append, ih]
      congr 1
      simp only [unlines, List.map_cons, List.flatten_cons, List.map_map, Function.comp_def]
      congr 2
      exact List.map_congr_left fun e _ => headerEntry_eq pre w e

/-- **C52**: exactly what `write_header` writes: one line with the time, then for the descriptions before the first empty one
a separating line `#` and one line per entry. -/
theorem writeHeader_eq (pre time : Text) (ds : List (List Entry)) : writeHeader pre time ds = unlines (headerLines pre time ds) := by
  simp only [writeHeader, headerLines, headerBody_eq]
  simp [unlines, spaces]

theorem takeWhile_all {α : Type*} {p : α → Bool} {l : List α} (h : ∀ x ∈ l, p x) : l.takeWhile p = l := by
  induction l with
  | nil => rfl
  | cons x l ih =>
    rw [List.takeWhile_cons_of_pos (h x (List.mem_cons_self ..)), ih fun y hy => h y (List.mem_cons_of_mem _ hy)]

theorem lines_append_newline {a : List Char} (ha : '\n' ∉ a) (b : List Char) : lines (a ++ '\n' :: b) = a :: lines b := by
  induction a with
  | nil => simp [lines]
  | cons c a ih =>
    have hc : c ≠ '\n' := fun h => ha (h ▸ List.mem_cons_self ..)
    rw [List.cons_append, lines, if_neg hc, ih fun h => ha (List.mem_cons_of_mem _ h)]

/-- Writing lines one by one and reading the text line by line gives the same lines (and the empty piece at the end). -/
theorem lines_unlines {ls : List Text} (h : ∀ l ∈ ls, '\n' ∉ l) : lines (unlines ls) = ls ++ [[]] := by
  induction ls with
  | nil => rfl
  | cons l ls ih =>
    have : unlines (l :: ls) = l ++ '\n' :: unlines ls := by simp [unlines]
    rw [this, lines_append_newline (h l (List.mem_cons_self ..)), ih fun x hx => h x (List.mem_cons_of_mem _ hx)]
    rfl

theorem entryLine_no_newline {pre : Text} (hp : '\n' ∉ pre) (w : ℕ) {e : Entry} (hk : '\n' ∉ e.1) (hv : '\n' ∉ e.2) :
    '\n' ∉ entryLine pre w e := by
  unfold entryLine
  split_ifs
  · exact hp
  · simp [hp, hk]
  · simp [hp, hk, hv]

theorem headerLines_no_newline {pre time : Text} (hp : '\n' ∉ pre) (ht : '\n' ∉ time) {ds : List (List Entry)}
    (h : ∀ d ∈ ds, ∀ e ∈ d, '\n' ∉ e.1 ∧ '\n' ∉ e.2) : ∀ l ∈ headerLines pre time ds, '\n' ∉ l := by
  intro l hl
  unfold headerLines at hl
  rcases List.mem_cons.1 hl with rfl | hl
  · simp [hp, ht]
  · obtain ⟨d, hd, hl⟩ := List.mem_flatMap.1 hl
    rcases List.mem_cons.1 hl with rfl | hl
    · simp
    · obtain ⟨e, he, rfl⟩ := List.mem_map.1 hl
      have hd' := List.takeWhile_subset _ hd
      exact entryLine_no_newline hp _ (h d hd' e he).1 (h d hd' e he).2

/-- **C52** (partial): with the default prefix, and as long as no key, value or description is problematic (no newline in
the texts, no empty description), every line of the header is a comment line, and the header consists of the line with
the time and then, in order, for every description a line `#` and one line per entry. Missing: other prefixes
(`writeHeader_prefix_wrong`), empty descriptions (`writeHeader_empty_wrong`), values with newlines
(`writeHeader_newline_wrong`). -/
theorem writeHeader_partial {time : Text} (ht : '\n' ∉ time) {ds : List (List Entry)} (hd : ∀ d ∈ ds, d ≠ [])
    (hn : ∀ d ∈ ds, ∀ e ∈ d, '\n' ∉ e.1 ∧ '\n' ∉ e.2) :
    ∃ ls, lines (writeHeader ['#'] time ds) = ls ++ [[]] ∧ (∀ l ∈ ls, Comment l) ∧
      ls.tail = ds.flatMap fun d => ['#'] :: d.map (entryLine ['#'] (maxKeyLen ds)) := by
  refine ⟨headerLines ['#'] time ds, ?_, ?_, ?_⟩
  · rw [writeHeader_eq, lines_unlines (headerLines_no_newline (by simp) ht hn)]
  · intro l hl
    have : ∃ r, l = '#' :: r := by
      unfold headerLines at hl
      rcases List.mem_cons.1 hl with rfl | hl
      · exact ⟨_, rfl⟩
      · obtain ⟨d, -, hl⟩ := List.mem_flatMap.1 hl
        rcases List.mem_cons.1 hl with rfl | hl
        · exact ⟨_, rfl⟩
        · obtain ⟨e, -, rfl⟩ := List.mem_map.1 hl
          unfold entryLine
          split_ifs <;> exact ⟨_, rfl⟩
    obtain ⟨r, rfl⟩ := this
    exact ⟨[], r, rfl, by intro c hc; simp at hc⟩
  · unfold headerLines
    rw [List.tail_cons, takeWhile_all fun d hd' => by simpa using hd d hd']

example : ∃ (time : Text) (ds : List (List Entry)), '\n' ∉ time ∧ ds.length = 2 ∧ (∀ d ∈ ds, d ≠ []) ∧
    (∀ d ∈ ds, ∀ e ∈ d, '\n' ∉ e.1 ∧ '\n' ∉ e.2) :=
  ⟨['t'], [[(['k'], ['v'])], [(['l'], [])]], by decide, rfl, by decide, by decide⟩

/-- **C52** (refutation): a value that contains a newline puts a line of data into the header. -/
theorem writeHeader_newline_wrong (time : Text) (ht : '\n' ∉ time) :
    ∃ l ∈ lines (writeHeader ['#'] time [[(['k'], ['a', '\n', '5'])]]), IsData l := by
  refine ⟨['5'], ?_, ?_⟩
  · have : writeHeader ['#'] time [[(['k'], ['a', '\n', '5'])]] =
        (['#', ' ', 'C', 'r', 'e', 'a', 't', 'e', 'd', ':'] ++ time) ++ '\n' ::
          (['#'] ++ '\n' :: (['#', ' ', 'k', ':', ' ', 'a'] ++ '\n' :: (['5'] ++ '\n' :: []))) := by
      simp [writeHeader, maxKeyLen, spaces, headerBody, headerEntry]
    rw [this, lines_append_newline (by simp [ht]), lines_append_newline (by decide), lines_append_newline (by decide),
      lines_append_newline (by decide)]
    simp
  · constructor
    · intro h; exact absurd (h '5' (by simp)) (by decide)
    · rintro ⟨ws, r, h, hb⟩
      cases ws with
      | nil => simp at h
      | cons w ws => simp at h

/-- **C52**: the keys with a value are no longer than the column, so the values of all entries start in the same column. -/
theorem maxKeyLen_le (ds : List (List Entry)) {d : List Entry} {e : Entry} (hd : d ∈ ds) (he : e ∈ d) (hv : e.2 ≠ []) :
    e.1.length ≤ maxKeyLen ds := by
  unfold maxKeyLen
  have inner_mono : ∀ (d : List Entry) (m : ℕ), m ≤ d.foldl (fun m e => if e.2 = [] then m else max m e.1.length) m := by
    intro d
    induction d with
    | nil => intro m; exact le_rfl
    | cons x d ih =>
      intro m
      refine le_trans ?_ (ih _)
      dsimp only
      split_ifs
      · exact le_rfl
      · exact le_max_left _ _
  have inner : ∀ (d : List Entry) (m : ℕ), e ∈ d →
      e.1.length ≤ d.foldl (fun m e => if e.2 = [] then m else max m e.1.length) m := by
    intro d
    induction d with
    | nil => intro m h; simp at h
    | cons x d ih =>
      intro m h
      rcases List.mem_cons.1 h with rfl | h
      · rw [List.foldl_cons, if_neg hv]
        exact le_trans (le_max_right _ _) (inner_mono d _)
      · exact ih _ h
  have outer_mono : ∀ (ds : List (List Entry)) (m : ℕ),
      m ≤ ds.foldl (fun m d => d.foldl (fun m e => if e.2 = [] then m else max m e.1.length) m) m := by
    intro ds
    induction ds with
    | nil => intro m; exact le_rfl
    | cons x ds ih => intro m; exact le_trans (inner_mono x m) (ih _)
  have outer : ∀ (ds : List (List Entry)) (m : ℕ), d ∈ ds →
      e.1.length ≤ ds.foldl (fun m d => d.foldl (fun m e => if e.2 = [] then m else max m e.1.length) m) m := by
    intro ds
    induction ds with
    | nil => intro m h; simp at h
    | cons x ds ih =>
      intro m h
      rcases List.mem_cons.1 h with rfl | h
      · rw [List.foldl_cons]; exact le_trans (inner d m he) (outer_mono ds _)
      · exact ih _ h
  exact outer ds 0 hd

/-- **C52** (refutation): whatever the prefix, a separating line `#` is written before every description; so for a prefix
such as `%` there is a line that is not commented out. -/
theorem writeHeader_prefix_wrong (pre time : Text) (d : List Entry) (ds : List (List Entry)) (hd : d ≠ [])
    (hp : ¬ pre <+: ['#']) :
    ∃ ls, writeHeader pre time (d :: ds) = unlines ls ∧ ∃ l ∈ ls, ¬ pre <+: l := by
  refine ⟨_, writeHeader_eq _ _ _, ['#'], ?_, hp⟩
  unfold headerLines
  rw [List.takeWhile_cons_of_pos (by simp [hd]), List.flatMap_cons]
  simp

/-- **C52** (refutation): everything behind an empty description is dropped silently. -/
theorem writeHeader_empty_wrong (pre time : Text) (ds ds' : List (List Entry)) (w : maxKeyLen (ds ++ [] :: ds') = maxKeyLen ds) :
    writeHeader pre time (ds ++ [] :: ds') = writeHeader pre time ds := by
  rw [writeHeader_eq, writeHeader_eq]
  unfold headerLines
  rw [w]
  congr 3
  induction ds with
  | nil => simp
  | cons d ds ih =>
    rw [List.cons_append]
    by_cases hd : d = []
    · rw [List.takeWhile_cons_of_neg (by simp [hd]), List.takeWhile_cons_of_neg (by simp [hd])]
    · rw [List.takeWhile_cons_of_pos (by simp [hd]), List.takeWhile_cons_of_pos (by simp [hd])]
      have : ∀ ds : List (List Entry), (ds ++ [] :: ds').takeWhile (· ≠ []) = ds.takeWhile (· ≠ []) := by
        intro ds
        induction ds with
        | nil => simp
        | cons x ds ih => simp only [List.cons_append, List.takeWhile_cons]; rw [ih]
      rw [this]

example : writeHeader ['%'] ['t'] [[(['k'], ['v'])]] =
    ['%', ' ', 'C', 'r', 'e', 'a', 't', 'e', 'd', ':', 't', '\n', '#', '\n', '%', ' ', 'k', ':', ' ', 'v', '\n'] := by decide

end Ieompp.IO
