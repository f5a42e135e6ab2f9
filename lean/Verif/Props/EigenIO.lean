import Verif.Model.EigenIO
import Verif.Props.Print

/-!
# C51: reading triplet lists and sparse matrices back
-/

set_option autoImplicit false
set_option linter.unusedSectionVars false

namespace Ieompp.IO

open Ieompp.Spec

variable {V : Type*}

/-! ## Triplet lists -/

theorem getline_good {s : InStream} (b : List Char) (h : s.good = true) :
    (getline s b).1.rest.length < s.rest.length ∨ (getline s b).1.good = false := by
  unfold getline
  rw [if_pos h]
  cases hd : s.rest.dropWhile (· ≠ '\n') with
  | nil => right; rfl
  | cons c r =>
    left
    have : (s.rest.dropWhile (· ≠ '\n')).length ≤ s.rest.length := (List.dropWhile_sublist _).length_le
    rw [hd] at this
    simp at this ⊢
    omega

theorem scan_terminates (n : ℕ) : ∀ c : Scan, (c.strm.good = true → c.strm.rest.length ≤ n) → (c.strm.good = false → c.eof = true) →
    ∃ c', whileLoop (fun c : Scan => ¬ c.eof) scanBody c = .val c' := by
  induction n with
  | zero =>
    intro c h1 h2
    by_cases he : c.eof = true
    · exact ⟨c, (whileLoop_eq _ _ _).2 (by simp [he])⟩
    · have hg : c.strm.good = true := by
        by_contra hg; exact he (h2 (by simpa using hg))
      rw [(whileLoop_eq (fun c : Scan => ¬ c.eof) scanBody c).1 he]
      have hb : (scanBody c).eof = true := by
        rcases getline_good c.buf hg with h | h
        · have := h1 hg; omega
        · simp [scanBody, hg, h]
      exact ⟨_, (whileLoop_eq _ _ _).2 (by simp [hb])⟩
  | succ n ih =>
    intro c h1 h2
    by_cases he : c.eof = true
    · exact ⟨c, (whileLoop_eq _ _ _).2 (by simp [he])⟩
    · have hg : c.strm.good = true := by
        by_contra hg; exact he (h2 (by simpa using hg))
      rw [(whileLoop_eq (fun c : Scan => ¬ c.eof) scanBody c).1 he]
      apply ih
      · intro hg'
        rcases getline_good c.buf hg with h | h
        · have := h1 hg
          show (getline c.strm c.buf).1.rest.length ≤ n
          omega
        · have : (getline c.strm c.buf).1.good = true := hg'
          rw [h] at this; cases this
      · intro hg'
        have hg' : (getline c.strm c.buf).1.good = false := hg'
        simp [scanBody, hg, hg']

/-- **C51** (refutation for triplet lists): whatever an opened file contains, `read_triplet_list` returns and leaves the list
as it was. -/
theorem readTripletList_noop (content : List Char) (list : List (ℕ × ℕ × V)) (binary : Bool) :
    readTripletList ⟨content, true⟩ false list binary = .val list := by
  unfold readTripletList
  cases binary with
  | true => rfl
  | false =>
    obtain ⟨c', h⟩ := scan_terminates content.length (scanBody ⟨⟨content, true⟩, false, []⟩) (by
        intro hg'
        rcases getline_good (s := ⟨content, true⟩) [] rfl with h | h
        · exact h.le
        · have : (getline ⟨content, true⟩ []).1.good = true := hg'
          rw [h] at this; cases this) (by
        intro hg'
        have hg' : (getline ⟨content, true⟩ []).1.good = false := hg'
        simp [scanBody, hg'])
    rw [if_neg (by simp), h]; rfl

/-- **C51** (refutation for triplet lists): reading a written list into an empty one gives the empty list; so only the empty
list is read back. -/
theorem tripletList_roundtrip_wrong (shw : V → List Char) (list : List (ℕ × ℕ × V)) (binary : Bool) :
    readTripletList ⟨writeTripletList shw list binary, true⟩ false [] binary = .val list ↔ list = [] := by
  rw [readTripletList_noop]
  constructor
  · intro h; cases h; rfl
  · rintro rfl; rfl

/-- **C51**: what `write_triplet_list` writes as text: the number of elements, then one line per element. -/
theorem writeTripletList_lines (shw : V → List Char) (hshw : ∀ v, '\n' ∉ shw v) (list : List (ℕ × ℕ × V)) :
    lines (writeTripletList shw list false) = Nat.toDigits 10 list.length ::
      (list.map fun e => Nat.toDigits 10 e.1 ++ '\t' :: (Nat.toDigits 10 e.2.1 ++ '\t' :: shw e.2.2)) ++ [[]] := by
  have hd : ∀ n, '\n' ∉ Nat.toDigits 10 n := fun n hm => by
    have := printNat_isDigit (n := n) hm
    revert this; decide
  have he : (list.map (elementText shw)).flatten =
      unlines (list.map fun e => Nat.toDigits 10 e.1 ++ '\t' :: (Nat.toDigits 10 e.2.1 ++ '\t' :: shw e.2.2)) := by
    unfold unlines
    rw [List.map_map]
    congr 1
    apply List.map_congr_left
    intro e _
    simp [elementText]
  unfold writeTripletList
  rw [if_neg (by simp), lines_append_newline (hd _), he, lines_unlines]
  · rfl
  · intro l hl
    obtain ⟨e, -, rfl⟩ := List.mem_map.1 hl
    simp [hd, hshw]

/-- **C51** (refutation of termination): on a stream that could not be opened (fail bit without eof bit) the call never
returns. -/
theorem readTripletList_diverges (content : List Char) (list : List (ℕ × ℕ × V)) :
    readTripletList ⟨content, false⟩ false list false = .diverges := by
  unfold readTripletList
  rw [if_neg (by simp), whileLoop_diverges]
  · rfl
  · intro n
    have hb : ∀ c : Scan, c.strm.good = false → c.eof = false → (scanBody c).strm.good = false ∧ (scanBody c).eof = false := by
      intro c h1 h2
      simp [scanBody, getline, h1, h2]
    have : ∀ n, ((scanBody^[n] (scanBody ⟨⟨content, false⟩, false, []⟩)).strm.good = false ∧
        (scanBody^[n] (scanBody ⟨⟨content, false⟩, false, []⟩)).eof = false) := by
      intro n
      induction n with
      | zero => exact hb _ rfl rfl
      | succ n ih =>
        rw [Function.iterate_succ_apply']
        exact hb _ ih.1 ih.2
    simp [(this n).2]

/-! ## Sparse matrices: what is written cannot be read -/

theorem dimension_shape {s : List Char} (h : Matches dimensionRegex s) :
    ∃ w1 d1 w2 w3 d2 w4, s = w1 ++ (d1 ++ (w2 ++ 'x' :: (w3 ++ (d2 ++ w4)))) ∧ (∀ c ∈ w1, isSpace c) ∧ (∀ c ∈ d1, c.isDigit) ∧
      d1 ≠ [] ∧ (∀ c ∈ w2, isSpace c) ∧ (∀ c ∈ w3, isSpace c) ∧ (∀ c ∈ d2, c.isDigit) ∧ d2 ≠ [] ∧ ∀ c ∈ w4, isSpace c := by
  unfold dimensionRegex at h
  cases h with
  | seq h1 h =>
    cases h with
    | seq h2 h =>
      cases h2 with
      | cls h2 =>
        cases h with
        | seq h3 h =>
          cases h with
          | seq h4 h =>
            cases h with
            | seq h5 h =>
              cases h5 with
              | cls h5 =>
                subst h5
                cases h with
                | seq h6 h =>
                  cases h with
                  | seq h7 h =>
                    cases h7 with
                    | cls h7 =>
                      cases h with
                      | seq h8 h9 =>
                        rw [matches_star_cls] at h1 h3 h4 h6 h8 h9
                        rename_i w1 d d1 w2 w3 e d2 w4
                        refine ⟨w1, d :: d1, w2, w3, e :: d2, w4, ?_, h1, ?_, by simp, h4, h6, ?_, by simp, h9⟩
                        · simp
                        · intro c hc
                          rcases List.mem_cons.1 hc with rfl | hc
                          · exact h2
                          · exact h3 c hc
                        · intro c hc
                          rcases List.mem_cons.1 hc with rfl | hc
                          · exact h7
                          · exact h8 c hc

theorem digit_not_space {c : Char} (h : c.isDigit) : ¬ isSpace c := by
  unfold isSpace
  rintro (rfl | rfl | rfl | rfl | rfl | rfl) <;> revert h <;> decide

/-- Splitting at the first character outside of a class is unique. -/
theorem span_unique {α : Type*} {P : α → Prop} {a b : List α} {x y : α} {c d : List α} (ha : ∀ z ∈ a, P z) (hb : ∀ z ∈ b, P z)
    (hx : ¬ P x) (hy : ¬ P y) (h : a ++ x :: c = b ++ y :: d) : a = b ∧ x = y ∧ c = d := by
  induction a generalizing b with
  | nil =>
    cases b with
    | nil => simpa using h
    | cons z b =>
      simp only [List.nil_append, List.cons_append, List.cons.injEq] at h
      exact absurd (h.1 ▸ hb z (List.mem_cons_self ..)) hx
  | cons w a ih =>
    cases b with
    | nil =>
      simp only [List.nil_append, List.cons_append, List.cons.injEq] at h
      exact absurd (h.1 ▸ ha w (List.mem_cons_self ..)) hy
    | cons z b =>
      simp only [List.cons_append, List.cons.injEq] at h
      obtain ⟨e1, e2, e3⟩ := ih (fun z hz => ha z (List.mem_cons_of_mem _ hz)) (fun z hz => hb z (List.mem_cons_of_mem _ hz)) h.2
      exact ⟨by rw [h.1, e1], e2, e3⟩

/-- The line of an element is neither skipped nor a line of dimensions. -/
theorem elementLine_no_dimension (i j : ℕ) (r : List Char) :
    ¬ isSkippableLine (Nat.toDigits 10 i ++ '\t' :: (Nat.toDigits 10 j ++ '\t' :: r)) ∧
    ¬ Matches dimensionRegex (Nat.toDigits 10 i ++ '\t' :: (Nat.toDigits 10 j ++ '\t' :: r)) := by
  have hne : ∀ n, Nat.toDigits 10 n ≠ [] := fun n h => by
    have := congrArg List.length h
    have h2 := Nat.length_toDigits_pos (b := 10) (n := n)
    simp at this
  have hdig : ∀ n, ∀ c ∈ Nat.toDigits 10 n, c.isDigit := fun n c h => printNat_isDigit h
  obtain ⟨a, as, ha⟩ := List.exists_cons_of_ne_nil (hne i)
  have had : a.isDigit := hdig i a (by rw [ha]; exact List.mem_cons_self ..)
  constructor
  · rw [isSkippableLine_iff]
    rintro (h | ⟨ws, q, h, hw, -⟩)
    · have := h a (by rw [ha]; simp)
      exact digit_not_space had ((isSpace_iff a).2 this)
    · rw [ha] at h
      cases ws with
      | nil =>
        simp only [List.nil_append, List.cons_append, List.cons.injEq] at h
        rw [h.1] at had; revert had; decide
      | cons w ws =>
        simp only [List.cons_append, List.cons.injEq] at h
        have := hw w (List.mem_cons_self ..)
        rw [← h.1] at this
        exact digit_not_space had ((isSpace_iff a).2 this)
  · intro h
    obtain ⟨w1, d1, w2, w3, d2, w4, e, hw1, hd1, hd1n, hw2, -⟩ := dimension_shape h
    cases w1 with
    | cons w w1 =>
      rw [ha] at e
      simp only [List.cons_append, List.cons.injEq] at e
      exact digit_not_space had (e.1 ▸ hw1 w (List.mem_cons_self ..))
    | nil =>
      rw [List.nil_append] at e
      cases w2 with
      | nil =>
        rw [List.nil_append] at e
        have := span_unique (P := fun c : Char => c.isDigit) (hdig i) hd1 (by decide) (by decide) e
        exact absurd this.2.1 (by decide)
      | cons w w2 =>
        rw [List.cons_append] at e
        obtain ⟨-, -, e3⟩ := span_unique (P := fun c : Char => c.isDigit) (hdig i) hd1 (by decide)
          (fun hc => digit_not_space hc (hw2 w (List.mem_cons_self ..))) e
        obtain ⟨b, bs, hb⟩ := List.exists_cons_of_ne_nil (hne j)
        have hbd : b.isDigit := hdig j b (by rw [hb]; exact List.mem_cons_self ..)
        rw [hb] at e3
        cases w2 with
        | nil =>
          simp only [List.nil_append, List.cons_append, List.cons.injEq] at e3
          rw [e3.1] at hbd; revert hbd; decide
        | cons w' w2 =>
          simp only [List.cons_append, List.cons.injEq] at e3
          exact digit_not_space hbd (e3.1 ▸ hw2 w' (by simp))

/-- **C51** (refutation for sparse matrices): reading the file of any matrix with at least one stored element throws, and
reading the file of a matrix without stored elements never ends. In particular no matrix at all is read back. -/
theorem matrix_roundtrip_wrong (shw : V → List Char) (hshw : ∀ v, '\n' ∉ shw v) (parse : List Char → Option (ℕ × ℕ × V))
    (m : SpMatrix V) :
    readMatrix parse ⟨writeMatrix shw m, true⟩ = if m.elements = [] then .diverges else .val none := by
  have hd : ∀ n, '\n' ∉ Nat.toDigits 10 n := fun n hm => by
    have := printNat_isDigit (n := n) hm
    revert this; decide
  unfold readMatrix writeMatrix
  cases he : m.elements with
  | nil =>
    rw [if_pos rfl, nextLine_diverges]
    · rfl
    · intro x hx
      simp [pending, lines] at hx
      subst hx
      exact (isSkippableLine_iff []).2 (Or.inl fun c hc => by simp at hc)
  | cons e es =>
    rw [if_neg (by simp)]
    have h1 : lines (((e :: es).map (elementText shw)).flatten) =
        (Nat.toDigits 10 e.1 ++ '\t' :: (Nat.toDigits 10 e.2.1 ++ '\t' :: shw e.2.2)) :: lines ((es.map (elementText shw)).flatten) := by
      have : ((e :: es).map (elementText shw)).flatten =
          (Nat.toDigits 10 e.1 ++ '\t' :: (Nat.toDigits 10 e.2.1 ++ '\t' :: shw e.2.2)) ++ '\n' :: (es.map (elementText shw)).flatten := by
        simp [elementText]
      rw [this, lines_append_newline (by simp [hd, hshw])]
    obtain ⟨hs, hm⟩ := elementLine_no_dimension e.1 e.2.1 (shw e.2.2)
    obtain ⟨s', h2, -⟩ := nextLine_found (s := ⟨((e :: es).map (elementText shw)).flatten, true⟩) (skip := [])
      (by simpa [pending] using h1) (by simp) hs
    rw [h2, Res.bind_val, if_pos hm]

/-! ## Sparse matrices: which files are read correctly -/

/-- The stored value at a position. -/
def SpMatrix.at? (m : SpMatrix V) (i j : ℕ) : Option V := ((m.column j).find? fun e => e.1 = i).map (·.2)

theorem SpMatrix.insert_at {m : SpMatrix V} {i j : ℕ} (hi : i < m.rows) (hj : j < m.cols) (hn : m.at? i j = none) (v : V) :
    ∃ m', m.insert i j v = .val m' ∧ m'.rows = m.rows ∧ m'.cols = m.cols ∧
      ∀ i' j', m'.at? i' j' = if i' = i ∧ j' = j then some v else m.at? i' j' := by
  have hne : ∀ e ∈ m.column j, e.1 ≠ i := by
    intro e he
    unfold SpMatrix.at? at hn
    rw [Option.map_eq_none_iff, List.find?_eq_none] at hn
    simpa using hn e he
  unfold SpMatrix.insert
  rw [if_pos ⟨hi, hj, hne⟩]
  refine ⟨_, rfl, rfl, rfl, ?_⟩
  intro i' j'
  unfold SpMatrix.at?
  dsimp only
  by_cases hj' : j' = j
  · subst hj'
    rw [if_pos rfl, List.find?_append, List.find?_cons]
    by_cases hi' : i' = i
    · subst hi'
      rw [if_pos ⟨rfl, rfl⟩]
      have : ((m.column j').takeWhile fun e => decide (e.1 < i')).find? (fun e => decide (e.1 = i')) = none := by
        rw [List.find?_eq_none]
        intro e he
        simpa using hne e (List.takeWhile_subset _ he)
      rw [this]; simp
    · have e : ¬ (i = i') := fun h => hi' h.symm
      rw [if_neg (fun h => hi' h.1)]
      simp only [e, decide_false]
      rw [← List.find?_append, List.takeWhile_append_dropWhile]
  · rw [if_neg hj', if_neg (fun h => hj' h.2)]

open Classical in
/-- The data lines of a stream, i.e. the lines that are not skipped. -/
noncomputable def dataLines (s : InStream) : List (List Char) := (pending s).filter fun l => ¬ isSkippableLine l

theorem nextLine_data {s : InStream} {l : List Char} {ls : List (List Char)} (h : dataLines s = l :: ls) :
    ∃ s', nextLine s = .val (s', l) ∧ dataLines s' = ls := by
  classical
  unfold dataLines at h ⊢
  have hex : ∃ x ∈ pending s, ¬ isSkippableLine x := by
    have : l ∈ (pending s).filter fun l => ¬ isSkippableLine l := by rw [h]; exact List.mem_cons_self ..
    rw [List.mem_filter] at this
    exact ⟨l, this.1, by simpa using this.2⟩
  obtain ⟨a, y, ys, e, ha, hy⟩ := exists_first _ _ hex
  obtain ⟨s', h1, h2⟩ := nextLine_found e ha hy
  have hfa : a.filter (fun l => decide (¬ isSkippableLine l)) = [] := by
    rw [List.filter_eq_nil_iff]; intro x hx; simpa using ha x hx
  rw [e, List.filter_append, hfa, List.nil_append, List.filter_cons_of_pos (by simpa using hy)] at h
  injection h with h3 h4
  subst h3
  exact ⟨s', h1, by rw [h2]; exact h4⟩

theorem nextLine_data_nil {s : InStream} (h : dataLines s = []) : nextLine s = .diverges := by
  classical
  apply nextLine_diverges
  unfold dataLines at h
  rw [List.filter_eq_nil_iff] at h
  intro x hx; simpa using h x hx

/-- The value that a list of elements gives to a position. -/
def lookup (es : List (ℕ × ℕ × V)) (i j : ℕ) : Option V := (es.find? fun e => e.1 = i ∧ e.2.1 = j).map (·.2.2)

theorem readElements_ok {parse : List Char → Option (ℕ × ℕ × V)} (es : List (ℕ × ℕ × V)) : ∀ (s : InStream) (m : SpMatrix V)
    (rows extra : List (List Char)), rows.map parse = es.map some → dataLines s = rows ++ extra →
    (∀ e ∈ es, e.1 < m.rows ∧ e.2.1 < m.cols ∧ m.at? e.1 e.2.1 = none) → es.Pairwise (fun a b => ¬ (a.1 = b.1 ∧ a.2.1 = b.2.1)) →
    ∃ m', readElements parse es.length s m = .val m' ∧ m'.rows = m.rows ∧ m'.cols = m.cols ∧
      ∀ i j, m'.at? i j = (lookup es i j).or (m.at? i j) := by
  induction es with
  | nil => intro s m rows extra _ _ _ _; exact ⟨m, rfl, rfl, rfl, fun i j => by simp [lookup]⟩
  | cons e es ih =>
    intro s m rows extra hp hd hr hpw
    cases rows with
    | nil => simp at hp
    | cons r rows =>
      simp only [List.map_cons, List.cons.injEq] at hp
      obtain ⟨s', h1, h2⟩ := nextLine_data (s := s) (by rw [hd]; rfl)
      obtain ⟨hi, hj, hn⟩ := hr e (List.mem_cons_self ..)
      obtain ⟨m1, e1, er, ec, ea⟩ := SpMatrix.insert_at hi hj hn e.2.2
      rw [List.pairwise_cons] at hpw
      obtain ⟨m', e2, er', ec', ea'⟩ := ih s' m1 rows extra hp.2 h2 (by
        intro x hx
        obtain ⟨a1, a2, a3⟩ := hr x (List.mem_cons_of_mem _ hx)
        rw [er, ec, ea, if_neg (fun h => hpw.1 x hx ⟨h.1.symm, h.2.symm⟩)]
        exact ⟨a1, a2, a3⟩) hpw.2
      refine ⟨m', ?_, by rw [er', er], by rw [ec', ec], ?_⟩
      · rw [List.length_cons, readElements, h1, Res.bind_val]
        simp only [hp.1, e1, Res.bind_val]
        exact e2
      · intro i j
        rw [ea', ea]
        unfold lookup
        rw [List.find?_cons]
        by_cases h : i = e.1 ∧ j = e.2.1
        · obtain ⟨rfl, rfl⟩ := h
          have : es.find? (fun x => decide (x.1 = e.1 ∧ x.2.1 = e.2.1)) = none := by
            rw [List.find?_eq_none]
            intro x hx
            have := hpw.1 x hx
            simp only [decide_eq_true_eq]
            exact fun h => this ⟨h.1.symm, h.2.symm⟩
          rw [this]; simp
        · have h' : ¬ (e.1 = i ∧ e.2.1 = j) := fun h' => h ⟨h'.1.symm, h'.2.symm⟩
          rw [if_neg h]
          simp only [h', decide_false]

theorem strtoul_digits (n : ℕ) (r : List Char) (hr : ∀ c, r.head? = some c → ¬ c.isDigit) : strtoul (Nat.toDigits 10 n ++ r) = n := by
  classical
  have hdig : ∀ c ∈ Nat.toDigits 10 n, c.isDigit := fun c h => printNat_isDigit h
  unfold strtoul
  have hpos := Nat.length_toDigits_pos (b := 10) (n := n)
  obtain ⟨a, as, ha⟩ := List.exists_cons_of_ne_nil (l := Nat.toDigits 10 n) (by intro h; rw [h] at hpos; simp at hpos)
  have hsp : ¬ isSpace a := digit_not_space (hdig a (by rw [ha]; exact List.mem_cons_self ..))
  have h1 : (Nat.toDigits 10 n ++ r).dropWhile (fun c => decide (isSpace c)) = Nat.toDigits 10 n ++ r := by
    rw [ha, List.cons_append, List.dropWhile_cons_of_neg (by simpa using hsp)]
  rw [h1]
  have h2 : (Nat.toDigits 10 n ++ r).takeWhile Char.isDigit = Nat.toDigits 10 n := by
    rw [List.takeWhile_append_of_pos hdig]
    cases r with
    | nil => simp
    | cons c r => rw [List.takeWhile_cons_of_neg (by simpa using hr c rfl), List.append_nil]
  rw [h2, Nat.ofDigitChars_ten_toDigits]

/-- **C51** (partial): a file with the data lines `RxC`, the number of elements, and one line per element (comments and blank
lines anywhere) is read correctly, for every shape and all elements at different positions within the shape. Missing:
`write_matrix` does not write the first two of these lines (`matrix_roundtrip_wrong`). -/
theorem readMatrix_wellformed_partial (parse : List Char → Option (ℕ × ℕ × V)) (content : List Char) (R C : ℕ)
    (es : List (ℕ × ℕ × V)) (rows extra : List (List Char))
    (hdata : dataLines ⟨content, true⟩ =
      (Nat.toDigits 10 R ++ 'x' :: Nat.toDigits 10 C) :: Nat.toDigits 10 es.length :: (rows ++ extra))
    (hparse : rows.map parse = es.map some) (hrange : ∀ e ∈ es, e.1 < R ∧ e.2.1 < C)
    (hdistinct : es.Pairwise fun a b => ¬ (a.1 = b.1 ∧ a.2.1 = b.2.1)) :
    ∃ m, readMatrix parse ⟨content, true⟩ = .val (some m) ∧ m.rows = R ∧ m.cols = C ∧ ∀ i j, m.at? i j = lookup es i j := by
  have hdig : ∀ n, ∀ c ∈ Nat.toDigits 10 n, c.isDigit := fun n c h => printNat_isDigit h
  have hcons : ∀ n, ∃ a as, Nat.toDigits 10 n = a :: as := fun n => by
    have hpos := Nat.length_toDigits_pos (b := 10) (n := n)
    exact List.exists_cons_of_ne_nil (by intro h; rw [h] at hpos; simp at hpos)
  obtain ⟨s1, h1, d1⟩ := nextLine_data hdata
  obtain ⟨s2, h2, d2⟩ := nextLine_data d1
  have hm : Matches dimensionRegex (Nat.toDigits 10 R ++ 'x' :: Nat.toDigits 10 C) := by
    obtain ⟨a, as, ha⟩ := hcons R
    obtain ⟨b, bs, hb⟩ := hcons C
    have e : Nat.toDigits 10 R ++ 'x' :: Nat.toDigits 10 C = [] ++ ([a] ++ (as ++ ([] ++ (['x'] ++ ([] ++ ([b] ++ (bs ++ []))))))) := by
      rw [ha, hb]; simp
    rw [e]
    refine .seq .starNil (.seq (.cls ?_) (.seq ?_ (.seq .starNil (.seq (.cls rfl) (.seq .starNil (.seq (.cls ?_) (.seq ?_ .starNil)))))))
    · exact hdig R a (by rw [ha]; exact List.mem_cons_self ..)
    · exact (matches_star_cls _ _).2 fun c hc => hdig R c (by rw [ha]; exact List.mem_cons_of_mem _ hc)
    · exact hdig C b (by rw [hb]; exact List.mem_cons_self ..)
    · exact (matches_star_cls _ _).2 fun c hc => hdig C c (by rw [hb]; exact List.mem_cons_of_mem _ hc)
  have hR : strtoul (Nat.toDigits 10 R ++ 'x' :: Nat.toDigits 10 C) = R := strtoul_digits R _ (by
    intro c hc; simp at hc; subst hc; decide)
  have hC : strtoul (secondGroup (Nat.toDigits 10 R ++ 'x' :: Nat.toDigits 10 C)) = C := by
    have : secondGroup (Nat.toDigits 10 R ++ 'x' :: Nat.toDigits 10 C) = Nat.toDigits 10 C := by
      unfold secondGroup
      rw [List.dropWhile_append_of_pos]
      · simp
      · intro c hc
        have := hdig R c hc
        simp only [ne_eq, decide_not, Bool.not_eq_eq_eq_not, Bool.not_true, decide_eq_false_iff_not]
        rintro rfl; revert this; decide
    rw [this]
    have := strtoul_digits C [] (by simp)
    rwa [List.append_nil] at this
  have hn : strtoul (Nat.toDigits 10 es.length) = es.length := by
    have := strtoul_digits es.length [] (by simp)
    rwa [List.append_nil] at this
  obtain ⟨m, e, er, ec, ea⟩ := readElements_ok es s2 (.empty R C) rows extra hparse d2 (fun x hx =>
    ⟨(hrange x hx).1, (hrange x hx).2, rfl⟩) hdistinct
  refine ⟨m, ?_, er, ec, fun i j => ?_⟩
  · unfold readMatrix
    rw [h1, Res.bind_val, if_neg (by simpa using hm), h2, Res.bind_val, hR, hC, hn, e]
    rfl
  · rw [ea]; simp [SpMatrix.at?, SpMatrix.empty]

/-- A file with fewer element lines than announced: the call never ends. -/
theorem readElements_short {parse : List Char → Option (ℕ × ℕ × V)} {s : InStream} {m : SpMatrix V} (h : dataLines s = []) (n : ℕ) :
    readElements parse (n + 1) s m = .diverges := by
  rw [readElements, nextLine_data_nil h]; rfl

end Ieompp.IO
