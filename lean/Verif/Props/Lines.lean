import Verif.Model.Lines
import Verif.Spec.Lines
import Mathlib.Tactic.Common
import Mathlib.Data.List.Basic
import Mathlib.Data.Nat.Basic

/-!
# C47, C48: lines, `next_line`, `clean_output_file`
-/

set_option autoImplicit false
set_option linter.unusedSectionVars false

namespace Ieompp.IO

open Ieompp.Spec

/-! ## Regular expressions -/

theorem matches_star_cls (p : Char → Prop) (s : List Char) : Matches (.star (.cls p)) s ↔ ∀ c ∈ s, p c := by
  constructor
  · intro h
    generalize hr : Regex.star (.cls p) = r at h
    induction h with
    | cls => cases hr
    | seq => cases hr
    | optNone => cases hr
    | optSome => cases hr
    | starNil => simp
    | starCons h1 h2 _ ih =>
      cases hr
      cases h1 with
      | cls hp =>
        intro c hc
        rcases List.mem_cons.1 hc with rfl | hc
        · exact hp
        · exact ih rfl c hc
  · intro h
    induction s with
    | nil => exact .starNil
    | cons c s ih =>
      exact Matches.starCons (s := [c]) (.cls (h c (List.mem_cons_self ..)))
        (ih fun d hd => h d (List.mem_cons_of_mem _ hd))

theorem isSpace_iff (c : Char) : isSpace c ↔ c ∈ whitespace := by
  unfold isSpace whitespace
  simp

/-- **C48**: exactly which lines are skipped: white space, or white space followed by `#` and characters other than line
terminators. -/
theorem isSkippableLine_iff (s : List Char) :
    isSkippableLine s ↔ Blank s ∨ ∃ ws r, s = ws ++ '#' :: r ∧ Blank ws ∧ ∀ c ∈ r, c ≠ '\n' ∧ c ≠ '\r' := by
  unfold isSkippableLine skippableRegex
  constructor
  · intro h
    cases h with
    | seq h1 h2 =>
      rename_i s t
      rw [matches_star_cls] at h1
      have hs : Blank s := fun c hc => (isSpace_iff c).1 (h1 c hc)
      cases h2 with
      | optNone => left; simpa using hs
      | optSome h2 =>
        cases h2 with
        | seq h3 h4 =>
          rename_i a b
          cases h3 with
          | cls hp =>
            subst hp
            rw [matches_star_cls] at h4
            exact Or.inr ⟨s, b, rfl, hs, h4⟩
  · rintro (h | ⟨ws, r, rfl, hw, hr⟩)
    · have := Matches.seq (b := .opt (.seq (.cls (· = '#')) (.star (.cls isDot))))
        ((matches_star_cls isSpace s).2 fun c hc => (isSpace_iff c).2 (h c hc)) .optNone
      simpa using this
    · refine Matches.seq ((matches_star_cls isSpace ws).2 fun c hc => (isSpace_iff c).2 (hw c hc)) (.optSome ?_)
      exact Matches.seq (s := ['#']) (.cls rfl) ((matches_star_cls isDot r).2 hr)

/-- **C48** (partial): on lines without carriage returns and newlines (`getline` removes the latter), exactly the blank
and the comment lines are skipped. Missing: lines containing a carriage return, see `isSkippableLine_crlf_wrong`. -/
theorem isSkippableLine_partial {s : List Char} (h : ∀ c ∈ s, c ≠ '\n' ∧ c ≠ '\r') :
    isSkippableLine s ↔ ¬ IsData s := by
  rw [isSkippableLine_iff]
  unfold IsData Comment
  rw [not_and_or, not_not, not_not]
  refine or_congr_right ?_
  constructor
  · rintro ⟨ws, r, e, hw, -⟩; exact ⟨ws, r, e, hw⟩
  · rintro ⟨ws, r, rfl, hw⟩
    exact ⟨ws, r, rfl, hw, fun c hc => h c (List.mem_append_right _ (List.mem_cons_of_mem _ hc))⟩

/-- **C48** (refutation): a comment line of a file with Windows line endings is taken for data, because `.` does not match
the carriage return. -/
theorem isSkippableLine_crlf_wrong (s : List Char) (h : ∀ c ∈ s, c ≠ '#') :
    Comment ('#' :: s ++ ['\r']) ∧ ¬ isSkippableLine ('#' :: s ++ ['\r']) := by
  refine ⟨⟨[], s ++ ['\r'], rfl, fun c hc => by simp at hc⟩, ?_⟩
  rw [isSkippableLine_iff]
  rintro (hb | ⟨ws, r, e, hw, hr⟩)
  · have := hb '#' (by simp)
    revert this; decide
  · cases ws with
    | nil =>
      simp only [List.cons_append, List.nil_append, List.cons.injEq, true_and] at e
      exact (hr '\r' (by rw [← e]; simp)).2 rfl
    | cons w ws =>
      simp only [List.cons_append, List.cons.injEq] at e
      have := hw '#' (by rw [e.1]; simp)
      revert this; decide

/-! ## Lines -/

theorem lines_ne_nil (s : List Char) : lines s ≠ [] := by
  cases s with
  | nil => simp [lines]
  | cons c s =>
    unfold lines
    split
    · simp
    · split <;> simp

/-- The specification `lines` is right: joining the lines with newlines gives the text, and no line contains a newline. -/
theorem lines_join (s : List Char) : List.intercalate ['\n'] (lines s) = s ∧ ∀ l ∈ lines s, '\n' ∉ l := by
  induction s with
  | nil => simp [lines]
  | cons c s ih =>
    unfold lines
    obtain ⟨ih1, ih2⟩ := ih
    by_cases hc : c = '\n'
    · rw [if_pos hc]
      obtain ⟨l, ls, e⟩ := List.exists_cons_of_ne_nil (lines_ne_nil s)
      constructor
      · rw [e] at ih1 ⊢
        rw [List.intercalate, List.intersperse_cons₂, List.flatten_cons, List.flatten_cons]
        rw [List.intercalate] at ih1
        rw [ih1, hc]; rfl
      · intro m hm
        rcases List.mem_cons.1 hm with rfl | hm
        · simp
        · exact ih2 m hm
    · rw [if_neg hc]
      obtain ⟨l, ls, e⟩ := List.exists_cons_of_ne_nil (lines_ne_nil s)
      rw [e] at ih1 ih2 ⊢
      simp only
      constructor
      · cases ls with
        | nil => simp [List.intercalate] at ih1 ⊢; exact ih1
        | cons l' ls =>
          rw [List.intercalate, List.intersperse_cons₂, List.flatten_cons] at ih1 ⊢
          rw [← ih1]; rfl
      · intro m hm
        rcases List.mem_cons.1 hm with rfl | hm
        · intro h
          rcases List.mem_cons.1 h with h | h
          · exact hc h.symm
          · exact ih2 l (List.mem_cons_self ..) h
        · exact ih2 m (List.mem_cons_of_mem _ hm)

/-- The lines that `getline` will still deliver. -/
def pending (s : InStream) : List (List Char) := if s.good then lines s.rest else []

theorem lines_takeWhile (s : List Char) :
    lines s = s.takeWhile (· ≠ '\n') :: (match s.dropWhile (· ≠ '\n') with | [] => [] | _ :: r => lines r) := by
  induction s with
  | nil => simp [lines]
  | cons c s ih =>
    conv_lhs => unfold lines
    by_cases hc : c = '\n'
    · rw [if_pos hc, List.takeWhile_cons_of_neg (by simp [hc]), List.dropWhile_cons_of_neg (by simp [hc])]
    · rw [if_neg hc, List.takeWhile_cons_of_pos (by simp [hc]), List.dropWhile_cons_of_pos (by simp [hc]), ih]

theorem getline_pending {s : InStream} {l : List Char} {ls : List (List Char)} (h : pending s = l :: ls) (b : List Char) :
    (getline s b).2 = l ∧ pending (getline s b).1 = ls := by
  unfold pending at h
  cases hg : s.good with
  | false => rw [hg] at h; simp at h
  | true =>
    rw [hg, if_pos rfl, lines_takeWhile] at h
    unfold getline
    rw [hg, if_pos rfl]
    cases hd : s.rest.dropWhile (· ≠ '\n') with
    | nil =>
      rw [hd] at h
      simp only [List.cons.injEq] at h
      simp only
      exact ⟨h.1, by rw [← h.2]; rfl⟩
    | cons x r =>
      rw [hd] at h
      simp only [List.cons.injEq] at h
      simp only
      exact ⟨h.1, by rw [← h.2]; rfl⟩

theorem getline_end {s : InStream} (h : pending s = []) (b : List Char) : getline s b = (s, b) := by
  unfold pending at h
  cases hg : s.good with
  | false => unfold getline; rw [hg]; simp
  | true => rw [hg, if_pos rfl] at h; exact absurd h (lines_ne_nil _)

/-! ## C48: next_line -/

/-- **C48**: when there is a line that is not skippable, the first one is returned and the stream continues right behind it. -/
theorem nextLine_found {s : InStream} {skip : List (List Char)} {l : List Char} {ls : List (List Char)}
    (h : pending s = skip ++ l :: ls) (hs : ∀ x ∈ skip, isSkippableLine x) (hl : ¬ isSkippableLine l) :
    ∃ s', nextLine s = .val (s', l) ∧ pending s' = ls := by
  have key : ∀ (skip : List (List Char)) (s : InStream) (b : List Char), pending s = skip ++ l :: ls →
      (∀ x ∈ skip, isSkippableLine x) →
      ∃ s', whileLoop (fun p : InStream × List Char => isSkippableLine p.2) (fun p => getline p.1 p.2) (getline s b) =
        .val (s', l) ∧ pending s' = ls := by
    intro skip
    induction skip with
    | nil =>
      intro s b h _
      obtain ⟨h1, h2⟩ := getline_pending h b
      refine ⟨(getline s b).1, ?_, h2⟩
      rw [(whileLoop_eq _ _ _).2 (by rw [h1]; exact hl)]
      rw [← h1]
    | cons x skip ih =>
      intro s b h hs
      obtain ⟨h1, h2⟩ := getline_pending (l := x) (ls := skip ++ l :: ls) h b
      rw [(whileLoop_eq _ _ _).1 (by rw [h1]; exact hs x (List.mem_cons_self ..))]
      exact ih _ _ h2 fun y hy => hs y (List.mem_cons_of_mem _ hy)
  exact key skip s [] h hs

/-- **C48** (refutation of termination): when no line is left that is not skippable — in particular at the end of every
file — `next_line` never returns. -/
theorem nextLine_diverges {s : InStream} (h : ∀ x ∈ pending s, isSkippableLine x) : nextLine s = .diverges := by
  have hnil : isSkippableLine [] := (isSkippableLine_iff []).2 (Or.inl fun c hc => by simp at hc)
  have step : ∀ p : InStream × List Char, (∀ x ∈ pending p.1, isSkippableLine x) → isSkippableLine p.2 →
      (∀ x ∈ pending (getline p.1 p.2).1, isSkippableLine x) ∧ isSkippableLine (getline p.1 p.2).2 := by
    intro p h1 h2
    cases hp : pending p.1 with
    | nil => rw [getline_end hp]; exact ⟨h1, h2⟩
    | cons l ls =>
      obtain ⟨e1, e2⟩ := getline_pending hp p.2
      rw [e1, e2]
      rw [hp] at h1
      exact ⟨fun x hx => h1 x (List.mem_cons_of_mem _ hx), h1 l (List.mem_cons_self ..)⟩
  unfold nextLine
  apply whileLoop_diverges
  intro n
  have : ∀ n, (∀ x ∈ pending ((fun p : InStream × List Char => getline p.1 p.2)^[n] (getline s [])).1, isSkippableLine x) ∧
      isSkippableLine ((fun p : InStream × List Char => getline p.1 p.2)^[n] (getline s [])).2 := by
    intro n
    induction n with
    | zero => exact step (s, []) h hnil
    | succ n ih =>
      rw [Function.iterate_succ_apply']
      exact step _ ih.1 ih.2
  exact (this n).2

theorem exists_first {α : Type*} (P : α → Prop) (L : List α) (h : ∃ l ∈ L, ¬ P l) :
    ∃ a y ys, L = a ++ y :: ys ∧ (∀ x ∈ a, P x) ∧ ¬ P y := by
  induction L with
  | nil => obtain ⟨l, hl, -⟩ := h; simp at hl
  | cons x L ih =>
    by_cases hx : P x
    · obtain ⟨l, hl, hd⟩ := h
      rcases List.mem_cons.1 hl with rfl | hl
      · exact absurd hx hd
      · obtain ⟨a, y, ys, e, ha, hy⟩ := ih ⟨l, hl, hd⟩
        refine ⟨x :: a, y, ys, by rw [e]; rfl, ?_, hy⟩
        intro z hz
        rcases List.mem_cons.1 hz with rfl | hz
        · exact hx
        · exact ha z hz
    · exact ⟨[], x, L, rfl, fun z hz => by simp at hz, hx⟩

/-- **C48**: what `next_line` does on a file, in terms of the lines of the file. -/
theorem nextLine_iff (content : List Char) :
    (∃ s' l, nextLine ⟨content, true⟩ = .val (s', l)) ↔ ∃ l ∈ lines content, ¬ isSkippableLine l := by
  constructor
  · rintro ⟨s', l, e⟩
    by_contra h
    push Not at h
    rw [nextLine_diverges (s := ⟨content, true⟩) (by simpa [pending] using h)] at e
    cases e
  · intro h
    obtain ⟨a, y, ys, e, hs, hy⟩ := exists_first _ _ h
    obtain ⟨s', h, -⟩ := nextLine_found (s := ⟨content, true⟩) (by simpa [pending] using e) hs hy
    exact ⟨s', y, h⟩

/-- Lines for examples: a comment and a row. -/
theorem example_lines : isSkippableLine ['#', 'c'] ∧ ¬ isSkippableLine ['1'] ∧ ¬ isSkippableLine ['2'] ∧ isSkippableLine [] := by
  have h : ∀ d : Char, d ∉ whitespace → d ≠ '#' → ¬ isSkippableLine [d] := by
    intro d h1 h2
    rw [isSkippableLine_iff]
    rintro (hb | ⟨ws, r, e, -, -⟩)
    · exact h1 (hb d (by simp))
    · have : '#' ∈ [d] := by rw [e]; simp
      exact h2 (List.mem_singleton.1 this).symm
  refine ⟨?_, h _ (by decide) (by decide), h _ (by decide) (by decide), ?_⟩
  · rw [isSkippableLine_iff]
    exact Or.inr ⟨[], ['c'], rfl, fun c hc => by simp at hc, by decide⟩
  · rw [isSkippableLine_iff]
    exact Or.inl fun c hc => by simp at hc

/-- A concrete case: from the file `#c, 1` the line `1` is returned, and a further call does not terminate. -/
example : ∃ s', nextLine ⟨['#', 'c', '\n', '1', '\n'], true⟩ = .val (s', ['1']) ∧ nextLine s' = .diverges := by
  obtain ⟨s', h, hp⟩ := nextLine_found (s := ⟨['#', 'c', '\n', '1', '\n'], true⟩) (skip := [['#', 'c']]) (l := ['1'])
    (ls := [[]]) (by decide) (by simpa using example_lines.1) example_lines.2.1
  refine ⟨s', h, nextLine_diverges ?_⟩
  rw [hp]
  intro x hx
  rw [List.mem_singleton.1 hx]
  exact example_lines.2.2.2

end Ieompp.IO
