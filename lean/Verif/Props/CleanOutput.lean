import Verif.Props.Lines
import Mathlib.Tactic.Ring

/-!
# C47: `clean_output_file`
-/

set_option autoImplicit false
set_option linter.unusedSectionVars false

namespace Ieompp.IO

open Ieompp.Spec

open Classical in
/-- Number of lines that are not skippable. -/
noncomputable def dataCount (L : List (List Char)) : ℕ := L.countP fun l => decide (¬ isSkippableLine l)

theorem dataCount_append (a b : List (List Char)) : dataCount (a ++ b) = dataCount a + dataCount b := by
  unfold dataCount; rw [List.countP_append]

open Classical in
theorem dataCount_singleton (l : List Char) : dataCount [l] = if ¬ isSkippableLine l then 1 else 0 := by
  unfold dataCount; rw [List.countP_singleton]; simp

theorem dataCount_take_succ {L : List (List Char)} {k : ℕ} (h : k < L.length) :
    dataCount (L.take (k + 1)) = dataCount (L.take k) + dataCount [L[k]] := by
  rw [← List.take_append_getElem h, dataCount_append]

theorem copyBody_eq (c : Copy) :
    (copyBody c).strm = (getline c.strm c.buffer).1 ∧ (copyBody c).buffer = (getline c.strm c.buffer).2 ∧
    (copyBody c).counter = c.counter + dataCount [(getline c.strm c.buffer).2] ∧
    (copyBody c).out = c.out ++ (getline c.strm c.buffer).2 := by
  refine ⟨rfl, rfl, ?_, rfl⟩
  rw [dataCount_singleton]
  unfold copyBody
  simp only
  split <;> rfl

/-- The state of the copying loop while there are lines left. -/
theorem copy_iter (content : List Char) (k : ℕ) (hk : k ≤ (lines content).length) :
    pending (copyBody^[k] (copyInit content)).strm = (lines content).drop k ∧
    (copyBody^[k] (copyInit content)).counter = dataCount ((lines content).take k) ∧
    (copyBody^[k] (copyInit content)).out = ((lines content).take k).flatten ∧
    (∀ h : 0 < k, (copyBody^[k] (copyInit content)).buffer = (lines content)[k - 1]) := by
  induction k with
  | zero => simp [copyInit, pending, dataCount]
  | succ k ih =>
    obtain ⟨h1, h2, h3, -⟩ := ih (by omega)
    have hk' : k < (lines content).length := by omega
    rw [Function.iterate_succ_apply']
    obtain ⟨e1, e2, e3, e4⟩ := copyBody_eq (copyBody^[k] (copyInit content))
    rw [List.drop_eq_getElem_cons hk'] at h1
    obtain ⟨g1, g2⟩ := getline_pending h1 (copyBody^[k] (copyInit content)).buffer
    rw [e1, e2, e3, e4, g1]
    refine ⟨g2, ?_, ?_, fun _ => rfl⟩
    · rw [dataCount_take_succ hk', h2]
    · rw [h3, ← List.take_append_getElem hk', List.flatten_append]; simp

/-- The state of the copying loop after the end of the file: the last line is repeated. -/
theorem copy_iter_end (content : List Char) (k : ℕ) :
    (copyBody^[(lines content).length + k] (copyInit content)).counter =
      dataCount (lines content) + k * dataCount [(lines content).getLast (lines_ne_nil _)] ∧
    (copyBody^[(lines content).length + k] (copyInit content)).out =
      (lines content).flatten ++ (List.replicate k ((lines content).getLast (lines_ne_nil _))).flatten ∧
    (copyBody^[(lines content).length + k] (copyInit content)).buffer = (lines content).getLast (lines_ne_nil _) ∧
    pending (copyBody^[(lines content).length + k] (copyInit content)).strm = [] := by
  have hpos : 0 < (lines content).length := List.length_pos_iff.2 (lines_ne_nil _)
  induction k with
  | zero =>
    obtain ⟨h1, h2, h3, h4⟩ := copy_iter content _ le_rfl
    rw [Nat.add_zero, h1, h2, h3, h4 hpos]
    simp [List.getLast_eq_getElem]
  | succ k ih =>
    obtain ⟨h1, h2, h3, h4⟩ := ih
    rw [← Nat.add_assoc, Function.iterate_succ_apply']
    obtain ⟨e1, e2, e3, e4⟩ := copyBody_eq (copyBody^[(lines content).length + k] (copyInit content))
    rw [getline_end h4, h3] at e1 e2 e3 e4
    rw [e1, e2, e3, e4, h1, h2]
    refine ⟨by ring, ?_, rfl, h4⟩
    rw [List.replicate_succ', List.flatten_append]; simp

/-- C47: the backup has the name of the file followed by `.bak`. -/
theorem bak_name (path : List Char) : bak path = path ++ ".bak".toList := rfl

theorem bak_ne (path : List Char) : bak path ≠ path := by
  intro h
  have := congrArg List.length h
  simp [bak] at this

/-- The file system after renaming. -/
theorem rename_bak {fs : FS} {path content : List Char} (h : fs path = some content) :
    ∃ fs', fs.rename path (bak path) = some fs' ∧ fs' path = none ∧ fs' (bak path) = some content ∧
      ∀ q, q ≠ path → q ≠ bak path → fs' q = fs q := by
  refine ⟨_, by unfold FS.rename; rw [h]; rfl, ?_, ?_, ?_⟩
  · simp [FS.set]
  · simp [FS.set, bak_ne path]
  · intro q h1 h2; simp [FS.set, h1, h2]

/-- The `entries`-th data line has been reached after reading `m` lines, and not before. -/
def ReachedAt (content : List Char) (entries m : ℕ) : Prop :=
  m ≤ (lines content).length ∧ dataCount ((lines content).take m) = entries ∧
    ∀ j < m, dataCount ((lines content).take j) < entries

theorem reachedAt_exists (content : List Char) {entries : ℕ} (h : entries ≤ dataCount (lines content)) :
    ∃ m, ReachedAt content entries m := by
  classical
  have hex : ∃ m, m ≤ (lines content).length ∧ entries ≤ dataCount ((lines content).take m) :=
    ⟨(lines content).length, le_rfl, by rwa [List.take_length]⟩
  refine ⟨Nat.find hex, (Nat.find_spec hex).1, ?_, ?_⟩
  · refine le_antisymm ?_ (Nat.find_spec hex).2
    by_contra hlt
    rw [not_le] at hlt
    have h0 : Nat.find hex ≠ 0 := by
      intro h0; rw [h0] at hlt; simp [dataCount] at hlt
    obtain ⟨m, hm⟩ := Nat.exists_eq_succ_of_ne_zero h0
    have hml := (Nat.find_spec hex).1
    rw [hm] at hlt hml
    rw [Nat.succ_eq_add_one, dataCount_take_succ (by omega)] at hlt
    have h1 : dataCount [(lines content)[m]'(by omega)] ≤ 1 := by
      rw [dataCount_singleton]; split <;> omega
    exact Nat.find_min hex (m := m) (by omega) ⟨by omega, by omega⟩
  · intro j hj
    by_contra hle
    rw [not_lt] at hle
    exact Nat.find_min hex hj ⟨le_trans hj.le (Nat.find_spec hex).1, hle⟩

/-- **C47**: when the file has at least `entries` data lines, the call terminates; it keeps the old file as `.bak` and the
new file consists of the lines up to the `entries`-th data line — concatenated without any line breaks. -/
theorem cleanOutputFile_enough {fs : FS} {path content : List Char} (hc : fs path = some content) {entries : ℕ}
    (h : entries ≤ dataCount (lines content)) :
    ∃ m, ReachedAt content entries m ∧ ∃ fs', cleanOutputFile fs path entries = .val (some fs') ∧
      fs' path = some ((lines content).take m).flatten ∧ fs' (bak path) = some content ∧
      ∀ q, q ≠ path → q ≠ bak path → fs' q = fs q := by
  obtain ⟨m, hm⟩ := reachedAt_exists content h
  obtain ⟨fs', hr, h1, h2, h3⟩ := rename_bak hc
  refine ⟨m, hm, fs'.set path (some ((lines content).take m).flatten), ?_, by simp [FS.set], ?_, ?_⟩
  · unfold cleanOutputFile
    rw [hc, hr]
    simp only
    have : whileLoop (fun c : Copy => c.counter < entries) copyBody (copyInit content) =
        .val (copyBody^[m] (copyInit content)) := by
      rw [whileLoop_val]
      refine ⟨m, rfl, ?_, ?_⟩
      · rw [(copy_iter content m hm.1).2.1, hm.2.1]; exact lt_irrefl _
      · intro k hk
        rw [(copy_iter content k (by have := hm.1; omega)).2.1]
        exact hm.2.2 k hk
    rw [this, Res.map_val, (copy_iter content m hm.1).2.2.1]
  · simp only [FS.set, if_neg (bak_ne path)]; exact h2
  · intro q hq1 hq2; simp only [FS.set, if_neg hq1]; exact h3 q hq1 hq2

/-- **C47** (refutation of termination): when the file has fewer data lines and its last line is skippable — as in every
file whose last row is terminated by a newline — the call never returns. -/
theorem cleanOutputFile_diverges {fs : FS} {path content : List Char} (hc : fs path = some content) {entries : ℕ}
    (h : dataCount (lines content) < entries)
    (hl : isSkippableLine ((lines content).getLast (lines_ne_nil _))) :
    cleanOutputFile fs path entries = .diverges := by
  obtain ⟨fs', hr, -⟩ := rename_bak hc
  unfold cleanOutputFile
  rw [hc, hr]
  simp only
  rw [whileLoop_diverges]
  · rfl
  · intro n
    rcases le_total n (lines content).length with hn | hn
    · rw [(copy_iter content n hn).2.1]
      refine lt_of_le_of_lt ?_ h
      conv_rhs => rw [← List.take_append_drop n (lines content), dataCount_append]
      omega
    · obtain ⟨k, rfl⟩ := Nat.exists_eq_add_of_le hn
      rw [(copy_iter_end content k).1, dataCount_singleton, if_neg (not_not.2 hl)]
      omega

/-- **C47** (refutation): when the file has fewer data lines and its last line is a data line without a final newline, the
last row is duplicated until there are enough. -/
theorem cleanOutputFile_duplicates {fs : FS} {path content : List Char} (hc : fs path = some content) {entries : ℕ}
    (h : dataCount (lines content) < entries)
    (hl : ¬ isSkippableLine ((lines content).getLast (lines_ne_nil _))) :
    ∃ fs', cleanOutputFile fs path entries = .val (some fs') ∧
      fs' path = some ((lines content).flatten ++
        (List.replicate (entries - dataCount (lines content)) ((lines content).getLast (lines_ne_nil _))).flatten) := by
  obtain ⟨fs', hr, -⟩ := rename_bak hc
  refine ⟨fs'.set path (some ((lines content).flatten ++
    (List.replicate (entries - dataCount (lines content)) ((lines content).getLast (lines_ne_nil _))).flatten)), ?_,
    by simp only [FS.set, if_true]⟩
  unfold cleanOutputFile
  rw [hc, hr]
  simp only
  obtain ⟨k, hk⟩ := Nat.exists_eq_add_of_lt h
  have h1 : ∀ j, (copyBody^[(lines content).length + j] (copyInit content)).counter = dataCount (lines content) + j := by
    intro j
    rw [(copy_iter_end content j).1, dataCount_singleton, if_pos hl, Nat.mul_one]
  have : whileLoop (fun c : Copy => c.counter < entries) copyBody (copyInit content) =
      .val (copyBody^[(lines content).length + (k + 1)] (copyInit content)) := by
    rw [whileLoop_val]
    refine ⟨_, rfl, ?_, ?_⟩
    · rw [h1]; omega
    · intro j hj
      rcases le_total j (lines content).length with hn | hn
      · rw [(copy_iter content j hn).2.1]
        refine lt_of_le_of_lt ?_ h
        conv_rhs => rw [← List.take_append_drop j (lines content), dataCount_append]
        omega
      · obtain ⟨i, rfl⟩ := Nat.exists_eq_add_of_le hn
        rw [h1]; omega
  rw [this, Res.map_val, (copy_iter_end content (k + 1)).2.1]
  have : entries - dataCount (lines content) = k + 1 := by omega
  rw [this]

/-- **C47** (crash safety): whenever the process dies during the call — also while it hangs — the old contents are still
there, under the old name or under the `.bak` name. -/
theorem clean_crash_safe {fs : FS} {path content : List Char} (hc : fs path = some content) (entries : ℕ) {d : FS}
    (hd : d ∈ crashStates fs path entries) : d path = some content ∨ d (bak path) = some content := by
  rcases hd with rfl | ⟨content', fs', h1, h2, hd⟩
  · exact Or.inl hc
  · obtain ⟨fs'', hr, -, hb, -⟩ := rename_bak hc
    rw [hr] at h2
    cases h2
    rcases hd with rfl | ⟨k, w, -, -, rfl⟩
    · exact Or.inr hb
    · right
      simp only [FS.set, if_neg (bak_ne path)]; exact hb

theorem flatten_no_newline (content : List Char) (m : ℕ) : '\n' ∉ ((lines content).take m).flatten := by
  intro h
  obtain ⟨l, hl, hn⟩ := List.mem_flatten.1 h
  exact (lines_join content).2 l (List.mem_of_mem_take hl) hn

theorem lines_of_no_newline {s : List Char} (h : '\n' ∉ s) : lines s = [s] := by
  induction s with
  | nil => rfl
  | cons c s ih =>
    have hc : c ≠ '\n' := fun e => h (by rw [e]; exact List.mem_cons_self ..)
    unfold lines
    rw [if_neg hc, ih fun hs => h (List.mem_cons_of_mem _ hs)]

theorem mem_of_mem_lines {s l : List Char} {c : Char} (hl : l ∈ lines s) (hc : c ∈ l) : c ∈ s := by
  induction s generalizing l with
  | nil => simp only [lines, List.mem_singleton] at hl; subst hl; exact hc
  | cons d s ih =>
    unfold lines at hl
    split at hl
    · rcases List.mem_cons.1 hl with rfl | hl
      · simp at hc
      · exact List.mem_cons_of_mem _ (ih hl hc)
    · obtain ⟨m, ms, e⟩ := List.exists_cons_of_ne_nil (lines_ne_nil s)
      rw [e] at hl ih
      simp only at hl
      rcases List.mem_cons.1 hl with rfl | hl
      · rcases List.mem_cons.1 hc with rfl | hc
        · exact List.mem_cons_self ..
        · exact List.mem_cons_of_mem _ (ih (List.mem_cons_self ..) hc)
      · exact List.mem_cons_of_mem _ (ih (List.mem_cons_of_mem _ hl) hc)

/-- **C47** (refutation): for every output file of the programs — it begins with a comment line and contains no carriage
return — cleaning to `n ≥ 1` rows yields a file that has one single line, a comment, and hence no data row at all. -/
theorem clean_destroys_rows {fs : FS} {path content hdr : List Char} {ls : List (List Char)} (hc : fs path = some content)
    (hcr : '\r' ∉ content) (hh : lines content = hdr :: ls) (hcom : Comment hdr) {entries : ℕ} (he : 1 ≤ entries)
    (h : entries ≤ dataCount (lines content)) :
    ∃ fs' out, cleanOutputFile fs path entries = .val (some fs') ∧ fs' path = some out ∧ lines out = [out] ∧
      Comment out ∧ dataCount (lines out) = 0 := by
  obtain ⟨m, hm, fs', e, hp, -, -⟩ := cleanOutputFile_enough hc h
  have hm0 : m ≠ 0 := by
    rintro rfl
    have := hm.2.1
    simp [dataCount] at this
    omega
  obtain ⟨n, rfl⟩ := Nat.exists_eq_succ_of_ne_zero hm0
  have hl := lines_of_no_newline (flatten_no_newline content (n + 1))
  refine ⟨fs', _, e, hp, hl, ?_, ?_⟩
  · rw [hh, List.take_succ_cons, List.flatten_cons]
    obtain ⟨ws, r, rfl, hw⟩ := hcom
    exact ⟨ws, r ++ (ls.take n).flatten, by simp, hw⟩
  · rw [hl, dataCount_singleton, if_neg]
    rw [not_not, isSkippableLine_partial]
    · intro hd
      apply hd.2
      rw [hh, List.take_succ_cons, List.flatten_cons]
      obtain ⟨ws, r, rfl, hw⟩ := hcom
      exact ⟨ws, r ++ (ls.take n).flatten, by simp, hw⟩
    · intro c hc'
      refine ⟨fun e => flatten_no_newline content (n + 1) (e ▸ hc'), fun e => hcr ?_⟩
      obtain ⟨l, hl, hcl⟩ := List.mem_flatten.1 hc'
      exact e ▸ mem_of_mem_lines (List.mem_of_mem_take hl) hcl

/-- **C47** (refutation for two restarts): cleaning the cleaned file again never returns, and once the second call has
renamed the file, the original contents are neither in the output file nor in the backup: they are lost. -/
theorem clean_twice_loses {fs : FS} {path content hdr : List Char} {ls : List (List Char)} (hc : fs path = some content)
    (hcr : '\r' ∉ content) (hh : lines content = hdr :: ls) (hcom : Comment hdr) {entries : ℕ} (he : 1 ≤ entries)
    (h : entries ≤ dataCount (lines content)) :
    ∃ fs', cleanOutputFile fs path entries = .val (some fs') ∧ cleanOutputFile fs' path entries = .diverges ∧
      ∀ d ∈ crashStates fs' path entries, d ≠ fs' → d path ≠ some content ∧ d (bak path) ≠ some content := by
  obtain ⟨fs', out, e, hp, hl, hco, hd⟩ := clean_destroys_rows hc hcr hh hcom he h
  have hlines : ∀ out' : List Char, lines out' = [out'] → out' ≠ content := by
    rintro out' h1 rfl
    rw [h1] at hh
    injection hh with h2 h3
    subst h2; subst h3
    rw [h1] at h
    have : dataCount [out'] = 0 := by
      rw [dataCount_singleton, if_neg]
      rw [not_not, isSkippableLine_partial]
      · intro hd; exact hd.2 hcom
      · intro c hc
        refine ⟨fun e => ?_, fun e => hcr (e ▸ hc)⟩
        have := (lines_join out').2 out' (by rw [h1]; simp)
        exact this (e ▸ hc)
    omega
  have hskip : isSkippableLine ((lines out).getLast (lines_ne_nil _)) := by
    by_contra hn
    have : dataCount (lines out) = 1 := by
      have h2 : (lines out).getLast (lines_ne_nil _) = out := by simp [hl]
      rw [h2] at hn
      rw [hl, dataCount_singleton, if_pos hn]
    omega
  refine ⟨fs', e, cleanOutputFile_diverges hp (by omega) hskip, ?_⟩
  rintro d hd hne
  rcases hd with rfl | ⟨content', fs'', h1, h2, hd⟩
  · exact absurd rfl hne
  · rw [hp] at h1
    cases h1
    obtain ⟨f, hr, hn, hb, -⟩ := rename_bak hp
    rw [hr] at h2
    cases h2
    have hout : ¬ some out = some content := fun e => hlines out hl (Option.some.inj e)
    rcases hd with rfl | ⟨k, w, -, hw, rfl⟩
    · rw [hn, hb]
      exact ⟨by simp, hout⟩
    · constructor
      · simp only [FS.set, if_true]
        intro e
        refine hlines w (lines_of_no_newline ?_) (Option.some.inj e)
        intro hmem
        have hmem := hw.subset hmem
        rcases le_total k (lines out).length with hk | hk
        · rw [(copy_iter out k hk).2.2.1] at hmem
          exact flatten_no_newline out k hmem
        · obtain ⟨j, rfl⟩ := Nat.exists_eq_add_of_le hk
          rw [(copy_iter_end out j).2.1, List.mem_append] at hmem
          rcases hmem with hmem | hmem
          · apply flatten_no_newline out (lines out).length
            rwa [List.take_length]
          · obtain ⟨l, hl', hn'⟩ := List.mem_flatten.1 hmem
            rw [List.eq_of_mem_replicate hl'] at hn'
            exact (lines_join out).2 _ (List.getLast_mem _) hn'
      · simp only [FS.set, if_neg (bak_ne path)]
        rw [hb]; exact hout

open Classical in
/-- The hypotheses are met by the file `#c, 1, 2` and two entries; the result is the single line `#c12`. -/
example : ∃ fs', cleanOutputFile (fun p => if p = ['o'] then some ['#', 'c', '\n', '1', '\n', '2', '\n'] else none) ['o'] 2 =
    .val (some fs') ∧ fs' ['o'] = some ['#', 'c', '1', '2'] := by
  obtain ⟨h1, h2, h3, h4⟩ := example_lines
  have hl : lines ['#', 'c', '\n', '1', '\n', '2', '\n'] = [['#', 'c'], ['1'], ['2'], []] := by decide
  have hc : ∀ (l : List Char) (L : List (List Char)),
      dataCount (l :: L) = (if ¬ isSkippableLine l then 1 else 0) + dataCount L := fun l L => by
    rw [← dataCount_singleton]; exact dataCount_append [l] L
  have hn : dataCount [] = 0 := rfl
  obtain ⟨m, hm, fs', e, hp, -⟩ := cleanOutputFile_enough
    (fs := fun p => if p = ['o'] then some ['#', 'c', '\n', '1', '\n', '2', '\n'] else none) (path := ['o'])
    (content := ['#', 'c', '\n', '1', '\n', '2', '\n']) rfl (entries := 2)
    (by rw [hl, hc, hc, hc, if_neg (not_not.2 h1), if_pos h2, if_pos h3]; omega)
  refine ⟨fs', e, ?_⟩
  have hm3 : m = 3 := by
    unfold ReachedAt at hm
    rw [hl] at hm
    obtain ⟨ha, hb, hc'⟩ := hm
    have h3' : dataCount ([['#', 'c'], ['1'], ['2'], []].take 3) = 2 := by
      simp only [List.take]
      rw [hc, hc, hc, if_neg (not_not.2 h1), if_pos h2, if_pos h3, hn]
    have h2' : dataCount ([['#', 'c'], ['1'], ['2'], []].take 2) = 1 := by
      simp only [List.take]
      rw [hc, hc, if_neg (not_not.2 h1), if_pos h2, hn]
    have h1' : dataCount ([['#', 'c'], ['1'], ['2'], []].take 1) = 0 := by
      simp only [List.take]
      rw [hc, if_neg (not_not.2 h1), hn]
    rcases lt_trichotomy m 3 with h | h | h
    · have : m = 0 ∨ m = 1 ∨ m = 2 := by omega
      rcases this with rfl | rfl | rfl
      · simp [hn] at hb
      · omega
      · omega
    · exact h
    · have := hc' 3 h; omega
  rw [hp, hm3, hl]
  rfl

end Ieompp.IO
