import Verif.Model.Checkpoint
import Mathlib.Data.List.Basic
import Mathlib.Tactic.Common

/-!
# C46: checkpoints
-/

set_option autoImplicit false
set_option linter.unusedSectionVars false

namespace Ieompp.IO

variable {V T : Type*} {ser : V → List Char} {shw : T → List Char} {pre : List Char}

theorem toDigits_inj {a b : ℕ} (h : Nat.toDigits 10 a = Nat.toDigits 10 b) : a = b := by
  rw [← Nat.ofDigitChars_toDigits (b := 10) (n := a) (by decide) (by decide), h,
    Nat.ofDigitChars_toDigits (by decide) (by decide)]

theorem blazePath_inj {a b : ℕ} (h : blazePath pre a = blazePath pre b) : a = b := by
  unfold blazePath at h
  rw [List.append_left_inj, List.append_right_inj] at h
  exact toDigits_inj h

theorem infoPath_inj {a b : ℕ} (h : infoPath pre a = infoPath pre b) : a = b := by
  unfold infoPath at h
  rw [List.append_left_inj, List.append_right_inj] at h
  exact toDigits_inj h

theorem blaze_ne_info (a b : ℕ) : blazePath pre a ≠ infoPath pre b := by
  intro h
  have h1 := congrArg (fun l => l.getLast?) h
  unfold blazePath infoPath at h1
  rw [List.getLast?_append_of_ne_nil _ (by simp), List.getLast?_append_of_ne_nil _ (by simp)] at h1
  revert h1; decide

/-- The names of the two files of checkpoint number `n`: the prefix, the number in decimal, and `.blaze` or `.info`. -/
theorem checkpoint_paths (n : ℕ) : blazePath pre n = pre ++ (toString n).toList ++ ".blaze".toList ∧
    infoPath pre n = pre ++ (toString n).toList ++ ".info".toList := by
  have h : (toString n).toList = Nat.toDigits 10 n := by
    show (Nat.repr n).toList = _
    simp [Nat.repr]
  rw [h, blazePath, infoPath]
  constructor <;> congr 1

/-- The checkpoint numbered `i` is on disk, complete and consistent: the file `<prefix><i>.blaze` holds the vector and the file
`<prefix><i>.info` holds the time and a newline. -/
def Stored (ser : V → List Char) (shw : T → List Char) (pre : List Char) (fs : FS) (i : ℕ) (c : V × T) : Prop :=
  fs (pre ++ (toString i).toList ++ ".blaze".toList) = some (ser c.1) ∧
    fs (pre ++ (toString i).toList ++ ".info".toList) = some (shw c.2 ++ ['\n'])

theorem stored_iff {fs : FS} {i : ℕ} {c : V × T} : Stored ser shw pre fs i c ↔
    fs (blazePath pre i) = some (ser c.1) ∧ fs (infoPath pre i) = some (shw c.2 ++ ['\n']) := by
  rw [(checkpoint_paths i).1, (checkpoint_paths i).2]; rfl

theorem set_same (fs : FS) (p : List Char) (c : Option (List Char)) : fs.set p c p = c := by simp [FS.set]

theorem set_other (fs : FS) {p q : List Char} (h : q ≠ p) (c : Option (List Char)) : fs.set p c q = fs q := by simp [FS.set, h]

theorem stored_write (s : FS × ℕ) (c : V × T) : Stored ser shw pre (writeCheckpoint ser shw pre s c).1 s.2 c := by
  rw [stored_iff]; unfold writeCheckpoint
  exact ⟨by simp only; rw [set_other _ (blaze_ne_info _ _), set_same], set_same _ _ _⟩

theorem untouched_write (s : FS × ℕ) (c : V × T) {i : ℕ} (hi : i ≠ s.2) :
    (writeCheckpoint ser shw pre s c).1 (blazePath pre i) = s.1 (blazePath pre i) ∧
    (writeCheckpoint ser shw pre s c).1 (infoPath pre i) = s.1 (infoPath pre i) := by
  unfold writeCheckpoint
  constructor
  · simp only; rw [set_other _ (blaze_ne_info _ _), set_other _ fun h => hi (blazePath_inj h)]
  · simp only; rw [set_other _ fun h => hi (infoPath_inj h), set_other _ (blaze_ne_info _ _).symm]

theorem run_from (cs : List (V × T)) (fs : FS) (n : ℕ) :
    (cs.foldl (writeCheckpoint ser shw pre) (fs, n)).2 = n + cs.length ∧
    (∀ i (h : i < cs.length), Stored ser shw pre (cs.foldl (writeCheckpoint ser shw pre) (fs, n)).1 (n + i) cs[i]) ∧
    (∀ i, (i < n ∨ n + cs.length ≤ i) →
      (cs.foldl (writeCheckpoint ser shw pre) (fs, n)).1 (blazePath pre i) = fs (blazePath pre i) ∧
      (cs.foldl (writeCheckpoint ser shw pre) (fs, n)).1 (infoPath pre i) = fs (infoPath pre i)) := by
  induction cs generalizing fs n with
  | nil => simp
  | cons c cs ih =>
    rw [List.foldl_cons, show writeCheckpoint ser shw pre (fs, n) c = ((writeCheckpoint ser shw pre (fs, n) c).1, n + 1) from rfl]
    obtain ⟨h1, h2, h3⟩ := ih (writeCheckpoint ser shw pre (fs, n) c).1 (n + 1)
    refine ⟨by rw [h1, List.length_cons]; omega, ?_, ?_⟩
    · intro i hi
      cases i with
      | zero =>
        obtain ⟨e1, e2⟩ := h3 n (Or.inl (by omega))
        have := stored_write (ser := ser) (shw := shw) (pre := pre) (fs, n) c
        exact stored_iff.2 ⟨e1.trans (stored_iff.1 this).1, e2.trans (stored_iff.1 this).2⟩
      | succ i =>
        have := h2 i (by rw [List.length_cons] at hi; omega)
        rw [show n + (i + 1) = n + 1 + i by omega]
        exact this
    · intro i hi
      rw [List.length_cons] at hi
      obtain ⟨e1, e2⟩ := h3 i (by omega)
      obtain ⟨u1, u2⟩ := untouched_write (ser := ser) (shw := shw) (pre := pre) (fs, n) c (i := i) (by show i ≠ n; omega)
      exact ⟨e1.trans u1, e2.trans u2⟩

/-- **C46** (partial): within one process no checkpoint overwrites another: after any number of them each one is on disk,
complete, under its own number, and files with other numbers are unchanged. -/
theorem checkpoints_in_process_partial (fs : FS) (cs : List (V × T)) :
    (∀ i (h : i < cs.length), Stored ser shw pre (runProcess ser shw pre fs cs).1 i cs[i]) ∧
    (∀ i, cs.length ≤ i → (runProcess ser shw pre fs cs).1 (blazePath pre i) = fs (blazePath pre i) ∧
      (runProcess ser shw pre fs cs).1 (infoPath pre i) = fs (infoPath pre i)) := by
  obtain ⟨-, h2, h3⟩ := run_from (ser := ser) (shw := shw) (pre := pre) cs fs 0
  exact ⟨fun i hi => by have h := h2 i hi; rw [Nat.zero_add] at h; exact h, fun i hi => h3 i (Or.inr (by omega))⟩

/-- **C46** (partial): a crash at any point while the next checkpoint is written leaves all checkpoints written before by the
same process complete. Missing: the checkpoints of earlier processes, see `checkpoint_restart_crash_wrong`. -/
theorem checkpoint_crash_safe_partial (fs : FS) (cs : List (V × T)) (c : V × T) {d : FS}
    (hd : d ∈ checkpointCrash ser shw pre (runProcess ser shw pre fs cs) c) :
    ∀ i (h : i < cs.length), Stored ser shw pre d i cs[i] := by
  intro i hi
  obtain ⟨h1, h2, -⟩ := run_from (ser := ser) (shw := shw) (pre := pre) cs fs 0
  have hs := h2 i hi
  rw [Nat.zero_add] at hs h1
  have hn : (runProcess ser shw pre fs cs).2 = cs.length := h1
  change Stored ser shw pre (runProcess ser shw pre fs cs).1 i cs[i] at hs
  have hb : blazePath pre i ≠ blazePath pre (runProcess ser shw pre fs cs).2 := fun h => by
    have := blazePath_inj h; omega
  have hio : infoPath pre i ≠ infoPath pre (runProcess ser shw pre fs cs).2 := fun h => by
    have := infoPath_inj h; omega
  rw [stored_iff] at hs ⊢
  rcases hd with (rfl | ⟨w, -, rfl⟩) | (rfl | ⟨w, -, rfl⟩)
  · exact hs
  · rw [set_other _ hb, set_other _ (blaze_ne_info _ _).symm]; exact hs
  · rw [set_other _ hb, set_other _ (blaze_ne_info _ _).symm]; exact hs
  · rw [set_other _ (blaze_ne_info _ _), set_other _ hb, set_other _ hio, set_other _ (blaze_ne_info _ _).symm]; exact hs

/-- **C46**: what is read back is what was written. -/
theorem readCheckpoint_correct {deser : List Char → Option V} (hdeser : ∀ v, deser (ser v) = some v) {fs : FS} {i : ℕ} {c : V × T}
    (h : Stored ser shw pre fs i c) : readCheckpoint deser fs (blazePath pre i) = some c.1 := by
  unfold readCheckpoint; rw [(stored_iff.1 h).1]; exact hdeser c.1

/-- **C46** (refutation): a restarted process overwrites the checkpoints of the previous one, beginning with number 0; the
checkpoints with higher numbers stay. So after a restart the checkpoint with the highest number need not be the last. -/
theorem checkpoint_restart_overwrites (fs : FS) (cs cs' : List (V × T)) :
    (∀ i (h : i < cs'.length), Stored ser shw pre (runProcesses ser shw pre fs [cs, cs']) i cs'[i]) ∧
    (∀ i (_ : cs'.length ≤ i) (h : i < cs.length), Stored ser shw pre (runProcesses ser shw pre fs [cs, cs']) i cs[i]) := by
  show (∀ i (h : i < cs'.length), Stored ser shw pre (runProcess ser shw pre (runProcess ser shw pre fs cs).1 cs').1 i cs'[i]) ∧ _
  obtain ⟨h1, h2⟩ := checkpoints_in_process_partial (ser := ser) (shw := shw) (pre := pre) fs cs
  obtain ⟨h3, h4⟩ := checkpoints_in_process_partial (ser := ser) (shw := shw) (pre := pre) (runProcess ser shw pre fs cs).1 cs'
  refine ⟨h3, ?_⟩
  intro i hi h
  obtain ⟨e1, e2⟩ := h4 i hi
  exact stored_iff.2 ⟨e1.trans (stored_iff.1 (h1 i h)).1, e2.trans (stored_iff.1 (h1 i h)).2⟩

/-- **C46** (refutation): on an empty disk, a process writes one checkpoint and ends; the restarted process crashes while it
writes its first checkpoint. Then it is possible that not a single complete checkpoint is left (`ser` is never empty). -/
theorem checkpoint_restart_crash_wrong (hser : ∀ v, ser v ≠ []) (c c' : V × T) :
    ∃ d ∈ checkpointCrash ser shw pre ((runProcess ser shw pre (fun _ => none) [c]).1, 0) c',
      ∀ i c'', ¬ Stored ser shw pre d i c'' := by
  refine ⟨(runProcess ser shw pre (fun _ => none) [c]).1.set (blazePath pre 0) (some []),
    Or.inl (Or.inr ⟨[], List.nil_prefix, rfl⟩), ?_⟩
  intro i c'' h
  obtain ⟨-, h2⟩ := checkpoints_in_process_partial (ser := ser) (shw := shw) (pre := pre) (fun _ => none) [c]
  by_cases hi : i = 0
  · subst hi
    have := (stored_iff.1 h).1
    rw [set_same] at this
    exact hser c''.1 (Option.some.inj this).symm
  · have := (stored_iff.1 h).1
    rw [set_other _ fun e => hi (blazePath_inj e), (h2 i (by simp; omega)).1] at this
    cases this

/-- **C46** (refutation): in the same situation the vector of the new run may be paired with the time of the old one. -/
theorem checkpoint_restart_mixed_wrong (c c' : V × T) :
    ∃ d ∈ checkpointCrash ser shw pre ((runProcess ser shw pre (fun _ => none) [c]).1, 0) c',
      Stored ser shw pre d 0 (c'.1, c.2) := by
  refine ⟨(runProcess ser shw pre (fun _ => none) [c]).1.set (blazePath pre 0) (some (ser c'.1)), Or.inr (Or.inl rfl), ?_⟩
  obtain ⟨h1, -⟩ := checkpoints_in_process_partial (ser := ser) (shw := shw) (pre := pre) (fun _ => none) [c]
  refine stored_iff.2 ⟨set_same _ _ _, ?_⟩
  rw [set_other _ (blaze_ne_info _ _).symm]
  exact (stored_iff.1 (h1 0 (by simp))).2

/-- The hypotheses can be met: vectors of digits, and three checkpoints. -/
example : ∀ i (h : i < 3), Stored (fun v : ℕ => Nat.toDigits 10 v) (fun t : ℕ => Nat.toDigits 10 t) ['a', '_']
    (runProcess (fun v : ℕ => Nat.toDigits 10 v) (fun t : ℕ => Nat.toDigits 10 t) ['a', '_'] (fun _ => none)
      [(7, 0), (8, 10), (9, 20)]).1 i ([(7, 0), (8, 10), (9, 20)][i]) :=
  (checkpoints_in_process_partial (fun _ => none) [(7, 0), (8, 10), (9, 20)]).1

example : ∀ v : ℕ, Nat.toDigits 10 v ≠ [] := fun _ => Nat.toDigits_ne_nil

end Ieompp.IO
