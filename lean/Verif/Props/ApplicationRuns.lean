import Verif.Props.Application
import Verif.Props.CommutatorProgram
import Verif.Props.Print

/-! # C71: which files two runs share -/

set_option autoImplicit false
set_option linter.unusedSectionVars false

namespace Ieompp.App

open Ieompp.IO

theorem suffix_ne {s t p q : Text} (h : p.getLast? ≠ q.getLast?) (hp : p ≠ []) (hq : q ≠ []) : s ++ p ≠ t ++ q := by
  intro e
  have := congrArg List.getLast? e
  rw [List.getLast?_append_of_ne_nil _ hp, List.getLast?_append_of_ne_nil _ hq] at this
  exact h this

/-- **C71**, which files two runs share, exactly: the response, log and matrix files of two runs are the same when the output paths agree without their extensions, and only then; a
checkpoint is the same when they agree and it has the same number; a response file is never the log, the matrix or a checkpoint of the other run, and so on. (What remains: the output of one
run may be named like one of the files of the other.) -/
theorem paths_between_runs {opts opts' : List Opt} {valid valid' : Text → Text → Bool} {env env' : Env} {fs fs' : FS} {args args' : List Text} {a b : App}
    (ha : construct opts valid env fs args = .val (some (.app a))) (hb : construct opts' valid' env' fs' args' = .val (some (.app b))) :
    (a.responsePath = b.responsePath ↔ stem a.outputPath = stem b.outputPath) ∧
    (a.logPath = b.logPath ↔ stem a.outputPath = stem b.outputPath) ∧
    (a.matrixPath = b.matrixPath ↔ stem a.outputPath = stem b.outputPath) ∧
    (∀ n m, checkpointFile a n = checkpointFile b m ↔ stem a.outputPath = stem b.outputPath ∧ n = m) ∧
    a.responsePath ≠ b.logPath ∧ a.responsePath ≠ b.matrixPath ∧ a.logPath ≠ b.matrixPath ∧
    ∀ n, a.responsePath ≠ checkpointFile b n ∧ a.logPath ≠ checkpointFile b n ∧ a.matrixPath ≠ checkpointFile b n := by
  obtain ⟨_, _, -, -, -, -, -, -, hr, hl, hm, hc, -⟩ := construct_app ha
  obtain ⟨_, _, -, -, -, -, -, -, hr', hl', hm', hc', -⟩ := construct_app hb
  have ca := (stem_append a.outputPath).2
  have cb := (stem_append b.outputPath).2
  unfold checkpointFile
  rw [hr, hr', hl, hl', hm, hm', hc, hc', ca, cb, ca, cb, ca, cb]
  simp only [List.append_nil]
  generalize stem a.outputPath = s
  generalize stem b.outputPath = t
  have hdig : ∀ n : ℕ, '_' ∉ Nat.toDigits 10 n := fun n hmem => by
    have := printNat_isDigit (n := n) hmem
    revert this; decide
  refine ⟨List.append_left_inj _, List.append_left_inj _, List.append_left_inj _, fun n m => ⟨fun h => ?_, fun ⟨h1, h2⟩ => by rw [h1, h2]⟩, ?_, ?_, ?_, fun n => ⟨?_, ?_, ?_⟩⟩
  · rw [List.append_left_inj] at h
    have e : ∀ (x : Text) (k : ℕ), x ++ ['_', 'c', 'h', 'e', 'c', 'k', 'p', 'o', 'i', 'n', 't', '_'] ++ Nat.toDigits 10 k =
        (x ++ ['_', 'c', 'h', 'e', 'c', 'k', 'p', 'o', 'i', 'n', 't']) ++ ['_'] ++ Nat.toDigits 10 k := fun x k => by simp
    rw [e, e] at h
    obtain ⟨h1, h2⟩ := Program.append_sep_inj_right (hdig n) (hdig m) h
    exact ⟨List.append_cancel_right h1, toDigits_inj h2⟩
  · exact suffix_ne (by decide) (by decide) (by decide)
  · exact suffix_ne (by decide) (by decide) (by decide)
  · exact suffix_ne (by decide) (by decide) (by decide)
  · rw [List.append_assoc]; exact suffix_ne (by simp) (by decide) (by simp)
  · rw [List.append_assoc]; exact suffix_ne (by simp) (by decide) (by simp)
  · intro h
    have e : ['_', 'm', 'a', 't', 'r', 'i', 'x', '.', 'b', 'l', 'a', 'z', 'e'] = ['_', 'm', 'a', 't', 'r', 'i', 'x'] ++ ['.', 'b', 'l', 'a', 'z', 'e'] := rfl
    rw [e, ← List.append_assoc, List.append_left_inj] at h
    have hx : ('x' : Char) ∈ (Nat.toDigits 10 n).getLast? := by
      have := congrArg List.getLast? h
      rw [List.getLast?_append_of_ne_nil _ (by decide), List.getLast?_append_of_ne_nil _ (Nat.toDigits_ne_nil)] at this
      rw [← this]; rfl
    have := printNat_isDigit (n := n) (List.mem_of_getLast? hx)
    revert this; decide

/-- Two runs of the example program with the outputs `U_0.5` and `U_0.75`: the paths without extension are the same. -/
example : stem ("U_0.5".toList) = stem ("U_0.75".toList) ∧ "U_0.5".toList ≠ "U_0.75".toList := by decide

end Ieompp.App
