import Verif.Props.OutputShipped
import Verif.Model.Application
import Verif.Model.Main

/-! # C115: complete files with their header, and files after a crash -/

set_option autoImplicit false
set_option linter.unusedSectionVars false

namespace Ieompp
namespace OutputText

open Spec
open Ieompp.IO (Text)
open KroneckerNumber (Double padded)
open Durability (Run Disk CrashPoint Act rowText occupationRow)

theorem cells_ne_nil (c : Char) : ∀ t, cells c t ≠ []
  | [] => by simp [cells]
  | x :: t => by
    rw [cells]
    split_ifs
    · simp
    · cases h : cells c t with
      | nil => exact absurd h (cells_ne_nil c t)
      | cons a r => simp

theorem completeLines_eq : ∀ t : Text, completeLines t = (cells '\n' t).dropLast
  | [] => rfl
  | c :: t => by
    rw [completeLines, cells, completeLines_eq t]
    have hne := cells_ne_nil '\n' t
    split_ifs
    · rw [List.dropLast_cons_of_ne_nil hne]
    · cases h : cells '\n' t with
      | nil => exact absurd h hne
      | cons a r =>
        cases r with
        | nil => rfl
        | cons b r => rfl

theorem readData_eq (t : Text) : readData t = ((completeLines t).filter fun l => l.head? ≠ some '#').map (cells '\t') := by
  rw [completeLines_eq]; rfl

/-- The table of a part of a file is a part of its table. -/
theorem readData_prefix {a b : Text} (h : a <+: b) : readData a <+: readData b := by
  rw [readData_eq, readData_eq]
  exact ((Durability.completeLines_prefix h).filter _).map _

theorem completeLines_append (ls : List Text) (h : ∀ l ∈ ls, '\n' ∉ l) (t : Text) :
    completeLines ((ls.flatMap fun l => l ++ ['\n']) ++ t) = ls ++ completeLines t := by
  induction ls with
  | nil => rfl
  | cons l ls ih =>
    rw [completeLines_eq, List.flatMap_cons, List.append_assoc, List.append_assoc, List.singleton_append, cells_append _ (h l (by simp)),
      List.dropLast_cons_of_ne_nil (cells_ne_nil _ _), ← completeLines_eq, ih fun z hz => h z (by simp [hz])]
    rfl

/-- The first character of a number is not a `#`. -/
theorem writeDouble_head (x : Double) (t : Text) : (writeDouble x ++ t).head? ≠ some '#' := by
  intro h
  cases hw : writeDouble x with
  | nil =>
    have := writeDouble_text x
    rw [hw] at this
    obtain ⟨s, r, ip, i, fp, f, ex, e, h1, h2, h3, h4, h5, h6, -⟩ := this
    have hr : r = [] := by
      rcases h1 with ⟨-, h⟩ | ⟨-, h⟩ | ⟨-, h⟩
      · exact h.symm
      · simp at h
      · simp at h
    rw [hr] at h6
    rcases h6 with h6 | ⟨hf, h6⟩
    · have := congrArg List.length h6; simp at this
    · have hip : ip = [] := (List.append_eq_nil_iff.1 h6.symm).1
      exact h4 (by rw [hip, hf]; rfl)
  | cons c r =>
    rw [hw, List.cons_append, List.head?_cons] at h
    have hc : c = '#' := Option.some.inj h
    have := decimal_chars (writeDouble_text x) (c := c) (by rw [hw]; simp)
    rw [hc] at this
    revert this; decide

/-- **C115**: reading a file with a header of comment lines gives the table of the rows. -/
theorem file_readData {head : List Text} (hh : ∀ l ∈ head, '\n' ∉ l ∧ l.head? = some '#') (rows : List (Double × List Double)) :
    readData ((head.flatMap fun l => l ++ ['\n']) ++ tableText rows) = readTable (tableText rows) := by
  rw [readData_eq, completeLines_append _ fun l hl => (hh l hl).1, List.filter_append,
    List.filter_eq_nil_iff.2 fun l hl => by simp [(hh l hl).2], List.nil_append]
  have : (completeLines (tableText rows)).filter (fun l => l.head? ≠ some '#') = completeLines (tableText rows) := by
    refine List.filter_eq_self.2 fun l hl => ?_
    have hl' : l ∈ rows.map fun r => writeDouble r.1 ++ r.2.flatMap fun y => '\t' :: writeDouble y := by
      have e := completeLines_append (rows.map fun r => writeDouble r.1 ++ r.2.flatMap fun y => '\t' :: writeDouble y) (by
        intro l hl hm
        obtain ⟨r, -, rfl⟩ := List.mem_map.1 hl
        rcases List.mem_append.1 hm with hm | hm
        · exact (writeDouble_chars _).2 hm
        · obtain ⟨y, -, hm⟩ := List.mem_flatMap.1 hm
          rcases List.mem_cons.1 hm with hm | hm
          · revert hm; decide
          · exact (writeDouble_chars _).2 hm) []
      rw [List.append_nil, List.flatMap_map] at e
      have e' : completeLines (tableText rows) = _ := e
      rw [e'] at hl
      simpa [completeLines] using hl
    obtain ⟨r, -, rfl⟩ := List.mem_map.1 hl'
    exact decide_eq_true (writeDouble_head r.1 _)
  rw [this, completeLines_eq]
  rfl

/-- The lines of the header of `Application`. -/
def headerLines (platform all : List (Text × Text)) : List Text :=
  platform.map (fun l => '#' :: ' ' :: (l.1 ++ '\t' :: l.2)) ++ [['#'], "# CLI options:".toList] ++ all.map fun o => '#' :: '\t' :: (o.1 ++ ' ' :: '=' :: ' ' :: o.2)

theorem headerText_lines (platform all : List (Text × Text)) :
    App.headerText platform all = (headerLines platform all).flatMap fun l => l ++ ['\n'] := by
  unfold App.headerText headerLines
  simp [List.flatMap_def, Function.comp_def]

/-- **C115**: reading the complete output file of a program, header included, gives the table of the numbers with six digits. -/
theorem outputFile_shows {platform all : List (Text × Text)} (hp : ∀ l ∈ platform, '\n' ∉ l.1 ∧ '\n' ∉ l.2) (ha : ∀ l ∈ all, '\n' ∉ l.1 ∧ '\n' ∉ l.2)
    (rows : List (Double × List Double)) :
    List.Forall₂ (List.Forall₂ Shows) (readData (App.headerText platform all ++ tableText rows)) (rows.map fun r => r.1.value :: r.2.map Double.value) := by
  rw [headerText_lines, file_readData]
  · exact tableText_shows rows
  · intro l hl
    unfold headerLines at hl
    rcases List.mem_append.1 hl with hl | hl
    · rcases List.mem_append.1 hl with hl | hl
      · obtain ⟨x, hx, rfl⟩ := List.mem_map.1 hl
        have := hp x hx
        simp [this.1, this.2]
      · rcases List.mem_cons.1 hl with rfl | hl
        · simp
        · rw [List.mem_singleton] at hl
          rw [hl]; decide
    · obtain ⟨x, hx, rfl⟩ := List.mem_map.1 hl
      have := ha x hx
      simp [this.1, this.2]

/-! ### Files after a crash -/

/-- The format of a number, as a function of its value. -/
noncomputable def sixText (x : ℝ) : Text := writeDouble (ofReal x)

variable {H O : Type*}

theorem occupation_rowText (t x : ℝ) : rowText (occupationRow sixText) t x = writeRow (ofReal t) [ofReal x] := by
  simp [rowText, occupationRow, sixText, writeRow]

theorem coefficients_rowText (t : ℝ) (o : List ℝ) : rowText (Main.coefficientIns sixText) t o = writeRow (ofReal t) (o.map ofReal) := by
  unfold rowText Main.coefficientIns writeRow sixText
  rw [List.flatten_append, List.flatten_append, List.flatMap_map]
  simp only [List.flatten_cons, List.flatten_nil, List.append_nil]
  congr 2
  induction o with
  | nil => rfl
  | cons a o ih => rw [List.flatMap_cons, List.flatten_append, List.flatMap_cons, ih]; simp

/-- **C115 with C91**: wherever a program is killed, reading the complete lines of the file it leaves gives the first rows of the table of its measurements, with six digits, and
nothing else, or the file has its earlier contents. -/
theorem crash_readData {step : H → Res H} {measure : H → Res (H × ℝ)} {dt tEnd : ℝ} {interval : ℕ} {h0 : H} {platform all : List (Text × Text)}
    (hp : ∀ l ∈ platform, '\n' ∉ l.1 ∧ '\n' ∉ l.2) (ha : ∀ l ∈ all, '\n' ∉ l.1 ∧ '\n' ∉ l.2) {r : Prop} {rows : List (ℝ × ℝ)} {p : List (Act ℝ)}
    (h : CrashPoint (occupationRow sixText) step measure dt tEnd interval (App.headerText platform all) h0 rows p) {old : Text} {d : Disk ℝ}
    (hr : Run r (Disk.start old) p d) :
    d.file = old ∨ ∃ k, List.Forall₂ (List.Forall₂ Shows) (readData d.file) ((rows.take k).map fun r => [r.1, r.2]) := by
  refine (Durability.file_never_wrong h hr).imp_right fun hpre => ?_
  have e : fileText (App.headerText platform all) (rowText (occupationRow sixText)) rows =
      App.headerText platform all ++ tableText (rows.map fun r => (ofReal r.1, [ofReal r.2])) := by
    unfold fileText tableText
    rw [List.flatMap_map]
    simp only [occupation_rowText]
  rw [e] at hpre
  have hs := outputFile_shows hp ha (rows.map fun r => (ofReal r.1, [ofReal r.2]))
  rw [List.map_map] at hs
  have hd := readData_prefix hpre
  refine ⟨(readData d.file).length, ?_⟩
  have ht := List.forall₂_take (readData d.file).length hs
  rw [List.prefix_iff_eq_take.1 hd]
  rw [← List.map_take] at ht
  have e2 : (readData (App.headerText platform all ++ tableText (rows.map fun r => (ofReal r.1, [ofReal r.2])))).take (readData d.file).length = readData d.file :=
    (List.prefix_iff_eq_take.1 hd).symm
  rw [e2] at ht ⊢
  simpa [ofReal_value, Function.comp_def] using ht

end OutputText
end Ieompp
