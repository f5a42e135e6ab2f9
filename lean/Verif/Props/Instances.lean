import Verif.Props.SpecialOutputRuns
import Verif.Props.ExtendedJumpLink
import Verif.Props.Binary64Shipped
import Verif.Props.AssertionPrograms
import Verif.Props.Symmetry
import Verif.Props.Projection
import Verif.Props.SiteOccupation
import Verif.Props.Program
import Verif.Props.ProgramOptions
import Verif.Props.EigenIO
import Verif.Props.CleanOutput
import Verif.Props.Print
import Verif.Props.MomentumExact
import Verif.Props.ChainFloat
import Verif.Props.ThreadsLink

/-! # Concrete cases that meet the hypotheses of theorems whose own files have none -/

set_option autoImplicit false
set_option linter.unusedSectionVars false

namespace Ieompp
namespace Program

open Spec ODE RealSpace IEEE

/-! ### C133, C134: the shipped parameters are finite, and the models with and without infinities agree on them -/

/-- A sorting function of the finite matrix elements. -/
def sortedReal (l : List (Triplet ℝ)) : List (Triplet ℝ) := l.mergeSort fun a b => decide (a.column ≤ b.column)

theorem sortedReal_isSort : IsSort sortedReal := mergeSort_isSort

theorem exact_sin (x : ℝ) : |Real.sin x - Real.sin x| ≤ 1 / 2 ^ 53 := by simp

theorem exact_cos (x : ℝ) : |Real.cos x - Real.cos x| ≤ 1 / 2 ^ 53 := by simp

/-- `real1dRk4_extends`: the shipped program, with infinities and NaN as possible values, writes eleven finite rows. -/
theorem real1dRk4X_shipped (w : Work ℂ) :
    ∃ s sx, real1dRk4R binary64 Real.sin sortedReal (serial 16) w 16 1 1 (double (1 / 100)) 10 100 (1 / 2) = .val s ∧
      real1dRk4X binary64 Real.sin sorted (serial 16) 16 (.fin 1) (.fin 1) (.fin (double (1 / 100))) (.fin 10) 100 (.fin (1 / 2)) = .val sx ∧
      sx.out = s.out.map (fun r => (.fin r.1, .fin r.2)) ∧ sx.out.length = 11 := by
  obtain ⟨m, s, -, h, hl, -⟩ := real1dRk4R_shipped sortedReal_isSort exact_sin (serial_valid 16) (fun _ => by simp [serial]) w
  obtain ⟨sx, hx, ho⟩ := real1dRk4_extends (by norm_num) sortedReal_isSort sorted_isSort (serial_valid 16) h
  exact ⟨s, sx, h, hx, ho, by rw [ho, List.length_map, hl]⟩

/-- `real1dRk4Jump_extends`: the same for the program of the jump. -/
theorem real1dRk4JumpX_shipped (w : Work ℂ) :
    ∃ s sx, real1dRk4JumpR binary64 Real.sin Real.cos sortedReal (serialJump 16 0) w 16 1 1 (double (1 / 100)) 10 100 (1 / 2) = .val s ∧
      real1dRk4JumpX binary64 Real.sin Real.cos sorted (serialJump 16 0) 16 (.fin 1) (.fin 1) (.fin (double (1 / 100))) (.fin 10) 100 (.fin (1 / 2)) = .val sx ∧
      sx.out = s.out.map (fun r => (.fin r.1, .fin r.2)) ∧ sx.out.length = 11 := by
  obtain ⟨m, s, -, h, hl, -⟩ := real1dRk4JumpR_shipped sortedReal_isSort exact_sin exact_cos (serialJump_valid 16 0) (List.Perm.refl _)
    (fun _ => by simp [serialJump]) w
  obtain ⟨sx, hx, ho⟩ := real1dRk4Jump_extends (by norm_num) sortedReal_isSort sorted_isSort h
  exact ⟨s, sx, h, hx, ho, by rw [ho, List.length_map, hl]⟩

/-- `real1dKineticRk4_extends`: the same for the program without interaction. -/
theorem real1dKineticRk4X_shipped (w : Work ℂ) :
    ∃ s sx, real1dKineticRk4R binary64 Real.sin sortedReal (serialKinetic 16) w 16 1 (double (1 / 100)) 10 100 (1 / 2) = .val s ∧
      real1dKineticRk4X binary64 Real.sin sorted (serialKinetic 16) 16 (.fin 1) (.fin (double (1 / 100))) (.fin 10) 100 (.fin (1 / 2)) = .val sx ∧
      sx.out = s.out.map (fun r => (.fin r.1, .fin r.2)) ∧ sx.out.length = 11 := by
  obtain ⟨s, h, hl, -⟩ := real1dKineticRk4R_shipped sortedReal_isSort exact_sin (serialKinetic_valid 16) (fun _ => by simp [serialKinetic]) w
  obtain ⟨sx, hx, ho⟩ := real1dKineticRk4_extends (by norm_num) sortedReal_isSort sorted_isSort (serialKinetic_valid 16) h
  exact ⟨s, sx, h, hx, ho, by rw [ho, List.length_map, hl]⟩

/-! ### C121: the assertions hold in the shipped program, and do not with a filling of 2 -/

section
open Chk

example (w : Work ℂ) : real1dRk4A double Real.sin sortedReal (serial 16) w 16 1 1 (double (1 / 100)) 10 100 (1 / 2) =
    lift (real1dRk4F double Real.sin sortedReal (serial 16) w 16 1 1 (double (1 / 100)) 10 100 (1 / 2)) :=
  real1dRk4_assertions double_zero (by norm_num) (serial_valid 16) w 1 1 (double (1 / 100)) 10 100 (by norm_num) (by norm_num)

example (w : Work ℂ) : real1dRk4A double Real.sin sortedReal (serial 16) w 16 1 1 (double (1 / 100)) 10 100 2 = .val none :=
  (programs_abort Real.cos (serial 16) (serialJump 16 0) w 16 1 1 (double (1 / 100)) 10 100 (Or.inr (by norm_num))).1

end

/-! ### C63: four momenta, the Fermi sea of one mode -/

section
open MomentumSpace

/-- `seaNumber_error`: the excess of the printed particle number at time 1, for a ring of four momenta, `U = 1/2`, energies up to 2 and one occupied momentum. -/
example (eps : ℕ → ℝ) (he : ∀ k < 4, |eps k| ≤ 2) : ∃ (m : Sparse ℝ) (v : ℝ → ℕ → ℂ),
    MomentumSpace.initMatrix (MomentumSpace.Spec.entries 4 1) 4 eps (1 / 2) 4 = .val m ∧ IsFlow (4 * 4 + 1) (fun i j => m.get i j) v ∧
      |(seaNumber 1 {up 1, dn 1} (MomentumSpace.Spec.entries 4 1) (v 1)).re - (seaNumber (-1) {up 1, dn 1} (MomentumSpace.Spec.entries 4 1) (v 1)).re - 1 / 8| ≤ 7 / 50 := by
  classical
  obtain ⟨m, hm, -⟩ := MomentumSpace.momentumMatrix_ok (S := ℝ) (N := 4) (by norm_num) 1 eps (1 / 2)
  obtain ⟨v, hv⟩ := flow_exists (4 * 4 + 1) fun i j => m.get i j
  refine ⟨m, v, hm, hv, ?_⟩
  have h := seaNumber_error (by norm_num) (by norm_num) he hm hv (FS := {up 1, dn 1}) (by simp) (t := 1) zero_le_one
  have hc : ((Finset.range 4).filter fun b => dn b ∈ ({up 1, dn 1} : Finset Mode)).card = 1 := by decide
  have habs : |(1 / 2 : ℝ) * 1| = 1 / 2 := by norm_num
  rw [hc, habs] at h
  norm_num at h ⊢
  exact h.trans (by norm_num)

end

/-! ### C77: 1024 momenta in double arithmetic -/

example : (Chain.momentumF double Real.pi 1024).lookupF double (double (double ((Chain.momentumF double Real.pi 1024).posF double 1000 +
    (Chain.momentumF double Real.pi 1024).posF double 700) - (Chain.momentumF double Real.pi 1024).posF double 3)) = .val (siteMod (1000 + 700 - 3) 1024) :=
  Chain.lookupF_sum double_rounding Real.pi_pos (by norm_num) (by norm_num) (i := 1000) (j := 700) (q := 3) (by norm_num) (by norm_num) (by norm_num)

/-! ### C26–C29, C106: a ring of four sites -/

theorem ring_regular : RegularLattice 4 2 (Chain.real (K := ℚ) 4 1).neighbors := chain_regular (.real 1 (by norm_num) rfl) (by norm_num)

theorem complex_sort : IsSort (fun l : List (Triplet ℂ) => l.mergeSort (fun a b => a.column ≤ b.column)) := mergeSort_isSort

/-- `initMatrix_ok`, `initMatrix_symm`, `matrix_symmetry`: the matrix exists, is symmetric, and is invariant under the translation by one site. -/
example (J U : ℚ) : ∃ m, initMatrix (fun l => l.mergeSort (fun a b => a.column ≤ b.column)) 4 2 (Chain.real (K := ℚ) 4 1).neighbors J U = .val m ∧
    m.rows = 68 ∧ (∀ p < m.rows, ∀ q < m.rows, m.get p q = m.get q p) ∧
    ∀ x y : Label, x.Valid 4 → y.Valid 4 → m.get ((x.move (shift 4 1)).pos 4) ((y.move (shift 4 1)).pos 4) = m.get (x.pos 4) (y.pos 4) := by
  obtain ⟨m, h1, h2, -⟩ := initMatrix_ok ring_regular _ mergeSort_isSort J U
  obtain ⟨m', h3, -, h4⟩ := initMatrix_symm ring_regular _ mergeSort_isSort J U
  obtain ⟨m'', h5, h6⟩ := matrix_symmetry ring_regular ((chain_symmetries (c := Chain.real (K := ℚ) 4 1) (.real 1 (by norm_num) rfl)).1 1 (by norm_num)) _ mergeSort_isSort J U
  rw [h1] at h3 h5
  cases h3
  cases h5
  exact ⟨m, h1, h2, h4, h6⟩

/-- `matrix_commutator`, `matrix_projection`: operators on the Fock space of four sites and their trace. -/
example (J U : ℂ) : ∃ τ : Module.End ℂ (Finset (Fin 4 ×ₗ Bool) → ℂ) →ₗ[ℂ] ℂ, τ 1 ≠ 0 ∧
    ∃ m, initMatrix (fun l => l.mergeSort (fun a b => a.column ≤ b.column)) 4 2 (Chain.real (K := ℚ) 4 1).neighbors J U = .val m ∧
      ∀ x y : Label, x.Valid 4 → y.Valid 4 →
        τ ((fockCAROn ℂ 4).labelOpAdj y * comm ((fockCAROn ℂ 4).hopping (Chain.real (K := ℚ) 4 1).neighbors J + (fockCAROn ℂ 4).interaction U) ((fockCAROn ℂ 4).labelOp x)) =
          m.get (x.pos 4) (y.pos 4) * τ ((fockCAROn ℂ 4).labelOpAdj y * (fockCAROn ℂ 4).labelOp y) := by
  obtain ⟨τ, h1, h2⟩ := fock_trace 4
  obtain ⟨m, h3, h4⟩ := matrix_projection (fockCAROn ℂ 4) τ h1 (by norm_num) ring_regular _ complex_sort J U
  exact ⟨τ, h2, m, h3, fun x y hx hy => (h4 x y hx hy).1⟩

/-- `siteOccupation_wick`: a functional with the correlations of the program on four sites, and an execution on one thread. -/
example (vec : List ℂ) (hv : vec.length = (basis3 4).length) :
    ∃ (C : CAROn 4 (Module.End ℂ (Finset Mode → ℂ))) (ω : Module.End ℂ (Finset Mode → ℂ) →ₗ[ℂ] ℂ) (z : ℂ),
      z = ω (C.combination (basis3 4) vec * C.combinationAdj (basis3 4) vec) ∧
      siteOccupation3 (siteEv (ringCorrelation (1 / 2) 4)) (basis3 4) (getConjugate (List.range (basis3 4).length) (basis3 4)) vec true 1
        ((loopA true 4).map fun p => (0, p)) ((loopB 4 (basis3 4).length).map fun p => (0, p)) ((loopC true 4 (basis3 4).length).map fun p => (0, p)) = .val z.re := by
  obtain ⟨C, ω, Q⟩ := quasiFree_exists 4 (ringCorrelation (1 / 2) 4)
  obtain ⟨z, h1, -, h2, -⟩ := siteOccupation_wick Q true (fun _ a _ b _ => ringCorrelation_symm _ _ _ _) vec hv 1 _ (List.Perm.refl _) _ _ _ (executes_sequential _)
    (executes_sequential _) (executes_sequential _)
  exact ⟨C, ω, z, h1, h2⟩

end Program

/-! ### C84: a product of a 3 by 3 matrix and a vector on two threads, in double arithmetic -/

namespace Threads

open Ieompp.Spec ODE RealSpace

/-- The memory of the example. -/
noncomputable def exampleMemory (v : Fin 3 → ℂ) : Loc → ℂ
  | .vector i => if h : i < 3 then v ⟨i, h⟩ else 0
  | _ => 0

/-- `multiply_link`: some schedule of the two threads comes to its end, and its result is that of the sequential model. -/
example (M : ℕ → ℕ → ℂ) (v : Fin 3 → ℂ) (junk : List ℂ → ℕ → ℂ) (temp : List ℂ) :
    ∃ result : Fin 3 → ℂ, (∃ sched, Spec.Finished (run sched (start (exampleMemory v) (fun _ => rowBody 3 M fun m x y => addC double y (mulC double m x))
        fun t => if t < 2 then (List.range 3).filter fun i => i % 2 = t else [])).1 ∧
      ∀ i : Fin 3, (run sched (start (exampleMemory v) (fun _ => rowBody 3 M fun m x y => addC double y (mulC double m x))
        fun t => if t < 2 then (List.range 3).filter fun i => i % 2 = t else [])).1.mem (.temp i) = result i) ∧
      multiplyAssignF double 3 M junk (allPairs 3) temp (List.ofFn v) = .val (List.ofFn v, List.ofFn result) := by
  have hw := roundRobin 2 3 (by norm_num)
  obtain ⟨sched, h1, h2⟩ := (multiply_interleaved hw (exampleMemory v) M fun m x y => addC double y (mulC double m x)).exists_run
  refine ⟨_, ⟨sched, h1, fun i => rfl⟩, multiply_link hw M v (exampleMemory v) (fun i => by simp [exampleMemory]) (fun i _ => rfl) sched h1 junk temp _ (List.Perm.refl _) ?_⟩
  intro i hi
  interval_cases i <;> decide

end Threads

/-! ### C128: a counter as the simulated system -/

namespace Sim

open Ieompp.Spec

/-- `simulateX_not_started`: an end time of NaN. -/
example : simulateX binary64 (fun n : ℕ => Res.val (n + 1)) (fun n => Res.val (n, n)) (.fin 1) .nan 1 0 = .val ⟨0, .fin 0, .fin 0, [(.fin 0, 0)]⟩ :=
  simulateX_not_started (tEnd := .nan) (r := (0, 0)) rfl (fun h => h)

/-- `simulateX_undefined`: a step width of NaN. -/
example : simulateX binary64 (fun n : ℕ => Res.val (n + 1)) (fun n => Res.val (n, n)) .nan (.fin 1) 1 0 = .ub :=
  simulateX_undefined (r := (0, 0)) (h1 := 1) rfl rfl (by simp [Ext.Lt]) (Or.inl rfl)

/-- `simulateX_minus_infinity`: a step width of minus infinity. -/
example : simulateX binary64 (fun n : ℕ => Res.val (n + 1)) (fun n => Res.val (n, n)) (.inf true) (.fin 1) 1 0 = .diverges :=
  simulateX_minus_infinity (fun _ => True) (r := (0, 0)) rfl trivial (fun h _ => ⟨h + 1, rfl, trivial⟩) (by simp [Ext.Lt])

end Sim

/-! ### C51: a matrix file -/

namespace IO

open Spec

theorem not_skippable {c : Char} {r : List Char} (h1 : c ∉ whitespace) (h2 : c ≠ '#') : ¬ isSkippableLine (c :: r) := by
  rw [isSkippableLine_iff]
  rintro (hb | ⟨ws, r', e, hw, -⟩)
  · exact h1 (hb c (by simp))
  · cases ws with
    | nil => rw [List.nil_append] at e; exact h2 (List.cons.inj e).1
    | cons a t => rw [List.cons_append] at e; exact h1 ((List.cons.inj e).1 ▸ hw a (by simp))

/-- The parser of the rows of the example. -/
def exampleParse (l : List Char) : Option (ℕ × ℕ × Bool) :=
  if l = "0\t1\tt".toList then some (0, 1, true) else if l = "1\t2\tf".toList then some (1, 2, false) else none

/-- The example: a comment, the size `2x3`, two entries and a line that is not read. -/
def exampleFile : List Char :=
  "# c".toList ++ '\n' :: ("2x3".toList ++ '\n' :: ("2".toList ++ '\n' :: ("0\t1\tt".toList ++ '\n' :: ("1\t2\tf".toList ++ '\n' :: "rest".toList))))

theorem exampleFile_data : dataLines ⟨exampleFile, true⟩ =
    ["2x3".toList, "2".toList, "0\t1\tt".toList, "1\t2\tf".toList, "rest".toList] := by
  have hp : pending ⟨exampleFile, true⟩ = "# c".toList :: ["2x3".toList, "2".toList, "0\t1\tt".toList, "1\t2\tf".toList, "rest".toList] := by
    unfold pending exampleFile
    rw [if_pos rfl, lines_append_newline (by decide), lines_append_newline (by decide), lines_append_newline (by decide), lines_append_newline (by decide),
      lines_append_newline (by decide), lines_of_no_newline (by decide)]
  have hc : isSkippableLine "# c".toList := (isSkippableLine_iff _).2 (Or.inr ⟨[], [' ', 'c'], rfl, fun c hc => by simp at hc, by decide⟩)
  unfold dataLines
  rw [hp, List.filter_cons_of_neg (by simpa using hc), List.filter_eq_self]
  intro l hl
  simp only [List.mem_cons, List.not_mem_nil, or_false] at hl
  apply @decide_eq_true _ (_)
  rcases hl with rfl | rfl | rfl | rfl | rfl <;> exact not_skippable (c := _) (r := _) (by decide) (by decide)

/-- `readMatrix_wellformed_partial`: the example file gives the matrix that it describes. -/
theorem exampleFile_matrix : ∃ m : SpMatrix Bool, readMatrix exampleParse ⟨exampleFile, true⟩ = .val (some m) ∧ m.rows = 2 ∧ m.cols = 3 ∧
    m.at? 0 1 = some true ∧ m.at? 1 2 = some false ∧ m.at? 0 0 = none := by
  obtain ⟨m, h1, h2, h3, h4⟩ := readMatrix_wellformed_partial exampleParse exampleFile 2 3 [(0, 1, true), (1, 2, false)]
    ["0\t1\tt".toList, "1\t2\tf".toList] ["rest".toList] exampleFile_data (by decide) (by decide) (by decide)
  exact ⟨m, h1, h2, h3, by rw [h4]; rfl, by rw [h4]; rfl, by rw [h4]; rfl⟩

end IO

/-! ### C70, C71: a program whose output file has the extension of the response file -/

namespace App

open Ieompp.Spec Ieompp.IO

/-- `response_lost`: with `--out=p.rsp` the response file is overwritten by the header. -/
theorem example_lost (env : Env) (fs : FS) : ∃ a all, construct exampleOptions (fun _ _ => true) env fs ["--out=p.rsp".toList] = .val (some (.app a)) ∧
    a.outputPath = "p.rsp".toList ∧ a.fs a.responsePath = some (headerText env.platform all) := by
  obtain ⟨a, h, -⟩ := command_line_starts example_good env fs [(outName, "p.rsp".toList)] (by decide) (by decide)
  have h' : construct exampleOptions (fun _ _ => true) env fs ["--out=p.rsp".toList] = .val (some (.app a)) := h
  obtain ⟨cmd, h1, h2⟩ := output_path_eq h
  have h3 := parseArgs_longArg example_good [(outName, "p.rsp".toList)] (by decide) []
  have h4 : cmd = [⟨outName, ["p.rsp".toList]⟩] := by
    have h5 : parseArgs exampleOptions ([(outName, "p.rsp".toList)].map longArg) = some [⟨outName, ["p.rsp".toList]⟩] := by simpa [parseArgs] using h3
    rw [h5] at h1
    exact (Option.some.inj h1).symm
  have h6 : a.outputPath = "p.rsp".toList := by
    subst h4
    exact (Option.some.inj h2).symm
  obtain ⟨all, h7⟩ := response_lost h (by rw [h6]; decide)
  exact ⟨a, all, h', h6, h7⟩

theorem out_option' : ∃ x ∈ exampleOptions, x.name = outName ∧ x.takesValue = true := by decide

theorem out_option : ∃ x ∈ exampleOptions, x.name = outName := by decide

theorem example_out (env : Env) (fs : FS) {path : Text} (h0 : path ≠ []) : ∃ a,
    construct exampleOptions (fun _ _ => true) env fs [longArg (outName, path)] = .val (some (.app a)) ∧ a.outputPath = path := by
  obtain ⟨a, h, -⟩ := command_line_starts example_good env fs [(outName, path)]
    (fun o ho => by obtain rfl := List.mem_singleton.1 ho; exact ⟨h0, rfl, show outName ∉ _ by decide, out_option⟩) (by simp)
  refine ⟨a, h, ?_⟩
  obtain ⟨cmd, h1, h2⟩ := output_path_eq h
  have h5 : parseArgs exampleOptions ([(outName, path)].map longArg) = some [⟨outName, [path]⟩] := by
    simpa [parseArgs] using parseArgs_longArg example_good [(outName, path)]
      (fun o ho => by obtain rfl := List.mem_singleton.1 ho; exact ⟨h0, Or.inr out_option'⟩) []
  rw [h5] at h1
  cases h1
  exact (Option.some.inj h2).symm

/-- `paths_shared`: two runs with `--out=d/p.txt` and `--out=d/p.dat` write the same log, response, matrix and checkpoint files. -/
example (env env' : Env) (fs fs' : FS) : ∃ a b, construct exampleOptions (fun _ _ => true) env fs ["--out=d/p.txt".toList] = .val (some (.app a)) ∧
    construct exampleOptions (fun _ _ => true) env' fs' ["--out=d/p.dat".toList] = .val (some (.app b)) ∧
    a.responsePath = b.responsePath ∧ a.logPath = b.logPath ∧ a.matrixPath = b.matrixPath ∧ a.checkpointPrefix = b.checkpointPrefix := by
  obtain ⟨a, h1, h2⟩ := example_out env fs (path := "d/p.txt".toList) (by decide)
  obtain ⟨b, h3, h4⟩ := example_out env' fs' (path := "d/p.dat".toList) (by decide)
  exact ⟨a, b, h1, h3, paths_shared h1 h3 (dir := "d/".toList) (base := ['p']) (e₁ := "txt".toList) (e₂ := "dat".toList) (Or.inr ⟨['d'], rfl⟩) (by decide) (by decide)
    (by decide) h2 h4⟩

end App
end Ieompp
