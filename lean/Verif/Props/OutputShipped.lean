import Verif.Props.OutputRows
import Verif.Props.Durability

/-! # C116: the result files of the programs as they are shipped -/

set_option autoImplicit false
set_option linter.unusedSectionVars false

namespace Ieompp
namespace OutputText

open Spec
open Ieompp.IO (Text)
open KroneckerNumber (Double padded)
open Program ODE RealSpace

variable {H O : Type*}

/-- The rows of a program that ran with the default step width, end time and interval. -/
theorem shipped_rows {step : H → Res H} {measure : H → Res (H × O)} {h0 : H} {s : Sim.State H O}
    (h : Sim.simulateF double step measure (double (1 / 100)) 10 100 h0 = .val s)
    {numbers : O → List ℝ} {rows : List (Double × List Double)} (hr : Renders numbers rows s.out) :
    rows.length = 11 ∧ ∀ j (hj : j < rows.length), |rows[j].1.value - j| ≤ 1 / 10 ^ 8 ∧ (j = 0 → rows[j].1.value = 0) := by
  have hdt := Program.double_hundredth
  generalize double (1 / 100) = dt at hdt h
  obtain ⟨ha, hb⟩ := abs_le.1 hdt
  have hdt0 : 0 < dt := by norm_num at ha; linarith
  obtain ⟨n, hn, h1, h2, h3, h4⟩ := rows_times hdt0 (by norm_num at ha hb ⊢; linarith) h hr
  rw [show max 100 1 = 100 from rfl] at h3 h4
  have herr : ∀ k ≤ 1002, |Sim.Spec.time double dt k - k * dt| ≤ 1 / 10 ^ 9 := fun k hk => by
    have hk' : (k : ℝ) ≤ 1002 := by exact_mod_cast hk
    refine (Sim.time_error double_rounding hdt0 double_steps k (by omega)).trans ?_
    have h2 : (k : ℝ) ^ 2 ≤ 1002 ^ 2 := by gcongr
    have h3 : dt ≤ 2 / 100 := by norm_num at hb; linarith
    calc 2 * (1 / 2 ^ 53) * (k : ℝ) ^ 2 * dt ≤ 2 * (1 / 2 ^ 53) * 1002 ^ 2 * (2 / 100) := by gcongr
      _ ≤ 1 / 10 ^ 9 := by norm_num
  have hlo : 1000 ≤ n := by
    by_contra hc
    have hn9 : n ≤ 999 := by omega
    have hn' : (n : ℝ) ≤ 999 := by exact_mod_cast hn9
    have en := abs_le.1 (herr n (by omega))
    have : (n : ℝ) * dt ≤ 999 * dt := by gcongr
    norm_num at en hb
    linarith
  have hhi : n ≤ 1001 := by
    by_contra hc
    have := h1 1001 (by omega)
    have en := abs_le.1 (herr 1001 (by omega))
    norm_num at en ha
    linarith
  have hlen : rows.length = 11 := by rw [h3]; omega
  refine ⟨hlen, fun j hj => ⟨?_, fun h0 => ?_⟩⟩
  · rw [h4 j hj]
    rw [hlen] at hj
    have en := abs_le.1 (herr (j * 100) (by omega))
    have hj' : (j : ℝ) ≤ 10 := by exact_mod_cast (by omega : j ≤ 10)
    have hj0 : (0 : ℝ) ≤ j := Nat.cast_nonneg j
    push_cast at en
    norm_num at en ha hb ⊢
    have l1 : (j : ℝ) * (1 / 100 - 1 / 1000000000000000) ≤ j * dt := by gcongr; norm_num; linarith
    have l2 : (j : ℝ) * dt ≤ j * (1 / 100 + 1 / 1000000000000000) := by gcongr; norm_num; linarith
    rw [abs_le]
    constructor <;> nlinarith
  · rw [h4 j hj, h0, Nat.zero_mul]; rfl

/-- **C116 for the programs as they are shipped**: the file has eleven rows, whose times are exactly the texts `0`, `1`, …, `10`. -/
theorem shipped_file {step : H → Res H} {measure : H → Res (H × O)} {h0 : H} {s : Sim.State H O}
    (h : Sim.simulateF double step measure (double (1 / 100)) 10 100 h0 = .val s)
    {numbers : O → List ℝ} {rows : List (Double × List Double)} (hr : Renders numbers rows s.out) :
    rows.length = 11 ∧ simulationText rows =
      (List.zipWith (fun j r => IO.printNat j ++ r.2.flatMap (fun y => '\t' :: writeDouble y) ++ ['\n']) (List.range 11) rows).flatten := by
  obtain ⟨hl, ht⟩ := shipped_rows h hr
  refine ⟨hl, ?_⟩
  cases rows with
  | nil => simp at hl
  | cons first out =>
    rw [List.length_cons] at hl
    have hl' : out.length = 10 := by omega
    rw [List.range_succ_eq_map, List.zipWith_cons_cons, List.flatten_cons]
    show writeFirstRow first.2 ++ out.flatMap (fun r => writeRow r.1 r.2) = _
    unfold writeFirstRow
    congr 1
    rw [List.flatMap_def]
    congr 1
    refine List.ext_getElem (by simp [hl']) fun j h1 h2 => ?_
    rw [List.length_map] at h1
    rw [List.getElem_map, List.getElem_zipWith, List.getElem_map, List.getElem_range]
    unfold writeRow
    have := (ht (j + 1) (by simp; omega)).1
    rw [List.getElem_cons_succ] at this
    rw [integer_text (by omega) (by omega : j + 1 ≤ 10) this]

variable {sort : List (Triplet ℝ) → List (Triplet ℝ)} {sinF cosF : ℝ → ℝ}

/-! ### The programs are simulations in the sense of `simulateF` -/

theorem real1dRk4F_run {fl : ℝ → ℝ} {e : Execution} {w : Work ℂ} {N : ℕ} {J U dt tEnd : ℝ} {interval : ℕ} {filling : ℝ} {s : Sim.State Vars ℝ}
    (h : real1dRk4F fl sinF sort e w N J U dt tEnd interval filling = .val s) :
    ∃ step measure h0, Sim.simulateF fl step measure dt tEnd interval h0 = .val s := by
  unfold real1dRk4F at h
  obtain ⟨_, -, h⟩ := Durability.bind_eq_val h
  obtain ⟨_, -, h⟩ := Durability.bind_eq_val h
  obtain ⟨_, -, h⟩ := Durability.bind_eq_val h
  exact ⟨_, _, _, h⟩

theorem real1dKineticRk4F_run {fl : ℝ → ℝ} {e : Execution} {w : Work ℂ} {N : ℕ} {J dt tEnd : ℝ} {interval : ℕ} {filling : ℝ} {s : Sim.State Vars ℝ}
    (h : real1dKineticRk4F fl sinF sort e w N J dt tEnd interval filling = .val s) :
    ∃ step measure h0, Sim.simulateF fl step measure dt tEnd interval h0 = .val s := by
  unfold real1dKineticRk4F at h
  obtain ⟨_, -, h⟩ := Durability.bind_eq_val h
  obtain ⟨_, -, h⟩ := Durability.bind_eq_val h
  obtain ⟨_, -, h⟩ := Durability.bind_eq_val h
  exact ⟨_, _, _, h⟩

theorem real1dRk4CoefficientsF_run {fl : ℝ → ℝ} {w : Work ℂ} {N : ℕ} {J U dt tEnd : ℝ} {interval : ℕ} {s : Sim.State Vars (List ℝ)}
    (h : real1dRk4CoefficientsF fl sort w N J U dt tEnd interval = .val s) :
    ∃ step measure h0, Sim.simulateF fl step measure dt tEnd interval h0 = .val s := by
  unfold real1dRk4CoefficientsF at h
  obtain ⟨_, -, h⟩ := Durability.bind_eq_val h
  obtain ⟨_, -, h⟩ := Durability.bind_eq_val h
  exact ⟨_, _, _, h⟩

theorem real1dKineticRk4CoefficientsF_run {fl : ℝ → ℝ} {w : Work ℂ} {N : ℕ} {J dt tEnd : ℝ} {interval : ℕ} {s : Sim.State Vars (List ℝ)}
    (h : real1dKineticRk4CoefficientsF fl sort w N J dt tEnd interval = .val s) :
    ∃ step measure h0, Sim.simulateF fl step measure dt tEnd interval h0 = .val s := by
  unfold real1dKineticRk4CoefficientsF at h
  obtain ⟨_, -, h⟩ := Durability.bind_eq_val h
  obtain ⟨_, -, h⟩ := Durability.bind_eq_val h
  exact ⟨_, _, _, h⟩

theorem real1dRk4JumpF_run {fl : ℝ → ℝ} {e : JumpExecution} {w : Work ℂ} {N : ℕ} {J U dt tEnd : ℝ} {interval : ℕ} {filling : ℝ} {s : Sim.State JumpVars ℝ}
    (h : real1dRk4JumpF fl sinF cosF sort e w N J U dt tEnd interval filling = .val s) :
    ∃ step measure h0, Sim.simulateF fl step measure dt tEnd interval h0 = .val s := by
  unfold real1dRk4JumpF at h
  obtain ⟨_, -, h⟩ := Durability.bind_eq_val h
  obtain ⟨_, -, h⟩ := Durability.bind_eq_val h
  obtain ⟨_, -, h⟩ := Durability.bind_eq_val h
  obtain ⟨_, -, h⟩ := Durability.bind_eq_val h
  exact ⟨_, _, _, h⟩

theorem real2dRk4JumpF_run {fl : ℝ → ℝ} {e : JumpExecution} {w : Work ℂ} {Nx Ny : ℕ} {J U dt tEnd : ℝ} {interval : ℕ} {kx ky : ℝ} {s : Sim.State JumpVars ℝ}
    (h : real2dRk4JumpF fl sinF cosF sort e w Nx Ny J U dt tEnd interval kx ky = .val s) :
    ∃ step measure h0, Sim.simulateF fl step measure dt tEnd interval h0 = .val s := by
  unfold real2dRk4JumpF at h
  obtain ⟨_, -, h⟩ := Durability.bind_eq_val h
  obtain ⟨_, -, h⟩ := Durability.bind_eq_val h
  obtain ⟨_, -, h⟩ := Durability.bind_eq_val h
  obtain ⟨_, -, h⟩ := Durability.bind_eq_val h
  exact ⟨_, _, _, h⟩

/-! ### Results -/

theorem renders_number {rows : List (Double × List Double)} {out : List (ℝ × ℝ)} (h : Renders (fun x => [x]) rows out) {j : ℕ} {t x : ℝ}
    (hx : out[j]? = some (t, x)) : ∃ (hj : j < rows.length) (y : Double), rows[j].2 = [y] ∧ y.value = x ∧ rows[j].1.value = t := by
  have hj := congrArg (fun l => l[j]?) h
  simp only [List.getElem?_map, hx, Option.map_some] at hj
  obtain ⟨r, hr, hv⟩ := Option.map_eq_some_iff.1 hj
  obtain ⟨hlt, rfl⟩ := List.getElem?_eq_some_iff.1 hr
  obtain ⟨h1, h2⟩ := Prod.mk.injEq .. ▸ hv
  obtain ⟨y, hy, hyx⟩ := List.map_eq_singleton_iff.1 h2
  exact ⟨hlt, y, hy, hyx, h1⟩

/-- **C115/C116, the file that `hubbard_real_1d_kinetic_rk4` writes without options** (16 sites, `J = 1`, half filling), in `double` arithmetic, for every implementation of `sin` with
an error of at most one unit roundoff and every execution on up to `2^16` threads: exactly this text after the header. -/
theorem real1dKineticRk4_file (hs : IsSort sort) (hsin : ∀ x, |sinF x - Real.sin x| ≤ 1 / 2 ^ 53) {e : Execution} (he : e.ValidKinetic 16)
    (hthreads : ∀ k, e.threads k ≤ 2 ^ 16) (w : Work ℂ) :
    ∃ s, real1dKineticRk4F double sinF sort e w 16 1 (double (1 / 100)) 10 100 (1 / 2) = .val s ∧
      ∀ rows, Renders (fun x => [x]) rows s.out →
        simulationText rows = "0\t0.5\n1\t0.5\n2\t0.5\n3\t0.5\n4\t0.5\n5\t0.5\n6\t0.5\n7\t0.5\n8\t0.5\n9\t0.5\n10\t0.5\n".toList := by
  obtain ⟨s, h1, -, h3⟩ := real1dKineticRk4_shipped hs hsin he hthreads w
  obtain ⟨step, measure, h0, hrun⟩ := real1dKineticRk4F_run h1
  refine ⟨s, h1, fun rows hr => ?_⟩
  obtain ⟨hl, ht⟩ := shipped_file hrun hr
  have : List.zipWith (fun j r => IO.printNat j ++ r.2.flatMap (fun y => '\t' :: writeDouble y) ++ ['\n']) (List.range 11) rows =
      (List.range 11).map fun j => IO.printNat j ++ "\t0.5\n".toList := by
    refine List.ext_getElem (by simp [hl]) fun j hj _ => ?_
    rw [List.length_zipWith, List.length_range, hl, min_self] at hj
    rw [List.getElem_zipWith, List.getElem_map, List.getElem_range]
    obtain ⟨t, x, hx, -, hx2⟩ := h3 j hj
    obtain ⟨hj', y, hy, hyx, -⟩ := renders_number hr hx
    rw [← hyx] at hx2
    rw [hy, List.flatMap_singleton, half_text hx2, List.append_assoc]
    rfl
  rw [ht, this]
  decide

/-- A row of the file of a program that writes one number per measurement, run without options. -/
theorem shipped_cell {step : H → Res H} {measure : H → Res (H × ℝ)} {h0 : H} {s : Sim.State H ℝ}
    (h : Sim.simulateF double step measure (double (1 / 100)) 10 100 h0 = .val s) {rows : List (Double × List Double)}
    (hr : Renders (fun x => [x]) rows s.out) {j : ℕ} {t x y ε : ℝ} (hx : s.out[j]? = some (t, x)) (he : |x - y| ≤ ε) :
    ∃ text v, (readTable (simulationText rows))[j]? = some [IO.printNat j, text] ∧ DecimalText text v ∧ |(v : ℝ) - y| ≤ ε + 5 / 10 ^ 6 * (|y| + ε) := by
  obtain ⟨hl, ht⟩ := shipped_rows h hr
  obtain ⟨hj, z, hz, hzx, -⟩ := renders_number hr hx
  refine ⟨writeDouble z, written z, ?_, writeDouble_text z, written_accuracy (hzx ▸ he)⟩
  cases rows with
  | nil => simp at hj
  | cons first out =>
    rw [simulationText_cells]
    cases j with
    | zero =>
      rw [List.getElem_cons_zero] at hz
      rw [List.getElem?_cons_zero, hz]
      rfl
    | succ j =>
      rw [List.getElem_cons_succ] at hz
      have h1 := (ht (j + 1) hj).1
      rw [List.getElem_cons_succ] at h1
      rw [List.getElem?_cons_succ, List.getElem?_map, List.getElem?_eq_getElem (by rw [List.length_cons] at hj; omega), Option.map_some, hz,
        integer_text (by omega) (by omega) h1]
      rfl

theorem readTable_length {out : List (ℝ × ℝ)} {rows : List (Double × List Double)} (hr : Renders (fun x => [x]) rows out) :
    (readTable (simulationText rows)).length = out.length := by
  have h : rows.length = out.length := by
    have := congrArg List.length hr
    simpa using this
  rw [← h]
  cases rows with
  | nil => rfl
  | cons first out => rw [simulationText_cells]; simp

/-- **C115/C116, the file that `hubbard_real_1d_rk4` writes without options**: eleven rows, their times are the texts `0`, …, `10`, and the numbers after them are within 0.0025 and half a
unit of the sixth digit of the exact expectation value. -/
theorem real1dRk4_file (hs : IsSort sort) (hsin : ∀ x, |sinF x - Real.sin x| ≤ 1 / 2 ^ 53) {e : Execution} (he : e.Valid 16)
    (hthreads : ∀ k, e.threads k ≤ 2 ^ 16) (w : Work ℂ) :
    ∃ m s, initMatrix sort 16 2 (Chain.real (K := ℝ) 16 1).neighbors 1 1 = .val m ∧
      real1dRk4F double sinF sort e w 16 1 1 (double (1 / 100)) 10 100 (1 / 2) = .val s ∧
      ∀ rows, Renders (fun x => [x]) rows s.out → (readTable (simulationText rows)).length = 11 ∧
        ∀ {R : Type} [Ring R] [Algebra ℂ R] (C : CAROn 16 R) (ω : R →ₗ[ℂ] ℂ), QuasiFree C ω (ringCorrelation (1 / 2) 16) →
        ∀ v, IsFlow (16 + 16 * 16 * 16) (fun i j => m.get i j) v →
        ∀ j < 11, ∀ E, E = (ω (C.superpose (basis3 16) (16 + 16 * 16 * 16) (v ((j * 100 : ℕ) * double (1 / 100))) *
              C.superposeAdj (basis3 16) (16 + 16 * 16 * 16) (v ((j * 100 : ℕ) * double (1 / 100))))).re →
          ∃ text x, (readTable (simulationText rows))[j]? = some [IO.printNat j, text] ∧ DecimalText text x ∧
            |(x : ℝ) - E| ≤ 1 / 400 + 5 / 10 ^ 6 * (|E| + 1 / 400) := by
  obtain ⟨m, s, h1, h2, h3, h4⟩ := real1dRk4_shipped hs hsin he hthreads w
  obtain ⟨step, measure, h0, hrun⟩ := real1dRk4F_run h2
  refine ⟨m, s, h1, h2, fun rows hr => ⟨(readTable_length hr).trans h3, fun {R} _ _ C ω Q v hv j hj E hE => ?_⟩⟩
  obtain ⟨t, x, hx, -, hxe⟩ := h4 C ω Q v hv j hj
  rw [← hE] at hxe
  exact shipped_cell hrun hr hx hxe

/-- **C115/C116, the file that `hubbard_real_1d_rk4_jump` writes without options**: eleven rows, their times are the texts `0`, …, `10`, and the numbers after them are within 0.008 and half
a unit of the sixth digit of the Fermi jump of the exact solution. -/
theorem real1dRk4Jump_file (hs : IsSort sort) (hsin : ∀ x, |sinF x - Real.sin x| ≤ 1 / 2 ^ 53) (hcos : ∀ x, |cosF x - Real.cos x| ≤ 1 / 2 ^ 53)
    {e : JumpExecution} (he : e.Valid 16) (het : e.table.Perm (List.range' 1 8)) (hthreads : ∀ k, e.threads k ≤ 2 ^ 16) (w : Work ℂ) :
    ∃ m s, initMatrix sort 16 2 (Chain.real (K := ℝ) 16 1).neighbors 1 1 = .val m ∧
      real1dRk4JumpF double sinF cosF sort e w 16 1 1 (double (1 / 100)) 10 100 (1 / 2) = .val s ∧
      ∀ rows, Renders (fun x => [x]) rows s.out → (readTable (simulationText rows)).length = 11 ∧
        ∀ v, IsFlow (16 + 16 * 16 * 16) (fun i j => m.get i j) v →
        ∀ j < 11, ∀ E, E = fermiJump (ringCorrelation (1 / 2) 16) 16 (fun i => 1 / 2 * Real.pi * i) (v ((j * 100 : ℕ) * double (1 / 100))) →
          ∃ text x, (readTable (simulationText rows))[j]? = some [IO.printNat j, text] ∧ DecimalText text x ∧
            |(x : ℝ) - E| ≤ 1 / 125 + 5 / 10 ^ 6 * (|E| + 1 / 125) := by
  obtain ⟨m, s, h1, h2, h3, h4⟩ := real1dRk4Jump_shipped hs hsin hcos he het hthreads w
  obtain ⟨step, measure, h0, hrun⟩ := real1dRk4JumpF_run h2
  refine ⟨m, s, h1, h2, fun rows hr => ⟨(readTable_length hr).trans h3, fun v hv j hj E hE => ?_⟩⟩
  obtain ⟨t, x, hx, -, -, hxe⟩ := h4 v hv j hj
  rw [← hE] at hxe
  exact shipped_cell hrun hr hx hxe

/-- **C116 is false of `hubbard_real_1d_kinetic_rk4 --measurement_interval=1 --t_end=20000`** (all other parameters as shipped): the program runs to the end, and the rows 1000000 and 1000001 of its
file have the same time. -/
theorem real1dKineticRk4_equal_times (hs : IsSort sort) (hsin : ∀ x, |sinF x - Real.sin x| ≤ 1 / 2 ^ 53) {e : Execution} (he : e.ValidKinetic 16) (w : Work ℂ) :
    ∃ s, real1dKineticRk4F double sinF sort e w 16 1 (double (1 / 100)) 20000 1 (1 / 2) = .val s ∧
      ∀ rows, Renders (fun x => [x]) rows s.out → ∃ r r', (readTable (simulationText rows))[1000000]? = some ("10000".toList :: r) ∧
        (readTable (simulationText rows))[1000001]? = some ("10000".toList :: r') := by
  have hdt := Program.double_hundredth
  obtain ⟨ha, hb⟩ := abs_le.1 hdt
  have hdt0 : 0 < double (1 / 100) := by norm_num at ha ⊢; linarith
  obtain ⟨s, k, h2, -⟩ := real1dKineticRk4_double (N := 16) (J := 1) (filling := 1 / 2) (dt := double (1 / 100)) (tEnd := 20000) (by norm_num) hs
    shipped_double (by norm_num) (by norm_num) hsin hdt0 (by
      calc (double (1 / 100) * (2 * |1|)) ^ 2 ≤ 1 ^ 2 := by
            have : double (1 / 100) * (2 * |1|) ≤ 1 := by norm_num at hb ⊢; linarith
            gcongr
        _ ≤ 8 := by norm_num) (by norm_num at ha hb ⊢; linarith) 1 he w
  obtain ⟨step, measure, h0, hrun⟩ := real1dKineticRk4F_run h2
  exact ⟨s, h2, fun rows hr => file_times_equal le_rfl (by norm_num) (by norm_num) hrun hr⟩

/-! ### Examples -/

/-- Rows with the numbers of an output exist for every output. -/
example : ∃ rows, Renders (fun x => [x]) rows [((0 : ℝ), (1 / 2 : ℝ)), (1, -1 / 3)] := renders_exists _ _

/-- The conditions of `file_times_partial` are met by the shipped parameters. -/
example : (0 : ℝ) < 1 / 100 ∧ (10 : ℝ) + 1 / 100 / 16 ≤ 2 ^ 24 * (1 / 100) ∧ (10 : ℝ) + 2 * (1 / 100) < 87500 * (max 100 1 : ℕ) * (1 / 100) := by
  norm_num

/-! The text of the digits. -/
example : writeDigits 123456 (-7) = "1.23456e-07".toList := by decide
example : writeDigits 120000 (-5) = "1.2e-05".toList := by decide
example : writeDigits 123400 (-4) = "0.0001234".toList := by decide
example : writeDigits 333333 (-1) = "0.333333".toList := by decide
example : writeDigits 200000 0 = "2".toList := by decide
example : writeDigits 314159 0 = "3.14159".toList := by decide
example : writeDigits 100000 5 = "100000".toList := by decide
example : writeDigits 999999 5 = "999999".toList := by decide
example : writeDigits 100000 6 = "1e+06".toList := by decide
example : writeDigits 123456 120 = "1.23456e+120".toList := by decide

/-- One third, with its sign. -/
example : writeDouble ⟨true, 1 / 3, by norm_num⟩ = "-0.333333".toList := by
  have h : sixDigits (1 / 3) = (333333, -1) := sixDigits_eq (by norm_num) (by norm_num) (Or.inr ⟨by norm_num, by norm_num [abs_lt]⟩)
  have h3 : ((1 : ℝ) / 3) ≠ 0 := by norm_num
  unfold writeDouble
  simp only [if_neg h3, h]
  decide

end OutputText
end Ieompp
