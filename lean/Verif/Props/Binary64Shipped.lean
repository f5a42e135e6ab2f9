import Verif.Props.Binary64Link
import Verif.Props.Binary64Measured
import Verif.Props.Binary64JumpProgram
import Verif.Props.OutputShipped

/-! # C120: the result files of the programs as they are shipped, in binary64 with underflow and overflow -/

set_option autoImplicit false
set_option linter.unusedSectionVars false

namespace Ieompp.IEEE

open Ieompp.Spec Program ODE RealSpace OutputText
open Ieompp.IO (Text)
open KroneckerNumber (Double)

variable {sort : List (Triplet ℝ) → List (Triplet ℝ)} {sinF cosF : ℝ → ℝ}

/-! ### The programs are simulations in the sense of `simulateR` -/

theorem real1dRk4R_run {rnd : ℝ → Res ℝ} {e : Execution} {w : Work ℂ} {N : ℕ} {J U dt tEnd : ℝ} {interval : ℕ} {filling : ℝ} {s : Sim.State Vars ℝ}
    (h : real1dRk4R rnd sinF sort e w N J U dt tEnd interval filling = .val s) :
    ∃ step measure h0, simulateR rnd step measure dt tEnd interval h0 = .val s := by
  unfold real1dRk4R at h
  obtain ⟨_, -, h⟩ := Durability.bind_eq_val h
  obtain ⟨_, -, h⟩ := Durability.bind_eq_val h
  obtain ⟨_, -, h⟩ := Durability.bind_eq_val h
  obtain ⟨_, -, h⟩ := Durability.bind_eq_val h
  obtain ⟨_, -, h⟩ := Durability.bind_eq_val h
  obtain ⟨_, -, h⟩ := Durability.bind_eq_val h
  exact ⟨_, _, _, h⟩

theorem real1dKineticRk4R_run {rnd : ℝ → Res ℝ} {e : Execution} {w : Work ℂ} {N : ℕ} {J dt tEnd : ℝ} {interval : ℕ} {filling : ℝ} {s : Sim.State Vars ℝ}
    (h : real1dKineticRk4R rnd sinF sort e w N J dt tEnd interval filling = .val s) :
    ∃ step measure h0, simulateR rnd step measure dt tEnd interval h0 = .val s := by
  unfold real1dKineticRk4R at h
  obtain ⟨_, -, h⟩ := Durability.bind_eq_val h
  obtain ⟨_, -, h⟩ := Durability.bind_eq_val h
  obtain ⟨_, -, h⟩ := Durability.bind_eq_val h
  obtain ⟨_, -, h⟩ := Durability.bind_eq_val h
  obtain ⟨_, -, h⟩ := Durability.bind_eq_val h
  exact ⟨_, _, _, h⟩

theorem real1dRk4CoefficientsR_run {rnd : ℝ → Res ℝ} {w : Work ℂ} {N : ℕ} {J U dt tEnd : ℝ} {interval : ℕ} {s : Sim.State Vars (List ℝ)}
    (h : real1dRk4CoefficientsR rnd sort w N J U dt tEnd interval = .val s) :
    ∃ step measure h0, simulateR rnd step measure dt tEnd interval h0 = .val s := by
  unfold real1dRk4CoefficientsR at h
  obtain ⟨_, -, h⟩ := Durability.bind_eq_val h
  obtain ⟨_, -, h⟩ := Durability.bind_eq_val h
  obtain ⟨_, -, h⟩ := Durability.bind_eq_val h
  obtain ⟨_, -, h⟩ := Durability.bind_eq_val h
  exact ⟨_, _, _, h⟩

theorem real1dKineticRk4CoefficientsR_run {rnd : ℝ → Res ℝ} {w : Work ℂ} {N : ℕ} {J dt tEnd : ℝ} {interval : ℕ} {s : Sim.State Vars (List ℝ)}
    (h : real1dKineticRk4CoefficientsR rnd sort w N J dt tEnd interval = .val s) :
    ∃ step measure h0, simulateR rnd step measure dt tEnd interval h0 = .val s := by
  unfold real1dKineticRk4CoefficientsR at h
  obtain ⟨_, -, h⟩ := Durability.bind_eq_val h
  obtain ⟨_, -, h⟩ := Durability.bind_eq_val h
  obtain ⟨_, -, h⟩ := Durability.bind_eq_val h
  exact ⟨_, _, _, h⟩

theorem real1dRk4JumpR_run {rnd : ℝ → Res ℝ} {e : JumpExecution} {w : Work ℂ} {N : ℕ} {J U dt tEnd : ℝ} {interval : ℕ} {filling : ℝ} {s : Sim.State JumpVars ℝ}
    (h : real1dRk4JumpR rnd sinF cosF sort e w N J U dt tEnd interval filling = .val s) :
    ∃ step measure h0, simulateR rnd step measure dt tEnd interval h0 = .val s := by
  unfold real1dRk4JumpR at h
  obtain ⟨_, -, h⟩ := Durability.bind_eq_val h
  obtain ⟨_, -, h⟩ := Durability.bind_eq_val h
  obtain ⟨_, -, h⟩ := Durability.bind_eq_val h
  obtain ⟨_, -, h⟩ := Durability.bind_eq_val h
  obtain ⟨_, -, h⟩ := Durability.bind_eq_val h
  obtain ⟨_, -, h⟩ := Durability.bind_eq_val h
  obtain ⟨_, -, h⟩ := Durability.bind_eq_val h
  exact ⟨_, _, _, h⟩

theorem real2dRk4JumpR_run {rnd : ℝ → Res ℝ} {e : JumpExecution} {w : Work ℂ} {Nx Ny : ℕ} {J U dt tEnd : ℝ} {interval : ℕ} {kx ky : ℝ} {s : Sim.State JumpVars ℝ}
    (h : real2dRk4JumpR rnd sinF cosF sort e w Nx Ny J U dt tEnd interval kx ky = .val s) :
    ∃ step measure h0, simulateR rnd step measure dt tEnd interval h0 = .val s := by
  unfold real2dRk4JumpR at h
  obtain ⟨_, -, h⟩ := Durability.bind_eq_val h
  obtain ⟨_, -, h⟩ := Durability.bind_eq_val h
  obtain ⟨_, -, h⟩ := Durability.bind_eq_val h
  obtain ⟨_, -, h⟩ := Durability.bind_eq_val h
  obtain ⟨_, -, h⟩ := Durability.bind_eq_val h
  obtain ⟨_, -, h⟩ := Durability.bind_eq_val h
  exact ⟨_, _, _, h⟩

/-! ### The default step width -/

theorem small_pow {n : ℕ} (hn : 10 ≤ n) : (1 : ℝ) / 2 ^ n ≤ 1 / 1000 := by
  refine one_div_le_one_div_of_le (by norm_num) ?_
  calc (1000 : ℝ) ≤ 2 ^ 10 := by norm_num
    _ ≤ 2 ^ n := pow_le_pow_right₀ one_le_two hn

theorem large_pow {n : ℕ} : (1 : ℝ) ≤ 2 ^ n := one_le_pow₀ one_le_two

/-- The default step width: what the option parser makes of `0.01`. -/
theorem binary64_hundredth : binary64 (1 / 100) = .val (double (1 / 100)) := by
  have h : |(1 / 100 : ℝ)| = 1 / 100 := abs_of_pos (by norm_num)
  refine binary64_normal ?_ ?_ <;> rw [h]
  · exact (small_pow (by norm_num)).trans (by norm_num)
  · exact le_trans (by norm_num) large_pow

theorem hundredth_range {dt : ℝ} (h : |dt - 1 / 100| ≤ 1 / 10 ^ 15) : 1 / 2 ^ 1000 ≤ dt ∧ dt ≤ 2 ^ 900 := by
  obtain ⟨ha, hb⟩ := abs_le.1 h
  constructor
  · refine (small_pow (by norm_num)).trans ?_
    norm_num at ha ⊢; linarith
  · refine le_trans ?_ large_pow
    norm_num at hb ⊢; linarith

theorem one_half_range : (1 : ℝ) = 0 ∨ 1 / 2 ^ 1021 ≤ |(1 : ℝ)| :=
  Or.inr (by rw [abs_one]; exact (small_pow (by norm_num)).trans (by norm_num))

/-! ### The numbers -/

/-- **C118 for `hubbard_real_1d_rk4` as it is shipped**: as `real1dRk4_shipped` (C109), in binary64 with underflow and overflow. -/
theorem real1dRk4R_shipped (hs : IsSort sort) (hsin : ∀ x, |sinF x - Real.sin x| ≤ 1 / 2 ^ 53) {e : Execution} (he : e.Valid 16)
    (hthreads : ∀ k, e.threads k ≤ 2 ^ 16) (w : Work ℂ) :
    ∃ m s, initMatrix sort 16 2 (Chain.real (K := ℝ) 16 1).neighbors 1 1 = .val m ∧
      real1dRk4R binary64 sinF sort e w 16 1 1 (double (1 / 100)) 10 100 (1 / 2) = .val s ∧ s.out.length = 11 ∧
      ∀ {R : Type} [Ring R] [Algebra ℂ R] (C : CAROn 16 R) (ω : R →ₗ[ℂ] ℂ), QuasiFree C ω (ringCorrelation (1 / 2) 16) →
      ∀ v, IsFlow (16 + 16 * 16 * 16) (fun i j => m.get i j) v →
      ∀ j : ℕ, j < 11 → ∃ t x : ℝ, s.out[j]? = some (t, x) ∧ |t - (j : ℝ)| ≤ 1 / 1000 ∧
        |x - (ω (C.superpose (basis3 16) (16 + 16 * 16 * 16) (v ((j * 100 : ℕ) * double (1 / 100))) *
            C.superposeAdj (basis3 16) (16 + 16 * 16 * 16) (v ((j * 100 : ℕ) * double (1 / 100))))).re| ≤ 1 / 400 := by
  have hdt := double_hundredth
  generalize double (1 / 100) = dt at hdt
  obtain ⟨ha, hb⟩ := abs_le.1 hdt
  obtain ⟨hr1, hr2⟩ := hundredth_range hdt
  have hdt0 : 0 < dt := by clear hr1 hr2; norm_num at ha; linarith
  have hx7 : dt * (6 * |1| + |1|) ≤ 7001 / 100000 := by clear hr1 hr2; norm_num at hb ⊢; linarith
  have hx0 : 0 ≤ dt * (6 * |1| + |1|) := by positivity
  have hst : (dt * (6 * |1| + |1|)) ^ 2 ≤ 8 := by
    clear hr1 hr2
    calc (dt * (6 * |1| + |1|)) ^ 2 ≤ (7001 / 100000) ^ 2 := by gcongr
        _ ≤ 8 := by norm_num
  have hend : (10 : ℝ) + dt / 16 ≤ 2 ^ 24 * dt := by clear hr1 hr2; norm_num at ha hb ⊢; linarith
  obtain ⟨m, s, k, h1, h2, h3, h4, h5, h6⟩ := real1dRk4_binary64 (N := 16) (J := 1) (U := 1) (filling := 1 / 2) (dt := dt) (tEnd := 10) (by norm_num) hs
    isBinary64_one isBinary64_one one_half_range (by norm_num) (by norm_num) hsin hr1 hr2 hst hend 100 he (fun k => by have := hthreads k; norm_num at this ⊢; omega) w
  clear hr1 hr2
  rw [shipped_steps hdt h3 h4] at h5
  refine ⟨m, s, h1, h2, h5, fun {R} _ _ C ω Q v hv j hj => ?_⟩
  have hthr := hthreads (j * max 100 1)
  obtain ⟨t, x, hx, ht, hxe⟩ := h6 C ω Q v hv 71 (fun p hp => by
    refine le_of_eq_of_le (Finset.sum_congr rfl fun q hq => ?_) (half_weights hp)
    rw [weight_state Q hp (Finset.mem_range.1 hq), Complex.norm_real, Real.norm_eq_abs]) j (by omega)
  refine ⟨t, x, hx, shipped_time hdt hj ht, hxe.trans ?_⟩
  have hv0 : 0 ≤ vectorErrorDouble (dt * (6 * |1| + |1|)) (j * max 100 1) := by unfold vectorErrorDouble; positivity
  have hv1 := shipped_vector hx0 hx7 (k := j * max 100 1) (by rw [show max 100 1 = 100 from rfl]; omega)
  generalize vectorErrorDouble (dt * (6 * |1| + |1|)) (j * max 100 1) = ε at hv0 hv1
  have hr : (((16 + 16 * 16 * 16) * (16 + 16 * 16 * 16 + 1) / 2 + e.threads (j * max 100 1) + 72 : ℕ) : ℝ) ≤ 8522000 := by
    exact_mod_cast (by norm_num at hthr ⊢; omega)
  calc _ ≤ 71 * (1510 / 10 ^ 8 * (2 + 1510 / 10 ^ 8)) + 8522000 / 2 ^ 52 * (18 * ((16 + 16 * 16 * 16 : ℕ) : ℝ) * (1 + 1510 / 10 ^ 8) ^ 2) := by gcongr
    _ ≤ 1 / 400 := by norm_num

/-- **C118 for `hubbard_real_1d_kinetic_rk4` as it is shipped**: as `real1dKineticRk4_shipped` (C109), in binary64 with underflow and overflow. -/
theorem real1dKineticRk4R_shipped (hs : IsSort sort) (hsin : ∀ x, |sinF x - Real.sin x| ≤ 1 / 2 ^ 53) {e : Execution} (he : e.ValidKinetic 16)
    (hthreads : ∀ k, e.threads k ≤ 2 ^ 16) (w : Work ℂ) :
    ∃ s, real1dKineticRk4R binary64 sinF sort e w 16 1 (double (1 / 100)) 10 100 (1 / 2) = .val s ∧ s.out.length = 11 ∧
      ∀ j : ℕ, j < 11 → ∃ t x : ℝ, s.out[j]? = some (t, x) ∧ |t - (j : ℝ)| ≤ 1 / 1000 ∧ |x - 1 / 2| ≤ 1 / 10 ^ 7 := by
  have hdt := double_hundredth
  generalize double (1 / 100) = dt at hdt
  obtain ⟨ha, hb⟩ := abs_le.1 hdt
  obtain ⟨hr1, hr2⟩ := hundredth_range hdt
  have hdt0 : 0 < dt := by clear hr1 hr2; norm_num at ha; linarith
  have hx7 : dt * (2 * |1|) ≤ 2001 / 100000 := by clear hr1 hr2; norm_num at hb ⊢; linarith
  have hx0 : 0 ≤ dt * (2 * |1|) := by positivity
  have hst : (dt * (2 * |1|)) ^ 2 ≤ 8 := by
    clear hr1 hr2
    calc (dt * (2 * |1|)) ^ 2 ≤ (2001 / 100000) ^ 2 := by gcongr
        _ ≤ 8 := by norm_num
  have hend : (10 : ℝ) + dt / 16 ≤ 2 ^ 24 * dt := by clear hr1 hr2; norm_num at ha hb ⊢; linarith
  obtain ⟨s, k, h2, h3, h4, h5, h6⟩ := real1dKineticRk4_binary64 (N := 16) (J := 1) (filling := 1 / 2) (dt := dt) (tEnd := 10) (by norm_num) hs
    isBinary64_one (by norm_num) (by norm_num) hsin hr1 hr2 hst hend 100 he (fun k => by have := hthreads k; norm_num at this ⊢; omega) w
  clear hr1 hr2
  rw [shipped_steps hdt h3 h4] at h5
  refine ⟨s, h2, h5, fun j hj => ?_⟩
  have hthr := hthreads (j * max 100 1)
  obtain ⟨t, x, hx, ht, hxe⟩ := h6 (1568 / 1000) (fun a ha => half_rows ha) j (by omega)
  refine ⟨t, x, hx, shipped_time hdt hj ht, hxe.trans ?_⟩
  have hv0 : 0 ≤ vectorErrorDouble (dt * (2 * |1|)) (j * max 100 1) := by unfold vectorErrorDouble; positivity
  have hv1 := shipped_vector_kinetic hx0 hx7 (k := j * max 100 1) (by rw [show max 100 1 = 100 from rfl]; omega)
  generalize vectorErrorDouble (dt * (2 * |1|)) (j * max 100 1) = ε at hv0 hv1
  have hr : ((16 * 16 + e.threads (j * max 100 1) + 72 : ℕ) : ℝ) ≤ 65864 := by
    exact_mod_cast (by norm_num at hthr ⊢; omega)
  calc _ ≤ 1568 / 1000 * (3 / 10 ^ 8 * (2 + 3 / 10 ^ 8)) + 65864 / 2 ^ 52 * (3 * ((16 : ℕ) : ℝ) * (1 + 3 / 10 ^ 8) ^ 2) := by gcongr
    _ ≤ 1 / 10 ^ 7 := by norm_num

/-- **C119 for `hubbard_real_1d_rk4_jump` as it is shipped**: as `real1dRk4Jump_shipped` (C110), in binary64 with underflow and overflow. -/
theorem real1dRk4JumpR_shipped (hs : IsSort sort) (hsin : ∀ x, |sinF x - Real.sin x| ≤ 1 / 2 ^ 53)
    (hcos : ∀ x, |cosF x - Real.cos x| ≤ 1 / 2 ^ 53) {e : JumpExecution} (he : e.Valid 16) (het : e.table.Perm (List.range' 1 8))
    (hthreads : ∀ k, e.threads k ≤ 2 ^ 16) (w : Work ℂ) :
    ∃ m s, initMatrix sort 16 2 (Chain.real (K := ℝ) 16 1).neighbors 1 1 = .val m ∧
      real1dRk4JumpR binary64 sinF cosF sort e w 16 1 1 (double (1 / 100)) 10 100 (1 / 2) = .val s ∧ s.out.length = 11 ∧
      ∀ v, IsFlow (16 + 16 * 16 * 16) (fun i j => m.get i j) v →
      ∀ j : ℕ, j < 11 → ∃ t x : ℝ, s.out[j]? = some (t, x) ∧ |t - (j : ℝ)| ≤ 1 / 1000 ∧ 0 ≤ x ∧
        |x - fermiJump (ringCorrelation (1 / 2) 16) 16 (fun i => 1 / 2 * Real.pi * i) (v ((j * 100 : ℕ) * double (1 / 100)))| ≤ 1 / 125 := by
  have hdt := double_hundredth
  generalize double (1 / 100) = dt at hdt
  obtain ⟨ha, hb⟩ := abs_le.1 hdt
  obtain ⟨hr1, hr2⟩ := hundredth_range hdt
  have hdt0 : 0 < dt := by clear hr1 hr2; norm_num at ha; linarith
  have hx7 : dt * (6 * |1| + |1|) ≤ 7001 / 100000 := by clear hr1 hr2; norm_num at hb ⊢; linarith
  have hx0 : 0 ≤ dt * (6 * |1| + |1|) := by positivity
  have hst : (dt * (6 * |1| + |1|)) ^ 2 ≤ 8 := by
    clear hr1 hr2
    calc (dt * (6 * |1| + |1|)) ^ 2 ≤ (7001 / 100000) ^ 2 := by gcongr
        _ ≤ 8 := by norm_num
  have hend : (10 : ℝ) + dt / 16 ≤ 2 ^ 24 * dt := by clear hr1 hr2; norm_num at ha hb ⊢; linarith
  obtain ⟨m, s, k, h1, h2, h3, h4, h5, h6⟩ := real1dRk4Jump_binary64 (N := 16) (J := 1) (U := 1) (filling := 1 / 2) (dt := dt) (tEnd := 10) (by norm_num) (by norm_num) hs
    isBinary64_one isBinary64_one one_half_range (by norm_num) (by norm_num) hsin hcos hr1 hr2 hst hend 100 he het
    (fun k => by have := hthreads k; norm_num at this ⊢; omega) w
  clear hr1 hr2
  rw [shipped_steps hdt h3 h4] at h5
  refine ⟨m, s, h1, h2, h5, fun v hv j hj => ?_⟩
  have hthr := hthreads (j * max 100 1)
  obtain ⟨t, x, hx, ht, hxp, hxe⟩ := h6 v hv j (by omega)
  refine ⟨t, x, hx, shipped_time hdt hj ht, hxp, hxe.trans ?_⟩
  have hv0 : 0 ≤ vectorErrorDouble (dt * (6 * |1| + |1|)) (j * max 100 1) := by unfold vectorErrorDouble; positivity
  have hv1 := shipped_vector hx0 hx7 (k := j * max 100 1) (by rw [show max 100 1 = 100 from rfl]; omega)
  generalize vectorErrorDouble (dt * (6 * |1| + |1|)) (j * max 100 1) = ε at hv0 hv1
  have hr : ((2 * (16 * 16 + 67 * 16 + 28 + e.threads (j * max 100 1)) : ℕ) : ℝ) ≤ 133784 := by
    exact_mod_cast (by norm_num at hthr ⊢; omega)
  have hw := half_jumpWeight
  calc _ ≤ 260 * (1510 / 10 ^ 8 * (2 + 1510 / 10 ^ 8)) + 133784 / 2 ^ 52 * (10 * ((16 + 16 * 16 * 16 : ℕ) : ℝ) * (1 + 1510 / 10 ^ 8) ^ 2) := by gcongr
    _ ≤ 1 / 125 := by norm_num

/-! ### The files -/

/-- A run in binary64 with the default step width, end time and interval is a run with correctly rounded times. -/
theorem shipped_simulation {H O : Type} {step : H → Res H} {measure : H → Res (H × O)} {h0 : H} {s : Sim.State H O}
    (h : simulateR binary64 step measure (double (1 / 100)) 10 100 h0 = .val s) :
    Sim.simulateF double step measure (double (1 / 100)) 10 100 h0 = .val s := by
  obtain ⟨hr1, hr2⟩ := hundredth_range double_hundredth
  rw [← h]
  refine (simulateR_binary64 hr1 hr2 ?_ step measure 100 h0).symm
  obtain ⟨ha, hb⟩ := abs_le.1 double_hundredth
  generalize double (1 / 100) = dt at ha hb
  clear hr1 hr2 h
  norm_num at ha hb ⊢; linarith

/-- **C120, the file that `hubbard_real_1d_kinetic_rk4` writes without options**, in binary64 with underflow and overflow: exactly this text after the header, for every
implementation of `sin` with an error of at most one unit roundoff and every execution on up to `2^16` threads. -/
theorem real1dKineticRk4R_file (hs : IsSort sort) (hsin : ∀ x, |sinF x - Real.sin x| ≤ 1 / 2 ^ 53) {e : Execution} (he : e.ValidKinetic 16)
    (hthreads : ∀ k, e.threads k ≤ 2 ^ 16) (w : Work ℂ) :
    ∃ dt s, binary64 (1 / 100) = .val dt ∧ real1dKineticRk4R binary64 sinF sort e w 16 1 dt 10 100 (1 / 2) = .val s ∧
      ∀ rows, Renders (fun x => [x]) rows s.out →
        simulationText rows = "0\t0.5\n1\t0.5\n2\t0.5\n3\t0.5\n4\t0.5\n5\t0.5\n6\t0.5\n7\t0.5\n8\t0.5\n9\t0.5\n10\t0.5\n".toList := by
  obtain ⟨s, h1, -, h3⟩ := real1dKineticRk4R_shipped hs hsin he hthreads w
  obtain ⟨step, measure, h0, hrun⟩ := real1dKineticRk4R_run h1
  refine ⟨_, s, binary64_hundredth, h1, fun rows hr => ?_⟩
  obtain ⟨hl, ht⟩ := shipped_file (shipped_simulation hrun) hr
  have : List.zipWith (fun j r => IO.printNat j ++ r.2.flatMap (fun y => '\t' :: writeDouble y) ++ ['\n']) (List.range 11) rows =
      (List.range 11).map fun j => IO.printNat j ++ "\t0.5\n".toList := by
    refine List.ext_getElem (by simp [hl]) fun j hj _ => ?_
    rw [List.length_zipWith, List.length_range, hl, min_self] at hj
    rw [List.getElem_zipWith, List.getElem_map, List.getElem_range]
    obtain ⟨t, x, hx, -, hx2⟩ := h3 j hj
    obtain ⟨hj', y, hy, hyx, -⟩ := renders_number hr hx
    rw [← hyx] at hx2
    rw [hy, List.flatMap_singleton, half_text hx2, List.append_assoc]
    rfl
  rw [ht, this]
  decide

/-- **C120, the file that `hubbard_real_1d_rk4` writes without options**, in binary64 with underflow and overflow: eleven rows, their times are the texts `0`, …, `10`, and the
numbers after them are within 0.0025 and half a unit of the sixth digit of the exact expectation value. -/
theorem real1dRk4R_file (hs : IsSort sort) (hsin : ∀ x, |sinF x - Real.sin x| ≤ 1 / 2 ^ 53) {e : Execution} (he : e.Valid 16)
    (hthreads : ∀ k, e.threads k ≤ 2 ^ 16) (w : Work ℂ) :
    ∃ dt m s, binary64 (1 / 100) = .val dt ∧ initMatrix sort 16 2 (Chain.real (K := ℝ) 16 1).neighbors 1 1 = .val m ∧
      real1dRk4R binary64 sinF sort e w 16 1 1 dt 10 100 (1 / 2) = .val s ∧
      ∀ rows, Renders (fun x => [x]) rows s.out → (readTable (simulationText rows)).length = 11 ∧
        ∀ {R : Type} [Ring R] [Algebra ℂ R] (C : CAROn 16 R) (ω : R →ₗ[ℂ] ℂ), QuasiFree C ω (ringCorrelation (1 / 2) 16) →
        ∀ v, IsFlow (16 + 16 * 16 * 16) (fun i j => m.get i j) v →
        ∀ j < 11, ∀ E, E = (ω (C.superpose (basis3 16) (16 + 16 * 16 * 16) (v ((j * 100 : ℕ) * dt)) *
              C.superposeAdj (basis3 16) (16 + 16 * 16 * 16) (v ((j * 100 : ℕ) * dt)))).re →
          ∃ text x, (readTable (simulationText rows))[j]? = some [IO.printNat j, text] ∧ DecimalText text x ∧
            |(x : ℝ) - E| ≤ 1 / 400 + 5 / 10 ^ 6 * (|E| + 1 / 400) := by
  obtain ⟨m, s, h1, h2, h3, h4⟩ := real1dRk4R_shipped hs hsin he hthreads w
  obtain ⟨step, measure, h0, hrun⟩ := real1dRk4R_run h2
  refine ⟨_, m, s, binary64_hundredth, h1, h2, fun rows hr => ⟨(readTable_length hr).trans h3, fun {R} _ _ C ω Q v hv j hj E hE => ?_⟩⟩
  obtain ⟨t, x, hx, -, hxe⟩ := h4 C ω Q v hv j hj
  rw [← hE] at hxe
  exact shipped_cell (shipped_simulation hrun) hr hx hxe

/-- **C120, the file that `hubbard_real_1d_rk4_jump` writes without options**, in binary64 with underflow and overflow: eleven rows, their times are the texts `0`, …, `10`, and
the numbers after them are within 0.008 and half a unit of the sixth digit of the Fermi jump of the exact solution. -/
theorem real1dRk4JumpR_file (hs : IsSort sort) (hsin : ∀ x, |sinF x - Real.sin x| ≤ 1 / 2 ^ 53) (hcos : ∀ x, |cosF x - Real.cos x| ≤ 1 / 2 ^ 53)
    {e : JumpExecution} (he : e.Valid 16) (het : e.table.Perm (List.range' 1 8)) (hthreads : ∀ k, e.threads k ≤ 2 ^ 16) (w : Work ℂ) :
    ∃ dt m s, binary64 (1 / 100) = .val dt ∧ initMatrix sort 16 2 (Chain.real (K := ℝ) 16 1).neighbors 1 1 = .val m ∧
      real1dRk4JumpR binary64 sinF cosF sort e w 16 1 1 dt 10 100 (1 / 2) = .val s ∧
      ∀ rows, Renders (fun x => [x]) rows s.out → (readTable (simulationText rows)).length = 11 ∧
        ∀ v, IsFlow (16 + 16 * 16 * 16) (fun i j => m.get i j) v →
        ∀ j < 11, ∀ E, E = fermiJump (ringCorrelation (1 / 2) 16) 16 (fun i => 1 / 2 * Real.pi * i) (v ((j * 100 : ℕ) * dt)) →
          ∃ text x, (readTable (simulationText rows))[j]? = some [IO.printNat j, text] ∧ DecimalText text x ∧
            |(x : ℝ) - E| ≤ 1 / 125 + 5 / 10 ^ 6 * (|E| + 1 / 125) := by
  obtain ⟨m, s, h1, h2, h3, h4⟩ := real1dRk4JumpR_shipped hs hsin hcos he het hthreads w
  obtain ⟨step, measure, h0, hrun⟩ := real1dRk4JumpR_run h2
  refine ⟨_, m, s, binary64_hundredth, h1, h2, fun rows hr => ⟨(readTable_length hr).trans h3, fun v hv j hj E hE => ?_⟩⟩
  obtain ⟨t, x, hx, -, -, hxe⟩ := h4 v hv j hj
  rw [← hE] at hxe
  exact shipped_cell (shipped_simulation hrun) hr hx hxe

end Ieompp.IEEE
