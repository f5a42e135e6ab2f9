import Verif.Model.JumpProgram
import Verif.Spec.JumpProgram
import Verif.Props.Program
import Verif.Props.FermiJump
import Mathlib.RingTheory.RootsOfUnity.Complex

/-!
# C61, C62: the programs which write the Fermi jump and the coefficients
-/

set_option autoImplicit false
set_option linter.unusedSectionVars false

namespace Ieompp.Program

open Ieompp.Spec RealSpace ODE ComplexConjugate

/-! ## The time loop -/

/-- The time loop with the integrator and a measurement which has a state of its own. -/
theorem simulateM_rk4 {σ O : Type*} (n : ℕ) (sp : Sparse ℝ) (meas : Vars × σ → Res ((Vars × σ) × O)) (P : σ → Prop)
    (q : (Fin n → ℂ) → O)
    (hq : ∀ k w y x, P x → ∃ x', meas ((k, w, List.ofFn y), x) = .val (((k, w, List.ofFn y), x'), q y) ∧ P x')
    {dt : ℝ} (hdt : 0 < dt) (tEnd : ℝ) {interval : ℕ}
    (hI : interval < 2 ^ 64) (w : Work ℂ) (u : Fin n → ℂ) (x0 : σ) (h0 : P x0) :
    ∃ s, Sim.simulateM (fun s : Vars × σ => (stepVars n dt sp s.1).map fun v => (v, s.2)) meas dt tEnd interval
        ((0, w, List.ofFn u), x0) = .val s ∧
      s.out = (List.range (⌈tEnd / dt⌉₊ / max interval 1 + 1)).map fun j =>
        (((j * max interval 1 : ℕ) : ℝ) * dt,
          q ((exp4 (dt : ℂ) (mat n (timesI sp)) ^ (j * max interval 1)).mulVec u)) := by
  obtain ⟨s, h1, -, -, h2⟩ := Sim.simulateM_output
    (step := fun s : Vars × σ => (stepVars n dt sp s.1).map fun v => (v, s.2)) (measure := meas) (tEnd := tEnd) hdt hI
    (inv := fun k s => s.1.1 = k ∧ s.1.2.2 = List.ofFn ((exp4 (dt : ℂ) (mat n (timesI sp)) ^ k).mulVec u) ∧ P s.2)
    (o := fun k => q ((exp4 (dt : ℂ) (mat n (timesI sp)) ^ k).mulVec u))
    (by
      rintro k _ ⟨⟨k', w, h⟩, x⟩ ⟨h1, h2, h3⟩
      simp only at h1 h2 h3
      subst h1 h2
      obtain ⟨w', e⟩ := stepMatrix_correct n (dt : ℂ) (timesI sp) w ((exp4 (dt : ℂ) (mat n (timesI sp)) ^ k').mulVec u)
      refine ⟨((k' + 1, w', List.ofFn ((exp4 (dt : ℂ) (mat n (timesI sp)) ^ (k' + 1)).mulVec u)), x), ?_, rfl, rfl, h3⟩
      unfold stepVars
      simp only [e, Res.map_val, Matrix.mulVec_mulVec, ← pow_succ'])
    (by
      rintro k _ ⟨⟨k', w, h⟩, x⟩ ⟨h1, h2, h3⟩
      simp only at h1 h2 h3
      subst h1 h2
      obtain ⟨x', e, hx'⟩ := hq k' w ((exp4 (dt : ℂ) (mat n (timesI sp)) ^ k').mulVec u) x h3
      exact ⟨_, e, rfl, rfl, hx'⟩)
    (h0 := ((0, w, List.ofFn u), x0)) ⟨rfl, by rw [pow_zero, Matrix.one_mulVec], h0⟩
  exact ⟨s, h1, h2⟩

/-- The initial vector, as a function. -/
theorem initVector_ofFn {n : ℕ} (hn : 1 ≤ n) :
    initVector n = .val (List.ofFn fun p : Fin n => if (p : ℕ) = 0 then (1 : ℂ) else 0) := by
  obtain ⟨h, e, hl, hh⟩ := initVector_correct hn
  rw [e]
  congr 1
  apply List.ext_getElem?
  intro i
  by_cases hi : i < n
  · rw [hh i hi, List.getElem?_ofFn]; simp [hi]
  · rw [List.getElem?_eq_none (by omega), List.getElem?_eq_none (by simp; omega)]

/-! ## The error of the Fermi jump -/

theorem normalOrdered_eq (ev : ℕ → ℕ → ℝ) (N : ℕ) (h : List ℂ) (i : ℕ) :
    RealSpace.Spec.normalOrdered ev N h i = normalOrderedCoefficient ev N (fun p => h.getD p 0) i := rfl

theorem exp_phase (φ : ℝ) : Complex.exp (Complex.I * φ) = ⟨Real.cos φ, Real.sin φ⟩ := by
  rw [mul_comm, Complex.exp_mul_I]
  apply Complex.ext <;> simp [← Complex.ofReal_cos, ← Complex.ofReal_sin]

theorem jump_eq (ev : ℕ → ℕ → ℝ) (N : ℕ) (phase : ℕ → ℝ) (h : List ℂ) :
    RealSpace.Spec.jump ev N phase h = fermiJump ev N phase (fun p => h.getD p 0) := by
  unfold RealSpace.Spec.jump fermiJump
  rw [Complex.normSq_eq_norm_sq]
  congr 2
  refine Finset.sum_congr rfl fun i _ => ?_
  rw [exp_phase, normalOrdered_eq]

theorem fermiJump_congr {ev ev' : ℕ → ℕ → ℝ} {N : ℕ} (h : ∀ a < N, ∀ b < N, ev a b = ev' a b) (phase : ℕ → ℝ) (v : ℕ → ℂ) :
    fermiJump ev N phase v = fermiJump ev' N phase v ∧ jumpScale ev N = jumpScale ev' N := by
  constructor
  · unfold fermiJump normalOrderedCoefficient
    congr 2
    refine Finset.sum_congr rfl fun i _ => ?_
    congr 2
    refine Finset.sum_congr rfl fun j hj => Finset.sum_congr rfl fun k hk => ?_
    rw [h j (Finset.mem_range.1 hj) k (Finset.mem_range.1 hk)]
  · unfold jumpScale
    congr 2
    refine Finset.sum_congr rfl fun j hj => Finset.sum_congr rfl fun k hk => ?_
    rw [h j (Finset.mem_range.1 hj) k (Finset.mem_range.1 hk)]

/-- The amplitude whose absolute square is the jump. -/
noncomputable def amplitude (ev : ℕ → ℕ → ℝ) (N : ℕ) (phase : ℕ → ℝ) (v : ℕ → ℂ) : ℂ :=
  ∑ i ∈ Finset.range N, Complex.exp (Complex.I * phase i) * normalOrderedCoefficient ev N v i

theorem amplitude_sub (ev : ℕ → ℕ → ℝ) (N : ℕ) (phase : ℕ → ℝ) (y v : ℕ → ℂ) :
    amplitude ev N phase y - amplitude ev N phase v = amplitude ev N phase (fun p => y p - v p) := by
  unfold amplitude normalOrderedCoefficient
  rw [← Finset.sum_sub_distrib]
  refine Finset.sum_congr rfl fun i _ => ?_
  rw [← mul_sub]
  congr 1
  simp only [mul_sub, Finset.sum_sub_distrib]
  ring

theorem norm_exp_phase (φ : ℝ) : ‖Complex.exp (Complex.I * φ)‖ = 1 := by
  rw [mul_comm]; exact Complex.norm_exp_ofReal_mul_I φ

theorem amplitude_le (ev : ℕ → ℕ → ℝ) (N : ℕ) (phase : ℕ → ℝ) (u : ℕ → ℂ) (δ : ℝ)
    (hu : ∀ p < N + N * N * N, ‖u p‖ ≤ δ) : ‖amplitude ev N phase u‖ ≤ jumpScale ev N * δ := by
  unfold amplitude jumpScale
  refine (norm_sum_le _ _).trans ?_
  have key : ∀ i ∈ Finset.range N, ‖Complex.exp (Complex.I * phase i) * normalOrderedCoefficient ev N u i‖ ≤
      (1 + ∑ j ∈ Finset.range N, ∑ k ∈ Finset.range N, |2 * ev j k - if j = k then 1 else 0|) * δ := by
    intro i hi
    have hi' := Finset.mem_range.1 hi
    rw [norm_mul, norm_exp_phase, one_mul]
    unfold normalOrderedCoefficient
    refine (norm_add_le _ _).trans ?_
    rw [add_mul, one_mul]
    refine add_le_add (hu i (by omega)) ?_
    rw [Finset.sum_mul]
    refine (norm_sum_le _ _).trans (Finset.sum_le_sum fun j hj => ?_)
    rw [Finset.sum_mul]
    refine (norm_sum_le _ _).trans (Finset.sum_le_sum fun k hk => ?_)
    rw [norm_mul, Complex.norm_real, Real.norm_eq_abs]
    refine mul_le_mul_of_nonneg_left (hu _ ?_) (abs_nonneg _)
    exact ((realBasis_index_bijective N).1 i j k hi' (Finset.mem_range.1 hj) (Finset.mem_range.1 hk)).2
  refine (Finset.sum_le_sum key).trans (le_of_eq ?_)
  rw [Finset.sum_const, Finset.card_range, nsmul_eq_mul, mul_assoc]

theorem fermiJump_error (ev : ℕ → ℕ → ℝ) (N : ℕ) (hN : 1 ≤ N) (phase : ℕ → ℝ) (y v : ℕ → ℂ) (ε : ℝ)
    (hy : ∀ p < N + N * N * N, ‖y p - v p‖ ≤ ε) (hv : ∀ p < N + N * N * N, ‖v p‖ ≤ 1) :
    |fermiJump ev N phase y - fermiJump ev N phase v| ≤ jumpScale ev N ^ 2 * (ε * (2 + ε)) := by
  have h1 : ‖amplitude ev N phase y - amplitude ev N phase v‖ ≤ jumpScale ev N * ε := by
    rw [amplitude_sub]; exact amplitude_le ev N phase _ ε hy
  have h2 : ‖amplitude ev N phase v‖ ≤ jumpScale ev N * 1 := amplitude_le ev N phase v 1 hv
  have h3 : ‖amplitude ev N phase y‖ ≤ jumpScale ev N * (1 + ε) := by
    refine amplitude_le ev N phase y _ fun p hp => ?_
    calc ‖y p‖ = ‖v p + (y p - v p)‖ := by ring_nf
      _ ≤ ‖v p‖ + ‖y p - v p‖ := norm_add_le _ _
      _ ≤ 1 + ε := add_le_add (hv p hp) (hy p hp)
  have h4 : |‖amplitude ev N phase y‖ - ‖amplitude ev N phase v‖| ≤ jumpScale ev N * ε :=
    (abs_norm_sub_norm_le _ _).trans h1
  show |‖amplitude ev N phase y‖ ^ 2 - ‖amplitude ev N phase v‖ ^ 2| ≤ _
  have e : ‖amplitude ev N phase y‖ ^ 2 - ‖amplitude ev N phase v‖ ^ 2 =
      (‖amplitude ev N phase y‖ - ‖amplitude ev N phase v‖) * (‖amplitude ev N phase y‖ + ‖amplitude ev N phase v‖) := by ring
  rw [e, abs_mul, abs_of_nonneg (a := ‖amplitude ev N phase y‖ + _) (by positivity)]
  have hK : 0 ≤ jumpScale ev N * ε := (abs_nonneg _).trans h4
  calc _ ≤ (jumpScale ev N * ε) * (jumpScale ev N * (1 + ε) + jumpScale ev N * 1) := by gcongr
    _ = _ := by ring

/-! ## The programs -/

/-- Hypotheses on how the parallel parts happen to be executed. -/
structure JumpExecution.Valid (e : JumpExecution) (N : ℕ) : Prop where
  coefficients : e.coefficients.Perm (List.range N)
  normalOrder : ∀ k, (e.normalOrder k).Perm (List.range N)
  sum : ∀ k, Executes (e.threads k) (jumpPairs N) (e.sum k)

/-- The part which the two programs have in common. -/
theorem jump_program {N z : ℕ} (hN : 1 ≤ N) {nb : ℕ → List ℕ} (hreg : RegularLattice N z nb) (J U tEnd : ℝ)
    (ev : ℕ → ℕ → ℝ) (phase : ℕ → ℝ) {dt : ℝ} (hdt : 0 < dt) {interval : ℕ} (hI : interval < 2 ^ 64)
    {sort : List (Triplet ℝ) → List (Triplet ℝ)} (hs : IsSort sort) {e : JumpExecution} (he : e.Valid N) (w : Work ℂ) :
    ∃ m h f s, initMatrix sort N z nb J U = .val m ∧ initVector (basis3 N).length = .val h ∧
      jumpCtor N phase e.coefficients = .val f ∧
      Sim.simulateM (stepJump (basis3 N).length dt m) (measureJump (siteEv ev) (basis3 N) N f e) dt tEnd interval
        ((0, w, h), none) = .val s ∧
      s.out.length = ⌈tEnd / dt⌉₊ / max interval 1 + 1 ∧
      ∀ v, IsFlow (N + N * N * N) (fun i j => m.get i j) v →
      ∀ j < s.out.length, ∃ x, s.out[j]? = some (((j * max interval 1 : ℕ) : ℝ) * dt, x) ∧
        |x - fermiJump ev N phase (v ((j * max interval 1 : ℕ) * dt))| ≤ jumpScale ev N ^ 2 *
          (rk4Error (3 * z * |J| + |U|) dt (j * max interval 1) *
            (2 + rk4Error (3 * z * |J| + |U|) dt (j * max interval 1))) := by
  have hsz := (realBasis_size N).2
  obtain ⟨m, h1, h2, _, _, _, _, h3, _⟩ := initMatrix_ok hreg sort hs J U
  obtain ⟨m', h1', _, hsym⟩ := initMatrix_symm hreg sort hs J U
  rw [h1] at h1'; cases h1'
  rw [h2] at hsym
  have hm : ∀ i < N + N * N * N, ∑ j ∈ Finset.range (N + N * N * N), |m.get i j| ≤ 3 * z * |J| + |U| := by
    intro i hi
    rw [Finset.sum_congr rfl fun c _ => by rw [h3 i hi c]]
    exact (sum_abs_columnSum _ _).trans (row_abs_sum hreg J U hi)
  set f : List ℂ := (List.range N).map (phaseFactor phase) with hf
  have hfc : jumpCtor N phase e.coefficients = .val f := jumpCtor_ok N phase _ he.coefficients
  set u : Fin (N + N * N * N) → ℂ := fun p => if (p : ℕ) = 0 then 1 else 0 with hu
  obtain ⟨s, e1, e2⟩ := simulateM_rk4 (N + N * N * N) m (measureJump (siteEv ev) (basis3 N) N f e)
    (fun st => ∀ v ∈ st, v.length = N) (fun y => fermiJump ev N phase fun p => (List.ofFn y).getD p 0) (by
      intro k w y st hst
      obtain ⟨w', g1, g2⟩ := jumpCall_ok ev (c := ⟨N, phase, List.ofFn y, e.threads k, e.coefficients, e.normalOrder k, e.sum k⟩)
        ⟨by simp [hsz], he.coefficients, he.normalOrder k, he.sum k⟩ st (fun v hv => (hst v hv).ge)
      refine ⟨some w', ?_, ?_⟩
      · unfold measureJump
        simp only
        rw [hf, g1, Res.map_val, jump_eq]
      · rintro v ⟨⟩
        rw [g2]
        cases st with
        | none => rfl
        | some a => exact hst a rfl)
    hdt tEnd hI w u none (by simp)
  refine ⟨m, List.ofFn u, f, s, h1, by rw [hsz]; exact initVector_ofFn (by omega), hfc, by rw [hsz]; exact e1,
    by rw [e2]; simp, fun v hv j hj => ?_⟩
  rw [e2] at hj ⊢
  simp only [List.length_map, List.length_range] at hj
  refine ⟨_, by rw [List.getElem?_map, List.getElem?_range hj]; rfl, ?_⟩
  refine fermiJump_error ev N hN phase _ _ _ ?_ ?_
  · intro i hi
    have := steps_error (fun i j => m.get i j) (3 * z * |J| + |U|) dt (by positivity) hdt.le hsym hm hv (j * max interval 1) ⟨i, hi⟩
    rw [show (List.ofFn ((exp4 (dt : ℂ) (mat (N + N * N * N) (timesI m)) ^ (j * max interval 1)).mulVec u)).getD i 0 =
      ((exp4 (dt : ℂ) (mat (N + N * N * N) (timesI m)) ^ (j * max interval 1)).mulVec u) ⟨i, hi⟩ from ofFn_getD _ ⟨i, hi⟩]
    exact this
  · intro i hi
    exact flow_le_one _ hsym hv _ hi

/-- C61, one dimension: the program `hubbard_real_1d_rk4_jump` as a whole. For every number of sites `N ≥ 3`, all parameters,
executions of the parallel parts, implementations of `std::sort` and contents of the work vectors it terminates without
out-of-range access (also of its static vector, in every measurement), writes one row for every `interval`-th step, and the
number in the row for the time `t` is the Fermi jump `|Σ_i e^{i k_F i} v^NO_i(t)|²` of the exact solution `v' = i M v`,
`v(0) = e_0`, up to an error of fourth order in `dt`. -/
theorem real1dRk4Jump_correct {N : ℕ} (hN : 3 ≤ N) (J U filling tEnd : ℝ) {dt : ℝ} (hdt : 0 < dt) {interval : ℕ}
    (hI : interval < 2 ^ 64) {sort : List (Triplet ℝ) → List (Triplet ℝ)} (hs : IsSort sort) {e : JumpExecution}
    (he : e.Valid N) (ht : e.table.Perm (List.range' 1 (N / 2))) (w : Work ℂ) :
    ∃ m s, initMatrix sort N 2 (Chain.real (K := ℝ) N 1).neighbors J U = .val m ∧
      real1dRk4Jump sort e w N J U dt tEnd interval filling = .val s ∧
      s.out.length = ⌈tEnd / dt⌉₊ / max interval 1 + 1 ∧
      ∀ v, IsFlow (N + N * N * N) (fun i j => m.get i j) v →
      ∀ j < s.out.length, ∃ x, s.out[j]? = some (((j * max interval 1 : ℕ) : ℝ) * dt, x) ∧
        |x - fermiJump (ringCorrelation filling N) N (fun i => filling * Real.pi * i) (v ((j * max interval 1 : ℕ) * dt))| ≤
          jumpScale (ringCorrelation filling N) N ^ 2 * (rk4Error (6 * |J| + |U|) dt (j * max interval 1) *
            (2 + rk4Error (6 * |J| + |U|) dt (j * max interval 1))) := by
  have hreg := chain_regular (Chain.Constructed.real (N := N) (1 : ℝ) (by omega) rfl) hN
  obtain ⟨values, e1, ev, hev, htab⟩ := table_ok (by omega) filling ht
  have hph : (fun i : ℕ => fermiMomentum1D filling * (Chain.real (K := ℝ) N 1).pos i) = fun i : ℕ => filling * Real.pi * i := by
    funext i
    show filling * Real.pi * (0 + i * 1) = _
    rw [zero_add, mul_one]
  obtain ⟨m, h, f, s, h1, h2, h3, h4, h5, h6⟩ := jump_program (by omega) hreg J U tEnd ev
    (fun i => filling * Real.pi * i) hdt hI hs he w
  refine ⟨m, s, h1, ?_, h5, fun v hv j hj => ?_⟩
  · unfold real1dRk4Jump
    simp only [hph, e1, h1, h2, h3, Res.bind_val, hev]
    exact h4
  · obtain ⟨x, hx, hb⟩ := h6 v hv j hj
    obtain ⟨c1, c2⟩ := fermiJump_congr (ev' := ringCorrelation filling N) (fun a ha b hb => (htab a ha b hb).2)
      (fun i => filling * Real.pi * i) (v ((j * max interval 1 : ℕ) * dt))
    rw [c1, c2] at hb
    rw [show (3 * ((2 : ℕ) : ℝ)) = 6 by norm_num] at hb
    exact ⟨x, hx, hb⟩

/-- The table of the square lattice, by site. -/
theorem table2_ok {N : ℕ} (hN : 1 ≤ N) {sched : List (ℕ × ℕ)} (hs : sched.Perm (evPairs (N / 2) (N / 2))) :
    ∃ values, evTable2D (Square.real (K := ℝ) N N 1 1) sched = .val values ∧
      ∃ ev : ℕ → ℕ → ℝ, evFunction2D (Square.real (K := ℝ) N N 1 1) values = siteEv ev ∧
        ∀ a < N * N, ∀ b < N * N, evLookup2D (Square.real (K := ℝ) N N 1 1) values a b = .val (torusCorrelation N a b) ∧
          ev a b = torusCorrelation N a b := by
  obtain ⟨values, e, h⟩ := expectationValue2D_partial
    (Square.Constructed.real (s := Square.real (K := ℝ) N N 1 1) (Nx := N) (Ny := N) 1 1 hN hN rfl) hs
  refine ⟨values, e, fun a b => match evLookup2D (Square.real (K := ℝ) N N 1 1) values a b with | .val x => x | _ => 0, rfl, ?_⟩
  intro a ha b hb
  have hlt : ∀ a < N * N, a / N < N ∧ a % N < N := fun a ha => ⟨Nat.div_lt_of_lt_mul ha, Nat.mod_lt _ (by omega)⟩
  have hidx : ∀ a, (Square.real (K := ℝ) N N 1 1).index (a / N) (a % N) = a := fun a => by
    show a / N * N + a % N = a
    rw [Nat.mul_comm]; exact Nat.div_add_mod a N
  have h1 := (h (a / N) (a % N) (b / N) (b % N) _ _ (hlt a ha).1 (hlt a ha).2 (hlt b hb).1 (hlt b hb).2
    (ringDistance_spec (hlt a ha).1 (hlt b hb).1) (ringDistance_spec (hlt a ha).2 (hlt b hb).2)).1
  rw [hidx, hidx] at h1
  have h2 : evLookup2D (Square.real (K := ℝ) N N 1 1) values a b = .val (torusCorrelation N a b) := h1
  exact ⟨h2, by simp only [h2]⟩

/-- C61, two dimensions, for square systems: the program `hubbard_real_2d_rk4_jump` with `Nx = Ny = N ≥ 3` and every momentum.
(Missing: rectangular systems, for which the lattice itself is wrong, C20 and C39.) -/
theorem real2dRk4Jump_partial {N : ℕ} (hN : 3 ≤ N) (J U kx ky tEnd : ℝ) {dt : ℝ} (hdt : 0 < dt) {interval : ℕ}
    (hI : interval < 2 ^ 64) {sort : List (Triplet ℝ) → List (Triplet ℝ)} (hs : IsSort sort) {e : JumpExecution}
    (he : e.Valid (N * N)) (ht : e.table2.Perm (evPairs (N / 2) (N / 2))) (w : Work ℂ) :
    ∃ m s, initMatrix sort (N * N) 4 (Square.real (K := ℝ) N N 1 1).neighbors J U = .val m ∧
      real2dRk4Jump sort e w N N J U dt tEnd interval kx ky = .val s ∧
      s.out.length = ⌈tEnd / dt⌉₊ / max interval 1 + 1 ∧
      ∀ v, IsFlow (N * N + N * N * (N * N) * (N * N)) (fun i j => m.get i j) v →
      ∀ j < s.out.length, ∃ x, s.out[j]? = some (((j * max interval 1 : ℕ) : ℝ) * dt, x) ∧
        |x - fermiJump (torusCorrelation N) (N * N) (fun i => kx * (i / N : ℕ) + ky * (i % N : ℕ))
            (v ((j * max interval 1 : ℕ) * dt))| ≤
          jumpScale (torusCorrelation N) (N * N) ^ 2 * (rk4Error (12 * |J| + |U|) dt (j * max interval 1) *
            (2 + rk4Error (12 * |J| + |U|) dt (j * max interval 1))) := by
  have hreg := square_regular
    (Square.Constructed.real (s := Square.real (K := ℝ) N N 1 1) (Nx := N) (Ny := N) 1 1 (by omega) (by omega) rfl) hN
  obtain ⟨values, e1, ev, hev, htab⟩ := table2_ok (by omega) ht
  have hph : (fun i : ℕ => Hubbard.dot2 (kx, ky) ((Square.real (K := ℝ) N N 1 1).pos i)) =
      fun i : ℕ => kx * (i / N : ℕ) + ky * (i % N : ℕ) := by
    funext i
    show kx * (0 + ((i / N : ℕ) : ℝ) * 1) + ky * (0 + ((i % N : ℕ) : ℝ) * 1) = _
    rw [zero_add, zero_add, mul_one, mul_one]
  have hNN : 1 ≤ N * N := Nat.mul_pos (by omega) (by omega)
  obtain ⟨m, h, f, s, h1, h2, h3, h4, h5, h6⟩ := jump_program hNN hreg J U tEnd ev
    (fun i => kx * (i / N : ℕ) + ky * (i % N : ℕ)) hdt hI hs he w
  refine ⟨m, s, h1, ?_, h5, fun v hv j hj => ?_⟩
  · unfold real2dRk4Jump
    have hsize : (Square.real (K := ℝ) N N 1 1).size = N * N := rfl
    simp only [hph, hsize, e1, h1, h2, h3, Res.bind_val, hev]
    exact h4
  · obtain ⟨x, hx, hb⟩ := h6 v hv j hj
    obtain ⟨c1, c2⟩ := fermiJump_congr (ev' := torusCorrelation N) (fun a ha b hb => (htab a ha b hb).2)
      (fun i => kx * (i / N : ℕ) + ky * (i % N : ℕ)) (v ((j * max interval 1 : ℕ) * dt))
    rw [c1, c2] at hb
    rw [show (3 * ((4 : ℕ) : ℝ)) = 12 by norm_num] at hb
    exact ⟨x, hx, hb⟩

/-! ## The coefficients -/

theorem coefficientRow_get : ∀ (l : List ℂ) (p : ℕ), (coefficientRow l).length = 2 * l.length ∧
    (coefficientRow l)[2 * p]? = (l[p]?).map Complex.re ∧ (coefficientRow l)[2 * p + 1]? = (l[p]?).map Complex.im := by
  intro l
  induction l with
  | nil => intro p; simp [coefficientRow]
  | cons a l ih =>
    intro p
    have hc : coefficientRow (a :: l) = a.re :: a.im :: coefficientRow l := rfl
    rw [hc]
    refine ⟨by simp [(ih 0).1]; omega, ?_⟩
    cases p with
    | zero => simp
    | succ p =>
      obtain ⟨-, h1, h2⟩ := ih p
      rw [show 2 * (p + 1) = 2 * p + 1 + 1 by ring]
      simp only [List.getElem?_cons_succ]
      exact ⟨h1, h2⟩

/-- The part which the two programs have in common. -/
theorem coefficients_program {n : ℕ} (hn : 1 ≤ n) (sp : Sparse ℝ) (hsym : ∀ p < n, ∀ q < n, sp.get p q = sp.get q p) (B : ℝ) (hB : 0 ≤ B)
    (hM : ∀ i < n, ∑ j ∈ Finset.range n, |sp.get i j| ≤ B) {dt : ℝ} (hdt : 0 < dt) (tEnd : ℝ) {interval : ℕ}
    (hI : interval < 2 ^ 64) (w : Work ℂ) :
    ∃ h s, initVector n = .val h ∧
      Sim.simulate (stepVars n dt sp) (fun s => .val (coefficientRow s.2.2)) dt tEnd interval (0, w, h) = .val s ∧
      s.out.length = ⌈tEnd / dt⌉₊ / max interval 1 + 1 ∧
      ∀ v, IsFlow n (fun i j => sp.get i j) v → ∀ j < s.out.length, ∃ xs : List ℝ,
        s.out[j]? = some (((j * max interval 1 : ℕ) : ℝ) * dt, xs) ∧ xs.length = 2 * n ∧
        ∀ p < n, ∃ x y, xs[2 * p]? = some x ∧ xs[2 * p + 1]? = some y ∧
          ‖(⟨x, y⟩ : ℂ) - v ((j * max interval 1 : ℕ) * dt) p‖ ≤ rk4Error B dt (j * max interval 1) := by
  set u : Fin n → ℂ := fun p : Fin n => if (p : ℕ) = 0 then 1 else 0 with hu
  obtain ⟨s, hs, ho⟩ := simulate_rk4 n sp (fun s => .val (coefficientRow s.2.2)) (fun y => coefficientRow (List.ofFn y))
    (fun k w y => rfl) hdt tEnd hI w u
  refine ⟨_, s, initVector_ofFn hn, hs, by rw [ho]; simp, fun v hv j hj => ?_⟩
  rw [ho] at hj ⊢
  simp only [List.length_map, List.length_range] at hj
  refine ⟨_, by rw [List.getElem?_map, List.getElem?_range hj]; rfl, ?_, fun p hp => ?_⟩
  · rw [(coefficientRow_get _ 0).1, List.length_ofFn]
  · obtain ⟨-, g1, g2⟩ := coefficientRow_get
      (List.ofFn ((exp4 (dt : ℂ) (mat n (timesI sp)) ^ (j * max interval 1)).mulVec u)) p
    rw [List.getElem?_ofFn, dif_pos hp, Option.map_some] at g1 g2
    exact ⟨_, _, g1, g2, steps_error (fun i j => sp.get i j) B dt hB hdt.le hsym hM hv (j * max interval 1) ⟨p, hp⟩⟩

/-- C62: the program `hubbard_real_1d_rk4_coefficients` as a whole: every row has the time and, for every basis operator in
the order of the basis, real and imaginary part of its coefficient, which is that of the exact solution up to an error of
fourth order in `dt`. -/
theorem real1dRk4Coefficients_correct {N : ℕ} (hN : 3 ≤ N) (J U tEnd : ℝ) {dt : ℝ} (hdt : 0 < dt) {interval : ℕ}
    (hI : interval < 2 ^ 64) {sort : List (Triplet ℝ) → List (Triplet ℝ)} (hs : IsSort sort) (w : Work ℂ) :
    ∃ m s, initMatrix sort N 2 (Chain.real (K := ℝ) N 1).neighbors J U = .val m ∧
      real1dRk4Coefficients sort w N J U dt tEnd interval = .val s ∧
      s.out.length = ⌈tEnd / dt⌉₊ / max interval 1 + 1 ∧
      ∀ v, IsFlow (N + N * N * N) (fun i j => m.get i j) v → ∀ j < s.out.length, ∃ xs : List ℝ,
        s.out[j]? = some (((j * max interval 1 : ℕ) : ℝ) * dt, xs) ∧ xs.length = 2 * (N + N * N * N) ∧
        ∀ p < N + N * N * N, ∃ x y, xs[2 * p]? = some x ∧ xs[2 * p + 1]? = some y ∧
          ‖(⟨x, y⟩ : ℂ) - v ((j * max interval 1 : ℕ) * dt) p‖ ≤ rk4Error (6 * |J| + |U|) dt (j * max interval 1) := by
  have hsz := (realBasis_size N).2
  have hreg := chain_regular (Chain.Constructed.real (N := N) (1 : ℝ) (by omega) rfl) hN
  obtain ⟨m, h1, h2, _, _, _, _, h3, _⟩ := initMatrix_ok hreg sort hs J U
  obtain ⟨m', h1', _, hsym⟩ := initMatrix_symm hreg sort hs J U
  rw [h1] at h1'; cases h1'
  rw [h2] at hsym
  have hm : ∀ i < N + N * N * N, ∑ j ∈ Finset.range (N + N * N * N), |m.get i j| ≤ 6 * |J| + |U| := by
    intro i hi
    rw [Finset.sum_congr rfl fun c _ => by rw [h3 i hi c]]
    refine ((sum_abs_columnSum _ _).trans (row_abs_sum hreg J U hi)).trans (le_of_eq ?_)
    push_cast; ring
  obtain ⟨h, s, i1, i2, i3, i4⟩ := coefficients_program (n := N + N * N * N) (by omega) m hsym (6 * |J| + |U|) (by positivity) hm
    hdt tEnd hI w
  refine ⟨m, s, h1, ?_, i3, i4⟩
  unfold real1dRk4Coefficients
  simp only [h1, Res.bind_val, hsz, i1]
  exact i2

/-! ### The exact solution of the kinetic problem -/

/-- Sum of the `p`-th powers of the roots of unity. -/
theorem sum_roots {N : ℕ} (hN : 0 < N) {p : ℕ} (hp : p < N) :
    ∑ q ∈ Finset.range N, Complex.exp (Complex.I * (2 * Real.pi * q / N * p : ℝ)) = if p = 0 then (N : ℂ) else 0 := by
  have hprim := Complex.isPrimitiveRoot_exp N hN.ne'
  set ζ := Complex.exp (2 * Real.pi * Complex.I / N) with hζ
  have e : ∀ q : ℕ, Complex.exp (Complex.I * (2 * Real.pi * q / N * p : ℝ)) = (ζ ^ p) ^ q := by
    intro q
    rw [hζ, ← Complex.exp_nat_mul, ← Complex.exp_nat_mul]
    congr 1; push_cast; ring
  rw [Finset.sum_congr rfl fun q _ => e q]
  split_ifs with h
  · subst h; simp
  · have hne : ζ ^ p ≠ 1 := hprim.pow_ne_one_of_pos_of_lt h hp
    rw [geom_sum_eq hne, ← pow_mul, mul_comm, pow_mul, hprim.pow_eq_one, one_pow, sub_self, zero_div]

theorem hopping_periodic {N : ℕ} (hN : 0 < N) (J t : ℝ) (p : ℕ) : hoppingAmplitude N J t (p % N) = hoppingAmplitude N J t p := by
  unfold hoppingAmplitude
  congr 1
  refine Finset.sum_congr rfl fun q _ => ?_
  congr 1
  rw [Complex.exp_eq_exp_iff_exists_int]
  refine ⟨-(q * (p / N) : ℕ), ?_⟩
  have hN' : (N : ℂ) ≠ 0 := by exact_mod_cast hN.ne'
  have h : ((p : ℕ) : ℂ) = N * (p / N : ℕ) + (p % N : ℕ) := by exact_mod_cast (Nat.div_add_mod p N).symm
  rw [show ((-(q * (p / N) : ℕ) : ℤ) : ℂ) = -((q : ℂ) * (p / N : ℕ)) by push_cast; rfl]
  simp only [Complex.ofReal_mul, Complex.ofReal_div, Complex.ofReal_natCast, Complex.ofReal_ofNat]
  rw [h]
  field_simp
  ring

/-- The closed form is the flow of the hopping matrix. -/
theorem hopping_flow {N : ℕ} (hN : 3 ≤ N) (J : ℝ) {M : ℕ → ℕ → ℝ}
    (hM : ∀ p < N, ∀ q < N, M p q = if q ∈ (Chain.real (K := ℝ) N 1).neighbors p then -J else 0) :
    IsFlow N M (fun t p => hoppingAmplitude N J t p) := by
  have hN' : (N : ℂ) ≠ 0 := by exact_mod_cast (by omega : N ≠ 0)
  refine ⟨fun p hp => ?_, fun t p hp => ?_⟩
  · unfold hoppingAmplitude
    simp only [mul_zero, zero_mul, Complex.ofReal_zero, Complex.exp_zero, mul_one]
    rw [sum_roots (by omega) hp]
    split_ifs
    · field_simp
    · simp
  · have hreg := chain_regular (Chain.Constructed.real (N := N) (1 : ℝ) (by omega) rfl) hN
    have hnb : ∀ x < N, (Chain.real (K := ℝ) N 1).neighbors x = [(x + N - 1) % N, (x + 1) % N] := by
      intro x hx
      unfold Chain.neighbors
      show [if x > 0 then x - 1 else N - 1, if x < N - 1 then x + 1 else 0] = _
      congr 1
      · split_ifs with h
        · rw [Nat.mod_eq_sub_mod (by omega), Nat.mod_eq_of_lt (by omega)]; omega
        · rw [Nat.mod_eq_of_lt (by omega)]; omega
      · congr 1
        split_ifs with h
        · rw [Nat.mod_eq_of_lt (by omega)]
        · rw [show x + 1 = N by omega, Nat.mod_self]
    rw [Finset.sum_congr (g := fun q => if q ∈ (Chain.real (K := ℝ) N 1).neighbors p then
      (-J : ℂ) * hoppingAmplitude N J t q else 0) rfl fun q hq => by
        rw [hM p hp q (Finset.mem_range.1 hq)]; split_ifs <;> simp,
      sum_neighbors (hreg.nodup p hp) (hreg.lt p hp) (fun q => (-J : ℂ) * hoppingAmplitude N J t q), hnb p hp]
    simp only [List.map_cons, List.map_nil, List.sum_cons, List.sum_nil, add_zero]
    rw [hopping_periodic (by omega), hopping_periodic (by omega)]
    unfold hoppingAmplitude
    have hd : HasDerivAt (fun t : ℝ => 1 / (N : ℂ) * ∑ q ∈ Finset.range N, Complex.exp (Complex.I * (2 * Real.pi * q / N * p : ℝ)) *
        Complex.exp (-Complex.I * (2 * J * t * Real.cos (2 * Real.pi * q / N) : ℝ)))
        (1 / (N : ℂ) * ∑ q ∈ Finset.range N, Complex.exp (Complex.I * (2 * Real.pi * q / N * p : ℝ)) *
          (Complex.exp (-Complex.I * (2 * J * t * Real.cos (2 * Real.pi * q / N) : ℝ)) *
            (-Complex.I * (2 * J * Real.cos (2 * Real.pi * q / N) : ℝ)))) t := by
      refine HasDerivAt.const_mul _ (HasDerivAt.fun_sum fun q _ => HasDerivAt.const_mul _ ?_)
      refine HasDerivAt.cexp ?_
      refine HasDerivAt.const_mul _ ?_
      have h1 : HasDerivAt (fun t : ℝ => 2 * J * t * Real.cos (2 * Real.pi * q / N)) (2 * J * Real.cos (2 * Real.pi * q / N)) t := by
        have := ((hasDerivAt_id t).const_mul (2 * J)).mul_const (Real.cos (2 * Real.pi * q / N))
        simpa using this
      exact h1.ofReal_comp
    refine hd.congr_deriv ?_
    have hcos : ∀ q : ℕ, Complex.exp (Complex.I * (2 * Real.pi * q / N * (p + N - 1 : ℕ) : ℝ)) +
        Complex.exp (Complex.I * (2 * Real.pi * q / N * (p + 1 : ℕ) : ℝ)) =
        Complex.exp (Complex.I * (2 * Real.pi * q / N * p : ℝ)) * (2 * Real.cos (2 * Real.pi * q / N) : ℝ) := by
      intro q
      have e1 : Complex.exp (Complex.I * (2 * Real.pi * q / N * (p + N - 1 : ℕ) : ℝ)) =
          Complex.exp (Complex.I * (2 * Real.pi * q / N * p : ℝ)) * Complex.exp (-(2 * Real.pi * q / N : ℝ) * Complex.I) := by
        rw [← Complex.exp_add, Complex.exp_eq_exp_iff_exists_int]
        refine ⟨q, ?_⟩
        rw [Nat.cast_sub (by omega)]
        push_cast
        field_simp
        ring
      have e2 : Complex.exp (Complex.I * (2 * Real.pi * q / N * (p + 1 : ℕ) : ℝ)) =
          Complex.exp (Complex.I * (2 * Real.pi * q / N * p : ℝ)) * Complex.exp ((2 * Real.pi * q / N : ℝ) * Complex.I) := by
        rw [← Complex.exp_add]
        congr 1
        push_cast
        ring
      rw [e1, e2, ← mul_add]
      congr 1
      rw [Complex.ofReal_mul, Complex.ofReal_cos, Complex.cos]
      push_cast
      ring
    rw [show ∀ a b c d : ℂ, Complex.I * (a * (b * c) + a * (b * d)) = b * (Complex.I * a * (c + d)) from fun a b c d => by ring]
    congr 1
    rw [← Finset.sum_add_distrib, Finset.mul_sum]
    refine Finset.sum_congr rfl fun q _ => ?_
    rw [← add_mul, hcos]
    push_cast
    ring

/-- C62: the program `hubbard_real_1d_kinetic_rk4_coefficients` as a whole: the coefficients it writes are the amplitudes
`1/N Σ_k e^{i k p} e^{-2 i J t cos k}` of a particle hopping on the ring, up to an error of fourth order in `dt`. -/
theorem real1dKineticRk4Coefficients_correct {N : ℕ} (hN : 3 ≤ N) (J tEnd : ℝ) {dt : ℝ} (hdt : 0 < dt) {interval : ℕ}
    (hI : interval < 2 ^ 64) {sort : List (Triplet ℝ) → List (Triplet ℝ)} (hs : IsSort sort) (w : Work ℂ) :
    ∃ s, real1dKineticRk4Coefficients sort w N J dt tEnd interval = .val s ∧
      s.out.length = ⌈tEnd / dt⌉₊ / max interval 1 + 1 ∧
      ∀ j < s.out.length, ∃ xs : List ℝ,
        s.out[j]? = some (((j * max interval 1 : ℕ) : ℝ) * dt, xs) ∧ xs.length = 2 * N ∧
        ∀ p < N, ∃ x y, xs[2 * p]? = some x ∧ xs[2 * p + 1]? = some y ∧
          ‖(⟨x, y⟩ : ℂ) - hoppingAmplitude N J ((j * max interval 1 : ℕ) * dt) p‖ ≤
            rk4Error (2 * |J|) dt (j * max interval 1) := by
  have hsz := (realBasis_size N).1
  have hreg := chain_regular (Chain.Constructed.real (N := N) (1 : ℝ) (by omega) rfl) hN
  obtain ⟨m, h1, h2, _, _, _, _, h3⟩ := initKineticMatrix_ok hreg sort hs J
  have hm : ∀ i < N, ∑ j ∈ Finset.range N, |m.get i j| ≤ 2 * |J| := by
    intro i hi
    rw [Finset.sum_congr (g := fun c => if c ∈ (Chain.real (K := ℝ) N 1).neighbors i then |J| else 0) rfl fun c hc => by
      rw [h3 i hi c (Finset.mem_range.1 hc), apply_ite abs, abs_neg, abs_zero]]
    rw [sum_neighbors (hreg.nodup i hi) (hreg.lt i hi) (fun _ => |J|), List.map_const', List.sum_replicate, hreg.length i hi,
      nsmul_eq_mul]
    norm_num
  have hsym : ∀ p < N, ∀ q < N, m.get p q = m.get q p := by
    intro p hp q hq
    rw [h3 p hp q hq, h3 q hq p hp]
    have : q ∈ (Chain.real (K := ℝ) N 1).neighbors p ↔ p ∈ (Chain.real (K := ℝ) N 1).neighbors q :=
      ⟨hreg.symm p hp q hq, hreg.symm q hq p hp⟩
    simp only [this]
  obtain ⟨h, s, i1, i2, i3, i4⟩ := coefficients_program (n := N) (by omega) m hsym (2 * |J|) (by positivity) hm hdt tEnd hI w
  refine ⟨s, ?_, i3, i4 _ (hopping_flow hN J h3)⟩
  unfold real1dKineticRk4Coefficients
  simp only [h1, Res.bind_val, hsz, i1]
  exact i2

/-! ## The non-interacting case -/

/-- Without interaction the exact solution has no three-operator part and hops on the ring. -/
theorem free_flow {N : ℕ} (hN : 3 ≤ N) (J : ℝ) {sort : List (Triplet ℝ) → List (Triplet ℝ)} (hs : IsSort sort) {m : Sparse ℝ}
    (hm : initMatrix sort N 2 (Chain.real (K := ℝ) N 1).neighbors J 0 = .val m) :
    IsFlow (N + N * N * N) (fun i j => m.get i j) (fun t p => if p < N then hoppingAmplitude N J t p else 0) := by
  have hreg := chain_regular (Chain.Constructed.real (N := N) (1 : ℝ) (by omega) rfl) hN
  obtain ⟨m', h1, h2, _, _, _, _, _, h3⟩ := initMatrix_ok hreg sort hs J 0
  rw [hm] at h1; cases h1
  have hone : ∀ p < N, ∀ q < N, m.get p q = if q ∈ (Chain.real (K := ℝ) N 1).neighbors p then -J else 0 := by
    intro p hp q hq
    have := h3 (.one p) (.one q) hp hq
    simp only [Label.pos, element, zero_div, ite_self, add_zero] at this
    exact this
  have hmix : ∀ p, N ≤ p → p < N + N * N * N → ∀ q < N, m.get p q = 0 := by
    intro p hp1 hp2 q hq
    obtain ⟨a, b, c, ha, hb, hc, rfl⟩ := (realBasis_index_bijective N).2.1 p hp1 hp2
    have := h3 (.three a b c) (.one q) ⟨ha, hb, hc⟩ hq
    simp only [Label.pos, element, zero_div, ite_self] at this
    exact this
  have hflow := hopping_flow hN J hone
  refine ⟨fun p hp => ?_, fun t p hp => ?_⟩
  · split_ifs with h1 h2 h2
    · rw [hflow.start p h1, if_pos h2]
    · rw [hflow.start p h1, if_neg h2]
    · omega
    · rfl
  · have hsum : ∑ q ∈ Finset.range (N + N * N * N), ((m.get p q : ℝ) : ℂ) *
        (if q < N then hoppingAmplitude N J t q else 0) =
        ∑ q ∈ Finset.range N, ((m.get p q : ℝ) : ℂ) * hoppingAmplitude N J t q := by
      rw [Finset.sum_range_add, Finset.sum_eq_zero (s := Finset.range (N * N * N)) fun q _ => by
        rw [if_neg (by omega), mul_zero], add_zero]
      exact Finset.sum_congr rfl fun q hq => by rw [if_pos (Finset.mem_range.1 hq)]
    rw [hsum]
    by_cases hpN : p < N
    · simp only [if_pos hpN]
      exact hflow.flow t p hpN
    · simp only [if_neg hpN]
      rw [Finset.sum_eq_zero fun q hq => by
        rw [hmix p (by omega) hp q (Finset.mem_range.1 hq), Complex.ofReal_zero, zero_mul], mul_zero]
      exact hasDerivAt_const _ _

/-- The Fourier transform of the hopping amplitudes at a lattice momentum is a phase. -/
theorem hopping_fourier {N : ℕ} (hN : 0 < N) (J t : ℝ) (r : ℕ) :
    ‖∑ i ∈ Finset.range N, Complex.exp (Complex.I * (2 * Real.pi * r / N * i : ℝ)) * hoppingAmplitude N J t i‖ = 1 := by
  have hN' : (N : ℂ) ≠ 0 := by exact_mod_cast hN.ne'
  set q0 := (N - r % N) % N with hq0
  have hrl := Nat.mod_lt r hN
  have hq0N : q0 < N := Nat.mod_lt _ hN
  have hsum : ∀ q < N, ∑ i ∈ Finset.range N, Complex.exp (Complex.I * (2 * Real.pi * r / N * i : ℝ)) *
      Complex.exp (Complex.I * (2 * Real.pi * q / N * i : ℝ)) = if q = q0 then (N : ℂ) else 0 := by
    intro q hq
    have h1 := sum_roots hN (p := (q + r) % N) (Nat.mod_lt _ hN)
    have hiff : (q + r) % N = 0 ↔ q = q0 := by
      rw [← Nat.add_mod_mod]
      have : (q + r % N) % N = if q + r % N < N then q + r % N else q + r % N - N := by
        split_ifs with h
        · exact Nat.mod_eq_of_lt h
        · rw [Nat.mod_eq_sub_mod (by omega), Nat.mod_eq_of_lt (by omega)]
      have h2 : q0 = if r % N = 0 then 0 else N - r % N := by
        rw [hq0]
        split_ifs with h
        · rw [h, Nat.sub_zero, Nat.mod_self]
        · exact Nat.mod_eq_of_lt (by omega)
      rw [this, h2]
      split_ifs <;> omega
    rw [show (if q = q0 then (N : ℂ) else 0) = if (q + r) % N = 0 then (N : ℂ) else 0 by simp only [hiff], ← h1]
    refine Finset.sum_congr rfl fun i _ => ?_
    rw [← Complex.exp_add, Complex.exp_eq_exp_iff_exists_int]
    refine ⟨(i * ((q + r) / N) : ℕ), ?_⟩
    have h : ((q : ℕ) : ℂ) + r = N * ((q + r) / N : ℕ) + ((q + r) % N : ℕ) := by exact_mod_cast (Nat.div_add_mod (q + r) N).symm
    rw [show (((i * ((q + r) / N) : ℕ) : ℤ) : ℂ) = (i : ℂ) * ((q + r) / N : ℕ) by push_cast; rfl]
    simp only [Complex.ofReal_mul, Complex.ofReal_div, Complex.ofReal_natCast, Complex.ofReal_ofNat]
    field_simp
    linear_combination (i : ℂ) * h
  have key : ∑ i ∈ Finset.range N, Complex.exp (Complex.I * (2 * Real.pi * r / N * i : ℝ)) * hoppingAmplitude N J t i =
      Complex.exp (-Complex.I * (2 * J * t * Real.cos (2 * Real.pi * q0 / N) : ℝ)) := by
    unfold hoppingAmplitude
    have e : ∀ i : ℕ, Complex.exp (Complex.I * (2 * Real.pi * r / N * i : ℝ)) * (1 / N * ∑ q ∈ Finset.range N,
        Complex.exp (Complex.I * (2 * Real.pi * q / N * i : ℝ)) *
          Complex.exp (-Complex.I * (2 * J * t * Real.cos (2 * Real.pi * q / N) : ℝ))) =
        ∑ q ∈ Finset.range N, 1 / N * Complex.exp (-Complex.I * (2 * J * t * Real.cos (2 * Real.pi * q / N) : ℝ)) *
          (Complex.exp (Complex.I * (2 * Real.pi * r / N * i : ℝ)) * Complex.exp (Complex.I * (2 * Real.pi * q / N * i : ℝ))) := by
      intro i
      rw [Finset.mul_sum, Finset.mul_sum]
      exact Finset.sum_congr rfl fun q _ => by ring
    rw [Finset.sum_congr rfl fun i _ => e i, Finset.sum_comm]
    rw [Finset.sum_congr rfl fun q hq => by rw [← Finset.mul_sum, hsum q (Finset.mem_range.1 hq)]]
    rw [Finset.sum_eq_single q0 (fun q _ h => by rw [if_neg h, mul_zero]) (fun h => absurd (Finset.mem_range.2 hq0N) h), if_pos rfl]
    field_simp
  rw [key, show -Complex.I * ((2 * J * t * Real.cos (2 * Real.pi * q0 / N) : ℝ) : ℂ) =
    Complex.I * ((-(2 * J * t * Real.cos (2 * Real.pi * q0 / N)) : ℝ) : ℂ) by push_cast; ring]
  exact norm_exp_phase _

/-- C61, a consequence: without interaction (`U = 0`) the program `hubbard_real_1d_rk4_jump` reproduces the exact result that the
jump stays 1 at all times, up to an error of fourth order in `dt`, whenever the Fermi momentum is a momentum of the ring
(the number of particles per spin, `filling · N`, is even). -/
theorem real1dRk4Jump_free {N : ℕ} (hN : 3 ≤ N) (J filling tEnd : ℝ) {r : ℕ} (hr : filling * N = 2 * r) {dt : ℝ} (hdt : 0 < dt)
    {interval : ℕ} (hI : interval < 2 ^ 64) {sort : List (Triplet ℝ) → List (Triplet ℝ)} (hs : IsSort sort) {e : JumpExecution}
    (he : e.Valid N) (ht : e.table.Perm (List.range' 1 (N / 2))) (w : Work ℂ) :
    ∃ s, real1dRk4Jump sort e w N J 0 dt tEnd interval filling = .val s ∧
      s.out.length = ⌈tEnd / dt⌉₊ / max interval 1 + 1 ∧
      ∀ j < s.out.length, ∃ x, s.out[j]? = some (((j * max interval 1 : ℕ) : ℝ) * dt, x) ∧
        |x - 1| ≤ jumpScale (ringCorrelation filling N) N ^ 2 * (rk4Error (6 * |J|) dt (j * max interval 1) *
            (2 + rk4Error (6 * |J|) dt (j * max interval 1))) := by
  obtain ⟨m, s, h1, h2, h3, h4⟩ := real1dRk4Jump_correct hN J 0 filling tEnd hdt hI hs he ht w
  refine ⟨s, h2, h3, fun j hj => ?_⟩
  obtain ⟨x, hx, hb⟩ := h4 _ (free_flow hN J hs h1) j hj
  refine ⟨x, hx, ?_⟩
  rw [abs_zero, add_zero] at hb
  have hN0 : (N : ℝ) ≠ 0 := by exact_mod_cast (by omega : N ≠ 0)
  have hj1 : fermiJump (ringCorrelation filling N) N (fun i => filling * Real.pi * i)
      (fun p => if p < N then hoppingAmplitude N J ((j * max interval 1 : ℕ) * dt) p else 0) = 1 := by
    unfold fermiJump
    have hf := hopping_fourier (N := N) (by omega) J ((j * max interval 1 : ℕ) * dt) r
    refine Eq.trans ?_ (congrArg (fun x : ℝ => x ^ 2) hf |>.trans (one_pow 2))
    simp only
    congr 2
    refine Finset.sum_congr rfl fun i hi => ?_
    congr 1
    · congr 2
      rw [show filling = 2 * r / N by field_simp; exact hr]
      ring_nf
    · unfold normalOrderedCoefficient
      beta_reduce
      rw [if_pos (Finset.mem_range.1 hi), Finset.sum_eq_zero fun a _ => Finset.sum_eq_zero fun b _ =>
        mul_eq_zero_of_right _ (if_neg (by omega)), add_zero]
  rwa [hj1] at hb

/-- The condition on the filling is met by the defaults of the program (16 sites, filling 0.5). -/
example : (0.5 : ℝ) * (16 : ℕ) = 2 * (4 : ℕ) := by norm_num

/-- Non-vacuity: for every lattice there is a valid execution (one thread, program order). -/
example (N : ℕ) : ∃ e : JumpExecution, e.Valid N ∧ e.table.Perm (List.range' 1 (N / 2)) ∧
    e.table2.Perm (evPairs (N / 2) (N / 2)) :=
  ⟨⟨List.range' 1 (N / 2), evPairs (N / 2) (N / 2), List.range N, fun _ => List.range N, fun _ => 1,
    fun _ => (jumpPairs N).map fun p => (0, p)⟩, ⟨List.Perm.refl _, fun _ => List.Perm.refl _, fun _ => executes_sequential _⟩,
    List.Perm.refl _, List.Perm.refl _⟩

end Ieompp.Program
