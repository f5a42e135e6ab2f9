import Verif.Props.Main
import Verif.Props.JumpProgram
import Verif.Props.MomentumProgram
import Verif.Props.SparseExact

/-! # C94–C96: what the programs do with the parameters of the command line -/

set_option autoImplicit false
set_option linter.unusedSectionVars false

namespace Ieompp.Sim

variable {H O : Type*}

/-- Without a positive step width the time loop never ends, or never starts. -/
theorem simulateM_nonpos {step : H → Res H} {measure : H → Res (H × O)} {dt : ℝ} (tEnd : ℝ) (hdt : dt ≤ 0 ∨ tEnd ≤ 0)
    (interval : ℕ) {h0 : H} {h : ℕ → H} {o : O} (hm : measure h0 = .val (h 0, o)) (hs : ∀ k, step (h k) = .val (h (k + 1))) :
    (0 < tEnd → simulateM step measure dt tEnd interval h0 = .diverges) ∧
    (tEnd ≤ 0 → simulateM step measure dt tEnd interval h0 = .val ⟨h 0, 0, 0, [(0, o)]⟩) := by
  constructor
  · intro he
    have hdt : dt ≤ 0 := hdt.resolve_right (by linarith)
    have key : ∀ k, (fun s : Res (State H O) => s.bind (bodyM step measure dt interval))^[k]
        (.val { h := h 0, t := 0, last := 0, out := [(0, o)] }) =
        .val { h := h k, t := k * dt, last := 0, out := [(0, o)] } := by
      intro k
      induction k with
      | zero => simp
      | succ k ih =>
        rw [Function.iterate_succ_apply', ih, Res.bind_val]
        have hk : (k : ℝ) * dt ≤ 0 := mul_nonpos_of_nonneg_of_nonpos (Nat.cast_nonneg k) hdt
        unfold bodyM maybeMeasureM hasTimeIntervalPassed
        simp only [ge_iff_le, hk, if_true, Res.bind_val, Bool.false_eq_true, if_false, hs, Res.map_val]
        congr 2
        push_cast; ring
    unfold simulateM
    simp only [hm, Res.bind_val]
    rw [whileLoop_diverges]
    · rfl
    · intro k
      rw [key]
      show (k : ℝ) * dt < tEnd
      exact lt_of_le_of_lt (mul_nonpos_of_nonneg_of_nonpos (Nat.cast_nonneg k) hdt) he
  · intro he
    unfold simulateM
    simp only [hm, Res.bind_val]
    rw [(whileLoop_eq (running tEnd) _ _).2 (by show ¬ ((0 : ℝ) < tEnd); linarith)]
    simp only [Res.bind_val, id]
    unfold maybeMeasureM hasTimeIntervalPassed
    simp

/-- A run shows that the first measurement is defined. -/
theorem simulateM_first {step : H → Res H} {measure : H → Res (H × O)} {dt tEnd : ℝ} {interval : ℕ} {h0 : H} {s : State H O}
    (h : simulateM step measure dt tEnd interval h0 = .val s) : ∃ r, measure h0 = .val r := by
  unfold simulateM at h
  obtain ⟨r, hr, -⟩ := Main.bind_val h
  exact ⟨r, hr⟩

end Ieompp.Sim

namespace Ieompp.Program

open Ieompp.Spec RealSpace ODE

/-- The integrator never fails on a vector of the right length. -/
theorem stepVars_ofFn (n : ℕ) (dt : ℝ) (sp : Sparse ℝ) (k : ℕ) (w : Work ℂ) (y : Fin n → ℂ) :
    ∃ (w' : Work ℂ) (y' : Fin n → ℂ), stepVars n dt sp (k, w, List.ofFn y) = .val (k + 1, w', List.ofFn y') := by
  obtain ⟨w', e⟩ := stepMatrix_correct n (dt : ℂ) (timesI sp) w y
  exact ⟨w', _, by unfold stepVars; rw [e, Res.map_val]⟩

theorem stepVars_orbit (n : ℕ) (dt : ℝ) (sp : Sparse ℝ) (w : Work ℂ) (y : Fin n → ℂ) :
    ∃ h : ℕ → Vars, h 0 = (0, w, List.ofFn y) ∧ ∀ k, stepVars n dt sp (h k) = .val (h (k + 1)) := by
  choose fw fy hf using stepVars_ofFn n dt sp
  let P : ℕ → Work ℂ × (Fin n → ℂ) := fun k => Nat.rec (w, y) (fun k p => (fw k p.1 p.2, fy k p.1 p.2)) k
  refine ⟨fun k => (k, (P k).1, List.ofFn (P k).2), rfl, fun k => ?_⟩
  exact hf k (P k).1 (P k).2

/-- The time loop without measurement state, for `dt ≤ 0` or an end time that is not positive. -/
theorem simulate_nonpos {O : Type} {n : ℕ} (sp : Sparse ℝ) (meas : Vars → Res O) (dt tEnd : ℝ) (hdt : dt ≤ 0 ∨ tEnd ≤ 0) (interval : ℕ)
    (w : Work ℂ) {h : List ℂ} (hh : initVector n = .val h) {dt' tEnd' : ℝ} {interval' : ℕ} {s : Sim.State Vars O} {sp' : Sparse ℝ}
    (hr : Sim.simulate (stepVars n dt' sp') meas dt' tEnd' interval' (0, w, h) = .val s) :
    (0 < tEnd → Sim.simulate (stepVars n dt sp) meas dt tEnd interval (0, w, h) = .diverges) ∧
    (tEnd ≤ 0 → ∃ s, Sim.simulate (stepVars n dt sp) meas dt tEnd interval (0, w, h) = .val s ∧ s.out.length = 1) := by
  have hn : 1 ≤ n := by
    rcases Nat.eq_zero_or_pos n with rfl | h'
    · rw [initVector_empty_ub] at hh; cases hh
    · exact h'
  rw [initVector_ofFn hn] at hh
  cases hh
  obtain ⟨r, hm⟩ := Sim.simulateM_first hr
  obtain ⟨o, ho⟩ : ∃ o, meas (0, w, List.ofFn fun p : Fin n => if (p : ℕ) = 0 then (1 : ℂ) else 0) = .val o := by
    cases hmm : meas (0, w, List.ofFn fun p : Fin n => if (p : ℕ) = 0 then (1 : ℂ) else 0) with
    | val o => exact ⟨o, rfl⟩
    | ub => rw [hmm] at hm; cases hm
    | diverges => rw [hmm] at hm; cases hm
  obtain ⟨orb, h0, hs⟩ := stepVars_orbit n dt sp w (fun p : Fin n => if (p : ℕ) = 0 then (1 : ℂ) else 0)
  rw [← h0] at ho ⊢
  obtain ⟨h1, h2⟩ := Sim.simulateM_nonpos (step := stepVars n dt sp) (measure := fun h => (meas h).map fun o => (h, o)) tEnd hdt interval
    (h0 := orb 0) (h := orb) (o := o) (by simp only [ho]; rfl) hs
  exact ⟨h1, fun he => ⟨_, h2 he, rfl⟩⟩

/-- On no site at all the initial vector has no first element. -/
theorem initVector_zero {n : ℕ} (h : n = 0) : initVector n = .ub := by rw [h]; exact initVector_empty_ub

theorem table_zero (filling : ℝ) {sched : List ℕ} (hs : sched.Perm (List.range' 1 (0 / 2))) :
    ∃ values, evTable1D (Chain.real (K := ℝ) 0 1) filling (fermiMomentum1D filling) sched = .val values := by
  have : sched = [] := by simpa using hs
  subst this
  exact ⟨_, rfl⟩

theorem table_defined (N : ℕ) (filling : ℝ) {sched : List ℕ} (hs : sched.Perm (List.range' 1 (N / 2))) :
    ∃ values, evTable1D (Chain.real (K := ℝ) N 1) filling (fermiMomentum1D filling) sched = .val values := by
  rcases Nat.eq_zero_or_pos N with rfl | h
  · exact table_zero filling hs
  · obtain ⟨v, e, -⟩ := table_ok h filling hs
    exact ⟨v, e⟩

/-- The matrices of the programs for less than three sites. -/
theorem chain_matrix_small {N : ℕ} (hN : N < 3) {sort : List (Triplet ℝ) → List (Triplet ℝ)} (hs : IsSort sort) (J U : ℝ) :
    (∀ {S : Type} (f : Sparse ℝ → Res S), (N = 0 → ∀ m, f m = .ub) → (initMatrix sort N 2 (Chain.real (K := ℝ) N 1).neighbors J U).bind f = .ub) ∧
    (∀ {S : Type} (f : Sparse ℝ → Res S), (N = 0 → ∀ m, f m = .ub) → (initKineticMatrix sort N 2 (Chain.real (K := ℝ) N 1).neighbors J).bind f = .ub) := by
  rcases Nat.eq_zero_or_pos N with rfl | h
  · exact ⟨fun f hf => hf rfl _, fun f hf => hf rfl _⟩
  · obtain ⟨e1, e2⟩ := realMatrix_small_chain_ub (Chain.Constructed.real (N := N) (1 : ℝ) h rfl) (by omega) sort hs J U
    exact ⟨fun f _ => by rw [e2]; rfl, fun f _ => by rw [e1]; rfl⟩

theorem basis_zero {N : ℕ} (h : N = 0) : (basis3 N).length = 0 ∧ (basis1 N).length = 0 := by
  subst h
  exact ⟨(realBasis_size 0).2, (realBasis_size 0).1⟩

/-- **C95** for `hubbard_real_1d_rk4`. -/
theorem real1dRk4_outcome (N : ℕ) (J U filling tEnd dt : ℝ) {interval : ℕ} (hI : interval < 2 ^ 64)
    {sort : List (Triplet ℝ) → List (Triplet ℝ)} (hs : IsSort sort) {e : Execution} (he : e.Valid N) (w : Work ℂ) :
    OutcomeByParameters (real1dRk4 sort e w N J U dt tEnd interval filling) N dt tEnd interval := by
  have nonpos : 3 ≤ N → dt ≤ 0 ∨ tEnd ≤ 0 → (0 < tEnd → real1dRk4 sort e w N J U dt tEnd interval filling = .diverges) ∧
      (tEnd ≤ 0 → ∃ s, real1dRk4 sort e w N J U dt tEnd interval filling = .val s ∧ s.out.length = 1) := by
    intro hN hdt
    obtain ⟨m, s, -, h, -⟩ := real1dRk4_correct hN J U filling 0 (dt := 1) one_pos hI hs he w
    unfold real1dRk4 at h ⊢
    simp only at h ⊢
    obtain ⟨values, e1, h⟩ := Main.bind_val h
    obtain ⟨m, e2, h⟩ := Main.bind_val h
    obtain ⟨v, e3, h⟩ := Main.bind_val h
    simp only [e1, e2, e3, Res.bind_val]
    exact simulate_nonpos m _ dt tEnd hdt interval w e3 h
  refine ⟨fun hN => ?_, fun hN hdt => (nonpos hN (Or.inl hdt)).1, fun hN ht => (nonpos hN (Or.inr ht)).2 ht, fun hN hdt => ?_⟩
  · unfold real1dRk4
    obtain ⟨values, e1⟩ := table_defined N filling he.table
    simp only [e1, Res.bind_val]
    refine (chain_matrix_small hN hs J U).1 _ fun h m => ?_
    rw [initVector_zero (basis_zero h).1]; rfl
  · obtain ⟨m, s, -, h, hl, -⟩ := real1dRk4_correct hN J U filling tEnd hdt hI hs he w
    exact ⟨s, h, hl⟩

/-- **C95** for `hubbard_real_1d_kinetic_rk4`. -/
theorem real1dKineticRk4_outcome (N : ℕ) (J filling tEnd dt : ℝ) {interval : ℕ} (hI : interval < 2 ^ 64)
    {sort : List (Triplet ℝ) → List (Triplet ℝ)} (hs : IsSort sort) {e : Execution} (he : e.ValidKinetic N) (w : Work ℂ) :
    OutcomeByParameters (real1dKineticRk4 sort e w N J dt tEnd interval filling) N dt tEnd interval := by
  have nonpos : 3 ≤ N → dt ≤ 0 ∨ tEnd ≤ 0 → (0 < tEnd → real1dKineticRk4 sort e w N J dt tEnd interval filling = .diverges) ∧
      (tEnd ≤ 0 → ∃ s, real1dKineticRk4 sort e w N J dt tEnd interval filling = .val s ∧ s.out.length = 1) := by
    intro hN hdt
    obtain ⟨m, s, -, h, -⟩ := real1dKineticRk4_correct hN J filling 0 (dt := 1) one_pos hI hs he w
    unfold real1dKineticRk4 at h ⊢
    simp only at h ⊢
    obtain ⟨values, e1, h⟩ := Main.bind_val h
    obtain ⟨m, e2, h⟩ := Main.bind_val h
    obtain ⟨v, e3, h⟩ := Main.bind_val h
    simp only [e1, e2, e3, Res.bind_val]
    exact simulate_nonpos m _ dt tEnd hdt interval w e3 h
  refine ⟨fun hN => ?_, fun hN hdt => (nonpos hN (Or.inl hdt)).1, fun hN ht => (nonpos hN (Or.inr ht)).2 ht, fun hN hdt => ?_⟩
  · unfold real1dKineticRk4
    obtain ⟨values, e1⟩ := table_defined N filling he.table
    simp only [e1, Res.bind_val]
    refine (chain_matrix_small hN hs J 0).2 _ fun h m => ?_
    rw [initVector_zero (basis_zero h).2]; rfl
  · obtain ⟨m, s, -, h, hl, -⟩ := real1dKineticRk4_correct hN J filling tEnd hdt hI hs he w
    exact ⟨s, h, hl⟩

/-- **C95** for `hubbard_real_1d_rk4_coefficients`. -/
theorem real1dRk4Coefficients_outcome (N : ℕ) (J U tEnd dt : ℝ) {interval : ℕ} (hI : interval < 2 ^ 64)
    {sort : List (Triplet ℝ) → List (Triplet ℝ)} (hs : IsSort sort) (w : Work ℂ) :
    OutcomeByParameters (real1dRk4Coefficients sort w N J U dt tEnd interval) N dt tEnd interval := by
  have nonpos : 3 ≤ N → dt ≤ 0 ∨ tEnd ≤ 0 → (0 < tEnd → real1dRk4Coefficients sort w N J U dt tEnd interval = .diverges) ∧
      (tEnd ≤ 0 → ∃ s, real1dRk4Coefficients sort w N J U dt tEnd interval = .val s ∧ s.out.length = 1) := by
    intro hN hdt
    obtain ⟨m, s, -, h, -⟩ := real1dRk4Coefficients_correct hN J U 0 (dt := 1) one_pos hI hs w
    unfold real1dRk4Coefficients at h ⊢
    simp only at h ⊢
    obtain ⟨m, e2, h⟩ := Main.bind_val h
    obtain ⟨v, e3, h⟩ := Main.bind_val h
    simp only [e2, e3, Res.bind_val]
    exact simulate_nonpos m _ dt tEnd hdt interval w e3 h
  refine ⟨fun hN => ?_, fun hN hdt => (nonpos hN (Or.inl hdt)).1, fun hN ht => (nonpos hN (Or.inr ht)).2 ht, fun hN hdt => ?_⟩
  · unfold real1dRk4Coefficients
    refine (chain_matrix_small hN hs J U).1 _ fun h m => ?_
    rw [initVector_zero (basis_zero h).1]; rfl
  · obtain ⟨m, s, -, h, hl, -⟩ := real1dRk4Coefficients_correct hN J U tEnd hdt hI hs w
    exact ⟨s, h, hl⟩

/-- **C95** for `hubbard_real_1d_kinetic_rk4_coefficients`. -/
theorem real1dKineticRk4Coefficients_outcome (N : ℕ) (J tEnd dt : ℝ) {interval : ℕ} (hI : interval < 2 ^ 64)
    {sort : List (Triplet ℝ) → List (Triplet ℝ)} (hs : IsSort sort) (w : Work ℂ) :
    OutcomeByParameters (real1dKineticRk4Coefficients sort w N J dt tEnd interval) N dt tEnd interval := by
  have nonpos : 3 ≤ N → dt ≤ 0 ∨ tEnd ≤ 0 → (0 < tEnd → real1dKineticRk4Coefficients sort w N J dt tEnd interval = .diverges) ∧
      (tEnd ≤ 0 → ∃ s, real1dKineticRk4Coefficients sort w N J dt tEnd interval = .val s ∧ s.out.length = 1) := by
    intro hN hdt
    obtain ⟨s, h, -⟩ := real1dKineticRk4Coefficients_correct hN J 0 (dt := 1) one_pos hI hs w
    unfold real1dKineticRk4Coefficients at h ⊢
    simp only at h ⊢
    obtain ⟨m, e2, h⟩ := Main.bind_val h
    obtain ⟨v, e3, h⟩ := Main.bind_val h
    simp only [e2, e3, Res.bind_val]
    exact simulate_nonpos m _ dt tEnd hdt interval w e3 h
  refine ⟨fun hN => ?_, fun hN hdt => (nonpos hN (Or.inl hdt)).1, fun hN ht => (nonpos hN (Or.inr ht)).2 ht, fun hN hdt => ?_⟩
  · unfold real1dKineticRk4Coefficients
    refine (chain_matrix_small hN hs J 0).2 _ fun h m => ?_
    rw [initVector_zero (basis_zero h).2]; rfl
  · obtain ⟨s, h, hl, -⟩ := real1dKineticRk4Coefficients_correct hN J tEnd hdt hI hs w
    exact ⟨s, h, hl⟩

/-- The time loop of the programs that measure the jump, for `dt ≤ 0` or an end time that is not positive. -/
theorem simulateJump_nonpos {n : ℕ} (sp : Sparse ℝ) (ev : HOp → HOp → ℝ) (basis : List HMonomial) (N : ℕ) (f : List ℂ) (e : JumpExecution)
    (dt tEnd : ℝ) (hdt : dt ≤ 0 ∨ tEnd ≤ 0) (interval : ℕ) (w : Work ℂ) {h : List ℂ} (hh : initVector n = .val h) {dt' tEnd' : ℝ}
    {interval' : ℕ} {s : Sim.State JumpVars ℝ} {sp' : Sparse ℝ}
    (hr : Sim.simulateM (stepJump n dt' sp') (measureJump ev basis N f e) dt' tEnd' interval' ((0, w, h), none) = .val s) :
    (0 < tEnd → Sim.simulateM (stepJump n dt sp) (measureJump ev basis N f e) dt tEnd interval ((0, w, h), none) = .diverges) ∧
    (tEnd ≤ 0 → ∃ s, Sim.simulateM (stepJump n dt sp) (measureJump ev basis N f e) dt tEnd interval ((0, w, h), none) = .val s ∧
      s.out.length = 1) := by
  have hn : 1 ≤ n := by
    rcases Nat.eq_zero_or_pos n with rfl | h'
    · rw [initVector_empty_ub] at hh; cases hh
    · exact h'
  rw [initVector_ofFn hn] at hh
  cases hh
  obtain ⟨r, hm⟩ := Sim.simulateM_first hr
  obtain ⟨st, o, e⟩ : ∃ st o, r = (((0, w, List.ofFn fun p : Fin n => if (p : ℕ) = 0 then (1 : ℂ) else 0), st), o) := by
    unfold measureJump at hm
    obtain ⟨x, -, e⟩ := Main.map_val hm
    exact ⟨_, _, e.symm⟩
  subst e
  obtain ⟨orb, h0, hs⟩ := stepVars_orbit n dt sp w (fun p : Fin n => if (p : ℕ) = 0 then (1 : ℂ) else 0)
  rw [← h0] at hm ⊢
  obtain ⟨h1, h2⟩ := Sim.simulateM_nonpos (step := stepJump n dt sp) (measure := measureJump ev basis N f e) tEnd hdt interval
    (h0 := (orb 0, none)) (h := fun k => (orb k, st)) (o := o) hm (fun k => by simp only [stepJump, hs]; rfl)
  exact ⟨h1, fun he => ⟨_, h2 he, rfl⟩⟩

/-- **C95** for `hubbard_real_1d_rk4_jump`. -/
theorem real1dRk4Jump_outcome (N : ℕ) (J U filling tEnd dt : ℝ) {interval : ℕ} (hI : interval < 2 ^ 64)
    {sort : List (Triplet ℝ) → List (Triplet ℝ)} (hs : IsSort sort) {e : JumpExecution} (he : e.Valid N)
    (ht : e.table.Perm (List.range' 1 (N / 2))) (w : Work ℂ) :
    OutcomeByParameters (real1dRk4Jump sort e w N J U dt tEnd interval filling) N dt tEnd interval := by
  have nonpos : 3 ≤ N → dt ≤ 0 ∨ tEnd ≤ 0 → (0 < tEnd → real1dRk4Jump sort e w N J U dt tEnd interval filling = .diverges) ∧
      (tEnd ≤ 0 → ∃ s, real1dRk4Jump sort e w N J U dt tEnd interval filling = .val s ∧ s.out.length = 1) := by
    intro hN hdt
    obtain ⟨m, s, -, h, -⟩ := real1dRk4Jump_correct hN J U filling 0 (dt := 1) one_pos hI hs he ht w
    unfold real1dRk4Jump at h ⊢
    simp only at h ⊢
    obtain ⟨values, e1, h⟩ := Main.bind_val h
    obtain ⟨m, e2, h⟩ := Main.bind_val h
    obtain ⟨v, e3, h⟩ := Main.bind_val h
    obtain ⟨f, e4, h⟩ := Main.bind_val h
    simp only [e1, e2, e3, e4, Res.bind_val]
    exact simulateJump_nonpos m _ _ _ _ _ dt tEnd hdt interval w e3 h
  refine ⟨fun hN => ?_, fun hN hdt => (nonpos hN (Or.inl hdt)).1, fun hN ht => (nonpos hN (Or.inr ht)).2 ht, fun hN hdt => ?_⟩
  · unfold real1dRk4Jump
    obtain ⟨values, e1⟩ := table_defined N filling ht
    simp only [e1, Res.bind_val]
    refine (chain_matrix_small hN hs J U).1 _ fun h m => ?_
    rw [initVector_zero (basis_zero h).1]; rfl
  · obtain ⟨m, s, -, h, hl, -⟩ := real1dRk4Jump_correct hN J U filling tEnd hdt hI hs he ht w
    exact ⟨s, h, hl⟩

/-- **C95** for `hubbard_real_2d_rk4_jump`: besides small lattices also every rectangular one. -/
theorem real2dRk4Jump_outcome (Nx Ny : ℕ) (J U kx ky tEnd dt : ℝ) {interval : ℕ} (hI : interval < 2 ^ 64)
    {sort : List (Triplet ℝ) → List (Triplet ℝ)} (hs : IsSort sort) {e : JumpExecution} (he : e.Valid (Nx * Ny))
    (ht : e.table2.Perm (evPairs (Nx / 2) (Ny / 2))) (w : Work ℂ) :
    (Nx ≠ Ny → real2dRk4Jump sort e w Nx Ny J U dt tEnd interval kx ky = .ub) ∧
    (Nx = Ny → OutcomeByParameters (real2dRk4Jump sort e w Nx Ny J U dt tEnd interval kx ky) Nx dt tEnd interval) := by
  have table : ∀ (s : Square ℝ) (sched : List (ℕ × ℕ)), evTable2D s sched = .ub ∨ ∃ v, evTable2D s sched = .val v := by
    intro s sched
    unfold evTable2D
    have : ∀ x : Res (List ℝ), (x = .ub ∨ ∃ v, x = .val v) → ∀ l : List (ℕ × ℕ),
        (l.foldl (fun (acc : Res (List ℝ)) d => acc.bind fun v => assignAt v ((s.sizeY / 2 + 1) * d.1 + d.2) (evValue2D d.1 d.2)) x = .ub ∨
        ∃ v, l.foldl (fun (acc : Res (List ℝ)) d => acc.bind fun v => assignAt v ((s.sizeY / 2 + 1) * d.1 + d.2) (evValue2D d.1 d.2)) x =
          .val v) := by
      intro x hx l
      induction l generalizing x with
      | nil => exact hx
      | cons d l ih =>
        refine ih _ ?_
        rcases hx with rfl | ⟨v, rfl⟩
        · exact Or.inl rfl
        · simp only [Res.bind_val, assignAt]
          split_ifs
          · exact Or.inr ⟨_, rfl⟩
          · exact Or.inl rfl
    exact this _ (Or.inr ⟨_, rfl⟩) sched
  have bad : ¬ (Nx = Ny ∧ 3 ≤ Nx) → real2dRk4Jump sort e w Nx Ny J U dt tEnd interval kx ky = .ub := by
    intro hbad
    unfold real2dRk4Jump
    simp only
    rcases table (Square.real (K := ℝ) Nx Ny 1 1) e.table2 with h | ⟨v, h⟩
    · rw [h]; rfl
    · rw [h, Res.bind_val]
      have hsize : (Square.real (K := ℝ) Nx Ny 1 1).size = Nx * Ny := rfl
      rw [hsize]
      by_cases hz : Nx * Ny = 0
      · have hjump : ∃ f, jumpCtor (Nx * Ny) (fun i => Hubbard.dot2 (kx, ky) ((Square.real (K := ℝ) Nx Ny 1 1).pos i)) e.coefficients = .val f :=
          ⟨_, jumpCtor_ok _ _ _ he.coefficients⟩
        obtain ⟨f, hf⟩ := hjump
        rw [hf]
        obtain ⟨m, hm⟩ : ∃ m, initMatrix sort (Nx * Ny) 4 (Square.real (K := ℝ) Nx Ny 1 1).neighbors J U = .val m := by
          rw [hz]; exact ⟨_, rfl⟩
        rw [hm]
        simp only [Res.bind_val]
        rw [initVector_zero (basis_zero hz).1]; rfl
      · have hx : 0 < Nx := Nat.pos_of_ne_zero fun h => hz (by rw [h, Nat.zero_mul])
        have hy : 0 < Ny := Nat.pos_of_ne_zero fun h => hz (by rw [h, Nat.mul_zero])
        have := (square_assembly_iff (Square.Constructed.real (s := Square.real (K := ℝ) Nx Ny 1 1) (Nx := Nx) (Ny := Ny) 1 1 hx hy rfl)
          sort hs J U).2.2 hbad
        rw [this]; rfl
  refine ⟨fun h => bad fun h' => h h'.1, ?_⟩
  rintro rfl
  have nonpos : 3 ≤ Nx → dt ≤ 0 ∨ tEnd ≤ 0 → (0 < tEnd → real2dRk4Jump sort e w Nx Nx J U dt tEnd interval kx ky = .diverges) ∧
      (tEnd ≤ 0 → ∃ s, real2dRk4Jump sort e w Nx Nx J U dt tEnd interval kx ky = .val s ∧ s.out.length = 1) := by
    intro hN hdt
    obtain ⟨m, s, -, h, -⟩ := real2dRk4Jump_partial hN J U kx ky 0 (dt := 1) one_pos hI hs he ht w
    unfold real2dRk4Jump at h ⊢
    simp only at h ⊢
    obtain ⟨values, e1, h⟩ := Main.bind_val h
    obtain ⟨m, e2, h⟩ := Main.bind_val h
    obtain ⟨f, e4, h⟩ := Main.bind_val h
    obtain ⟨v, e3, h⟩ := Main.bind_val h
    simp only [e1, e2, e3, e4, Res.bind_val]
    exact simulateJump_nonpos m _ _ _ _ _ dt tEnd hdt interval w e3 h
  refine ⟨fun hN => bad fun h => by omega, fun hN hdt => (nonpos hN (Or.inl hdt)).1, fun hN ht => (nonpos hN (Or.inr ht)).2 ht, fun hN hdt => ?_⟩
  obtain ⟨m, s, -, h, hl, -⟩ := real2dRk4Jump_partial hN J U kx ky tEnd hdt hI hs he ht w
  exact ⟨s, h, hl⟩

end Ieompp.Program

namespace Ieompp.Main

open IO App Ieompp.Spec Durability

/-- The conversion to `uint64_t` yields numbers of that type. -/
theorem nat_range {conv : Conv} (hc : ∀ t n, conv.nat t = some n → n < 2 ^ 64) {a : App} {k : String} {n : ℕ} (h : NatSetting conv a k n) :
    n < 2 ^ 64 := by
  obtain ⟨t, -, h⟩ := h
  exact hc t n h

/-- The outcome of `main` follows that of the computation. -/
theorem behaves_outcome {H O : Type} {main : Res (Outcome (Traced H O))} {a : App} {r : Res (Sim.State H O)} {row : ℝ → O → Text}
    (hb : Behaves main a r row) {N : ℕ} {dt tEnd : ℝ} {interval : ℕ} (ho : OutcomeByParameters r N dt tEnd interval) :
    (N < 3 → main = .ub) ∧ (3 ≤ N → dt ≤ 0 → 0 < tEnd → main = .diverges) ∧
      (3 ≤ N → 0 < dt ∨ tEnd ≤ 0 → ∃ s, main = .val (.finished a s)) := by
  obtain ⟨b1, b2, b3⟩ := hb
  refine ⟨fun h => b2 (ho.small h), fun h1 h2 h3 => b3 (ho.endless h1 h2 h3), fun h1 h2 => ?_⟩
  obtain ⟨s, hs⟩ : ∃ s, r = .val s := by
    rcases h2 with h2 | h2
    · obtain ⟨s, hs, -⟩ := ho.normal h1 h2; exact ⟨s, hs⟩
    · obtain ⟨s, hs, -⟩ := ho.short h1 h2; exact ⟨s, hs⟩
  obtain ⟨acts, h, -⟩ := b1 s hs
  exact ⟨_, h⟩

/-- **C95** for `hubbard_real_1d_rk4`: the program rejects no parameters. For less than three sites it is undefined, for a step width
that is not positive it runs for ever, otherwise it ends normally. -/
theorem mainReal1dRk4_outcome (conv : Conv) (hd : DefaultsConvert progReal1dRk4 kindsReal1dRk4 conv)
    (hc : ∀ t n, conv.nat t = some n → n < 2 ^ 64) (m : Machine) (hs : IsSort m.sort) (he : ∀ N, (m.exec N).Valid N) {env : Env} {fs : FS}
    {args : List Text} {a : App}
    (h : construct progReal1dRk4.options (fun k t => conv.ok (kindOf kindsReal1dRk4 k) t) env fs args = .val (some (.app a))) :
    ∃ N dt tEnd, NatSetting conv a "N" N ∧ NumSetting conv a "dt" dt ∧ NumSetting conv a "t_end" tEnd ∧
      (N < 3 → mainReal1dRk4 conv m env fs args = .ub) ∧
      (3 ≤ N → dt ≤ 0 → 0 < tEnd → mainReal1dRk4 conv m env fs args = .diverges) ∧
      (3 ≤ N → 0 < dt ∨ tEnd ≤ 0 → ∃ s, mainReal1dRk4 conv m env fs args = .val (.finished a s)) := by
  replace hc : ∀ {a : App} {k : String} {n : ℕ}, NatSetting conv a k n → n < 2 ^ 64 := fun h => nat_range hc h
  obtain ⟨N, J, U, dt, tEnd, interval, filling, sN, sJ, sU, sdt, stEnd, sinterval, sfilling, hb⟩ := mainReal1dRk4_behaves conv hd m h
  exact ⟨N, dt, tEnd, sN, sdt, stEnd, behaves_outcome hb (Program.real1dRk4_outcome N J U filling tEnd dt (hc sinterval) hs (he N) m.work)⟩

/-- **C95** for `hubbard_real_1d_kinetic_rk4`: the program rejects no parameters. For less than three sites it is undefined, for a step width
that is not positive it runs for ever, otherwise it ends normally. -/
theorem mainReal1dKineticRk4_outcome (conv : Conv) (hd : DefaultsConvert progReal1dKineticRk4 kindsReal1dKineticRk4 conv)
    (hc : ∀ t n, conv.nat t = some n → n < 2 ^ 64) (m : Machine) (hs : IsSort m.sort) (he : ∀ N, (m.exec N).ValidKinetic N) {env : Env} {fs : FS}
    {args : List Text} {a : App}
    (h : construct progReal1dKineticRk4.options (fun k t => conv.ok (kindOf kindsReal1dKineticRk4 k) t) env fs args = .val (some (.app a))) :
    ∃ N dt tEnd, NatSetting conv a "N" N ∧ NumSetting conv a "dt" dt ∧ NumSetting conv a "t_end" tEnd ∧
      (N < 3 → mainReal1dKineticRk4 conv m env fs args = .ub) ∧
      (3 ≤ N → dt ≤ 0 → 0 < tEnd → mainReal1dKineticRk4 conv m env fs args = .diverges) ∧
      (3 ≤ N → 0 < dt ∨ tEnd ≤ 0 → ∃ s, mainReal1dKineticRk4 conv m env fs args = .val (.finished a s)) := by
  replace hc : ∀ {a : App} {k : String} {n : ℕ}, NatSetting conv a k n → n < 2 ^ 64 := fun h => nat_range hc h
  obtain ⟨N, J, dt, tEnd, interval, filling, sN, sJ, sdt, stEnd, sinterval, sfilling, hb⟩ := mainReal1dKineticRk4_behaves conv hd m h
  exact ⟨N, dt, tEnd, sN, sdt, stEnd, behaves_outcome hb (Program.real1dKineticRk4_outcome N J filling tEnd dt (hc sinterval) hs (he N) m.work)⟩

/-- **C95** for `hubbard_real_1d_rk4_coefficients`: the program rejects no parameters. For less than three sites it is undefined, for a step width
that is not positive it runs for ever, otherwise it ends normally. -/
theorem mainReal1dRk4Coefficients_outcome (conv : Conv) (hd : DefaultsConvert progReal1dRk4Coefficients kindsReal1dRk4Coefficients conv)
    (hc : ∀ t n, conv.nat t = some n → n < 2 ^ 64) (m : Machine) (hs : IsSort m.sort)  {env : Env} {fs : FS}
    {args : List Text} {a : App}
    (h : construct progReal1dRk4Coefficients.options (fun k t => conv.ok (kindOf kindsReal1dRk4Coefficients k) t) env fs args = .val (some (.app a))) :
    ∃ N dt tEnd, NatSetting conv a "N" N ∧ NumSetting conv a "dt" dt ∧ NumSetting conv a "t_end" tEnd ∧
      (N < 3 → mainReal1dRk4Coefficients conv m env fs args = .ub) ∧
      (3 ≤ N → dt ≤ 0 → 0 < tEnd → mainReal1dRk4Coefficients conv m env fs args = .diverges) ∧
      (3 ≤ N → 0 < dt ∨ tEnd ≤ 0 → ∃ s, mainReal1dRk4Coefficients conv m env fs args = .val (.finished a s)) := by
  replace hc : ∀ {a : App} {k : String} {n : ℕ}, NatSetting conv a k n → n < 2 ^ 64 := fun h => nat_range hc h
  obtain ⟨N, J, U, dt, tEnd, interval, sN, sJ, sU, sdt, stEnd, sinterval, hb⟩ := mainReal1dRk4Coefficients_behaves conv hd m h
  exact ⟨N, dt, tEnd, sN, sdt, stEnd, behaves_outcome hb (Program.real1dRk4Coefficients_outcome N J U tEnd dt (hc sinterval) hs m.work)⟩

/-- **C95** for `hubbard_real_1d_kinetic_rk4_coefficients`: the program rejects no parameters. For less than three sites it is undefined, for a step width
that is not positive it runs for ever, otherwise it ends normally. -/
theorem mainReal1dKineticRk4Coefficients_outcome (conv : Conv) (hd : DefaultsConvert progReal1dKineticRk4Coefficients kindsReal1dKineticRk4Coefficients conv)
    (hc : ∀ t n, conv.nat t = some n → n < 2 ^ 64) (m : Machine) (hs : IsSort m.sort)  {env : Env} {fs : FS}
    {args : List Text} {a : App}
    (h : construct progReal1dKineticRk4Coefficients.options (fun k t => conv.ok (kindOf kindsReal1dKineticRk4Coefficients k) t) env fs args = .val (some (.app a))) :
    ∃ N dt tEnd, NatSetting conv a "N" N ∧ NumSetting conv a "dt" dt ∧ NumSetting conv a "t_end" tEnd ∧
      (N < 3 → mainReal1dKineticRk4Coefficients conv m env fs args = .ub) ∧
      (3 ≤ N → dt ≤ 0 → 0 < tEnd → mainReal1dKineticRk4Coefficients conv m env fs args = .diverges) ∧
      (3 ≤ N → 0 < dt ∨ tEnd ≤ 0 → ∃ s, mainReal1dKineticRk4Coefficients conv m env fs args = .val (.finished a s)) := by
  replace hc : ∀ {a : App} {k : String} {n : ℕ}, NatSetting conv a k n → n < 2 ^ 64 := fun h => nat_range hc h
  obtain ⟨N, J, dt, tEnd, interval, sN, sJ, sdt, stEnd, sinterval, hb⟩ := mainReal1dKineticRk4Coefficients_behaves conv hd m h
  exact ⟨N, dt, tEnd, sN, sdt, stEnd, behaves_outcome hb (Program.real1dKineticRk4Coefficients_outcome N J tEnd dt (hc sinterval) hs m.work)⟩

/-- **C95** for `hubbard_real_1d_rk4_jump`: the program rejects no parameters. For less than three sites it is undefined, for a step width
that is not positive it runs for ever, otherwise it ends normally. -/
theorem mainReal1dRk4Jump_outcome (conv : Conv) (hd : DefaultsConvert progReal1dRk4Jump kindsReal1dRk4Jump conv)
    (hc : ∀ t n, conv.nat t = some n → n < 2 ^ 64) (m : Machine) (hs : IsSort m.sort) (he : ∀ N, (m.jump N).Valid N ∧ (m.jump N).table.Perm (List.range' 1 (N / 2))) {env : Env} {fs : FS}
    {args : List Text} {a : App}
    (h : construct progReal1dRk4Jump.options (fun k t => conv.ok (kindOf kindsReal1dRk4Jump k) t) env fs args = .val (some (.app a))) :
    ∃ N dt tEnd, NatSetting conv a "N" N ∧ NumSetting conv a "dt" dt ∧ NumSetting conv a "t_end" tEnd ∧
      (N < 3 → mainReal1dRk4Jump conv m env fs args = .ub) ∧
      (3 ≤ N → dt ≤ 0 → 0 < tEnd → mainReal1dRk4Jump conv m env fs args = .diverges) ∧
      (3 ≤ N → 0 < dt ∨ tEnd ≤ 0 → ∃ s, mainReal1dRk4Jump conv m env fs args = .val (.finished a s)) := by
  replace hc : ∀ {a : App} {k : String} {n : ℕ}, NatSetting conv a k n → n < 2 ^ 64 := fun h => nat_range hc h
  obtain ⟨N, J, U, dt, tEnd, interval, filling, sN, sJ, sU, sdt, stEnd, sinterval, sfilling, hb⟩ := mainReal1dRk4Jump_behaves conv hd m h
  exact ⟨N, dt, tEnd, sN, sdt, stEnd, behaves_outcome hb (Program.real1dRk4Jump_outcome N J U filling tEnd dt (hc sinterval) hs (he N).1 (he N).2 m.work)⟩

/-- **C95** for `hubbard_real_2d_rk4_jump`. -/
theorem mainReal2dRk4Jump_outcome (conv : Conv) (hd : DefaultsConvert progReal2dRk4Jump kindsReal2dRk4Jump conv)
    (hc : ∀ t n, conv.nat t = some n → n < 2 ^ 64) (m : Machine) (hs : IsSort m.sort)
    (he : ∀ Nx Ny, (m.jump2 Nx Ny).Valid (Nx * Ny) ∧ (m.jump2 Nx Ny).table2.Perm (RealSpace.evPairs (Nx / 2) (Ny / 2)))
    {env : Env} {fs : FS} {args : List Text} {a : App}
    (h : construct progReal2dRk4Jump.options (fun k t => conv.ok (kindOf kindsReal2dRk4Jump k) t) env fs args = .val (some (.app a))) :
    ∃ Nx Ny dt tEnd, NatSetting conv a "Nx" Nx ∧ NatSetting conv a "Ny" Ny ∧ NumSetting conv a "dt" dt ∧ NumSetting conv a "t_end" tEnd ∧
      (Nx < 3 ∨ Nx ≠ Ny → mainReal2dRk4Jump conv m env fs args = .ub) ∧
      (3 ≤ Nx → Nx = Ny → dt ≤ 0 → 0 < tEnd → mainReal2dRk4Jump conv m env fs args = .diverges) ∧
      (3 ≤ Nx → Nx = Ny → 0 < dt ∨ tEnd ≤ 0 → ∃ s, mainReal2dRk4Jump conv m env fs args = .val (.finished a s)) := by
  obtain ⟨Nx, Ny, J, U, dt, tEnd, interval, kx, ky, sNx, sNy, sJ, sU, sdt, stEnd, sinterval, skx, sky, hb⟩ :=
    mainReal2dRk4Jump_behaves conv hd m h
  have ho := Program.real2dRk4Jump_outcome Nx Ny J U kx ky tEnd dt (nat_range hc sinterval) hs (he Nx Ny).1 (he Nx Ny).2 m.work
  refine ⟨Nx, Ny, dt, tEnd, sNx, sNy, sdt, stEnd, ?_, ?_, ?_⟩
  · intro hbad
    by_cases e : Nx = Ny
    · exact (behaves_outcome hb (ho.2 e)).1 (hbad.resolve_right fun h => h e)
    · exact hb.2.1 (ho.1 e)
  · intro h1 e
    exact (behaves_outcome hb (ho.2 e)).2.1 h1
  · intro h1 e
    exact (behaves_outcome hb (ho.2 e)).2.2 h1

end Ieompp.Main
