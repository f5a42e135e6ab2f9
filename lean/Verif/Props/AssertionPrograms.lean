import Verif.Props.Assertions

/-!
# C121: the assertions in the programs
-/

set_option autoImplicit false
set_option linter.unusedSectionVars false

namespace Ieompp

open Chk

namespace Sim
variable {H O : Type*} {fl : ℝ → ℝ} {step : H → Res H} {stepA : H → Chk H} {measure : H → Res (H × O)} {measureA : H → Chk (H × O)}
  {dt tEnd : ℝ} {interval : ℕ}

theorem runningA_lift (x : Res (State H O)) : runningA tEnd (lift x) ↔ running tEnd x := by cases x <;> exact Iff.rfl

theorem whileLoop_guarded {A : Chk (State H O) → Chk (State H O)} {B : Res (State H O) → Res (State H O)} (s : State H O)
    (key : ∀ n, Guarded (A^[n] (.val (some s))) (B^[n] (.val s))) :
    Guarded ((whileLoop (runningA tEnd) A (.val (some s))).bind id) ((whileLoop (running tEnd) B (.val s)).bind id) := by
  classical
  by_cases hA : ∃ n, A^[n] (.val (some s)) = .val none
  · have hlt : ∀ k < Nat.find hA, A^[k] (.val (some s)) = lift (B^[k] (.val s)) := fun k hk => (key k).resolve_right (Nat.find_min hA hk)
    by_cases hs : ∃ k, k < Nat.find hA ∧ ¬ running tEnd (B^[k] (.val s))
    · obtain ⟨hk, hk'⟩ := Nat.find_spec hs
      have hmin : ∀ j < Nat.find hs, running tEnd (B^[j] (.val s)) := by
        intro j hj
        by_contra hc
        exact Nat.find_min hs hj ⟨hj.trans hk, hc⟩
      have e1 : whileLoop (running tEnd) B (.val s) = .val (B^[Nat.find hs] (.val s)) :=
        (whileLoop_val _ _ _ _).2 ⟨_, rfl, hk', hmin⟩
      have e2 : whileLoop (runningA tEnd) A (.val (some s)) = .val (A^[Nat.find hs] (.val (some s))) :=
        (whileLoop_val _ _ _ _).2 ⟨_, rfl, by rw [hlt _ hk, runningA_lift]; exact hk', fun j hj => by
          rw [hlt _ (hj.trans hk), runningA_lift]; exact hmin j hj⟩
      rw [e1, e2, hlt _ hk]
      exact .inl rfl
    · have hall : ∀ k < Nat.find hA, running tEnd (B^[k] (.val s)) := by
        intro k hk
        by_contra hc
        exact hs ⟨k, hk, hc⟩
      have e2 : whileLoop (runningA tEnd) A (.val (some s)) = .val (A^[Nat.find hA] (.val (some s))) :=
        (whileLoop_val _ _ _ _).2 ⟨_, rfl, by rw [Nat.find_spec hA]; exact id, fun j hj => by
          rw [hlt _ hj, runningA_lift]; exact hall j hj⟩
      rw [e2, Nat.find_spec hA]
      exact .inr rfl
  · have hall : ∀ n, A^[n] (.val (some s)) = lift (B^[n] (.val s)) := fun n => (key n).resolve_right fun h => hA ⟨n, h⟩
    have hc : ∀ n, (¬ runningA tEnd (A^[n] (.val (some s)))) ↔ ¬ running tEnd (B^[n] (.val s)) := fun n => by rw [hall, runningA_lift]
    left
    unfold whileLoop
    by_cases he : ∃ n, ¬ running tEnd (B^[n] (.val s))
    · have he' : ∃ n, ¬ runningA tEnd (A^[n] (.val (some s))) := by simpa only [hc] using he
      rw [dif_pos he, dif_pos he']
      have : Nat.find he' = Nat.find he := Nat.find_congr' (fun {n} => hc n)
      rw [this, hall]; rfl
    · have he' : ¬ ∃ n, ¬ runningA tEnd (A^[n] (.val (some s))) := by simpa only [hc] using he
      rw [dif_neg he, dif_neg he']; rfl

section Equal
variable (inv : H → Prop) (hstep : ∀ h, inv h → stepA h = lift (step h)) (hmeas : ∀ h, inv h → measureA h = lift (measure h))
  (hstep' : ∀ h h', inv h → step h = .val h' → inv h') (hmeas' : ∀ h r, inv h → measure h = .val r → inv r.1)
include hmeas

theorem maybeMeasureA_eq (s : State H O) (hs : inv s.h) : maybeMeasureA fl measureA dt interval s = lift (maybeMeasureF fl measure dt interval s) := by
  unfold maybeMeasureA maybeMeasureF
  rw [lift_bind]
  congr 1
  funext b
  cases b
  · rfl
  · simp only [if_true]
    rw [hmeas _ hs, andThen_lift, lift_map]

include hmeas'

theorem maybeMeasureF_inv {s s' : State H O} (hs : inv s.h) (h : maybeMeasureF fl measure dt interval s = .val s') : inv s'.h := by
  unfold maybeMeasureF at h
  cases hp : hasTimeIntervalPassedF fl s.t s.last dt interval with
  | ub => rw [hp] at h; exact absurd h (by simp)
  | diverges => rw [hp] at h; exact absurd h (by simp)
  | val b =>
    rw [hp, Res.bind_val] at h
    cases b
    · cases h; exact hs
    · simp only [if_true] at h
      cases hm : measure s.h with
      | ub => rw [hm] at h; exact absurd h (by simp)
      | diverges => rw [hm] at h; exact absurd h (by simp)
      | val r =>
        rw [hm, Res.map_val] at h
        cases h
        exact hmeas' _ _ hs hm

include hstep

theorem bodyA_eq (s : State H O) (hs : inv s.h) : bodyA fl stepA measureA dt interval s = lift (bodyF fl step measure dt interval s) := by
  unfold bodyA bodyF
  rw [maybeMeasureA_eq inv hmeas s hs, andThen_lift, lift_bind]
  cases hm : maybeMeasureF fl measure dt interval s with
  | ub => rfl
  | diverges => rfl
  | val s' =>
    simp only [Res.bind_val]
    rw [hstep _ (maybeMeasureF_inv inv hmeas hmeas' hs hm), andThen_lift, lift_map]

include hstep'

theorem bodyF_inv {s s' : State H O} (hs : inv s.h) (h : bodyF fl step measure dt interval s = .val s') : inv s'.h := by
  unfold bodyF at h
  cases hm : maybeMeasureF fl measure dt interval s with
  | ub => rw [hm] at h; exact absurd h (by simp)
  | diverges => rw [hm] at h; exact absurd h (by simp)
  | val r =>
    rw [hm, Res.bind_val] at h
    have hr := maybeMeasureF_inv inv hmeas hmeas' hs hm
    cases hst : step r.h with
    | ub => rw [hst] at h; exact absurd h (by simp)
    | diverges => rw [hst] at h; exact absurd h (by simp)
    | val x =>
      rw [hst, Res.map_val] at h
      cases h
      exact hstep' _ _ hr hst

/-- If no assertion of a step or a measurement fails, then none fails in the whole run. -/
theorem simulateA_eq {h0 : H} (h : inv h0) :
    simulateA fl stepA measureA dt tEnd interval h0 = lift (simulateF fl step measure dt tEnd interval h0) := by
  unfold simulateA simulateF
  rw [hmeas _ h, andThen_lift, lift_bind]
  cases hm : measure h0 with
  | ub => rfl
  | diverges => rfl
  | val r =>
    simp only [Res.bind_val]
    set s : State H O := { h := r.1, t := 0, last := 0, out := [(0, r.2)] } with hs
    have his : inv s.h := hmeas' _ _ h hm
    have hW := whileLoop_image (cond := running tEnd) (cond' := runningA tEnd)
      (body := fun s : Res (State H O) => s.bind (bodyF fl step measure dt interval))
      (body' := fun s => andThen s (bodyA fl stepA measureA dt interval)) lift (fun x => ∀ s, x = .val s → inv s.h)
      (fun x _ => by cases x <;> exact Iff.rfl)
      (fun x hx => by
        cases x with
        | ub => rfl
        | diverges => rfl
        | val s => exact bodyA_eq inv hstep hmeas hmeas' s (hx s rfl))
      (fun x hx s' hs' => by
        cases x with
        | ub => exact absurd hs' (by simp)
        | diverges => exact absurd hs' (by simp)
        | val s => exact bodyF_inv inv hstep hmeas hstep' hmeas' (hx s rfl) hs') (x := .val s) (fun s' hs' => by cases hs'; exact his)
    rw [show (Res.val (some s) : Chk (State H O)) = lift (.val s) from rfl, hW]
    cases hw : whileLoop (running tEnd) (fun s : Res (State H O) => s.bind (bodyF fl step measure dt interval)) (.val s) with
    | ub => rfl
    | diverges => rfl
    | val x =>
      cases x with
      | ub => rfl
      | diverges => rfl
      | val s' =>
        have hinv : inv s'.h := by
          obtain ⟨n, hn, -⟩ := (whileLoop_val _ _ _ _).1 hw
          have key : ∀ n, ∀ s', (fun s : Res (State H O) => s.bind (bodyF fl step measure dt interval))^[n] (.val s) = .val s' → inv s'.h := by
            intro n
            induction n with
            | zero => intro s' hs'; cases hs'; exact his
            | succ n ih =>
              intro s' hs'
              rw [Function.iterate_succ_apply'] at hs'
              cases hx : (fun s : Res (State H O) => s.bind (bodyF fl step measure dt interval))^[n] (.val s) with
              | ub => rw [hx] at hs'; exact absurd hs' (by simp)
              | diverges => rw [hx] at hs'; exact absurd hs' (by simp)
              | val y =>
                rw [hx] at hs'
                exact bodyF_inv inv hstep hmeas hstep' hmeas' (ih y hx) hs'
          exact key n s' hn.symm
        simp only [Res.map_val, Res.bind_val, id_eq, lift_val, andThen_some]
        exact maybeMeasureA_eq inv hmeas s' hinv

end Equal

section Guards
variable (inv : H → Prop) (hstep : ∀ h, inv h → stepA h = lift (step h)) (hmeas : ∀ h, inv h → Guarded (measureA h) (measure h))
  (hstep' : ∀ h h', inv h → step h = .val h' → inv h') (hmeas' : ∀ h r, inv h → measure h = .val r → inv r.1)
include hmeas

theorem maybeMeasureA_guarded (s : State H O) (hs : inv s.h) :
    Guarded (maybeMeasureA fl measureA dt interval s) (maybeMeasureF fl measure dt interval s) := by
  unfold maybeMeasureA maybeMeasureF
  cases hasTimeIntervalPassedF fl s.t s.last dt interval with
  | ub => exact .inl rfl
  | diverges => exact .inl rfl
  | val b =>
    cases b
    · exact .inl rfl
    · exact (hmeas _ hs).bind fun r _ => .inl rfl

include hmeas' hstep hstep'

theorem bodyA_guarded (s : State H O) (hs : inv s.h) :
    Guarded (bodyA fl stepA measureA dt interval s) (bodyF fl step measure dt interval s) := by
  unfold bodyA bodyF
  refine (maybeMeasureA_guarded inv hmeas s hs).bind fun s' hs' => ?_
  rw [hstep _ (maybeMeasureF_inv (measureA := fun h => lift (measure h)) inv (fun _ _ => rfl) hmeas' hs hs'), andThen_lift]
  left
  rw [lift_map]

/-- If the steps do not fail, then the run either ends as without assertions or is aborted by a measurement. -/
theorem simulateA_guarded {h0 : H} (h : inv h0) :
    Guarded (simulateA fl stepA measureA dt tEnd interval h0) (simulateF fl step measure dt tEnd interval h0) := by
  unfold simulateA simulateF
  refine (hmeas _ h).bind fun r hm => ?_
  set s : State H O := { h := r.1, t := 0, last := 0, out := [(0, r.2)] } with hs
  have his : inv s.h := hmeas' _ _ h hm
  set B := fun s : Res (State H O) => s.bind (bodyF fl step measure dt interval) with hB
  set A := fun s => andThen s (bodyA fl stepA measureA dt interval) with hA
  have key : ∀ n, (∀ s', B^[n] (.val s) = .val s' → inv s'.h) ∧ Guarded (A^[n] (.val (some s))) (B^[n] (.val s)) := by
    intro n
    induction n with
    | zero => exact ⟨fun s' hs' => by cases hs'; exact his, .inl rfl⟩
    | succ n ih =>
      rw [Function.iterate_succ_apply', Function.iterate_succ_apply']
      refine ⟨?_, ?_⟩
      · intro s' hs'
        cases hx : B^[n] (.val s) with
        | ub => rw [hx] at hs'; exact absurd hs' (by simp [hB])
        | diverges => rw [hx] at hs'; exact absurd hs' (by simp [hB])
        | val y =>
          rw [hx] at hs'
          exact bodyF_inv (stepA := fun h => lift (step h)) (measureA := fun h => lift (measure h)) inv (fun _ _ => rfl) (fun _ _ => rfl) hstep'
            hmeas' (ih.1 y hx) hs'
      · exact ih.2.bind fun y hy => bodyA_guarded inv hstep hmeas hstep' hmeas' y (ih.1 y hy)
  have hW := whileLoop_guarded (tEnd := tEnd) (A := A) (B := B) s (fun n => (key n).2)
  refine hW.bind fun s' hs' => maybeMeasureA_guarded inv hmeas s' ?_
  cases hw : whileLoop (running tEnd) B (.val s) with
  | ub => rw [hw] at hs'; exact absurd hs' (by simp)
  | diverges => rw [hw] at hs'; exact absurd hs' (by simp)
  | val x =>
    rw [hw] at hs'
    obtain ⟨n, hn, -⟩ := (whileLoop_val _ _ _ _).1 hw
    exact (key n).1 s' (by rw [← hn]; exact hs')

end Guards

end Sim

namespace Sparse
variable {S : Type*}

theorem appendAll_dims {row : ℕ} : ∀ (ts : List (Triplet S)) (m m' : Sparse S), m.appendAll row ts = .val m' → m'.rows = m.rows ∧ m'.columns = m.columns
  | [], m, m', h => by cases h; exact ⟨rfl, rfl⟩
  | t :: ts, m, m', h => by
    unfold appendAll append at h
    split_ifs at h
    · rw [Res.bind_val] at h
      have := appendAll_dims ts _ m' h
      exact this
    · exact absurd h (by simp)

theorem fillRows_dims {triplets : ℕ → Option (List (Triplet S))} : ∀ (rows : List ℕ) (m m' : Sparse S), fillRows triplets rows m = .val m' →
    m'.rows = m.rows ∧ m'.columns = m.columns
  | [], m, m', h => by cases h; exact ⟨rfl, rfl⟩
  | row :: rows, m, m', h => by
    unfold fillRows at h
    split at h
    · rename_i l _
      cases h1 : m.appendAll row l with
      | ub => rw [h1] at h; exact absurd h (by simp)
      | diverges => rw [h1] at h; exact absurd h (by simp)
      | val m1 =>
        rw [h1, Res.bind_val] at h
        obtain ⟨e1, e2⟩ := appendAll_dims _ _ _ h1
        unfold finalize at h
        split_ifs at h
        · obtain ⟨e3, e4⟩ := fillRows_dims rows _ m' h
          exact ⟨e3.trans e1, e4.trans e2⟩
        · exact absurd h (by simp)
    · exact absurd h (by simp)

end Sparse

namespace Program

open RealSpace ODE

section
variable {fl sinF : ℝ → ℝ}

theorem vaddF_length {a b c : List ℂ} (h : vaddF fl a b = .val c) : c.length = a.length := by
  unfold vaddF at h
  split_ifs at h with hl
  cases h; simp [hl]

/-- A step does not change the size of the vector. -/
theorem stepMatrixF_length {n : ℕ} {dt : ℝ} {m : ℕ → ℕ → ℂ} {cols : ℕ → List ℕ} {w : Work ℂ} {u : List ℂ} {r : Work ℂ × List ℂ}
    (h : stepMatrixF fl n dt m cols w u = .val r) : r.2.length = u.length := by
  unfold stepMatrixF at h
  have comb : ∀ (w' : Work ℂ), (combineF fl dt w' u).map (fun u => (w', u)) = .val r → r.2.length = u.length := by
    intro w' h
    unfold combineF at h
    cases h1 : vaddF fl w'.k1 (vscaleF fl 2 w'.k2) with
    | ub => rw [h1] at h; exact absurd h (by simp)
    | diverges => rw [h1] at h; exact absurd h (by simp)
    | val s1 =>
      rw [h1, Res.bind_val] at h
      cases h2 : vaddF fl s1 (vscaleF fl 2 w'.k3) with
      | ub => rw [h2] at h; exact absurd h (by simp)
      | diverges => rw [h2] at h; exact absurd h (by simp)
      | val s2 =>
        rw [h2, Res.bind_val] at h
        cases h3 : vaddF fl s2 w'.k4 with
        | ub => rw [h3] at h; exact absurd h (by simp)
        | diverges => rw [h3] at h; exact absurd h (by simp)
        | val s3 =>
          rw [h3, Res.bind_val] at h
          cases h4 : vaddF fl u (vscaleF fl (fl (dt / 6)) s3) with
          | ub => rw [h4] at h; exact absurd h (by simp)
          | diverges => rw [h4] at h; exact absurd h (by simp)
          | val s4 =>
            rw [h4, Res.map_val] at h
            cases h
            exact vaddF_length h4
  have peel : ∀ (x : Res (List ℂ)) (k : List ℂ → Res (Work ℂ × List ℂ)), x.bind k = .val r → ∃ y, k y = .val r := by
    intro x k hx
    cases x with
    | ub => exact absurd hx (by simp)
    | diverges => exact absurd hx (by simp)
    | val y => exact ⟨y, hx⟩
  obtain ⟨k1, h⟩ := peel _ _ h
  obtain ⟨x, h⟩ := peel _ _ h
  obtain ⟨k2, h⟩ := peel _ _ h
  obtain ⟨x, h⟩ := peel _ _ h
  obtain ⟨k3, h⟩ := peel _ _ h
  obtain ⟨x, h⟩ := peel _ _ h
  obtain ⟨k4, h⟩ := peel _ _ h
  exact comb _ h

theorem stepVarsF_length {n : ℕ} {dt : ℝ} {m : Sparse ℝ} {s s' : Vars} (h : stepVarsF fl n dt m s = .val s') : s'.2.2.length = s.2.2.length := by
  unfold stepVarsF at h
  cases hr : stepMatrixF fl n dt (timesIF fl m) (storedColumns m) s.2.1 s.2.2 with
  | ub => rw [hr] at h; exact absurd h (by simp)
  | diverges => rw [hr] at h; exact absurd h (by simp)
  | val r =>
    rw [hr, Res.map_val] at h
    cases h
    exact stepMatrixF_length hr

theorem stepVarsA_eq {n : ℕ} {dt : ℝ} {m : Sparse ℝ} (hm : m.rows = n ∧ m.columns = n) {s : Vars} (hs : s.2.2.length = n) :
    stepVarsA fl n dt m s = lift (stepVarsF fl n dt m s) := by
  unfold stepVarsA
  rw [assertAll_true]
  · rfl
  · intro c hc
    simp only [List.mem_cons, List.not_mem_nil, or_false] at hc
    rcases hc with rfl | rfl | rfl <;> simp [hm.1, hm.2, hs]

theorem initVector_length {n : ℕ} {h : List ℂ} (e : initVector n = .val h) : h.length = n := by
  unfold initVector assignAt at e
  split_ifs at e
  cases e; simp

theorem chainAssert_pos {N : ℕ} (hN : 0 < N) : chainAssert N = .val (some ()) := by
  unfold chainAssert
  exact assertAll_true (by simp [hN])

theorem chainAssert_zero : chainAssert 0 = .val none := rfl

theorem evTable1DA_eq (c : Chain ℝ) {filling : ℝ} (h0 : 0 ≤ filling) (h1 : filling ≤ 1) (kF : ℝ) (sched : List ℕ) :
    evTable1DA fl sinF c filling kF sched = lift (evTable1DF fl sinF c filling kF sched) := by
  unfold evTable1DA
  rw [assertAll_true]
  · rfl
  · intro c hc
    simp only [List.mem_cons, List.not_mem_nil, or_false] at hc
    rcases hc with rfl | rfl
    · simp [h0]
    · simp [h1]

theorem evTable1DA_abort (c : Chain ℝ) {filling : ℝ} (h : ¬ (0 ≤ filling ∧ filling ≤ 1)) (kF : ℝ) (sched : List ℕ) :
    evTable1DA fl sinF c filling kF sched = .val none := by
  unfold evTable1DA assertAll
  by_cases h0 : filling ≥ 0
  · have h1 : ¬ filling ≤ 1 := fun h1 => h ⟨h0, h1⟩
    simp only [h0, decide_true, Res.bind_val, if_true, assertAll, h1, decide_false]
    rfl
  · simp only [h0, decide_false, Res.bind_val]
    rfl

variable {sort : List (Triplet ℝ) → List (Triplet ℝ)} {N z : ℕ} {J U : ℝ} {nb : ℕ → List ℕ}

theorem initMatrix_dims {m : Sparse ℝ} (h : initMatrix sort N z nb J U = .val m) : m.rows = (basis3 N).length ∧ m.columns = (basis3 N).length := by
  have := Sparse.fillRows_dims _ _ _ h
  exact this

theorem initKineticMatrix_dims {m : Sparse ℝ} (h : initKineticMatrix sort N z nb J = .val m) :
    m.rows = (basis1 N).length ∧ m.columns = (basis1 N).length := by
  have := Sparse.fillRows_dims _ _ _ h
  exact this

/-- The setup of the programs: a matrix and a vector of the size of the basis, then the run. -/
theorem run_eq {O : Type} {n : ℕ} {M : Res (Sparse ℝ)} (hM : ∀ m, M = .val m → m.rows = n ∧ m.columns = n) {dt tEnd : ℝ} {interval : ℕ} {w : Work ℂ}
    {measure : Vars → Res (Vars × O)} {measureA : Vars → Chk (Vars × O)} (hmeas : ∀ s : Vars, s.2.2.length = n → measureA s = lift (measure s))
    (hmeas' : ∀ s r, measure s = .val r → r.1 = s) :
    (M.bind fun m => (initVector n).bind fun h => Sim.simulateA fl (stepVarsA fl n dt m) measureA dt tEnd interval (0, w, h)) =
      lift (M.bind fun m => (initVector n).bind fun h => Sim.simulateF fl (stepVarsF fl n dt m) measure dt tEnd interval (0, w, h)) := by
  cases hm : M with
  | ub => rfl
  | diverges => rfl
  | val m =>
    simp only [Res.bind_val]
    cases hv : initVector n with
    | ub => rfl
    | diverges => rfl
    | val h =>
      simp only [Res.bind_val]
      exact Sim.simulateA_eq (fun s : Vars => s.2.2.length = n) (fun s hs => stepVarsA_eq (hM m hm) hs) hmeas
        (fun s s' hs hst => (stepVarsF_length hst).trans hs) (fun s r hs hr => by rw [hmeas' s r hr]; exact hs) (initVector_length hv)

theorem run_guarded {O : Type} {n : ℕ} {M : Res (Sparse ℝ)} (hM : ∀ m, M = .val m → m.rows = n ∧ m.columns = n) {dt tEnd : ℝ} {interval : ℕ} {w : Work ℂ}
    {measure : Vars → Res (Vars × O)} {measureA : Vars → Chk (Vars × O)} (hmeas : ∀ s : Vars, s.2.2.length = n → Guarded (measureA s) (measure s))
    (hmeas' : ∀ s r, measure s = .val r → r.1 = s) :
    Guarded (M.bind fun m => (initVector n).bind fun h => Sim.simulateA fl (stepVarsA fl n dt m) measureA dt tEnd interval (0, w, h))
      (M.bind fun m => (initVector n).bind fun h => Sim.simulateF fl (stepVarsF fl n dt m) measure dt tEnd interval (0, w, h)) := by
  cases hm : M with
  | ub => exact .inl rfl
  | diverges => exact .inl rfl
  | val m =>
    simp only [Res.bind_val]
    cases hv : initVector n with
    | ub => exact .inl rfl
    | diverges => exact .inl rfl
    | val h =>
      simp only [Res.bind_val]
      exact Sim.simulateA_guarded (fun s : Vars => s.2.2.length = n) (fun s hs => stepVarsA_eq (hM m hm) hs) hmeas
        (fun s s' hs hst => (stepVarsF_length hst).trans hs) (fun s r hs hr => by rw [hmeas' s r hr]; exact hs) (initVector_length hv)

/-- C121: `hubbard_real_1d_rk4` with a filling between 0 and 1: no assertion fails, and the run is the one without assertions, with every rounding that keeps zero,
for every number of sites, all parameters, all numbers of threads and all executions of the parallel loops. -/
theorem real1dRk4_assertions (hfl : fl 0 = 0) (hN : 0 < N) {e : Execution} (he : e.Valid N) (w : Work ℂ) (J U dt tEnd : ℝ) (interval : ℕ)
    {filling : ℝ} (h0 : 0 ≤ filling) (h1 : filling ≤ 1) :
    real1dRk4A fl sinF sort e w N J U dt tEnd interval filling = lift (real1dRk4F fl sinF sort e w N J U dt tEnd interval filling) := by
  unfold real1dRk4A real1dRk4F
  simp only [chainAssert_pos hN, andThen_some, evTable1DA_eq _ h0 h1, andThen_lift]
  rw [lift_bind]
  congr 1
  funext values
  exact run_eq (fun m hm => initMatrix_dims hm) (fun s _ => by
    rw [siteOccupation3_assertions _ _ hfl he.conjugation (he.loop1 _) (he.loop2 _) (he.loop3 _), andThen_lift, lift_map]) (fun s r hr => by
    revert hr
    cases siteOccupation3F fl (evFunction (Chain.real (K := ℝ) N 1) values) (basis3 N) (getConjugate e.conjugation (basis3 N)) s.2.2
      (e.threads s.1) (e.loop1 s.1) (e.loop2 s.1) (e.loop3 s.1) <;> intro hr <;> cases hr
    rfl)

/-- C121: `hubbard_real_1d_kinetic_rk4`: the run is the one without assertions, or it ends with the failure of an assertion on an imaginary part. -/
theorem real1dKineticRk4_guarded (hN : 0 < N) {e : Execution} (he : e.ValidKinetic N) (w : Work ℂ) (J dt tEnd : ℝ) (interval : ℕ)
    {filling : ℝ} (h0 : 0 ≤ filling) (h1 : filling ≤ 1) :
    Guarded (real1dKineticRk4A fl sinF sort e w N J dt tEnd interval filling) (real1dKineticRk4F fl sinF sort e w N J dt tEnd interval filling) := by
  unfold real1dKineticRk4A real1dKineticRk4F
  simp only [chainAssert_pos hN, andThen_some, evTable1DA_eq _ h0 h1]
  refine Guarded.bind (.inl rfl) fun values _ => ?_
  exact run_guarded (fun m hm => initKineticMatrix_dims hm) (fun s _ =>
    (siteOccupation1_guarded _ _ he.conjugation (he.loop1 _)).bind fun x _ => .inl rfl) (fun s r hr => by
    revert hr
    cases siteOccupation1F fl (evFunction (Chain.real (K := ℝ) N 1) values) (basis1 N) (getConjugate e.conjugation (basis1 N)) s.2.2
      (e.threads s.1) (e.loop1 s.1) <;> intro hr <;> cases hr
    rfl)

/-- C121: the programs that write the coefficients: no assertion fails. -/
theorem real1dRk4Coefficients_assertions (hN : 0 < N) (w : Work ℂ) (J U dt tEnd : ℝ) (interval : ℕ) :
    real1dRk4CoefficientsA fl sort w N J U dt tEnd interval = lift (real1dRk4CoefficientsF fl sort w N J U dt tEnd interval) := by
  unfold real1dRk4CoefficientsA real1dRk4CoefficientsF
  simp only [chainAssert_pos hN, andThen_some]
  exact run_eq (fun m hm => initMatrix_dims hm) (fun s _ => rfl) (fun s r hr => by cases hr; rfl)

/-- C121, kinetic variant. -/
theorem real1dKineticRk4Coefficients_assertions (hN : 0 < N) (w : Work ℂ) (J dt tEnd : ℝ) (interval : ℕ) :
    real1dKineticRk4CoefficientsA fl sort w N J dt tEnd interval = lift (real1dKineticRk4CoefficientsF fl sort w N J dt tEnd interval) := by
  unfold real1dKineticRk4CoefficientsA real1dKineticRk4CoefficientsF
  simp only [chainAssert_pos hN, andThen_some]
  exact run_eq (fun m hm => initKineticMatrix_dims hm) (fun s _ => rfl) (fun s r hr => by cases hr; rfl)

theorem measureJumpF_vars {ev : HOp → HOp → ℝ} {basis : List HMonomial} {f : List ℂ} {e : JumpExecution} {s : JumpVars} {r : JumpVars × ℝ}
    (h : measureJumpF fl ev basis N f e s = .val r) : r.1.1 = s.1 := by
  unfold measureJumpF at h
  cases hj : jumpCallF fl ev basis s.1.2.2 N f (e.threads s.1.1) (e.normalOrder s.1.1) (e.sum s.1.1) s.2 with
  | ub => rw [hj] at h; exact absurd h (by simp)
  | diverges => rw [hj] at h; exact absurd h (by simp)
  | val x =>
    rw [hj, Res.map_val] at h
    cases h; rfl

theorem jumpRun_eq {n : ℕ} {m : Sparse ℝ} (hm : m.rows = n ∧ m.columns = n) {dt tEnd : ℝ} {interval : ℕ} {w : Work ℂ} {h : List ℂ} (hh : h.length = n)
    {measure : JumpVars → Res (JumpVars × ℝ)} (hmeas' : ∀ s r, measure s = .val r → r.1.1 = s.1) :
    Sim.simulateA fl (stepJumpA fl n dt m) (fun s => lift (measure s)) dt tEnd interval ((0, w, h), none) =
      lift (Sim.simulateF fl (stepJumpF fl n dt m) measure dt tEnd interval ((0, w, h), none)) := by
  refine Sim.simulateA_eq (fun s : JumpVars => s.1.2.2.length = n) (fun s hs => ?_) (fun _ _ => rfl) (fun s s' hs hst => ?_)
    (fun s r hs hr => by rw [hmeas' s r hr]; exact hs) hh
  · unfold stepJumpA stepJumpF
    rw [stepVarsA_eq hm hs, andThen_lift, lift_map]
  · unfold stepJumpF at hst
    cases hv : stepVarsF fl n dt m s.1 with
    | ub => rw [hv] at hst; exact absurd hst (by simp)
    | diverges => rw [hv] at hst; exact absurd hst (by simp)
    | val v =>
      rw [hv, Res.map_val] at hst
      cases hst
      exact (stepVarsF_length hv).trans hs

/-- C121: `hubbard_real_1d_rk4_jump` with a filling between 0 and 1: no assertion fails. -/
theorem real1dRk4Jump_assertions (cosF : ℝ → ℝ) (hN : 0 < N) (e : JumpExecution) (w : Work ℂ) (J U dt tEnd : ℝ) (interval : ℕ) {filling : ℝ}
    (h0 : 0 ≤ filling) (h1 : filling ≤ 1) :
    real1dRk4JumpA fl sinF cosF sort e w N J U dt tEnd interval filling =
      lift (real1dRk4JumpF fl sinF cosF sort e w N J U dt tEnd interval filling) := by
  unfold real1dRk4JumpA real1dRk4JumpF
  simp only [chainAssert_pos hN, andThen_some, evTable1DA_eq _ h0 h1, andThen_lift]
  rw [lift_bind]
  congr 1
  funext values
  cases hm : initMatrix sort N 2 (Chain.realF fl N 1).neighbors J (2 * fl (U / 2)) with
  | ub => rfl
  | diverges => rfl
  | val m =>
    simp only [Res.bind_val]
    cases hv : initVector (basis3 N).length with
    | ub => rfl
    | diverges => rfl
    | val h =>
      simp only [Res.bind_val]
      rw [lift_bind]
      congr 1
      funext f
      exact jumpRun_eq (initMatrix_dims hm) (initVector_length hv) (fun s r hr => measureJumpF_vars hr)

/-- C121: `hubbard_real_2d_rk4_jump`: no assertion fails. -/
theorem real2dRk4Jump_assertions (cosF : ℝ → ℝ) {Nx Ny : ℕ} (hx : 0 < Nx) (hy : 0 < Ny) (e : JumpExecution) (w : Work ℂ) (J U dt tEnd : ℝ)
    (interval : ℕ) (kx ky : ℝ) :
    real2dRk4JumpA fl sinF cosF sort e w Nx Ny J U dt tEnd interval kx ky =
      lift (real2dRk4JumpF fl sinF cosF sort e w Nx Ny J U dt tEnd interval kx ky) := by
  unfold real2dRk4JumpA real2dRk4JumpF
  have hq : squareAssert Nx Ny = .val (some ()) := by
    unfold squareAssert
    exact assertAll_true (by simp [hx, hy])
  simp only [hq, andThen_some]
  rw [lift_bind]
  congr 1
  funext values
  cases hm : initMatrix sort (Square.realF fl Nx Ny 1 1).size 4 (Square.realF fl Nx Ny 1 1).neighbors J (2 * fl (U / 2)) with
  | ub => rfl
  | diverges => rfl
  | val m =>
    simp only [Res.bind_val]
    rw [lift_bind]
    congr 1
    funext f
    cases hv : initVector (basis3 (Square.realF fl Nx Ny 1 1).size).length with
    | ub => rfl
    | diverges => rfl
    | val h =>
      simp only [Res.bind_val]
      exact jumpRun_eq (initMatrix_dims hm) (initVector_length hv) (fun s r hr => measureJumpF_vars hr)

/-- C121: a filling outside `[0, 1]`, or a chain without sites, ends the programs by a failed assertion before anything is computed. -/
theorem programs_abort (cosF : ℝ → ℝ) (e : Execution) (e' : JumpExecution) (w : Work ℂ) (N : ℕ) (J U dt tEnd : ℝ) (interval : ℕ) {filling : ℝ}
    (h : N = 0 ∨ ¬ (0 ≤ filling ∧ filling ≤ 1)) :
    real1dRk4A fl sinF sort e w N J U dt tEnd interval filling = .val none ∧
    real1dKineticRk4A fl sinF sort e w N J dt tEnd interval filling = .val none ∧
    real1dRk4JumpA fl sinF cosF sort e' w N J U dt tEnd interval filling = .val none := by
  rcases Nat.eq_zero_or_pos N with rfl | hN
  · exact ⟨rfl, rfl, rfl⟩
  · have h := h.resolve_left (by omega)
    unfold real1dRk4A real1dKineticRk4A real1dRk4JumpA
    simp only [chainAssert_pos hN, andThen_some, evTable1DA_abort _ h, andThen_none, and_self]

/-- C121: lattices without sites. -/
theorem programs_abort_empty (cosF : ℝ → ℝ) (e : JumpExecution) (w : Work ℂ) (Nx Ny : ℕ) (J U dt tEnd : ℝ) (interval : ℕ) (kx ky : ℝ)
    (h : Nx = 0 ∨ Ny = 0) :
    real1dRk4CoefficientsA fl sort w 0 J U dt tEnd interval = .val none ∧
    real1dKineticRk4CoefficientsA fl sort w 0 J dt tEnd interval = .val none ∧
    real2dRk4JumpA fl sinF cosF sort e w Nx Ny J U dt tEnd interval kx ky = .val none := by
  refine ⟨rfl, rfl, ?_⟩
  have hq : squareAssert Nx Ny = .val none := by
    unfold squareAssert
    rcases h with rfl | rfl
    · rfl
    · rcases Nat.eq_zero_or_pos Nx with rfl | hx
      · rfl
      · simp [assertAll, hx]
  unfold real2dRk4JumpA
  simp only [hq, andThen_none]

end

end Program

end Ieompp
