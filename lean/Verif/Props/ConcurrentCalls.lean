import Verif.Model.ConcurrentCalls
import Verif.Props.Threads
import Verif.Props.RK4
import Mathlib.Tactic.NormNum

/-!
# C85: concurrent calls
-/

set_option autoImplicit false
set_option linter.unusedSectionVars false

namespace Ieompp.Threads

section
variable {L V : Type*} [DecidableEq L]

/-- The program stores to `l` in any case. -/
def WritesTo (l : L) : Prog L V → Prop
  | .done => False
  | .read _ k => ∀ v, WritesTo l (k v)
  | .write l' _ p => l' = l ∨ WritesTo l p

theorem loads_writes {l target : L} {value : List V → V} {next : Prog L V} (h : target = l ∨ WritesTo l next) : ∀ (ls : List L) (vs : List V),
    WritesTo l (loads target value next ls vs)
  | [], _ => h
  | _ :: ls, vs => fun v => loads_writes h ls (vs ++ [v])

theorem compile_writes {l : L} : ∀ {ss : List (Stmt L V)}, (∃ s ∈ ss, s.target = l) → WritesTo l (compile ss)
  | [], h => absurd h (by simp)
  | s :: ss, h => by
    refine loads_writes ?_ _ _
    obtain ⟨s', hs, h⟩ := h
    rcases List.mem_cons.1 hs with rfl | hs
    · exact Or.inl h
    · exact Or.inr (compile_writes ⟨s', hs, h⟩)

theorem step_writes {l : L} {t : ℕ} (x : ℕ) (c : Config L V) (h : WritesTo l (c.code t)) :
    WritesTo l ((step x c).1.code t) ∨ ⟨t, l, true⟩ ∈ (step x c).2 := by
  by_cases hx : x = t
  · subst hx
    unfold step
    split
    · left; exact h
    · rename_i l' k e
      rw [e] at h
      left; simpa using h _
    · rename_i l' v p e
      rw [e] at h
      rcases h with rfl | h
      · right; simp
      · left; simpa using h
  · left
    unfold step
    split
    · exact h
    · simpa [Function.update_of_ne (Ne.symm hx)] using h
    · simpa [Function.update_of_ne (Ne.symm hx)] using h

theorem run_writes {l : L} {t : ℕ} : ∀ (sched : List ℕ) (c : Config L V), WritesTo l (c.code t) → Spec.Finished (run sched c).1 →
    ⟨t, l, true⟩ ∈ (run sched c).2
  | [], c, h, hf => by
    have := hf t
    rw [run] at this
    rw [show c.code t = .done from this] at h
    exact h.elim
  | x :: sched, c, h, hf => by
    rw [run, List.mem_append]
    rcases step_writes x c h with h | h
    · exact Or.inr (run_writes sched _ h hf)
    · exact Or.inl h

theorem run_append (s1 s2 : List ℕ) (c : Config L V) : (run (s1 ++ s2) c).1 = (run s2 (run s1 c).1).1 := by
  induction s1 generalizing c with
  | nil => rfl
  | cons t s1 ih => exact ih _

theorem run_loads (t : ℕ) (target : L) (value : List V → V) (next : Prog L V) : ∀ (ls : List L) (vs : List V) (c : Config L V),
    c.code t = loads target value next ls vs →
    ∃ sched, (run sched c).1 = ⟨Function.update c.mem target (value (vs ++ ls.map c.mem)), Function.update c.code t next⟩
  | [], vs, c, h => by
    refine ⟨[t], ?_⟩
    simp only [run, step]
    rw [h]
    simp [loads]
  | l :: ls, vs, c, h => by
    obtain ⟨sched, hs⟩ := run_loads t target value next ls (vs ++ [c.mem l])
      ⟨c.mem, Function.update c.code t (loads target value next ls (vs ++ [c.mem l]))⟩ (by simp)
    refine ⟨t :: sched, ?_⟩
    have : step t c = (⟨c.mem, Function.update c.code t (loads target value next ls (vs ++ [c.mem l]))⟩, [⟨t, l, false⟩]) := by
      unfold step
      rw [h]
      rfl
    simp only [run, this]
    rw [hs]
    simp

/-- A thread can execute some of its statements without being interrupted. -/
theorem run_stmts (t : ℕ) (b : List (Stmt L V)) : ∀ (a : List (Stmt L V)) (c : Config L V), c.code t = compile (a ++ b) →
    ∃ sched, (run sched c).1 = ⟨exec c.mem a, Function.update c.code t (compile b)⟩
  | [], c, h => ⟨[], by
    have : c.code = Function.update c.code t (compile b) := by
      rw [List.nil_append] at h
      rw [← h, Function.update_eq_self]
    rw [← this]
    rfl⟩
  | s :: a, c, h => by
    obtain ⟨s1, h1⟩ := run_loads t s.target s.value (compile (a ++ b)) s.reads [] c h
    obtain ⟨s2, h2⟩ := run_stmts t b a _ (show (run s1 c).1.code t = compile (a ++ b) by rw [h1]; simp)
    refine ⟨s1 ++ s2, ?_⟩
    rw [run_append, h2, h1]
    simp [exec_cons]

end

variable {K : Type*} [Field K]

/-- Caller 0 is interrupted between two statements by caller 1, which performs its whole call. -/
theorem interrupted (mem : CallLoc → K) (call : ℕ → List (Stmt CallLoc K)) (a b : List (Stmt CallLoc K)) (h : call 0 = a ++ b) :
    ∃ sched, Spec.Finished (run sched (callers mem call 2)).1 ∧
      (run sched (callers mem call 2)).1.mem = exec (exec (exec mem a) (call 1)) b := by
  obtain ⟨s1, h1⟩ := run_stmts 0 b a (callers mem call 2) (by simp [callers, h])
  obtain ⟨s2, h2⟩ := run_stmts 1 [] (call 1) (run s1 (callers mem call 2)).1 (by rw [h1]; simp [callers])
  obtain ⟨s3, h3⟩ := run_stmts 0 [] b (run s2 (run s1 (callers mem call 2)).1).1 (by rw [h2, h1]; simp)
  refine ⟨s1 ++ s2 ++ s3, ?_⟩
  rw [run_append, run_append, h3, h2, h1]
  refine ⟨fun t => ?_, rfl⟩
  match t with
  | 0 => simp [compile]
  | 1 => simp [compile, Function.update]
  | t + 2 => simp [callers, Function.update]

/-- Two callers which both store to the same location in any case: every complete execution has a data race. -/
theorem callers_race (mem : CallLoc → K) (call : ℕ → List (Stmt CallLoc K)) (count : ℕ) (hcount : 2 ≤ count) (l : CallLoc)
    (hl : ∀ who, ∃ s ∈ call who, s.target = l) (sched : List ℕ) (hf : Spec.Finished (run sched (callers mem call count)).1) :
    Spec.Race (run sched (callers mem call count)).2 := by
  have key : ∀ who < count, ⟨who, l, true⟩ ∈ (run sched (callers mem call count)).2 := by
    intro who hw
    apply run_writes sched _ _ hf
    show WritesTo l (if who < count then compile (call who) else .done)
    rw [if_pos hw]
    exact compile_writes (hl who)
  exact ⟨_, key 0 (by omega), _, key 1 (by omega), by simp, rfl, Or.inl rfl⟩

/-- **C85** (refutation): two or more threads which advance vectors of their own with the same integrator type: every complete execution
has a data race, whatever the dimension. -/
theorem step_concurrent_race (mem : CallLoc → K) (n : ℕ) (hn : 0 < n) (h : K) (m : ℕ → ℕ → ℕ → K) (count : ℕ) (hcount : 2 ≤ count)
    (sched : List ℕ) (hf : Spec.Finished (run sched (callers mem (fun who => stepCall n h (m who) who) count)).1) :
    Spec.Race (run sched (callers mem (fun who => stepCall n h (m who) who) count)).2 := by
  refine callers_race mem _ count hcount (.k1 0) (fun who => ?_) sched hf
  unfold stepCall
  refine ⟨_, List.mem_append_left _ (List.mem_append_left _ (List.mem_append_left _ (List.mem_append_left _
    (List.mem_map.2 ⟨0, List.mem_range.2 hn, rfl⟩)))), rfl⟩

/-- **C85** (refutation): the same for `multiply_assign`. -/
theorem multiply_concurrent_race (mem : CallLoc → K) (n : ℕ) (hn : 0 < n) (m : ℕ → ℕ → ℕ → K) (count : ℕ) (hcount : 2 ≤ count)
    (sched : List ℕ) (hf : Spec.Finished (run sched (callers mem (fun who => multiplyCall n (m who) who) count)).1) :
    Spec.Race (run sched (callers mem (fun who => multiplyCall n (m who) who) count)).2 := by
  refine callers_race mem _ count hcount (.temp 0) (fun who => ?_) sched hf
  unfold multiplyCall
  exact ⟨_, List.mem_append_left _ (List.mem_append_left _ (List.mem_map.2 ⟨0, List.mem_range.2 hn, rfl⟩)), rfl⟩

/-- **C85** (refutation): the same for the Fermi jump, whose `operator()` is a `const` member function. -/
theorem jump_concurrent_race (mem : CallLoc → K) (N : ℕ) (hN : 0 < N) (prefactor : ℕ → ℕ → K) (count : ℕ) (hcount : 2 ≤ count)
    (sched : List ℕ) (hf : Spec.Finished (run sched (callers mem (jumpCallStmts N prefactor) count)).1) :
    Spec.Race (run sched (callers mem (jumpCallStmts N prefactor) count)).2 := by
  refine callers_race mem _ count hcount (.hNo 0) (fun who => ?_) sched hf
  unfold jumpCallStmts
  exact ⟨_, List.mem_append_left _ (List.mem_flatMap.2 ⟨0, List.mem_range.2 hN, List.mem_cons_self⟩), rfl⟩

/-! ### What can go wrong -/

/-- Caller 0 has the vector `(1)`, caller 1 the vector `(0)`. -/
def twoVectors : CallLoc → ℚ
  | .vector who _ => if who = 0 then 1 else 0
  | .fourier _ _ => 1
  | _ => 0

/-- **C85** (refutation): for `u' = u` and the step size 1, the result for the vector `(1)` can be 9/4; alone it is 65/24. -/
theorem step_concurrent_wrong : ∃ sched, Spec.Finished (run sched (callers twoVectors (stepCall 1 1 fun _ _ => 1) 2)).1 ∧
    (run sched (callers twoVectors (stepCall 1 1 fun _ _ => 1) 2)).1.mem (.vector 0 0) = 9 / 4 ∧
    exec twoVectors (stepCall 1 1 (fun _ _ => 1) 0) (.vector 0 0) = 65 / 24 := by
  obtain ⟨sched, h1, h2⟩ := interrupted twoVectors (stepCall 1 1 fun _ _ => 1) ((stepCall 1 1 (fun _ _ => 1) 0).take 1)
    ((stepCall 1 1 (fun _ _ => 1) 0).drop 1) (by rw [List.take_append_drop])
  refine ⟨sched, h1, ?_, ?_⟩
  · rw [h2]
    simp [stepCall, stageStmts, exec, twoVectors, Function.update_apply, RealSpace.get3opIndex] <;> norm_num
  · simp [stepCall, stageStmts, exec, twoVectors, Function.update_apply, RealSpace.get3opIndex] <;> norm_num

/-- **C85** (refutation): for the matrix `(1)`, the product with the vector `(1)` can be `(0)`. -/
theorem multiply_concurrent_wrong : ∃ sched, Spec.Finished (run sched (callers twoVectors (multiplyCall 1 fun _ _ => 1) 2)).1 ∧
    (run sched (callers twoVectors (multiplyCall 1 fun _ _ => 1) 2)).1.mem (.vector 0 0) = 0 ∧
    exec twoVectors (multiplyCall 1 (fun _ _ => 1) 0) (.vector 0 0) = 1 := by
  obtain ⟨sched, h1, h2⟩ := interrupted twoVectors (multiplyCall 1 fun _ _ => 1) ((multiplyCall 1 (fun _ _ => 1) 0).take 2)
    ((multiplyCall 1 (fun _ _ => 1) 0).drop 2) (by rw [List.take_append_drop])
  refine ⟨sched, h1, ?_, ?_⟩
  · rw [h2]
    simp [multiplyCall, exec, twoVectors, Function.update_apply, RealSpace.get3opIndex] <;> norm_num
  · simp [multiplyCall, exec, twoVectors, Function.update_apply, RealSpace.get3opIndex] <;> norm_num

/-- **C85** (refutation): one site, no expectation value (the prefactor is -1), `h = (1, 1)` respectively `h = (0, 0)`: the sum of the
first caller can be -1; alone it is 0. -/
theorem jump_concurrent_wrong : ∃ sched, Spec.Finished (run sched (callers twoVectors (jumpCallStmts 1 fun _ _ => -1) 2)).1 ∧
    (run sched (callers twoVectors (jumpCallStmts 1 fun _ _ => -1) 2)).1.mem (.result 0) = -1 ∧
    exec twoVectors (jumpCallStmts 1 (fun _ _ => -1) 0) (.result 0) = 0 := by
  obtain ⟨sched, h1, h2⟩ := interrupted twoVectors (jumpCallStmts 1 fun _ _ => -1) ((jumpCallStmts 1 (fun _ _ => -1) 0).take 1)
    ((jumpCallStmts 1 (fun _ _ => -1) 0).drop 1) (by rw [List.take_append_drop])
  refine ⟨sched, h1, ?_, ?_⟩
  · rw [h2]
    simp [jumpCallStmts, exec, twoVectors, Function.update_apply, RealSpace.get3opIndex] <;> norm_num
  · simp [jumpCallStmts, exec, twoVectors, Function.update_apply, RealSpace.get3opIndex] <;> norm_num

/-! ### A caller alone -/

/-- Statements with different targets which do not read each other's target. -/
theorem exec_fill {L V : Type*} [DecidableEq L] (cell : ℕ → L) (hinj : ∀ i j, cell i = cell j → i = j) (reads : ℕ → List L)
    (val : ℕ → List V → V) (hr : ∀ i, ∀ l ∈ reads i, l = cell i ∨ ∀ j, l ≠ cell j) (n : ℕ) (m : L → V) :
    (∀ i < n, exec m ((List.range n).map fun i => ⟨reads i, cell i, val i⟩) (cell i) = val i ((reads i).map m)) ∧
    ∀ l, (∀ i, l ≠ cell i) → exec m ((List.range n).map fun i => ⟨reads i, cell i, val i⟩) l = m l := by
  constructor
  · intro i hi
    have e : ((List.range n).map fun i => (⟨reads i, cell i, val i⟩ : Stmt L V)) = (List.range n).flatMap fun i => [⟨reads i, cell i, val i⟩] :=
      (List.flatMap_pure_eq_map _ _).symm
    rw [e, exec_own (own := fun i => {cell i}) (shared := {l | ∀ j, l ≠ cell j}) (List.range n) List.nodup_range ?_ ?_ ?_ m i (List.mem_range.2 hi) _ rfl]
    · simp [exec]
    · intro j _ s hs
      rw [List.mem_singleton] at hs
      subst hs
      exact ⟨hr j, rfl⟩
    · rintro a _ b _ hab l rfl h
      exact hab (hinj _ _ h)
    · rintro a _ l rfl h
      exact h a rfl
  · intro l hl
    apply exec_frame (W := {l | ∃ i, l = cell i})
    · intro s hs
      obtain ⟨i, _, rfl⟩ := List.mem_map.1 hs
      exact ⟨i, rfl⟩
    · rintro ⟨i, h⟩
      exact hl i h

theorem getD_map_range {V : Type*} (d : V) (f : ℕ → V) {n j : ℕ} (h : j < n) : ((List.range n).map f).getD j d = f j := by
  simp [List.getD_eq_getElem?_getD, h]

theorem getD_map_append {V : Type*} (d : V) (f g : ℕ → V) {n j : ℕ} (h : j < n) :
    ((List.range n).map f ++ (List.range n).map g).getD j d = f j ∧ ((List.range n).map f ++ (List.range n).map g).getD (n + j) d = g j := by
  constructor
  · simp [List.getD_eq_getElem?_getD, List.getElem?_append, h]
  · simp [List.getD_eq_getElem?_getD, List.getElem?_append, h]

/-- One of the stages. -/
theorem exec_stage (n : ℕ) (c : K) (M : ℕ → ℕ → K) (u q k : ℕ → CallLoc) (hk : ∀ i j, k i = k j → i = j) (hu : ∀ i j, u i ≠ k j)
    (hq : ∀ i j, q i ≠ k j) (m : CallLoc → K) :
    (∀ i : Fin n, exec m (stageStmts n c M u q k) (k i) = (ODE.mat n M).mulVec (fun j : Fin n => m (u j) + c * m (q j)) i) ∧
    ∀ l, (∀ i, l ≠ k i) → exec m (stageStmts n c M u q k) l = m l := by
  obtain ⟨h1, h2⟩ := exec_fill k hk (fun _ => (List.range n).map u ++ (List.range n).map q)
    (fun i vs => ((List.range n).map fun j => M i j * (vs.getD j 0 + c * vs.getD (n + j) 0)).sum) (by
      intro i l hl
      right
      rcases List.mem_append.1 hl with hl | hl <;> obtain ⟨j, _, rfl⟩ := List.mem_map.1 hl
      · exact hu j
      · exact hq j) n m
  refine ⟨fun i => ?_, h2⟩
  show exec m ((List.range n).map fun i => _) _ = _
  rw [h1 i i.2]
  have : ((List.range n).map fun j => M i j * ((((List.range n).map u ++ (List.range n).map q).map m).getD j 0 +
      c * (((List.range n).map u ++ (List.range n).map q).map m).getD (n + j) 0)) =
      (List.range n).map fun j => M i j * (m (u j) + c * m (q j)) := by
    refine List.map_congr_left fun j hj => ?_
    have := getD_map_append (0 : K) (fun j => m (u j)) (fun j => m (q j)) (List.mem_range.1 hj)
    simp only [List.map_append, List.map_map]
    rw [show (m ∘ u) = fun j => m (u j) from rfl, show (m ∘ q) = fun j => m (q j) from rfl, this.1, this.2]
  simp only [this]
  rw [ODE.sum_range_fin fun j => M i j * (m (u j) + c * m (q j))]
  rfl

/-- One call of `step` computes the step of the Runge-Kutta method. -/
theorem stepCall_correct [CharZero K] (n : ℕ) (h : K) (M : ℕ → ℕ → K) (who : ℕ) (m : CallLoc → K) (i : Fin n) :
    exec m (stepCall n h M who) (.vector who i) =
      (Ieompp.Spec.exp4 h (ODE.mat n M)).mulVec (fun j : Fin n => m (.vector who j)) i := by
  unfold stepCall
  rw [exec_append, exec_append, exec_append, exec_append]
  obtain ⟨a1, a2⟩ := exec_fill CallLoc.k1 (fun i j h => CallLoc.k1.inj h) (fun _ => (List.range n).map (.vector who))
    (fun i vs => ((List.range n).map fun j => M i j * vs.getD j 0).sum)
    (by intro i l hl; obtain ⟨j, _, rfl⟩ := List.mem_map.1 hl; simp) n m
  set m1 := exec m ((List.range n).map fun i => ⟨(List.range n).map (.vector who), .k1 i,
    fun vs => ((List.range n).map fun j => M i j * vs.getD j 0).sum⟩) with hm1
  obtain ⟨b1, b2⟩ := exec_stage n (h / 2) M (.vector who) .k1 .k2 (fun i j h => CallLoc.k2.inj h) (by simp) (by simp) m1
  set m2 := exec m1 (stageStmts n (h / 2) M (.vector who) .k1 .k2) with hm2
  obtain ⟨c1, c2⟩ := exec_stage n (h / 2) M (.vector who) .k2 .k3 (fun i j h => CallLoc.k3.inj h) (by simp) (by simp) m2
  set m3 := exec m2 (stageStmts n (h / 2) M (.vector who) .k2 .k3) with hm3
  obtain ⟨d1, d2⟩ := exec_stage n h M (.vector who) .k3 .k4 (fun i j h => CallLoc.k4.inj h) (by simp) (by simp) m3
  set m4 := exec m3 (stageStmts n h M (.vector who) .k3 .k4) with hm4
  obtain ⟨e1, _⟩ := exec_fill (CallLoc.vector who) (fun i j h => (CallLoc.vector.inj h).2) (fun i => [.vector who i, .k1 i, .k2 i, .k3 i, .k4 i])
    (fun _ vs => vs.getD 0 0 + h / 6 * (vs.getD 1 0 + 2 * vs.getD 2 0 + 2 * vs.getD 3 0 + vs.getD 4 0))
    (by intro i l hl; simp only [List.mem_cons, List.not_mem_nil, or_false] at hl; rcases hl with rfl | rfl | rfl | rfl | rfl <;> simp) n m4
  rw [e1 i i.2]
  have u2 : ∀ j, m1 (.vector who j) = m (.vector who j) := fun j => a2 _ (by simp)
  have u3 : ∀ j, m2 (.vector who j) = m (.vector who j) := fun j => by rw [b2 _ (by simp), u2]
  have u4 : ∀ j, m3 (.vector who j) = m (.vector who j) := fun j => by rw [c2 _ (by simp), u3]
  have u5 : ∀ j, m4 (.vector who j) = m (.vector who j) := fun j => by rw [d2 _ (by simp), u4]
  have k1 : (fun j : Fin n => m1 (.k1 j)) = (ODE.mat n M).mulVec fun j : Fin n => m (.vector who j) := by
    funext j
    rw [a1 j j.2]
    have : ((List.range n).map fun x => M j x * (((List.range n).map (CallLoc.vector who)).map m).getD x 0) =
        (List.range n).map fun x => M j x * m (.vector who x) := by
      refine List.map_congr_left fun x hx => ?_
      rw [List.map_map, getD_map_range (0 : K) _ (List.mem_range.1 hx)]
      rfl
    simp only [this]
    rw [ODE.sum_range_fin fun x => M j x * m (.vector who x)]
    rfl
  have k2 : (fun j : Fin n => m2 (.k2 j)) = (ODE.mat n M).mulVec ((fun j : Fin n => m (.vector who j)) + (h / 2) • fun j : Fin n => m1 (.k1 j)) := by
    funext j
    rw [b1 j]
    simp only [u2]
    rfl
  have k3 : (fun j : Fin n => m3 (.k3 j)) = (ODE.mat n M).mulVec ((fun j : Fin n => m (.vector who j)) + (h / 2) • fun j : Fin n => m2 (.k2 j)) := by
    funext j
    rw [c1 j]
    simp only [u3]
    rfl
  have k4 : (fun j : Fin n => m4 (.k4 j)) = (ODE.mat n M).mulVec ((fun j : Fin n => m (.vector who j)) + h • fun j : Fin n => m3 (.k3 j)) := by
    funext j
    rw [d1 j]
    simp only [u4]
    rfl
  rw [← ODE.stages_eq h (ODE.mat n M) _ _ _ _ _ k1 k2 k3 k4]
  have f1 : m4 (.k1 i) = m1 (.k1 i) := by rw [d2 _ (by simp), c2 _ (by simp), b2 _ (by simp)]
  have f2 : m4 (.k2 i) = m2 (.k2 i) := by rw [d2 _ (by simp), c2 _ (by simp)]
  have f3 : m4 (.k3 i) = m3 (.k3 i) := by rw [d2 _ (by simp)]
  simp only [List.map_cons, List.map_nil, List.getD_cons_zero, List.getD_cons_succ, u5, f1, f2, f3, Pi.add_apply, Pi.smul_apply, smul_eq_mul]

/-- One call of `multiply_assign` computes the product. -/
theorem multiplyCall_correct (n : ℕ) (M : ℕ → ℕ → K) (who : ℕ) (m : CallLoc → K) (i : Fin n) :
    exec m (multiplyCall n M who) (.vector who i) = ∑ j : Fin n, M i j * m (.vector who j) := by
  unfold multiplyCall
  rw [exec_append, exec_append]
  obtain ⟨a1, a2⟩ := exec_fill CallLoc.temp (fun i j h => CallLoc.temp.inj h) (fun _ => []) (fun _ _ => (0 : K)) (by simp) n m
  set m1 := exec m ((List.range n).map fun i => ⟨[], .temp i, fun _ => (0 : K)⟩) with hm1
  set m2 := exec m1 ((List.range n).flatMap fun row => (List.range n).map fun col => ⟨[.vector who col, .temp row], .temp row,
    fun vs => vs.getD 1 0 + M row col * vs.getD 0 0⟩) with hm2
  obtain ⟨c1, _⟩ := exec_fill (CallLoc.vector who) (fun i j h => (CallLoc.vector.inj h).2) (fun i => [.temp i]) (fun _ vs => vs.getD 0 (0 : K))
    (by simp) n m2
  rw [c1 i i.2]
  show m2 (.temp i) = _
  rw [hm2, exec_own (own := fun i => {CallLoc.temp i}) (shared := {l | ∃ j, l = .vector who j}) (List.range n) List.nodup_range ?_ ?_ ?_ m1 i
    (List.mem_range.2 i.2) _ rfl]
  · rw [exec_accumulate 0 (CallLoc.temp i) (fun col => CallLoc.vector who col) (by simp) (fun col x acc => acc + M i col * x), Function.update_self,
      a1 i i.2]
    have : ∀ (l : List ℕ) (x : K), l.foldl (fun acc col => acc + M i col * m1 (.vector who col)) x =
        x + (l.map fun col => M i col * m1 (.vector who col)).sum := by
      intro l
      induction l with
      | nil => simp
      | cons a l ih => intro x; rw [List.foldl_cons, ih]; simp [add_assoc]
    rw [this, zero_add, ODE.sum_range_fin fun col => M i col * m1 (.vector who col)]
    exact Finset.sum_congr rfl fun j _ => by rw [a2 _ (by simp)]
  · intro row _ s hs
    obtain ⟨col, _, rfl⟩ := List.mem_map.1 hs
    simp
  · rintro a _ b _ hab l rfl h
    exact hab (CallLoc.temp.inj h)
  · rintro a _ l rfl ⟨j, h⟩
    exact absurd h (by simp)

/-- One call of the Fermi jump computes the sum over the normal-ordered coefficients. -/
theorem jumpCallStmts_correct (N : ℕ) (prefactor : ℕ → ℕ → K) (who : ℕ) (m : CallLoc → K) :
    exec m (jumpCallStmts N prefactor who) (.result who) = ∑ i : Fin N, m (.fourier who i) *
      (m (.vector who i) + ∑ j : Fin N, ∑ k : Fin N, prefactor j k * m (.vector who (RealSpace.get3opIndex N i j k))) := by
  unfold jumpCallStmts
  rw [exec_append, exec_cons]
  set body : ℕ → List (Stmt CallLoc K) := fun i => ⟨[.vector who i], .hNo i, fun vs => vs.getD 0 0⟩ ::
    (List.range N).flatMap fun j => (List.range N).map fun k =>
      ⟨[.vector who (RealSpace.get3opIndex N i j k), .hNo i], .hNo i, fun vs => vs.getD 1 0 + prefactor j k * vs.getD 0 0⟩ with hbody
  set m1 := exec m ((List.range N).flatMap body) with hm1
  have add : ∀ {α : Type} (f : α → K) (l : List α) (x : K), l.foldl (fun acc a => acc + f a) x = x + (l.map f).sum := by
    intro α f l
    induction l with
    | nil => simp
    | cons a l ih => intro x; rw [List.foldl_cons, ih]; simp [add_assoc]
  have hbm : ∀ i, ∀ s ∈ body i, (∀ l ∈ s.reads, l ∈ ({CallLoc.hNo i} : Set CallLoc) ∨ l ∈ {l | ∃ j, l = CallLoc.vector who j}) ∧
      s.target ∈ ({CallLoc.hNo i} : Set CallLoc) := by
    intro i s hs
    rw [hbody, List.mem_cons] at hs
    rcases hs with rfl | hs
    · simp
    · obtain ⟨j, _, hs⟩ := List.mem_flatMap.1 hs
      obtain ⟨k, _, rfl⟩ := List.mem_map.1 hs
      simp
  have hno : ∀ i : Fin N, m1 (.hNo i) = m (.vector who i) + ∑ j : Fin N, ∑ k : Fin N, prefactor j k * m (.vector who (RealSpace.get3opIndex N i j k)) := by
    intro i
    rw [hm1, exec_own (own := fun i => {CallLoc.hNo i}) (shared := {l | ∃ j, l = .vector who j}) (List.range N) List.nodup_range
      (fun i _ => hbm i) ?_ ?_ m i (List.mem_range.2 i.2) _ rfl]
    · have e : ((List.range N).flatMap fun j => (List.range N).map fun k =>
          (⟨[.vector who (RealSpace.get3opIndex N i j k), .hNo i], .hNo i, fun vs => vs.getD 1 0 + prefactor j k * vs.getD 0 0⟩ : Stmt CallLoc K)) =
          ((List.range N).flatMap fun j => (List.range N).map fun k => (j, k)).map fun jk =>
          ⟨[.vector who (RealSpace.get3opIndex N i jk.1 jk.2), .hNo i], .hNo i,
            fun vs => vs.getD 1 0 + prefactor jk.1 jk.2 * vs.getD 0 0⟩ := by
        rw [List.map_flatMap]
        simp only [List.map_map]
        rfl
      rw [hbody, exec_cons, e, exec_accumulate 0 (CallLoc.hNo i) (fun jk : ℕ × ℕ => CallLoc.vector who (RealSpace.get3opIndex N i jk.1 jk.2)) (by simp)
        (fun jk x acc => acc + prefactor jk.1 jk.2 * x), Function.update_self]
      simp only [Function.update_self]
      rw [add]
      have hs : ∀ l : CallLoc, l ≠ .hNo i → Function.update m (CallLoc.hNo i) ((List.map m [CallLoc.vector who i]).getD 0 0) l = m l :=
        fun l hl => Function.update_of_ne hl _ _
      simp only [hs _ (by simp : CallLoc.vector who _ ≠ CallLoc.hNo i)]
      rw [List.map_flatMap, RealSpace.sum_flatMap, ODE.sum_range_fin fun j => (List.map (fun a : ℕ × ℕ => prefactor a.1 a.2 *
        m (.vector who (RealSpace.get3opIndex N i a.1 a.2))) (List.map (fun k => (j, k)) (List.range N))).sum]
      congr 1
      refine Finset.sum_congr rfl fun j _ => ?_
      rw [List.map_map]
      exact ODE.sum_range_fin fun k => prefactor j k * m (.vector who (RealSpace.get3opIndex N i j k))
    · rintro a _ b _ hab l rfl h
      exact hab (CallLoc.hNo.inj h)
    · rintro a _ l rfl ⟨j, h⟩
      exact absurd h (by simp)
  have frame : ∀ j, m1 (.fourier who j) = m (.fourier who j) := by
    intro j
    apply exec_frame (W := {l | ∃ i, l = CallLoc.hNo i})
    · intro s hs
      obtain ⟨i, _, hs⟩ := List.mem_flatMap.1 hs
      exact ⟨i, (hbm i s hs).2⟩
    · rintro ⟨i, h⟩
      exact absurd h (by simp)
  rw [exec_reduce 0 (fun _ => CallLoc.result who) (fun i => CallLoc.fourier who i) (fun i => CallLoc.hNo i) (by simp) (by simp)
    (fun _ x y acc => acc + x * y)]
  simp only [decide_true, List.filter_true, Function.update_self]
  have hs : ∀ (v : K) (l : CallLoc), l ≠ .result who → Function.update m1 (CallLoc.result who) v l = m1 l :=
    fun v l hl => Function.update_of_ne hl _ _
  simp only [hs _ _ (by simp : CallLoc.fourier who _ ≠ CallLoc.result who), hs _ _ (by simp : CallLoc.hNo _ ≠ CallLoc.result who)]
  rw [add (fun i => m1 (.fourier who i) * m1 (.hNo i)), zero_add, ODE.sum_range_fin fun i => m1 (.fourier who i) * m1 (.hNo i)]
  exact Finset.sum_congr rfl fun i _ => by rw [frame, hno]

/-- **C85**: calls that do not overlap: with a single caller at a time there is no race, and the call leaves what its statements compute. -/
theorem single_caller (mem : CallLoc → K) (call : ℕ → List (Stmt CallLoc K)) :
    Spec.Deterministic (callers mem call 1) 1 fun m => m = exec mem (call 0) := by
  have D := footprints (R := fun t => if t = 0 then Set.univ else ∅) (W := fun t => if t = 0 then Set.univ else ∅) (fun t => subset_refl _) ?_
    (callers mem call 1) 1 ?_ ?_
  · refine ⟨D.noRace, D.ends, fun sched hf => ?_⟩
    funext l
    rw [(D.result sched hf).1 0 l (by simp)]
    show execP (if 0 < 1 then compile (call 0) else .done) mem l = _
    rw [if_pos (by omega), execP_compile]
  · intro t t' htt l hl
    by_cases h0 : t = 0
    · have : t' ≠ 0 := by omega
      simp [this]
    · simp [h0] at hl
  · intro t
    by_cases h0 : t = 0
    · subst h0
      show Within _ _ (if 0 < 1 then compile (call 0) else .done)
      rw [if_pos (by omega)]
      exact compile_within fun s _ => by simp
    · show Within _ _ (if t < 1 then compile (call t) else .done)
      rw [if_neg (by omega : ¬ t < 1)]
      exact True.intro
  · intro t ht
    show (if t < 1 then compile (call t) else .done) = _
    rw [if_neg (by omega)]

end Ieompp.Threads
