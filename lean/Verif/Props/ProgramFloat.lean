import Verif.Spec.ProgramFloat
import Verif.Props.FloatOccupation
import Verif.Props.SimulationFloat
import Verif.Props.RK4Float
import Verif.Props.JumpProgram
import Verif.Props.FormSchur

/-!
# C109: the real-space programs on the chain in floating point arithmetic
-/

set_option autoImplicit false
set_option linter.unusedSectionVars false

namespace Ieompp.RealSpace

open Ieompp.Spec ODE

variable {fl : ℝ → ℝ} {u : ℝ}

theorem fl_zero (hfl : Spec.Rounding fl u) : fl 0 = 0 := by
  have := hfl.err 0
  simpa using this

/-- Elements of a sparse matrix are zero or stored. -/
theorem Sparse.get_mem (m : Sparse ℝ) (i j : ℕ) : m.get i j = 0 ∨ ∃ e ∈ m.done.getD i [], m.get i j = e.2 := by
  unfold Sparse.get
  cases hf : (m.done.getD i []).find? (fun e => e.1 = j) with
  | none => left; simp
  | some e => right; exact ⟨e, List.mem_of_find?_eq_some hf, by simp⟩

theorem timesIF_eq (hfl : Spec.Rounding fl u) (m : Sparse ℝ) (h : ∀ i, ∀ e ∈ m.done.getD i [], fl e.2 = e.2) :
    Program.timesIF fl m = fun i j => Complex.I * (m.get i j : ℂ) := by
  have z := fl_zero hfl
  funext i j
  have hg : fl (m.get i j) = m.get i j := by
    rcases Sparse.get_mem m i j with h0 | ⟨e, he, h1⟩
    · rw [h0, z]
    · rw [h1]; exact h i e he
  unfold Program.timesIF mulC
  apply Complex.ext <;> simp [z, hg]

variable {N z : ℕ} {nb : ℕ → List ℕ}

theorem initMatrix_done (h : RegularLattice N z nb) (sort : List (Triplet ℝ) → List (Triplet ℝ)) (J U : ℝ) {m : Sparse ℝ}
    (hm : initMatrix sort N z nb J U = .val m) :
    m.done = (List.range (N + N * N * N)).map fun r => Sparse.stored (sort (rowList N nb J U r)) := by
  unfold initMatrix at hm
  rw [(realBasis_size N).2] at hm
  have := Sparse.fillRows_done _ (fun r => sort (rowList N nb J U r)) _ _ _ (fun r hr => by
    rw [(row_columns h J U (List.mem_range.1 hr)).1]; rfl) rfl hm
  simpa [Sparse.init] using this

theorem initKineticMatrix_done (sort : List (Triplet ℝ) → List (Triplet ℝ)) (J : ℝ) {m : Sparse ℝ}
    (hm : initKineticMatrix sort N z nb J = .val m) :
    m.done = (List.range N).map fun r => Sparse.stored (sort (kineticTriplets nb J r)) := by
  unfold initKineticMatrix at hm
  have := Sparse.fillRows_done _ (fun r => sort (kineticTriplets nb J r)) _ _ _ (fun r _ => rfl) rfl hm
  simpa [Sparse.init] using this

theorem rowList_values (J U : ℝ) {row : ℕ} (hr : row < N + N * N * N) : ∀ t ∈ rowList N nb J U row, t.value = J ∨ t.value = -J ∨ t.value = U / 2 := by
  intro t ht
  by_cases hN : row < N
  · have e' : rowList N nb J U row = oneTriplets N nb J U row := by
      unfold rowList; rw [rowTriplets_one nb J U hN]; rfl
    rw [e'] at ht
    simp only [oneTriplets, List.mem_append, List.mem_map, List.mem_cons, List.not_mem_nil, or_false] at ht
    rcases ht with ⟨_, _, rfl⟩ | rfl | rfl <;> simp
  · obtain ⟨a, b, c, ha, hb, hc, rfl⟩ := (realBasis_index_bijective N).2.1 row (by omega) hr
    have e' : rowList N nb J U (get3opIndex N a b c) = threeTriplets N nb J U (get3opIndex N a b c) a b c := by
      unfold rowList; rw [rowTriplets_three nb J U ha hb hc]; rfl
    rw [e'] at ht
    simp only [threeTriplets, List.mem_append, List.mem_map, List.mem_cons, List.not_mem_nil, or_false] at ht
    rcases ht with (((⟨_, _, rfl⟩ | ⟨_, _, rfl⟩) | ⟨_, _, rfl⟩) | ht) | rfl
    · simp
    · simp
    · simp
    · split_ifs at ht
      · rw [List.mem_singleton] at ht; subst ht; simp
      · simp at ht
    · simp

theorem done_getD {L : ℕ → List (Triplet ℝ)} {n i : ℕ} {d : List (List (ℕ × ℝ))} (hd : d = (List.range n).map fun r => Sparse.stored (L r)) :
    ∀ e ∈ d.getD i [], i < n ∧ ∃ t ∈ L i, e.2 = t.value := by
  intro e he
  rw [hd, List.getD_eq_getElem?_getD, List.getElem?_map] at he
  by_cases hi : i < n
  · rw [List.getElem?_range hi] at he
    simp only [Option.map_some, Option.getD_some, Sparse.stored, List.mem_map] at he
    obtain ⟨t, ht, rfl⟩ := he
    exact ⟨hi, t, ht, rfl⟩
  · rw [List.getElem?_eq_none (by simpa using hi)] at he
    simp at he

/-- The multiplication of the stored matrix by the imaginary unit is exact when the parameters are floating point numbers. -/
theorem initMatrix_timesI (hfl : Spec.Rounding fl u) (h : RegularLattice N z nb) {sort : List (Triplet ℝ) → List (Triplet ℝ)} (hs : IsSort sort)
    {J U : ℝ} (hJ : fl J = J) (hJ' : fl (-J) = -J) (hU : fl (U / 2) = U / 2) {m : Sparse ℝ} (hm : initMatrix sort N z nb J U = .val m) :
    Program.timesIF fl m = fun i j => Complex.I * (m.get i j : ℂ) := by
  refine timesIF_eq hfl m fun i e he => ?_
  obtain ⟨hi, t, ht, hv⟩ := done_getD (initMatrix_done h sort J U hm) e he
  rcases rowList_values J U hi t ((hs _).1.mem_iff.1 ht) with h1 | h1 | h1 <;> rw [hv, h1] <;> assumption

theorem initKineticMatrix_timesI (hfl : Spec.Rounding fl u) {sort : List (Triplet ℝ) → List (Triplet ℝ)} (hs : IsSort sort)
    {J : ℝ} (hJ' : fl (-J) = -J) {m : Sparse ℝ} (hm : initKineticMatrix sort N z nb J = .val m) :
    Program.timesIF fl m = fun i j => Complex.I * (m.get i j : ℂ) := by
  refine timesIF_eq hfl m fun i e he => ?_
  obtain ⟨hi, t, ht, hv⟩ := done_getD (initKineticMatrix_done sort J hm) e he
  have := (hs _).1.mem_iff.1 ht
  simp only [kineticTriplets, List.mem_map] at this
  obtain ⟨_, _, rfl⟩ := this
  rw [hv]; exact hJ'

theorem initKineticMatrix_stored (h : RegularLattice N z nb) (sort : List (Triplet ℝ) → List (Triplet ℝ)) (hs : IsSort sort) (J : ℝ) {m : Sparse ℝ}
    (hm : initKineticMatrix sort N z nb J = .val m) :
    Stored N (fun i j => Complex.I * (m.get i j : ℂ)) (storedColumns m) z := by
  have hd := initKineticMatrix_done sort J hm
  have hrow : ∀ i < N, storedColumns m i = (sort (kineticTriplets nb J i)).map Triplet.column := fun i hi => by
    unfold storedColumns
    rw [hd, List.getD_eq_getElem?_getD, List.getElem?_map, List.getElem?_range hi]
    simp [Sparse.stored, Function.comp_def]
  refine ⟨fun i hi => ?_, fun i hi j hj => ?_, fun i hi j _ hne => ?_, fun i hi => ?_⟩
  · rw [hrow i hi]
    exact (((hs _).1.map _).nodup_iff).2 (kinetic_columns h J hi).1
  · rw [hrow i hi, List.mem_map] at hj
    obtain ⟨t, ht, rfl⟩ := hj
    exact (kinetic_columns h J hi).2.1 t ((hs _).1.mem_iff.1 ht)
  · have hg : m.get i j ≠ 0 := fun h0 => hne (by simp [h0])
    unfold Sparse.get at hg
    unfold storedColumns
    cases hf : (m.done.getD i []).find? (fun e => e.1 = j) with
    | none => rw [hf] at hg; simp at hg
    | some e =>
      have h1 := List.mem_of_find?_eq_some hf
      have h2 := List.find?_some hf
      simp only [decide_eq_true_eq] at h2
      exact List.mem_map.2 ⟨e, h1, h2⟩
  · rw [hrow i hi, List.length_map, (hs _).1.length_eq]
    exact (kinetic_columns h J hi).2.2.le

end Ieompp.RealSpace

namespace Ieompp.Program

open Ieompp.Spec RealSpace ODE ComplexConjugate

variable {fl sinF : ℝ → ℝ} {u : ℝ}

/-! ## The time loop -/

theorem integrateF_succ (n : ℕ) (h : ℝ) (m : ℕ → ℕ → ℂ) (cols : ℕ → List ℕ) : ∀ (k : ℕ) (w : Work ℂ) (v : List ℂ),
    integrateF fl n h m cols (k + 1) w v = (integrateF fl n h m cols k w v).bind fun r => stepMatrixF fl n h m cols r.1 r.2
  | 0, w, v => by
    simp only [integrateF, Res.bind_val]
    cases stepMatrixF fl n h m cols w v <;> rfl
  | k + 1, w, v => by
    rw [integrateF]
    conv_rhs => rw [integrateF]
    cases hs : stepMatrixF fl n h m cols w v with
    | val r => simp only [Res.bind_val]; exact integrateF_succ n h m cols k r.1 r.2
    | ub => rfl
    | diverges => rfl

/-- The data of a simulation: a symmetric matrix, stored with at most `z` elements in a row, with bounded row sums, the flow
it generates from the first unit vector, and the time step inside the stability region. -/
structure Setting (fl : ℝ → ℝ) (n : ℕ) (sp : Sparse ℝ) (z : ℕ) (B dt : ℝ) : Prop where
  pos : 1 ≤ n
  timesI : timesIF fl sp = fun i j => Complex.I * (sp.get i j : ℂ)
  symm : ∀ p < n, ∀ q < n, sp.get p q = sp.get q p
  bound : ∀ i < n, ∑ j ∈ Finset.range n, |sp.get i j| ≤ B
  nonneg : 0 ≤ B
  stored : Stored n (fun i j => Complex.I * (sp.get i j : ℂ)) (storedColumns sp) z
  step : 0 < dt
  stable : (dt * B) ^ 2 ≤ 8

/-- The first unit vector. -/
def unit0 (n : ℕ) : Fin n → ℂ := fun p => if (p : ℕ) = 0 then 1 else 0

theorem norm2_unit0 {n : ℕ} (hn : 1 ≤ n) : norm2 (unit0 n) = 1 := by
  have : ∑ p : Fin n, ‖unit0 n p‖ ^ 2 = 1 := by
    rw [Finset.sum_congr rfl fun (p : Fin n) _ => (by unfold unit0; split_ifs <;> simp :
      ‖unit0 n p‖ ^ 2 = if (p : ℕ) = 0 then (1 : ℝ) else 0), Fin.sum_univ_eq_sum_range (fun p => if p = 0 then (1 : ℝ) else 0) n,
      Finset.sum_ite_eq', if_pos (Finset.mem_range.2 hn)]
  unfold norm2
  rw [this, Real.sqrt_one]

theorem comp_le_norm2 {n : ℕ} (v : Fin n → ℂ) (i : Fin n) : ‖v i‖ ≤ norm2 v := by
  unfold norm2
  refine Real.le_sqrt_of_sq_le ?_
  exact Finset.single_le_sum (f := fun i => ‖v i‖ ^ 2) (fun i _ => by positivity) (Finset.mem_univ i)

/-- The computed vector after `k` steps. -/
theorem Setting.vector {n : ℕ} {sp : Sparse ℝ} {z : ℕ} {B dt : ℝ} (S : Setting fl n sp z B dt) (hfl : Spec.Rounding fl u) (w : Work ℂ) (k : ℕ) :
    ∃ (w' : Work ℂ) (y : Fin n → ℂ), integrateF fl n dt (timesIF fl sp) (storedColumns sp) k w (List.ofFn (unit0 n)) = .val (w', List.ofFn y) ∧
      ∀ v, IsFlow n (fun i j => sp.get i j) v → norm2 (y - fun p : Fin n => v (k * dt) p) ≤ vectorErrorF u z (dt * B) k := by
  obtain ⟨v, hv⟩ := flow_exists n fun i j => sp.get i j
  have key : ∀ v, IsFlow n (fun i j => sp.get i j) v → ∃ (w' : Work ℂ) (y : Fin n → ℂ),
      integrateF fl n dt (timesIF fl sp) (storedColumns sp) k w (List.ofFn (unit0 n)) = .val (w', List.ofFn y) ∧
        norm2 (y - fun p : Fin n => v (k * dt) p) ≤ vectorErrorF u z (dt * B) k := by
    intro v hv
    have h0 : (fun p : Fin n => v 0 p) = unit0 n := by
      funext p; exact hv.start p p.2
    obtain ⟨w', y, h1, h2⟩ := rk4_total_error hfl (fun i j => sp.get i j) S.symm B dt S.nonneg S.step.le S.bound S.stable S.stored
      (fun t (p : Fin n) => v t p) (fun t => hasDerivAt_pi.2 fun p => by
        refine (hv.flow t p p.2).congr_deriv ?_
        rw [Finset.mul_sum, ← Fin.sum_univ_eq_sum_range (fun q => Complex.I * ((sp.get p q : ℂ) * v t q)) n]
        exact Finset.sum_congr rfl fun j _ => by rw [mul_assoc]) w k
    rw [h0] at h1 h2
    rw [norm2_unit0 S.pos, mul_one] at h2
    rw [← S.timesI] at h1
    exact ⟨w', y, h1, h2⟩
  obtain ⟨w', y, h1, -⟩ := key v hv
  refine ⟨w', y, h1, fun v hv => ?_⟩
  obtain ⟨w1, y1, h2, h3⟩ := key v hv
  rw [h1] at h2
  simp only [Res.val.injEq, Prod.mk.injEq] at h2
  rw [List.ofFn_injective h2.2]
  exact h3

/-- The time loop in floating point arithmetic: what holds of every measured vector holds of the rows. -/
theorem Setting.simulate {O : Type} {n : ℕ} {sp : Sparse ℝ} {z : ℕ} {B dt : ℝ} (S : Setting fl n sp z B dt) (hfl : Spec.Rounding fl u)
    {steps : ℕ} (hsteps : 32 * (steps : ℝ) ^ 2 * u ≤ 1) (h64 : steps < 2 ^ 64) {tEnd : ℝ} (hend : tEnd + dt / 16 ≤ steps * dt)
    {interval : ℕ} {meas : Vars → Res (Vars × O)} (P : ℕ → (Fin n → ℂ) → O → Prop)
    (hmeas : ∀ k w (y : Fin n → ℂ), ∃ x, meas (k, w, List.ofFn y) = .val ((k, w, List.ofFn y), x) ∧ P k y x) (w : Work ℂ) :
    ∃ h s k, initVector n = .val h ∧ Sim.simulateF fl (stepVarsF fl n dt sp) meas dt tEnd interval (0, w, h) = .val s ∧
      ⌈(tEnd - dt / 16) / dt⌉₊ ≤ k ∧ k ≤ ⌈(tEnd + dt / 16) / dt⌉₊ ∧ s.out.length = k / max interval 1 + 1 ∧
      ∀ j, j < s.out.length → ∃ t x, s.out[j]? = some (t, x) ∧ |t - ((j * max interval 1 : ℕ) : ℝ) * dt| ≤ dt / 16 ∧
        ∃ y : Fin n → ℂ, P (j * max interval 1) y x ∧
          ∀ v, IsFlow n (fun i j => sp.get i j) v → norm2 (y - fun p : Fin n => v ((j * max interval 1 : ℕ) * dt) p) ≤
            vectorErrorF u z (dt * B) (j * max interval 1) := by
  obtain ⟨h, e, hl, hh⟩ := initVector_correct S.pos
  have hhu : h = List.ofFn (unit0 n) := by
    apply List.ext_getElem?
    intro i
    by_cases hi : i < n
    · rw [hh i hi, List.getElem?_ofFn]; simp [hi, unit0]
    · rw [List.getElem?_eq_none (by omega), List.getElem?_eq_none (by simp; omega)]
  have hvec := fun k => S.vector hfl w k
  choose W Y hY hYerr using hvec
  choose o ho hP using fun k => hmeas k (W k) (Y k)
  obtain ⟨s, k, h1, -, -, h3, h4, -, h5, h6, h7⟩ := Sim.simulateF_output (step := stepVarsF fl n dt sp) (measure := meas) hfl S.step hsteps h64
    hend (interval := interval) (inv := fun k x => x = (k, W k, List.ofFn (Y k))) (o := o) (by
      rintro k - x rfl
      refine ⟨_, ?_, rfl⟩
      unfold stepVarsF
      have := hY (k + 1)
      rw [integrateF_succ, hY k, Res.bind_val] at this
      rw [this]; rfl) (by
      rintro k - x rfl
      exact ⟨_, ho k, rfl⟩) (h0 := (0, w, h)) (by
      have := hY 0
      simp only [integrateF, Res.val.injEq, Prod.mk.injEq] at this
      rw [hhu, ← this.1, this.2])
  refine ⟨h, s, k, e, h1, h3, h4, h6, fun j hj => ?_⟩
  have hx : s.out[j].2 = o (j * max interval 1) := by
    have := congrArg (fun l => l[j]?) h5
    simp only [List.getElem?_map] at this
    rw [List.getElem?_eq_getElem hj, List.getElem?_range (by omega)] at this
    simpa using this
  refine ⟨s.out[j].1, s.out[j].2, List.getElem?_eq_getElem hj, h7 j hj, Y _, ?_, hYerr _⟩
  rw [hx]; exact hP _

theorem vectorErrorF_nonneg (hu : 0 ≤ u) (z : ℕ) {x : ℝ} (hx : 0 ≤ x) (k : ℕ) : 0 ≤ vectorErrorF u z x k := by
  unfold vectorErrorF
  have h1 : 0 ≤ rk4StepRounding u z x := by
    unfold rk4StepRounding
    refine mul_nonneg (sub_nonneg.2 (one_le_pow₀ (by linarith))) (by positivity)
  have h2 : 1 ≤ (1 + rk4StepRounding u z x) ^ k := one_le_pow₀ (by linarith)
  have : 0 ≤ (k : ℝ) * (x ^ 5 / 120 * Real.exp x) := by positivity
  linarith

theorem flow_norm2 {n : ℕ} (hn : 1 ≤ n) {m : ℕ → ℕ → ℝ} (hsym : ∀ p < n, ∀ q < n, m p q = m q p) {v : ℝ → ℕ → ℂ} (hv : IsFlow n m v) (t : ℝ) :
    norm2 (fun p : Fin n => v t p) ≤ 1 := by
  have h := flow_norm n m hsym v hv.flow t 0
  have h0 : (fun p : Fin n => v 0 p) = unit0 n := by
    funext p; exact hv.start p p.2
  have h1 : norm2 (fun p : Fin n => v t p) = norm2 (fun p : Fin n => v 0 p) := by
    unfold norm2
    rw [Fin.sum_univ_eq_sum_range (fun p => ‖v t p‖ ^ 2) n, Fin.sum_univ_eq_sum_range (fun p => ‖v 0 p‖ ^ 2) n, h]
  rw [h1, h0, norm2_unit0 hn]

/-! ## The programs -/

/-- Hypotheses on the time loop: a rounding with unit roundoff `u`, a positive step width, and not too many steps. -/
structure TimeRun (fl : ℝ → ℝ) (u dt tEnd : ℝ) (steps : ℕ) : Prop where
  rounding : Spec.Rounding fl u
  positive : 0 < dt
  few : 32 * (steps : ℝ) ^ 2 * u ≤ 1
  few64 : steps < 2 ^ 64
  finish : tEnd + dt / 16 ≤ steps * dt

/-- Hypotheses on the table of expectation values: a sine of the library that is accurate to `u`, a filling between 0 and 1. -/
structure TableRun (sinF : ℝ → ℝ) (u filling : ℝ) : Prop where
  small : u ≤ 1 / 1000
  sine : ∀ x, |sinF x - Real.sin x| ≤ u
  nonneg : 0 ≤ filling
  le_one : filling ≤ 1

section Programs
variable {N : ℕ} {sort : List (Triplet ℝ) → List (Triplet ℝ)}

theorem setting3 (hfl : Spec.Rounding fl u) (hN : 3 ≤ N) (hs : IsSort sort) {J U dt : ℝ} (hdt : 0 < dt) (hJ : fl J = J)
    (hJ' : fl (-J) = -J) (hU : fl (U / 2) = U / 2) (hst : (dt * (6 * |J| + |U|)) ^ 2 ≤ 8) :
    ∃ m, initMatrix sort N 2 (Chain.real (K := ℝ) N 1).neighbors J U = .val m ∧ Setting fl (N + N * N * N) m 8 (6 * |J| + |U|) dt := by
  have hreg := chain_regular (Chain.Constructed.real (N := N) (1 : ℝ) (by omega) rfl) hN
  obtain ⟨m, h1, h2, _, _, _, _, h3, _⟩ := initMatrix_ok hreg sort hs J U
  obtain ⟨m', h1', _, hsym⟩ := initMatrix_symm hreg sort hs J U
  rw [h1] at h1'; cases h1'
  rw [h2] at hsym
  refine ⟨m, h1, by omega, initMatrix_timesI hfl hreg hs hJ hJ' hU h1, hsym, ?_, by positivity, initMatrix_stored hreg sort hs J U h1, hdt, hst⟩
  intro i hi
  rw [Finset.sum_congr rfl fun c _ => by rw [h3 i hi c]]
  refine ((sum_abs_columnSum _ _).trans (row_abs_sum hreg J U hi)).trans (le_of_eq ?_)
  push_cast; ring

theorem setting1 (hfl : Spec.Rounding fl u) (hN : 3 ≤ N) (hs : IsSort sort) {J dt : ℝ} (hdt : 0 < dt)
    (hJ' : fl (-J) = -J) (hst : (dt * (2 * |J|)) ^ 2 ≤ 8) :
    ∃ m, initKineticMatrix sort N 2 (Chain.real (K := ℝ) N 1).neighbors J = .val m ∧ Setting fl N m 2 (2 * |J|) dt := by
  have hreg := chain_regular (Chain.Constructed.real (N := N) (1 : ℝ) (by omega) rfl) hN
  obtain ⟨m, h1, h2, _, _, _, _, h3⟩ := initKineticMatrix_ok hreg sort hs J
  obtain ⟨m', h1', _, hsym⟩ := initKineticMatrix_symm hreg sort hs J
  rw [h1] at h1'; cases h1'
  rw [h2] at hsym
  refine ⟨m, h1, by omega, initKineticMatrix_timesI hfl hs hJ' h1, hsym, ?_, by positivity, initKineticMatrix_stored hreg sort hs J h1, hdt, hst⟩
  intro i hi
  rw [Finset.sum_congr (g := fun c => if c ∈ (Chain.real (K := ℝ) N 1).neighbors i then |J| else 0) rfl fun c hc => by
    rw [h3 i hi c (Finset.mem_range.1 hc), apply_ite abs, abs_neg, abs_zero]]
  rw [sum_neighbors (hreg.nodup i hi) (hreg.lt i hi) (fun _ => |J|), List.map_const', List.sum_replicate, hreg.length i hi,
    nsmul_eq_mul]
  norm_num

/-- **C109** for `hubbard_real_1d_rk4`, every rounding. -/
theorem real1dRk4F_correct {filling dt tEnd : ℝ} {steps : ℕ} (hr : TimeRun fl u dt tEnd steps) (ht : TableRun sinF u filling) (hN : 3 ≤ N) (hs : IsSort sort)
    {J U : ℝ} (hJ : fl J = J) (hJ' : fl (-J) = -J) (hU : fl (U / 2) = U / 2) (hst : (dt * (6 * |J| + |U|)) ^ 2 ≤ 8) (interval : ℕ)
    {e : Execution} (he : e.Valid N) (w : Work ℂ) :
    ∃ m s k, initMatrix sort N 2 (Chain.real (K := ℝ) N 1).neighbors J U = .val m ∧
      real1dRk4F fl sinF sort e w N J U dt tEnd interval filling = .val s ∧
      ⌈(tEnd - dt / 16) / dt⌉₊ ≤ k ∧ k ≤ ⌈(tEnd + dt / 16) / dt⌉₊ ∧ s.out.length = k / max interval 1 + 1 ∧
      ∀ {R : Type} [Ring R] [Algebra ℂ R] (C : CAROn N R) (ω : R →ₗ[ℂ] ℂ), QuasiFree C ω (ringCorrelation filling N) →
      ∀ v, IsFlow (N + N * N * N) (fun i j => m.get i j) v →
      ∀ S, (∀ p < N + N * N * N, ∑ q ∈ Finset.range (N + N * N * N), ‖ω (C.basisOp (basis3 N) p * C.basisOpAdj (basis3 N) q)‖ ≤ S) →
      ∀ j < s.out.length, ∃ t x, s.out[j]? = some (t, x) ∧ |t - ((j * max interval 1 : ℕ) : ℝ) * dt| ≤ dt / 16 ∧
        |x - (ω (C.superpose (basis3 N) (N + N * N * N) (v ((j * max interval 1 : ℕ) * dt)) *
            C.superposeAdj (basis3 N) (N + N * N * N) (v ((j * max interval 1 : ℕ) * dt)))).re| ≤
          quadraticErrorF u ((N + N * N * N) * (N + N * N * N + 1) / 2 + e.threads (j * max interval 1) + 72)
            S (17 * ((N + N * N * N : ℕ) : ℝ)) (vectorErrorF u 8 (dt * (6 * |J| + |U|)) (j * max interval 1)) := by
  have hfl := hr.rounding
  have hsz := (realBasis_size N).2
  obtain ⟨values, e1, ev, hev, htab⟩ := tableF_ok hfl ht.small ht.sine (N := N) (by omega) ht.nonneg ht.le_one he.table
  obtain ⟨m, h1, S⟩ := setting3 hfl hN hs hr.positive hJ hJ' hU hst
  have hc : getConjugate e.conjugation (basis3 N) = conjOf (basis3 N) := parallelModify_eq_map _ _ _ he.conjugation
  set n := N + N * N * N with hn
  obtain ⟨E', hW⟩ := weightsF_ok hfl (ev := ringCorrelation filling N) (ev' := ev) fun a ha b hb => (htab a ha b hb).2
  set E : ℕ → ℕ → ℝ := weight (ringCorrelation filling N) (basis3 N) with hE
  have hsymE : ∀ i < n, ∀ j < n, E i j = E j i := weight_symm fun a _ b _ => ringCorrelation_symm filling N a b
  obtain ⟨h, s, k, i1, i2, i3, i4, i5, i6⟩ := S.simulate hfl hr.few hr.few64 hr.finish (interval := interval)
    (meas := fun s => (siteOccupation3F fl (siteEv ev) (basis3 N) (conjOf (basis3 N)) s.2.2 (e.threads s.1) (e.loop1 s.1)
      (e.loop2 s.1) (e.loop3 s.1)).map fun x => (s, x))
    (fun k y x => |x - (form n E fun i => (List.ofFn y).getD i 0).re| ≤
      ((1 + u) ^ (n * (n + 1) / 2 + e.threads k + 72) - 1) * (17 * (n : ℝ) * ∑ i ∈ Finset.range n, ‖(List.ofFn y).getD i 0‖ ^ 2)) (by
      intro k w y
      have l2 := he.loop2 k
      have l3 := he.loop3 k
      rw [hsz] at l2 l3
      obtain ⟨x, hx, hx'⟩ := siteOccupation3F_close hfl hW (by omega) (vec := List.ofFn y) List.length_ofFn hsymE (he.loop1 k) l2 l3
      exact ⟨x, by show Res.map _ (siteOccupation3F fl (siteEv ev) (basis3 N) (conjOf (basis3 N)) (List.ofFn y) (e.threads k) (e.loop1 k) (e.loop2 k) (e.loop3 k)) = _; rw [hx]; rfl, hx'⟩) w
  refine ⟨m, s, k, h1, ?_, i3, i4, i5, ?_⟩
  · unfold real1dRk4F
    have h2U : 2 * fl (U / 2) = U := by rw [hU]; ring
    simp only [e1, h2U, h1, Res.bind_val, hsz, i1, hc, hev]
    exact i2
  · intro R _ _ C ω Q v hv B hB j hj
    obtain ⟨t, x, hx, htt, y, hP, hy⟩ := i6 j hj
    have hw : ∀ p < n, ∀ q < n, ω (C.basisOp (basis3 N) p * C.basisOpAdj (basis3 N) q) = (E p q : ℂ) := fun p hp q hq =>
      weight_state Q hp hq
    refine ⟨t, x, hx, htt, ?_⟩
    have hrow : ∀ p < n, ∑ q ∈ Finset.range n, |E p q| ≤ B := fun p hp => by
      refine le_of_eq_of_le (Finset.sum_congr rfl fun q hq => ?_) (hB p hp)
      rw [hw p hp q (Finset.mem_range.1 hq), Complex.norm_real, Real.norm_eq_abs]
    have hB0 : 0 ≤ B := (Finset.sum_nonneg fun _ _ => norm_nonneg _).trans (hB 0 (by have := S.pos; omega))
    rw [state_superpose C ω _ n _ E hw]
    exact quadratic_close_rows hfl.nonneg (by positivity) hB0 hrow (fun q hq => by
      rw [Finset.sum_congr rfl fun p hp => by rw [hsymE p (Finset.mem_range.1 hp) q hq]]
      exact hrow q hq) (flow_norm2 S.pos S.symm hv _) (hy v hv) hP

/-- **C109** for `hubbard_real_1d_rk4_coefficients`, every rounding. -/
theorem real1dRk4CoefficientsF_correct {dt tEnd : ℝ} {steps : ℕ} (hr : TimeRun fl u dt tEnd steps) (hN : 3 ≤ N)
    (hs : IsSort sort) {J U : ℝ} (hJ : fl J = J) (hJ' : fl (-J) = -J) (hU : fl (U / 2) = U / 2) (hst : (dt * (6 * |J| + |U|)) ^ 2 ≤ 8)
    (interval : ℕ) (w : Work ℂ) :
    ∃ m s k, initMatrix sort N 2 (Chain.real (K := ℝ) N 1).neighbors J U = .val m ∧
      real1dRk4CoefficientsF fl sort w N J U dt tEnd interval = .val s ∧
      ⌈(tEnd - dt / 16) / dt⌉₊ ≤ k ∧ k ≤ ⌈(tEnd + dt / 16) / dt⌉₊ ∧ s.out.length = k / max interval 1 + 1 ∧
      ∀ v, IsFlow (N + N * N * N) (fun i j => m.get i j) v → ∀ j < s.out.length, ∃ t xs,
        s.out[j]? = some (t, xs) ∧ |t - ((j * max interval 1 : ℕ) : ℝ) * dt| ≤ dt / 16 ∧ xs.length = 2 * (N + N * N * N) ∧
        ∀ p < N + N * N * N, ∃ x y, xs[2 * p]? = some x ∧ xs[2 * p + 1]? = some y ∧
          ‖(⟨x, y⟩ : ℂ) - v ((j * max interval 1 : ℕ) * dt) p‖ ≤ vectorErrorF u 8 (dt * (6 * |J| + |U|)) (j * max interval 1) := by
  have hfl := hr.rounding
  have hsz := (realBasis_size N).2
  obtain ⟨m, h1, S⟩ := setting3 hfl hN hs hr.positive hJ hJ' hU hst
  obtain ⟨h, s, k, i1, i2, i3, i4, i5, i6⟩ := S.simulate hfl hr.few hr.few64 hr.finish (interval := interval)
    (meas := fun s => .val (s, coefficientRow s.2.2)) (fun _ y x => x = coefficientRow (List.ofFn y)) (fun k w y => ⟨_, rfl, rfl⟩) w
  refine ⟨m, s, k, h1, ?_, i3, i4, i5, ?_⟩
  · unfold real1dRk4CoefficientsF
    have h2U : 2 * fl (U / 2) = U := by rw [hU]; ring
    simp only [h2U, h1, Res.bind_val, hsz, i1]
    exact i2
  · intro v hv j hj
    obtain ⟨t, x, hx, htt, y, hP, hy⟩ := i6 j hj
    refine ⟨t, x, hx, htt, by rw [hP, (coefficientRow_get _ 0).1]; simp, fun p hp => ?_⟩
    obtain ⟨-, g1, g2⟩ := coefficientRow_get (List.ofFn y) p
    rw [List.getElem?_ofFn, dif_pos hp, Option.map_some] at g1 g2
    rw [hP]
    exact ⟨_, _, g1, g2, (comp_le_norm2 (y - fun p : Fin (N + N * N * N) => v _ p) ⟨p, hp⟩).trans (hy v hv)⟩

/-- **C109** for `hubbard_real_1d_kinetic_rk4_coefficients`, every rounding. -/
theorem real1dKineticRk4CoefficientsF_correct {dt tEnd : ℝ} {steps : ℕ} (hr : TimeRun fl u dt tEnd steps) (hN : 3 ≤ N)
    (hs : IsSort sort) {J : ℝ} (hJ' : fl (-J) = -J) (hst : (dt * (2 * |J|)) ^ 2 ≤ 8) (interval : ℕ) (w : Work ℂ) :
    ∃ s k, real1dKineticRk4CoefficientsF fl sort w N J dt tEnd interval = .val s ∧
      ⌈(tEnd - dt / 16) / dt⌉₊ ≤ k ∧ k ≤ ⌈(tEnd + dt / 16) / dt⌉₊ ∧ s.out.length = k / max interval 1 + 1 ∧
      ∀ j < s.out.length, ∃ t xs,
        s.out[j]? = some (t, xs) ∧ |t - ((j * max interval 1 : ℕ) : ℝ) * dt| ≤ dt / 16 ∧ xs.length = 2 * N ∧
        ∀ p < N, ∃ x y, xs[2 * p]? = some x ∧ xs[2 * p + 1]? = some y ∧
          ‖(⟨x, y⟩ : ℂ) - hoppingAmplitude N J ((j * max interval 1 : ℕ) * dt) p‖ ≤
            vectorErrorF u 2 (dt * (2 * |J|)) (j * max interval 1) := by
  have hfl := hr.rounding
  have hsz := (realBasis_size N).1
  have hreg := chain_regular (Chain.Constructed.real (N := N) (1 : ℝ) (by omega) rfl) hN
  obtain ⟨m, h1, S⟩ := setting1 hfl hN hs hr.positive hJ' hst
  obtain ⟨m', h1', _, _, _, _, _, h3⟩ := initKineticMatrix_ok hreg sort hs J
  rw [h1] at h1'; cases h1'
  obtain ⟨h, s, k, i1, i2, i3, i4, i5, i6⟩ := S.simulate hfl hr.few hr.few64 hr.finish (interval := interval)
    (meas := fun s => .val (s, coefficientRow s.2.2)) (fun _ y x => x = coefficientRow (List.ofFn y)) (fun k w y => ⟨_, rfl, rfl⟩) w
  refine ⟨s, k, ?_, i3, i4, i5, ?_⟩
  · unfold real1dKineticRk4CoefficientsF
    simp only [h1, Res.bind_val, hsz, i1]
    exact i2
  · intro j hj
    obtain ⟨t, x, hx, htt, y, hP, hy⟩ := i6 j hj
    refine ⟨t, x, hx, htt, by rw [hP, (coefficientRow_get _ 0).1]; simp, fun p hp => ?_⟩
    obtain ⟨-, g1, g2⟩ := coefficientRow_get (List.ofFn y) p
    rw [List.getElem?_ofFn, dif_pos hp, Option.map_some] at g1 g2
    rw [hP]
    exact ⟨_, _, g1, g2, (comp_le_norm2 (y - fun p : Fin N => hoppingAmplitude N J _ p) ⟨p, hp⟩).trans (hy _ (hopping_flow hN J h3))⟩

/-- The quadratic form of the kinetic program is the filling at all times. -/
theorem kinetic_form (hN : 3 ≤ N) {J filling : ℝ} {m : Sparse ℝ} (hs : IsSort sort)
    (hm : initKineticMatrix sort N 2 (Chain.real (K := ℝ) N 1).neighbors J = .val m) {v : ℝ → ℕ → ℂ} (hv : IsFlow N (fun i j => m.get i j) v) (t : ℝ) :
    form N (ringCorrelation filling N) (v t) = (filling : ℂ) := by
  have hreg := chain_regular (Chain.Constructed.real (N := N) (1 : ℝ) (by omega) rfl) hN
  obtain ⟨m', h1, h2, _, _, _, _, h3⟩ := initKineticMatrix_ok hreg sort hs J
  rw [hm] at h1; cases h1
  obtain ⟨m', h1', _, hsym⟩ := initKineticMatrix_symm hreg sort hs J
  rw [hm] at h1'; cases h1'
  rw [h2] at hsym
  set E : ℕ → ℕ → ℝ := ringCorrelation filling N with hE
  have hcomm : ∀ p < N, ∀ q < N, ∑ r ∈ Finset.range N, m.get p r * E r q = ∑ r ∈ Finset.range N, E p r * m.get r q := by
    intro p hp q hq
    rw [Finset.sum_congr (g := fun r => if r ∈ (Chain.real (K := ℝ) N 1).neighbors p then -J * E r q else 0) rfl
      fun r hr => by rw [h3 p hp r (Finset.mem_range.1 hr), ite_mul, zero_mul],
      sum_neighbors (hreg.nodup p hp) (hreg.lt p hp) (fun r => -J * E r q)]
    rw [Finset.sum_congr (g := fun r => if r ∈ (Chain.real (K := ℝ) N 1).neighbors q then E p r * -J else 0) rfl
      fun r hr => by rw [hsym r (Finset.mem_range.1 hr) q hq, h3 q hq r (Finset.mem_range.1 hr), mul_ite, mul_zero],
      sum_neighbors (hreg.nodup q hq) (hreg.lt q hq) (fun r => E p r * -J)]
    rw [List.sum_map_mul_left, List.sum_map_mul_right, hopping_correlation_comm hN filling hp hq, mul_comm]
  rw [form_const hsym hcomm hv t, form_unit (by omega) E _ hv.start]
  have : E 0 0 = filling := by
    rw [hE]; unfold ringCorrelation ringDistance; simp [chainCorrelation_zero]
  rw [this]

/-- **C109** for `hubbard_real_1d_kinetic_rk4`, every rounding: the exact value is the filling (C60). -/
theorem real1dKineticRk4F_correct {filling dt tEnd : ℝ} {steps : ℕ} (hr : TimeRun fl u dt tEnd steps) (ht : TableRun sinF u filling) (hN : 3 ≤ N)
    (hs : IsSort sort) {J : ℝ} (hJ' : fl (-J) = -J) (hst : (dt * (2 * |J|)) ^ 2 ≤ 8) (interval : ℕ)
    {e : Execution} (he : e.ValidKinetic N) (w : Work ℂ) :
    ∃ s k, real1dKineticRk4F fl sinF sort e w N J dt tEnd interval filling = .val s ∧
      ⌈(tEnd - dt / 16) / dt⌉₊ ≤ k ∧ k ≤ ⌈(tEnd + dt / 16) / dt⌉₊ ∧ s.out.length = k / max interval 1 + 1 ∧
      ∀ S, (∀ a < N, ∑ b ∈ Finset.range N, |ringCorrelation filling N a b| ≤ S) →
      ∀ j < s.out.length, ∃ t x, s.out[j]? = some (t, x) ∧ |t - ((j * max interval 1 : ℕ) : ℝ) * dt| ≤ dt / 16 ∧
        |x - filling| ≤ quadraticErrorF u (N * N + e.threads (j * max interval 1) + 72) S (2 * (N : ℝ))
            (vectorErrorF u 2 (dt * (2 * |J|)) (j * max interval 1)) := by
  have hfl := hr.rounding
  have hsz := (realBasis_size N).1
  obtain ⟨values, e1, ev, hev, htab⟩ := tableF_ok hfl ht.small ht.sine (N := N) (by omega) ht.nonneg ht.le_one he.table
  obtain ⟨m, h1, S⟩ := setting1 hfl hN hs hr.positive hJ' hst
  have hc : getConjugate e.conjugation (basis1 N) = conjOf (basis1 N) := parallelModify_eq_map _ _ _ he.conjugation
  have hg : ∀ i < N, (basis1 N)[i]? = some (Spec.one i) := fun i hi => ((realBasis_getElem N).1 i hi).1
  obtain ⟨v, hv⟩ := flow_exists N fun i j => m.get i j
  obtain ⟨h, s, k, i1, i2, i3, i4, i5, i6⟩ := S.simulate hfl hr.few hr.few64 hr.finish (interval := interval)
    (meas := fun s => (siteOccupation1F fl (siteEv ev) (basis1 N) (conjOf (basis1 N)) s.2.2 (e.threads s.1) (e.loop1 s.1)).map fun x => (s, x))
    (fun k y x => |x - (form N (ringCorrelation filling N) fun i => (List.ofFn y).getD i 0).re| ≤
      ((1 + u) ^ (N * N + e.threads k + 72) - 1) * (2 * (N : ℝ) * ∑ i ∈ Finset.range N, ‖(List.ofFn y).getD i 0‖ ^ 2)) (by
      intro k w y
      have l1 := he.loop1 k
      rw [hsz] at l1
      obtain ⟨x, hx, hx'⟩ := siteOccupation1F_close (k := 67) (E := ringCorrelation filling N) (E' := fun i j => fl (2 * ev i j)) hfl
        (ev' := siteEv ev) (basis := basis1 N) (cb := conjOf (basis1 N)) (fun i hi j hj => ⟨by
          rw [evAt, vecAt_get (hg i hi), vecAt_get (conj_get (hg j hj))]; rfl, by
          have := ApproxR.const_mul hfl (c := 2) (by norm_num) (htab i hi j hj).2
          exact this.mono hfl.nonneg (by omega) (by norm_num)⟩) (vec := List.ofFn y) List.length_ofFn l1
      exact ⟨x, by show Res.map _ (siteOccupation1F fl (siteEv ev) (basis1 N) (conjOf (basis1 N)) (List.ofFn y) (e.threads k) (e.loop1 k)) = _; rw [hx]; rfl, hx'⟩) w
  refine ⟨s, k, ?_, i3, i4, i5, ?_⟩
  · unfold real1dKineticRk4F
    simp only [e1, h1, Res.bind_val, hsz, i1, hc, hev]
    exact i2
  · intro B hB j hj
    obtain ⟨t, x, hx, htt, y, hP, hy⟩ := i6 j hj
    refine ⟨t, x, hx, htt, ?_⟩
    have hB0 : 0 ≤ B := (Finset.sum_nonneg fun _ _ => abs_nonneg _).trans (hB 0 (by omega))
    have := quadratic_close_rows hfl.nonneg (by positivity) hB0 hB (fun q hq => by
      rw [Finset.sum_congr rfl fun p _ => by rw [ringCorrelation_symm filling N p q]]
      exact hB q hq) (flow_norm2 S.pos S.symm hv _) (hy v hv) hP
    rw [kinetic_form hN hs h1 hv, Complex.ofReal_re] at this
    exact this

end Programs

end Ieompp.Program
