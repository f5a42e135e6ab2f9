import Verif.Model.Simulation
import Mathlib.Tactic.Linarith
import Mathlib.Tactic.FieldSimp
import Mathlib.Tactic.Ring
import Mathlib.Tactic.NormNum
import Mathlib.Algebra.Order.Floor.Semiring

/-!
# C45: the measurement loop
-/

set_option autoImplicit false
set_option linter.unusedSectionVars false

namespace Ieompp.Sim

variable {H O : Type*}

theorem cround_nat (k : ℕ) : cround (k : ℝ) = k := by
  unfold cround
  rw [if_pos (Nat.cast_nonneg k), Int.floor_eq_iff]
  constructor <;> push_cast <;> linarith

/-- `cround` is `std::round`: the nearest integer, and of two nearest integers the one further away from zero. -/
theorem cround_round (x : ℝ) : |x - cround x| ≤ 1 / 2 ∧ (|x - cround x| = 1 / 2 → |x| ≤ |(cround x : ℝ)|) := by
  unfold cround
  split_ifs with h
  · have h1 := Int.floor_le (x + 1 / 2)
    have h2 := Int.lt_floor_add_one (x + 1 / 2)
    refine ⟨abs_le.2 ⟨by linarith, by linarith⟩, fun e => ?_⟩
    rw [abs_of_nonneg h]
    refine le_trans ?_ (le_abs_self _)
    by_contra hc
    rw [abs_of_pos (by linarith)] at e
    linarith
  · have h1 := Int.le_ceil (x - 1 / 2)
    have h2 := Int.ceil_lt_add_one (x - 1 / 2)
    refine ⟨abs_le.2 ⟨by linarith, by linarith⟩, fun e => ?_⟩
    rw [abs_of_neg (not_le.1 h)]
    refine le_trans ?_ (neg_le_abs _)
    by_contra hc
    rw [abs_of_neg (by linarith)] at e
    linarith

theorem castU64_nat {k : ℕ} (h : k < 2 ^ 64) : castU64 (k : ℤ) = .val k := by
  unfold castU64
  rw [if_pos]
  · simp
  · exact ⟨by positivity, by exact_mod_cast h⟩

/-- **C45**: for grid times the test is exact: `interval` steps (at least one) have passed. -/
theorem hasTimeIntervalPassed_grid {dt : ℝ} (hdt : 0 < dt) {a b I : ℕ} (h : b - a < 2 ^ 64) :
    hasTimeIntervalPassed (b * dt) (a * dt) dt I = .val (decide (a < b ∧ a + I ≤ b)) := by
  unfold hasTimeIntervalPassed
  by_cases hab : a < b
  · have hab' : ¬ (a : ℝ) * dt ≥ b * dt := by
      rw [not_le]; exact mul_lt_mul_of_pos_right (by exact_mod_cast hab) hdt
    rw [if_neg hab', if_neg hdt.ne']
    have e : ((b : ℝ) * dt - a * dt) / dt = ((b - a : ℕ) : ℝ) := by
      rw [Nat.cast_sub hab.le]; field_simp
    rw [e, cround_nat, castU64_nat h, Res.map_val]
    congr 1
    simp only [decide_eq_decide]; omega
  · have : (a : ℝ) * dt ≥ b * dt := mul_le_mul_of_nonneg_right (by exact_mod_cast not_lt.1 hab) hdt.le
    rw [if_pos this]; simp [hab]

/-- The rows of the output after step `k`: one row for every multiple of `I` up to `k`. -/
def rows (dt : ℝ) (I : ℕ) (o : ℕ → O) (m : ℕ) : List (ℝ × O) :=
  (List.range (m + 1)).map fun j => ((j * I : ℕ) * dt, o (j * I))

theorem rows_succ (dt : ℝ) (I : ℕ) (o : ℕ → O) (m : ℕ) :
    rows dt I o (m + 1) = rows dt I o m ++ [(((m + 1) * I : ℕ) * dt, o ((m + 1) * I))] := by
  unfold rows; rw [List.range_succ, List.map_append]; rfl

/-- The state before the test at step `k`. -/
def stateAt (dt : ℝ) (I : ℕ) (h : H) (o : ℕ → O) (k m : ℕ) : State H O :=
  { h := h, t := k * dt, last := (m * I : ℕ) * dt, out := rows dt I o m }

theorem maybeMeasure_at {measure : H → Res (H × O)} {dt : ℝ} (hdt : 0 < dt) {interval : ℕ} (hI : interval < 2 ^ 64)
    {inv : ℕ → H → Prop} {o : ℕ → O} {k : ℕ} (hm : ∀ x, inv k x → ∃ y, measure x = .val (y, o k) ∧ inv k y) {x : H}
    (hx : inv k x) :
    ∃ y, maybeMeasureM measure dt interval (stateAt dt (max interval 1) x o k ((k - 1) / max interval 1)) =
      .val (stateAt dt (max interval 1) y o k (k / max interval 1)) ∧ inv k y := by
  set I := max interval 1 with hIdef
  have hI1 : 1 ≤ I := le_max_right _ _
  have hII : interval ≤ I := le_max_left _ _
  have hI64 : I < 2 ^ 64 := by rw [hIdef]; exact max_lt hI (by norm_num)
  have hlo : (k - 1) / I * I ≤ k - 1 := Nat.div_mul_le_self _ _
  have hhi : k - 1 < (k - 1) / I * I + I := by
    have := Nat.lt_div_mul_add (a := k - 1) (b := I) (by omega); exact this
  unfold maybeMeasureM
  rw [show (stateAt dt I x o k ((k - 1) / I)).t = k * dt from rfl,
    show (stateAt dt I x o k ((k - 1) / I)).last = ((k - 1) / I * I : ℕ) * dt from rfl,
    hasTimeIntervalPassed_grid hdt (by omega), Res.bind_val]
  by_cases hk : (k - 1) / I * I < k ∧ (k - 1) / I * I + interval ≤ k
  · have hkI : k = ((k - 1) / I + 1) * I := by
      have : (k - 1) / I * I + I ≤ k := by
        rcases le_total interval 1 with h1 | h1
        · have : I = 1 := by omega
          omega
        · have : I = interval := by omega
          omega
      rw [Nat.add_mul]; omega
    have hdiv : k / I = (k - 1) / I + 1 := by
      conv_lhs => rw [hkI]
      exact Nat.mul_div_cancel _ (by omega)
    obtain ⟨y, e, hy⟩ := hm x hx
    refine ⟨y, ?_, hy⟩
    rw [if_pos (by simpa using hk), show (stateAt dt I x o k ((k - 1) / I)).h = x from rfl, e, Res.map_val, hdiv]
    congr 1
    unfold stateAt
    rw [rows_succ, ← hkI]
  · have hdiv : k / I = (k - 1) / I := by
      have h2 : k < (k - 1) / I * I + I := by omega
      apply Nat.div_eq_of_lt_le
      · omega
      · rw [Nat.add_mul]; omega
    exact ⟨x, by rw [if_neg (by simpa using hk), hdiv], hx⟩

theorem body_at {step : H → Res H} {measure : H → Res (H × O)} {dt : ℝ} (hdt : 0 < dt) {interval : ℕ} (hI : interval < 2 ^ 64)
    {inv : ℕ → H → Prop} {o : ℕ → O} {k : ℕ} (hs : ∀ x, inv k x → ∃ y, step x = .val y ∧ inv (k + 1) y)
    (hm : ∀ x, inv k x → ∃ y, measure x = .val (y, o k) ∧ inv k y) {x : H} (hx : inv k x) :
    ∃ y, bodyM step measure dt interval (stateAt dt (max interval 1) x o k ((k - 1) / max interval 1)) =
      .val (stateAt dt (max interval 1) y o (k + 1) (k / max interval 1)) ∧ inv (k + 1) y := by
  obtain ⟨y, e, hy⟩ := maybeMeasure_at hdt hI hm hx
  obtain ⟨z, e', hz⟩ := hs y hy
  refine ⟨z, ?_, hz⟩
  unfold bodyM
  rw [e, Res.bind_val, show (stateAt dt (max interval 1) y o k (k / max interval 1)).h = y from rfl, e', Res.map_val]
  congr 1
  unfold stateAt
  congr 1
  push_cast; ring

/-- **C45** in general: let `inv k` hold for the variables after `k` steps, preserved by the step and by the measurement,
and let the measurement after `k` steps give `o k`. Then for every step size `dt > 0`, every end time and every interval the
program terminates; with `n = ⌈t_end/dt⌉` it performs exactly `n` integration steps, ends at time `n·dt`, and its output
consists of exactly one row for each of the steps `0, I, 2I, …` up to `n`. -/
theorem simulateM_output {step : H → Res H} {measure : H → Res (H × O)} {dt tEnd : ℝ} (hdt : 0 < dt) {interval : ℕ}
    (hI : interval < 2 ^ 64) {inv : ℕ → H → Prop} {o : ℕ → O}
    (hs : ∀ k < ⌈tEnd / dt⌉₊, ∀ x, inv k x → ∃ y, step x = .val y ∧ inv (k + 1) y)
    (hm : ∀ k ≤ ⌈tEnd / dt⌉₊, ∀ x, inv k x → ∃ y, measure x = .val (y, o k) ∧ inv k y) {h0 : H} (h00 : inv 0 h0) :
    ∃ s, simulateM step measure dt tEnd interval h0 = .val s ∧
      inv ⌈tEnd / dt⌉₊ s.h ∧ s.t = ⌈tEnd / dt⌉₊ * dt ∧
      s.out = (List.range (⌈tEnd / dt⌉₊ / max interval 1 + 1)).map fun j =>
        (((j * max interval 1 : ℕ) : ℝ) * dt, o (j * max interval 1)) := by
  set n := ⌈tEnd / dt⌉₊ with hn
  set I := max interval 1 with hIdef
  obtain ⟨x0, e0, hx0⟩ := hm 0 (by omega) h0 h00
  have hiter : ∀ k ≤ n, ∃ y, (fun s : Res (State H O) => s.bind (bodyM step measure dt interval))^[k]
      (.val (stateAt dt I x0 o 0 0)) = .val (stateAt dt I y o k ((k - 1) / I)) ∧ inv k y := by
    intro k
    induction k with
    | zero => intro _; exact ⟨x0, by simp, hx0⟩
    | succ k ih =>
      intro hk
      obtain ⟨y, e, hy⟩ := ih (by omega)
      obtain ⟨z, e', hz⟩ := body_at hdt hI (hs k (by omega)) (hm k (by omega)) hy
      refine ⟨z, ?_, hz⟩
      rw [Function.iterate_succ_apply', e, Res.bind_val, e']
      simp [hIdef]
  obtain ⟨y, hy1, hy2⟩ := hiter n le_rfl
  have hloop : whileLoop (running tEnd) (fun s : Res (State H O) => s.bind (bodyM step measure dt interval))
      (.val (stateAt dt I x0 o 0 0)) = .val (.val (stateAt dt I y o n ((n - 1) / I))) := by
    rw [whileLoop_val]
    refine ⟨n, hy1.symm, ?_, ?_⟩
    · show ¬ ((n : ℝ) * dt < tEnd)
      rw [not_lt, ← div_le_iff₀ hdt]
      exact Nat.le_ceil _
    · intro k hk
      obtain ⟨z, hz, -⟩ := hiter k hk.le
      rw [hz]
      show (k : ℝ) * dt < tEnd
      rw [← lt_div_iff₀ hdt]
      exact Nat.lt_ceil.1 hk
  obtain ⟨z, e', hz⟩ := maybeMeasure_at hdt hI (hm n le_rfl) hy2
  refine ⟨stateAt dt I z o n (n / I), ?_, hz, rfl, rfl⟩
  unfold simulateM
  rw [e0, Res.bind_val]
  have e : ({ h := x0, t := 0, last := 0, out := [(0, o 0)] } : State H O) = stateAt dt I x0 o 0 0 := by
    unfold stateAt rows; simp
  simp only [e]
  rw [hloop, Res.bind_val, id, Res.bind_val, e']

/-- **C45**: for every step size `dt > 0`, every end time and every interval the program terminates; with
`n = ⌈t_end/dt⌉` (and `n = 0` for `t_end ≤ 0`) it performs exactly `n` integration steps, ends at time `n·dt`, and its output
consists of exactly one row for each of the steps `0, I, 2I, …` up to `n` (`I` = the interval, at least one), each with
the observable of the coefficient vector after exactly that number of steps. -/
theorem simulate_output {step : H → Res H} {measure : H → Res O} {dt tEnd : ℝ} (hdt : 0 < dt) {interval : ℕ}
    (hI : interval < 2 ^ 64) {h : ℕ → H} {o : ℕ → O}
    (hs : ∀ k < ⌈tEnd / dt⌉₊, step (h k) = .val (h (k + 1)))
    (hm : ∀ k ≤ ⌈tEnd / dt⌉₊, measure (h k) = .val (o k)) :
    ∃ s, simulate step measure dt tEnd interval (h 0) = .val s ∧
      s.h = h ⌈tEnd / dt⌉₊ ∧ s.t = ⌈tEnd / dt⌉₊ * dt ∧
      s.out = (List.range (⌈tEnd / dt⌉₊ / max interval 1 + 1)).map fun j =>
        (((j * max interval 1 : ℕ) : ℝ) * dt, o (j * max interval 1)) :=
  simulateM_output (inv := fun k x => x = h k) hdt hI (fun k hk x hx => ⟨h (k + 1), by rw [hx, hs k hk], rfl⟩)
    (fun k hk x hx => ⟨h k, by rw [hx, hm k hk, Res.map_val], rfl⟩) rfl

/-- **C45**: no time is measured twice; the rows are in increasing order of time. -/
theorem simulate_times_increasing {dt : ℝ} (hdt : 0 < dt) (I n : ℕ) (hI : 1 ≤ I) (o : ℕ → O) :
    ((rows dt I o n).map Prod.fst).Pairwise (· < ·) := by
  unfold rows
  rw [List.map_map, List.pairwise_map]
  refine List.Pairwise.imp ?_ List.pairwise_lt_range
  intro a b hab
  have : a * I < b * I := (Nat.mul_lt_mul_right (by omega)).2 hab
  exact mul_lt_mul_of_pos_right (by exact_mod_cast this) hdt

/-- **C45** (refutation of one clause): the final state is measured only if the number of steps is a multiple of the
interval: the time of the last row is the final time iff `I ∣ n`. -/
theorem simulate_final_measured_iff {step : H → Res H} {measure : H → Res O} {dt tEnd : ℝ} (hdt : 0 < dt) {interval : ℕ}
    (hI : interval < 2 ^ 64) {h : ℕ → H} {o : ℕ → O}
    (hs : ∀ k < ⌈tEnd / dt⌉₊, step (h k) = .val (h (k + 1)))
    (hm : ∀ k ≤ ⌈tEnd / dt⌉₊, measure (h k) = .val (o k)) :
    ∃ s, simulate step measure dt tEnd interval (h 0) = .val s ∧
      (s.t ∈ s.out.map Prod.fst ↔ max interval 1 ∣ ⌈tEnd / dt⌉₊) := by
  obtain ⟨s, e, -, ht, ho⟩ := simulate_output hdt hI hs hm
  refine ⟨s, e, ?_⟩
  have hI1 : 1 ≤ max interval 1 := le_max_right _ _
  rw [ht, ho, List.map_map, List.mem_map]
  constructor
  · rintro ⟨j, -, hj⟩
    have : ((j * max interval 1 : ℕ) : ℝ) = ⌈tEnd / dt⌉₊ := mul_right_cancel₀ hdt.ne' hj
    exact ⟨j, by rw [mul_comm]; exact_mod_cast this.symm⟩
  · rintro ⟨j, hj⟩
    refine ⟨j, ?_, ?_⟩
    · rw [List.mem_range, hj, Nat.mul_div_cancel_left _ (by omega)]; omega
    · rw [Function.comp_apply, hj, mul_comm j]

/-- **C45** (refutation): with the defaults of the programs (`dt = 0.01`, interval 100) and end time `0.5` only `t = 0` is
written, although the simulation runs to `t = 0.5`. -/
theorem simulate_final_not_measured :
    ∃ s, simulate (fun k : ℕ => .val (k + 1)) (fun k : ℕ => .val k) (1 / 100) (1 / 2) 100 0 = .val s ∧
      s.t = 1 / 2 ∧ s.h = 50 ∧ s.out = [(0, 0)] := by
  obtain ⟨s, e, hh, ht, ho⟩ := simulate_output (step := fun k : ℕ => .val (k + 1)) (measure := fun k : ℕ => .val k)
    (dt := 1 / 100) (tEnd := 1 / 2) (by norm_num) (interval := 100) (by norm_num) (h := id) (o := id)
    (fun _ _ => rfl) (fun _ _ => rfl)
  have hn : ⌈(1 / 2 : ℝ) / (1 / 100)⌉₊ = 50 := by
    rw [show (1 / 2 : ℝ) / (1 / 100) = ((50 : ℕ) : ℝ) by norm_num, Nat.ceil_natCast]
  rw [hn] at hh ht ho
  refine ⟨s, e, by rw [ht]; norm_num, hh, ?_⟩
  rw [ho]; simp

/-- **C45** (termination needs a positive step): for `dt ≤ 0` and a positive end time the loop never ends. -/
theorem simulate_diverges {step : H → Res H} {measure : H → Res O} {dt tEnd : ℝ} (hdt : dt ≤ 0) (he : 0 < tEnd)
    (interval : ℕ) {h : ℕ → H} {o : O} (hs : ∀ k, step (h k) = .val (h (k + 1))) (hm : measure (h 0) = .val o) :
    simulate step measure dt tEnd interval (h 0) = .diverges := by
  have key : ∀ k, (fun s : Res (State H O) => s.bind (bodyM step (fun h => (measure h).map fun o => (h, o)) dt interval))^[k]
      (.val { h := h 0, t := 0, last := 0, out := [(0, o)] }) =
      .val { h := h k, t := k * dt, last := 0, out := [(0, o)] } := by
    intro k
    induction k with
    | zero => simp
    | succ k ih =>
      rw [Function.iterate_succ_apply', ih, Res.bind_val]
      have hk : (k : ℝ) * dt ≤ 0 := mul_nonpos_of_nonneg_of_nonpos (Nat.cast_nonneg k) hdt
      unfold bodyM maybeMeasureM hasTimeIntervalPassed
      simp only [ge_iff_le, hk, if_true, Res.bind_val, Bool.false_eq_true, if_false, hs, Res.map_val]
      congr 2
      push_cast; ring
  unfold simulate simulateM
  simp only [hm, Res.map_val, Res.bind_val]
  rw [whileLoop_diverges]
  · rfl
  · intro k
    rw [key]
    show (k : ℝ) * dt < tEnd
    exact lt_of_le_of_lt (mul_nonpos_of_nonneg_of_nonpos (Nat.cast_nonneg k) hdt) he

/-- A non-trivial instance: `dt = 1/2`, end time `2.6`, interval 2: six steps, rows at steps 0, 2, 4, 6. -/
example : ∃ s, simulate (fun k : ℕ => .val (k + 1)) (fun k : ℕ => .val (k * k)) (1 / 2) (13 / 5) 2 0 = .val s ∧
    s.out = [(0, 0), (1, 4), (2, 16), (3, 36)] := by
  obtain ⟨s, e, -, -, ho⟩ := simulate_output (step := fun k : ℕ => .val (k + 1)) (measure := fun k : ℕ => .val (k * k))
    (dt := 1 / 2) (tEnd := 13 / 5) (by norm_num) (interval := 2) (by norm_num) (h := id) (o := fun k => k * k)
    (fun _ _ => rfl) (fun _ _ => rfl)
  have hn : ⌈(13 / 5 : ℝ) / (1 / 2)⌉₊ = 6 := by
    rw [Nat.ceil_eq_iff (by norm_num)]; constructor <;> norm_num
  rw [hn] at ho
  refine ⟨s, e, ?_⟩
  rw [ho]
  simp [List.range_succ]

end Ieompp.Sim
