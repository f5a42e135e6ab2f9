import Verif.Model.SimulationFloat
import Verif.Spec.Rounding
import Verif.Props.Simulation
import Mathlib.Tactic.Positivity
import Mathlib.Tactic.FieldSimp

/-!
# C73: rounding errors of the times do not change which steps are measured

`fl` is an arbitrary rounding function with relative error at most `u`, the standard model of floating point arithmetic
(`u = 2⁻⁵³` for `double`).
-/

set_option autoImplicit false
set_option linter.unusedSectionVars false

namespace Ieompp.Sim

variable {H O : Type*}

/-- The value of the time variable after `k` additions `t += dt`. -/
noncomputable def Spec.time (fl : ℝ → ℝ) (dt : ℝ) : ℕ → ℝ
  | 0 => 0
  | k + 1 => fl (Spec.time fl dt k + dt)

/-- Without rounding this is the program of C45. -/
theorem simulateF_id (step : H → Res H) (measure : H → Res (H × O)) (dt tEnd : ℝ) (interval : ℕ) (h0 : H) :
    simulateF id step measure dt tEnd interval h0 = simulateM step measure dt tEnd interval h0 := rfl

section
variable {fl : ℝ → ℝ} {u dt : ℝ} {N : ℕ}

/-- **C73**: the accumulated error of the time after `k` steps is at most `2 k² u dt`. -/
theorem time_error (hfl : Spec.Rounding fl u) (hdt : 0 < dt) (hN : 32 * (N : ℝ) ^ 2 * u ≤ 1) : ∀ k ≤ N,
    |Spec.time fl dt k - k * dt| ≤ 2 * u * (k : ℝ) ^ 2 * dt := by
  intro k
  induction k with
  | zero => intro _; simp [Spec.time]
  | succ k ih =>
    intro hk
    have h1 := ih (by omega)
    have hu := hfl.nonneg
    have h2 := hfl.err (Spec.time fl dt k + dt)
    have hkN : (k : ℝ) ≤ N := by exact_mod_cast (by omega : k ≤ N)
    have hk0 : (0 : ℝ) ≤ k := Nat.cast_nonneg k
    have h3 : 32 * (k : ℝ) ^ 2 * u ≤ 1 := by
      refine le_trans ?_ hN
      have : (k : ℝ) ^ 2 ≤ N ^ 2 := by gcongr
      nlinarith
    have h4 : |Spec.time fl dt k + dt| ≤ (k + 1) * dt + 2 * u * (k : ℝ) ^ 2 * dt := by
      have e : Spec.time fl dt k + dt = (Spec.time fl dt k - k * dt) + (k + 1) * dt := by ring
      rw [e]
      refine (abs_add_le _ _).trans ?_
      rw [abs_of_nonneg (by positivity : (0 : ℝ) ≤ (k + 1) * dt)]
      linarith
    have e : Spec.time fl dt (k + 1) - ((k + 1 : ℕ) : ℝ) * dt =
        (fl (Spec.time fl dt k + dt) - (Spec.time fl dt k + dt)) + (Spec.time fl dt k - k * dt) := by
      simp only [Spec.time]; push_cast; ring
    rw [e]
    refine (abs_add_le _ _).trans ?_
    have h5 : u * |Spec.time fl dt k + dt| ≤ u * ((k + 1) * dt + 2 * u * (k : ℝ) ^ 2 * dt) := by gcongr
    have h6 : u * ((k + 1) * dt + 2 * u * (k : ℝ) ^ 2 * dt) + 2 * u * (k : ℝ) ^ 2 * dt ≤
        2 * u * ((k + 1 : ℕ) : ℝ) ^ 2 * dt := by
      push_cast
      have : 0 ≤ u * dt * (3 * k + 1 - 2 * (u * (k : ℝ) ^ 2)) := by
        apply mul_nonneg (by positivity)
        nlinarith
      nlinarith
    linarith

theorem time_close (hfl : Spec.Rounding fl u) (hdt : 0 < dt) (hN : 32 * (N : ℝ) ^ 2 * u ≤ 1) {k : ℕ} (hk : k ≤ N) :
    |Spec.time fl dt k - k * dt| ≤ dt / 16 := by
  refine (time_error hfl hdt hN k hk).trans ?_
  have hu := hfl.nonneg
  have hkN : (k : ℝ) ≤ N := by exact_mod_cast hk
  have : (k : ℝ) ^ 2 ≤ N ^ 2 := by gcongr
  have : u * (k : ℝ) ^ 2 ≤ 1 / 32 := by nlinarith
  nlinarith

theorem cround_close {x : ℝ} {m : ℕ} (hm : 1 ≤ m) (h : |x - m| ≤ 1 / 4) : cround x = m := by
  have h1 := abs_le.1 h
  have hm' : (1 : ℝ) ≤ m := by exact_mod_cast hm
  unfold cround
  rw [if_pos (by linarith), Int.floor_eq_iff]
  constructor <;> push_cast <;> linarith

/-- **C73**: with rounded times, and rounded arithmetic in the test itself, the test of the interval counts steps exactly. -/
theorem hasTimeIntervalPassedF_exact (hfl : Spec.Rounding fl u) (hdt : 0 < dt) (hN : 32 * (N : ℝ) ^ 2 * u ≤ 1)
    (hN64 : N < 2 ^ 64) {a b I : ℕ} (hab : a ≤ b) (hb : b ≤ N) :
    hasTimeIntervalPassedF fl (Spec.time fl dt b) (Spec.time fl dt a) dt I = .val (decide (a < b ∧ a + I ≤ b)) := by
  unfold hasTimeIntervalPassedF
  rcases hab.lt_or_eq with hlt | rfl
  · have ha' := abs_le.1 (time_close hfl hdt hN (hab.trans hb))
    have hb' := abs_le.1 (time_close hfl hdt hN hb)
    obtain ⟨m, rfl⟩ := Nat.exists_eq_add_of_lt hlt
    set ta := Spec.time fl dt a
    set tb := Spec.time fl dt (a + m + 1)
    have hm0 : (0 : ℝ) ≤ m := Nat.cast_nonneg m
    push_cast at hb'
    have hdiff : |tb - ta - (m + 1) * dt| ≤ dt / 8 := by
      rw [abs_le]; constructor <;> linarith
    have hd := abs_le.1 hdiff
    have hmN : ((m : ℝ) + 1) ≤ N := by exact_mod_cast (by omega : m + 1 ≤ N)
    have hu := hfl.nonneg
    have humN : u * (m + 1) ≤ 1 / 32 := by
      have h1 : u * (m + 1) ≤ u * (N : ℝ) ^ 2 := by
        gcongr
        nlinarith
      nlinarith
    have hmdt : 0 ≤ m * dt := by positivity
    rw [if_neg (by linarith), if_neg hdt.ne']
    have h1 := hfl.err (tb - ta)
    rw [abs_of_pos (by nlinarith : 0 < tb - ta)] at h1
    set d := fl (tb - ta)
    have h2 : |d / dt - (m + 1)| ≤ 3 / 16 := by
      have e : d / dt - (m + 1) = (d - (m + 1) * dt) / dt := by field_simp
      rw [e, abs_div, abs_of_pos hdt, div_le_iff₀ hdt, abs_le]
      have h1' := abs_le.1 h1
      have : u * (tb - ta) ≤ dt / 16 := by
        have : u * (tb - ta) ≤ u * ((m + 1) * dt + dt / 8) := by gcongr; linarith
        nlinarith
      constructor <;> linarith
    have h3 := hfl.err (d / dt)
    have h2' := abs_le.1 h2
    rw [abs_of_pos (by linarith : 0 < d / dt)] at h3
    have h4 : |fl (d / dt) - ((m + 1 : ℕ) : ℝ)| ≤ 1 / 4 := by
      push_cast
      have h3' := abs_le.1 h3
      have : u * (d / dt) ≤ 1 / 16 := by
        have : u * (d / dt) ≤ u * ((m + 1) + 3 / 16) := by gcongr; linarith
        nlinarith
      rw [abs_le]; constructor <;> linarith
    rw [cround_close (by omega) h4, castU64_nat (by omega), Res.map_val]
    congr 1
    simp only [decide_eq_decide]
    omega
  · rw [if_pos le_rfl]; simp

end

/-! ### The program -/

section
variable {fl : ℝ → ℝ} {u dt : ℝ} {N : ℕ}

/-- One row for each of the steps `0, I, …, m I`, with the rounded times. -/
noncomputable def Spec.rowsF (fl : ℝ → ℝ) (dt : ℝ) (I : ℕ) (o : ℕ → O) (m : ℕ) : List (ℝ × O) :=
  (List.range (m + 1)).map fun j => (Spec.time fl dt (j * I), o (j * I))

theorem rowsF_succ (I : ℕ) (o : ℕ → O) (m : ℕ) :
    Spec.rowsF fl dt I o (m + 1) = Spec.rowsF fl dt I o m ++ [(Spec.time fl dt ((m + 1) * I), o ((m + 1) * I))] := by
  unfold Spec.rowsF; rw [List.range_succ, List.map_append]; rfl

noncomputable def stateAtF (fl : ℝ → ℝ) (dt : ℝ) (I : ℕ) (h : H) (o : ℕ → O) (k m : ℕ) : State H O :=
  { h := h, t := Spec.time fl dt k, last := Spec.time fl dt (m * I), out := Spec.rowsF fl dt I o m }

theorem maybeMeasureF_at (hfl : Spec.Rounding fl u) (hdt : 0 < dt) (hN : 32 * (N : ℝ) ^ 2 * u ≤ 1) (hN64 : N < 2 ^ 64)
    {measure : H → Res (H × O)} {interval : ℕ}
    {inv : ℕ → H → Prop} {o : ℕ → O} {k : ℕ} (hk : k ≤ N)
    (hm : ∀ x, inv k x → ∃ y, measure x = .val (y, o k) ∧ inv k y) {x : H} (hx : inv k x) :
    ∃ y, maybeMeasureF fl measure dt interval (stateAtF fl dt (max interval 1) x o k ((k - 1) / max interval 1)) =
      .val (stateAtF fl dt (max interval 1) y o k (k / max interval 1)) ∧ inv k y := by
  set I := max interval 1 with hIdef
  have hI1 : 1 ≤ I := le_max_right _ _
  have hII : interval ≤ I := le_max_left _ _
  have hlo : (k - 1) / I * I ≤ k - 1 := Nat.div_mul_le_self _ _
  have hhi : k - 1 < (k - 1) / I * I + I := by
    have := Nat.lt_div_mul_add (a := k - 1) (b := I) (by omega); exact this
  unfold maybeMeasureF
  rw [show (stateAtF fl dt I x o k ((k - 1) / I)).t = Spec.time fl dt k from rfl,
    show (stateAtF fl dt I x o k ((k - 1) / I)).last = Spec.time fl dt ((k - 1) / I * I) from rfl,
    hasTimeIntervalPassedF_exact hfl hdt hN hN64 (by omega) hk, Res.bind_val]
  by_cases hk : (k - 1) / I * I < k ∧ (k - 1) / I * I + interval ≤ k
  · have hkI : k = ((k - 1) / I + 1) * I := by
      have : (k - 1) / I * I + I ≤ k := by
        rcases le_total interval 1 with h1 | h1
        · have : I = 1 := by omega
          omega
        · have : I = interval := by omega
          omega
      rw [Nat.add_mul]; omega
    have hdiv : k / I = (k - 1) / I + 1 := by
      conv_lhs => rw [hkI]
      exact Nat.mul_div_cancel _ (by omega)
    obtain ⟨y, e, hy⟩ := hm x hx
    refine ⟨y, ?_, hy⟩
    rw [if_pos (by simpa using hk), show (stateAtF fl dt I x o k ((k - 1) / I)).h = x from rfl, e, Res.map_val, hdiv]
    congr 1
    unfold stateAtF
    rw [rowsF_succ, ← hkI]
  · have hdiv : k / I = (k - 1) / I := by
      have h2 : k < (k - 1) / I * I + I := by omega
      apply Nat.div_eq_of_lt_le
      · omega
      · rw [Nat.add_mul]; omega
    exact ⟨x, by rw [if_neg (by simpa using hk), hdiv], hx⟩

theorem bodyF_at (hfl : Spec.Rounding fl u) (hdt : 0 < dt) (hN : 32 * (N : ℝ) ^ 2 * u ≤ 1) (hN64 : N < 2 ^ 64)
    {step : H → Res H} {measure : H → Res (H × O)} {interval : ℕ} {inv : ℕ → H → Prop} {o : ℕ → O} {k : ℕ} (hk : k ≤ N)
    (hs : ∀ x, inv k x → ∃ y, step x = .val y ∧ inv (k + 1) y)
    (hm : ∀ x, inv k x → ∃ y, measure x = .val (y, o k) ∧ inv k y) {x : H} (hx : inv k x) :
    ∃ y, bodyF fl step measure dt interval (stateAtF fl dt (max interval 1) x o k ((k - 1) / max interval 1)) =
      .val (stateAtF fl dt (max interval 1) y o (k + 1) (k / max interval 1)) ∧ inv (k + 1) y := by
  obtain ⟨y, e, hy⟩ := maybeMeasureF_at hfl hdt hN hN64 hk hm hx
  obtain ⟨z, e', hz⟩ := hs y hy
  refine ⟨z, ?_, hz⟩
  unfold bodyF
  rw [e, Res.bind_val, show (stateAtF fl dt (max interval 1) y o k (k / max interval 1)).h = y from rfl, e', Res.map_val]
  rfl

/-- **C73**: for every rounding with unit roundoff `u`, every step size, interval and end time such that the run needs at
most `N` steps with `32 N² u ≤ 1` (for `double`: about 16 million steps): the program terminates; the number `n` of
integration steps is `⌈t_end/dt⌉` up to a shift of the end time by `dt/16`; the output has exactly one row for each of the
steps `0, I, 2I, …` up to `n`, and the time of each row differs from the exact time by at most `dt/16`. -/
theorem simulateF_output (hfl : Spec.Rounding fl u) (hdt : 0 < dt) (hN : 32 * (N : ℝ) ^ 2 * u ≤ 1) (hN64 : N < 2 ^ 64)
    {step : H → Res H} {measure : H → Res (H × O)} {tEnd : ℝ} (hend : tEnd + dt / 16 ≤ N * dt) {interval : ℕ}
    {inv : ℕ → H → Prop} {o : ℕ → O} (hs : ∀ k < N, ∀ x, inv k x → ∃ y, step x = .val y ∧ inv (k + 1) y)
    (hm : ∀ k ≤ N, ∀ x, inv k x → ∃ y, measure x = .val (y, o k) ∧ inv k y) {h0 : H} (h00 : inv 0 h0) :
    ∃ s n, simulateF fl step measure dt tEnd interval h0 = .val s ∧ inv n s.h ∧ n ≤ N ∧
      ⌈(tEnd - dt / 16) / dt⌉₊ ≤ n ∧ n ≤ ⌈(tEnd + dt / 16) / dt⌉₊ ∧ |s.t - n * dt| ≤ dt / 16 ∧
      s.out.map Prod.snd = (List.range (n / max interval 1 + 1)).map (fun j => o (j * max interval 1)) ∧
      s.out.length = n / max interval 1 + 1 ∧
      ∀ j (hj : j < s.out.length), |s.out[j].1 - ((j * max interval 1 : ℕ) : ℝ) * dt| ≤ dt / 16 := by
  classical
  set I := max interval 1 with hIdef
  have hstop : ∃ k, ¬ Spec.time fl dt k < tEnd := by
    refine ⟨N, ?_⟩
    have := abs_le.1 (time_close hfl hdt hN le_rfl)
    linarith
  have hnN : Nat.find hstop ≤ N := Nat.find_min' hstop (by
    have := abs_le.1 (time_close hfl hdt hN le_rfl)
    linarith)
  set n := Nat.find hstop with hn
  obtain ⟨x0, e0, hx0⟩ := hm 0 (by omega) h0 h00
  have hiter : ∀ k ≤ n, ∃ y, (fun s : Res (State H O) => s.bind (bodyF fl step measure dt interval))^[k]
      (.val (stateAtF fl dt I x0 o 0 0)) = .val (stateAtF fl dt I y o k ((k - 1) / I)) ∧ inv k y := by
    intro k
    induction k with
    | zero => intro _; exact ⟨x0, by simp, hx0⟩
    | succ k ih =>
      intro hk
      obtain ⟨y, e, hy⟩ := ih (by omega)
      obtain ⟨z, e', hz⟩ := bodyF_at (interval := interval) hfl hdt hN hN64 (by omega) (hs k (by omega)) (hm k (by omega)) hy
      refine ⟨z, ?_, hz⟩
      rw [Function.iterate_succ_apply', e, Res.bind_val, e']
      simp [hIdef]
  obtain ⟨y, hy1, hy2⟩ := hiter n le_rfl
  have hloop : whileLoop (running tEnd) (fun s : Res (State H O) => s.bind (bodyF fl step measure dt interval))
      (.val (stateAtF fl dt I x0 o 0 0)) = .val (.val (stateAtF fl dt I y o n ((n - 1) / I))) := by
    rw [whileLoop_val]
    refine ⟨n, hy1.symm, Nat.find_spec hstop, ?_⟩
    intro k hk
    obtain ⟨z, hz, -⟩ := hiter k hk.le
    rw [hz]
    exact not_not.1 (Nat.find_min hstop hk)
  obtain ⟨z, e', hz⟩ := maybeMeasureF_at (interval := interval) hfl hdt hN hN64 hnN (hm n hnN) hy2
  refine ⟨stateAtF fl dt I z o n (n / I), n, ?_, hz, hnN, ?_, ?_, time_close hfl hdt hN hnN, ?_, ?_, ?_⟩
  · unfold simulateF
    rw [e0, Res.bind_val]
    have e : ({ h := x0, t := 0, last := 0, out := [(0, o 0)] } : State H O) = stateAtF fl dt I x0 o 0 0 := by
      unfold stateAtF Spec.rowsF; simp [Spec.time]
    simp only [e]
    rw [hloop, Res.bind_val, id, Res.bind_val, e']
  · rw [Nat.ceil_le, div_le_iff₀ hdt]
    have := abs_le.1 (time_close hfl hdt hN hnN)
    have h2 := not_lt.1 (Nat.find_spec hstop)
    rw [← hn] at h2
    linarith
  · by_contra hlt
    rw [not_le] at hlt
    obtain ⟨k, hk⟩ : ∃ k, n = k + 1 := ⟨n - 1, by omega⟩
    have hk' := not_not.1 (Nat.find_min hstop (by omega : k < Nat.find hstop))
    have h3 := abs_le.1 (time_close hfl hdt hN (by omega : k ≤ N))
    have h4 : ⌈(tEnd + dt / 16) / dt⌉₊ ≤ k := by omega
    rw [Nat.ceil_le, div_le_iff₀ hdt] at h4
    linarith
  · simp [stateAtF, Spec.rowsF, Function.comp_def]
  · simp [stateAtF, Spec.rowsF]
  · intro j hj
    simp only [stateAtF, Spec.rowsF, List.length_map, List.length_range] at hj
    simp only [stateAtF, Spec.rowsF, List.getElem_map, List.getElem_range]
    refine time_close hfl hdt hN (le_trans ?_ hnN)
    calc j * I ≤ n / I * I := Nat.mul_le_mul_right _ (by omega)
      _ ≤ n := Nat.div_mul_le_self _ _

/-- When the end time is not close to a multiple of the step, rounding does not change the number of steps either. -/
theorem steps_unique {tEnd : ℝ} (hdt : 0 < dt) {m n : ℕ} (h1 : m * dt + dt / 16 < tEnd)
    (h2 : tEnd ≤ (m + 1) * dt - dt / 16) (hn1 : ⌈(tEnd - dt / 16) / dt⌉₊ ≤ n) (hn2 : n ≤ ⌈(tEnd + dt / 16) / dt⌉₊) :
    n = m + 1 ∧ n = ⌈tEnd / dt⌉₊ := by
  have e1 : ⌈(tEnd - dt / 16) / dt⌉₊ = m + 1 := by
    rw [Nat.ceil_eq_iff (by omega), lt_div_iff₀ hdt, div_le_iff₀ hdt]
    push_cast; constructor <;> nlinarith
  have e2 : ⌈(tEnd + dt / 16) / dt⌉₊ = m + 1 := by
    rw [Nat.ceil_eq_iff (by omega), lt_div_iff₀ hdt, div_le_iff₀ hdt]
    push_cast; constructor <;> nlinarith
  have e3 : ⌈tEnd / dt⌉₊ = m + 1 := by
    rw [Nat.ceil_eq_iff (by omega), lt_div_iff₀ hdt, div_le_iff₀ hdt]
    push_cast; constructor <;> nlinarith
  omega

end

/-! ### What rounding does change -/

/-- Rounding towards zero by the relative amount `u`. -/
theorem rounding_down {u : ℝ} (hu : 0 ≤ u) : Spec.Rounding (fun x => x * (1 - u)) u :=
  ⟨hu, fun x => by
    rw [show x * (1 - u) - x = -(u * x) by ring, abs_neg, abs_mul, abs_of_nonneg hu]⟩

/-- **C73** (what is not true): the number of steps is not `⌈t_end/dt⌉`. With `t_end = dt` and any downward rounding the
program performs two steps instead of one. -/
theorem simulateF_extra_step : ∃ fl u, Spec.Rounding fl u ∧ u ≤ 1 / 2 ^ 53 ∧
    ∃ s, simulateF fl (fun k : ℕ => .val (k + 1)) (fun k : ℕ => .val (k, k)) 1 1 1 0 = .val s ∧ s.h = 2 := by
  have hfl := rounding_down (u := 1 / 2 ^ 53) (by norm_num)
  refine ⟨_, _, hfl, le_rfl, ?_⟩
  obtain ⟨s, n, e, hh, hn, h1, h2, -, -⟩ := simulateF_output (N := 2) (tEnd := 1) (interval := 1) hfl
    one_pos (by norm_num) (by norm_num) (by norm_num) (step := fun k : ℕ => Res.val (k + 1))
    (measure := fun k : ℕ => Res.val (k, k)) (inv := fun k x => x = k) (o := id)
    (fun k _ x hx => ⟨x + 1, rfl, by rw [hx]⟩) (fun k _ x hx => ⟨x, by rw [hx]; rfl, hx⟩) (h0 := 0) rfl
  refine ⟨s, e, ?_⟩
  rw [hh]
  -- the program ended at its first time which is not below the end time; the first step ends before it
  have hn1 : n ≠ 1 := by
    rintro rfl
    unfold simulateF at e
    simp only [Res.bind_val] at e
    cases hw : whileLoop (running 1) (fun s : Res (State ℕ ℕ) =>
        s.bind (bodyF (fun x => x * (1 - 1 / 2 ^ 53)) (fun k : ℕ => Res.val (k + 1)) (fun k : ℕ => Res.val (k, k)) 1 1))
        (.val { h := 0, t := 0, last := 0, out := [(0, 0)] }) with
    | diverges => rw [hw] at e; simp [Res.bind] at e
    | ub => rw [hw] at e; simp [Res.bind] at e
    | val w =>
      rw [hw] at e
      obtain ⟨k, hk, hc, -⟩ := (whileLoop_val _ _ _ _).1 hw
      have hmono : ∀ (s : State ℕ ℕ) (w : State ℕ ℕ), maybeMeasureF (fun x => x * (1 - 1 / 2 ^ 53))
          (fun k : ℕ => Res.val (k, k)) 1 1 s = .val w → w.h = s.h ∧ w.t = s.t := by
        intro s w h
        unfold maybeMeasureF at h
        cases hb : hasTimeIntervalPassedF (fun x => x * (1 - 1 / 2 ^ 53)) s.t s.last 1 1 with
        | ub => rw [hb] at h; simp [Res.bind] at h
        | diverges => rw [hb] at h; simp [Res.bind] at h
        | val b =>
          rw [hb, Res.bind_val] at h
          cases b
          · simp at h; rw [← h]; exact ⟨rfl, rfl⟩
          · simp [Res.map, Res.bind] at h; rw [← h]; exact ⟨rfl, rfl⟩
      have hbody : ∀ (s : Res (State ℕ ℕ)) (w : State ℕ ℕ), s.bind (bodyF (fun x => x * (1 - 1 / 2 ^ 53))
          (fun k : ℕ => Res.val (k + 1)) (fun k : ℕ => Res.val (k, k)) 1 1) = .val w →
          ∃ v, s = .val v ∧ w.h = v.h + 1 ∧ w.t = (v.t + 1) * (1 - 1 / 2 ^ 53) := by
        intro s w h
        cases s with
        | ub => simp [Res.bind] at h
        | diverges => simp [Res.bind] at h
        | val v =>
          refine ⟨v, rfl, ?_⟩
          rw [Res.bind_val] at h
          unfold bodyF at h
          cases hb : maybeMeasureF (fun x => x * (1 - 1 / 2 ^ 53)) (fun k : ℕ => Res.val (k, k)) 1 1 v with
          | ub => rw [hb] at h; simp [Res.bind] at h
          | diverges => rw [hb] at h; simp [Res.bind] at h
          | val v' =>
            obtain ⟨h1, h2⟩ := hmono v v' hb
            rw [hb, Res.bind_val] at h
            simp [Res.map, Res.bind] at h
            rw [← h]
            simp only
            rw [h1, h2]
            norm_num
      rw [Res.bind_val, id] at e
      cases w with
      | ub => simp [Res.bind] at e
      | diverges => simp [Res.bind] at e
      | val w =>
        rw [Res.bind_val] at e
        obtain ⟨h1, h2⟩ := hmono w s e
        have hw1 : w.h = 1 := by rw [← h1, hh]
        have hwt : ¬ w.t < 1 := hc
        match k, hk with
        | 0, hk =>
          simp at hk; rw [hk] at hw1; simp at hw1
        | 1, hk =>
          rw [Function.iterate_one] at hk
          obtain ⟨v, hv, -, hvt⟩ := hbody _ _ hk.symm
          injection hv with hv
          rw [hvt, ← hv] at hwt
          norm_num at hwt
        | k + 2, hk =>
          rw [Function.iterate_succ_apply'] at hk
          obtain ⟨v, hv, hvh, -⟩ := hbody _ _ hk.symm
          rw [Function.iterate_succ_apply'] at hv
          obtain ⟨v', hv', hvh', -⟩ := hbody _ _ hv
          omega
  have h1' : 1 ≤ n := by
    refine le_trans ?_ h1
    rw [Nat.one_le_ceil_iff]; norm_num
  omega

/-- Rounding with a gap above 1 (as every floating point format has). -/
noncomputable def gapRounding (u : ℝ) (x : ℝ) : ℝ := open Classical in if 1 < x ∧ x ≤ 1 + u then 1 else x

theorem rounding_gap {u : ℝ} (hu : 0 ≤ u) : Spec.Rounding (gapRounding u) u := by
  refine ⟨hu, fun x => ?_⟩
  unfold gapRounding
  split_ifs with h
  · rw [abs_sub_comm, abs_of_pos (by linarith), abs_of_pos (by linarith)]
    nlinarith
  · simp; positivity

/-- **C73** (the bound on the number of steps is needed): for every unit roundoff `u` (that of `double` is `2⁻⁵³`) there
are a rounding and a step size for which the loop never ends, whatever end time above 1 is asked for: the time stagnates
because `t + dt` is rounded to `t`. -/
theorem simulateF_stagnates {u : ℝ} (hu : 1 / 2 ^ 63 ≤ u) (hu1 : u < 1) : ∃ fl, Spec.Rounding fl u ∧ ∃ dt : ℝ, 0 < dt ∧
    ∀ tEnd : ℝ, 1 < tEnd → ∀ interval : ℕ,
      simulateF fl (fun k : ℕ => .val (k + 1)) (fun k : ℕ => .val (k, k)) dt tEnd interval 0 = .diverges := by
  have hu0 : 0 < u := lt_of_lt_of_le (by norm_num) hu
  set m := ⌊1 / u⌋₊ with hm
  have hm1 : (0 : ℝ) < m + 1 := by positivity
  refine ⟨gapRounding u, rounding_gap hu0.le, 1 / (m + 1), by positivity, fun tEnd hE interval => ?_⟩
  set dt : ℝ := 1 / (m + 1) with hdt
  have hdt0 : 0 < dt := by positivity
  have hdtu : dt < u := by
    rw [hdt, div_lt_iff₀ hm1]
    have := Nat.lt_floor_add_one (1 / u)
    rw [div_lt_iff₀ hu0] at this
    linarith
  have hmd : ((m + 1 : ℕ) : ℝ) * dt = 1 := by rw [hdt]; push_cast; field_simp
  have hm64 : m + 1 < 2 ^ 64 := by
    have h1 : (m : ℝ) ≤ 1 / u := Nat.floor_le (by positivity)
    have h2 : 1 / u ≤ 2 ^ 63 := by
      rw [div_le_iff₀ hu0]
      rw [div_le_iff₀ (by positivity)] at hu
      linarith
    have h3 : m ≤ 2 ^ 63 := by exact_mod_cast h1.trans h2
    omega
  have hP : ∀ k : ℕ, ∃ s a b, (fun s : Res (State ℕ ℕ) => s.bind (bodyF (gapRounding u) (fun k : ℕ => Res.val (k + 1))
      (fun k : ℕ => Res.val (k, k)) dt interval))^[k] (.val { h := 0, t := 0, last := 0, out := [(0, 0)] }) = .val s ∧
      a ≤ b ∧ b ≤ m + 1 ∧ s.t = (b : ℕ) * dt ∧ s.last = (a : ℕ) * dt := by
    intro k
    induction k with
    | zero => exact ⟨_, 0, 0, rfl, le_rfl, by omega, by simp, by simp⟩
    | succ k ih =>
      obtain ⟨s, a, b, hs, hab, hb, ht, hl⟩ := ih
      have hb1 : (b : ℝ) * dt ≤ 1 := by
        rw [← hmd]; gcongr
      have ha0 : 0 ≤ (a : ℝ) * dt := by positivity
      obtain ⟨c, hc⟩ : ∃ c, hasTimeIntervalPassedF (gapRounding u) s.t s.last dt interval = .val c := by
        unfold hasTimeIntervalPassedF
        by_cases h : s.last ≥ s.t
        · rw [if_pos h]; exact ⟨_, rfl⟩
        · rw [if_neg h, if_neg hdt0.ne', ht, hl]
          have e1 : gapRounding u ((b : ℝ) * dt - a * dt) = ((b - a : ℕ) : ℝ) * dt := by
            unfold gapRounding
            rw [if_neg (by rintro ⟨h, -⟩; linarith), Nat.cast_sub hab]
            ring
          have e2 : gapRounding u ((b - a : ℕ) : ℝ) = ((b - a : ℕ) : ℝ) := by
            unfold gapRounding
            rw [if_neg]
            rintro ⟨h1, h2⟩
            have h1' : 1 < b - a := by exact_mod_cast h1
            have h3 : (2 : ℝ) ≤ ((b - a : ℕ) : ℝ) := by exact_mod_cast h1'
            linarith
          rw [e1, mul_div_assoc, div_self hdt0.ne', mul_one, e2, cround_nat, castU64_nat (by omega)]
          exact ⟨_, rfl⟩
      have ht' : ∃ b', a ≤ b' ∧ b ≤ b' ∧ b' ≤ m + 1 ∧ gapRounding u ((b : ℝ) * dt + dt) = (b' : ℕ) * dt := by
        rcases hb.lt_or_eq with hlt | rfl
        · refine ⟨b + 1, by omega, by omega, hlt, ?_⟩
          have : ((b + 1 : ℕ) : ℝ) * dt ≤ 1 := by rw [← hmd]; gcongr; omega
          unfold gapRounding
          push_cast at this ⊢
          rw [if_neg (by rintro ⟨h, -⟩; linarith)]
          ring
        · refine ⟨m + 1, by omega, le_rfl, le_rfl, ?_⟩
          rw [hmd]
          unfold gapRounding
          rw [if_pos ⟨by linarith, by linarith⟩]
      obtain ⟨b', h1, h2, h3, h4⟩ := ht'
      rw [Function.iterate_succ_apply', hs, Res.bind_val]
      unfold bodyF maybeMeasureF
      rw [hc, Res.bind_val]
      cases c with
      | false => exact ⟨_, a, b', rfl, h1, h3, by rw [← h4, ← ht], hl⟩
      | true => exact ⟨_, b, b', rfl, h2, h3, by rw [← h4, ← ht], ht⟩
  unfold simulateF
  rw [Res.bind_val]
  simp only
  rw [whileLoop_diverges]
  · rfl
  · intro k
    obtain ⟨s, a, b, hs, hab, hb, ht, hl⟩ := hP k
    rw [hs]
    show s.t < tEnd
    have hb1 : (b : ℝ) * dt ≤ 1 := by
      rw [← hmd]; gcongr
    rw [ht]; linarith

/-- Non-vacuity: the hypotheses of `simulateF_output` for `double`, the default parameters (`dt = 0.01`, `t_end = 10`,
interval 100) and a rounding that is not the identity. -/
example : ∃ s n, simulateF (fun x => x * (1 - 1 / 2 ^ 53)) (fun k : ℕ => .val (k + 1)) (fun k : ℕ => .val (k, k))
    (1 / 100) 10 100 0 = .val s ∧ s.h = n ∧ 1000 ≤ n ∧ n ≤ 1001 ∧ s.out.length = 11 := by
  obtain ⟨s, n, e, hh, hn, h1, h2, -, -, h3, -⟩ := simulateF_output (N := 1001) (tEnd := 10) (interval := 100)
    (rounding_down (u := 1 / 2 ^ 53) (by norm_num)) (dt := 1 / 100) (by norm_num) (by norm_num) (by norm_num) (by norm_num)
    (step := fun k : ℕ => Res.val (k + 1)) (measure := fun k : ℕ => Res.val (k, k)) (inv := fun k x => x = k) (o := id)
    (fun k _ x hx => ⟨x + 1, rfl, by rw [hx]⟩) (fun k _ x hx => ⟨x, by rw [hx]; rfl, hx⟩) (h0 := 0) rfl
  have h1' : 1000 ≤ n := by
    refine le_trans ?_ h1
    by_contra h
    rw [not_le] at h
    have := Nat.ceil_le.1 (by omega : ⌈((10 : ℝ) - 1 / 100 / 16) / (1 / 100)⌉₊ ≤ 999)
    norm_num at this
  refine ⟨s, n, e, hh, h1', hn, ?_⟩
  rw [h3]
  norm_num
  omega

end Ieompp.Sim
