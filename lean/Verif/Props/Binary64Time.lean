import Verif.Model.Binary64
import Verif.Spec.Binary64
import Verif.Props.SimulationFloat

/-! # C117: the time loop with underflow and overflow -/

set_option autoImplicit false
set_option linter.unusedSectionVars false

namespace Ieompp.IEEE

open Ieompp.Spec Sim

variable {H O : Type} {rnd : ℝ → Res ℝ} {fl : ℝ → ℝ} {u dt huge : ℝ} {N : ℕ}

/-- `rnd` is `fl` wherever the time loop uses it: on numbers that are neither small compared to `dt` (or to 1) nor larger than `huge`. -/
def AgreesOnTimes (rnd : ℝ → Res ℝ) (fl : ℝ → ℝ) (dt huge : ℝ) : Prop := ∀ x, min (dt / 2) (1 / 2) ≤ x → x ≤ huge → rnd x = .val (fl x)

theorem hasTimeIntervalPassedR_eq (hfl : Spec.Rounding fl u) (ha : AgreesOnTimes rnd fl dt huge) (hdt : 0 < dt) (hN : 32 * (N : ℝ) ^ 2 * u ≤ 1)
    (hh1 : (N + 1) * dt ≤ huge) (hh2 : (N : ℝ) + 1 ≤ huge) {a b I : ℕ} (hab : a ≤ b) (hb : b ≤ N) :
    hasTimeIntervalPassedR rnd (Sim.Spec.time fl dt b) (Sim.Spec.time fl dt a) dt I =
      hasTimeIntervalPassedF fl (Sim.Spec.time fl dt b) (Sim.Spec.time fl dt a) dt I := by
  unfold hasTimeIntervalPassedR hasTimeIntervalPassedF
  rcases hab.lt_or_eq with hlt | rfl
  · have ha' := abs_le.1 (time_close hfl hdt hN (hab.trans hb))
    have hb' := abs_le.1 (time_close hfl hdt hN hb)
    obtain ⟨m, rfl⟩ := Nat.exists_eq_add_of_lt hlt
    set ta := Sim.Spec.time fl dt a
    set tb := Sim.Spec.time fl dt (a + m + 1)
    have hm0 : (0 : ℝ) ≤ m := Nat.cast_nonneg m
    push_cast at hb'
    have hmN : ((m : ℝ) + 1) ≤ N := by exact_mod_cast (by omega : m + 1 ≤ N)
    have hu := hfl.nonneg
    have humN : u * (m + 1) ≤ 1 / 32 := by
      have h1 : u * (m + 1) ≤ u * (N : ℝ) ^ 2 := by
        gcongr
        nlinarith
      nlinarith
    have hmdt : 0 ≤ m * dt := by positivity
    have hNdt : ((m : ℝ) + 1) * dt ≤ N * dt := mul_le_mul_of_nonneg_right hmN hdt.le
    have hd1 : (m + 1) * dt - dt / 8 ≤ tb - ta := by linarith
    have hd2 : tb - ta ≤ (m + 1) * dt + dt / 8 := by linarith
    rw [if_neg (by linarith), if_neg hdt.ne', if_neg (by linarith), if_neg hdt.ne']
    rw [ha (tb - ta) ((min_le_left _ _).trans (by nlinarith)) (by nlinarith), Res.bind_val]
    have h1 := hfl.err (tb - ta)
    rw [abs_of_pos (by nlinarith : 0 < tb - ta)] at h1
    have h1' := abs_le.1 h1
    have : u * (tb - ta) ≤ dt / 16 := by
      have : u * (tb - ta) ≤ u * ((m + 1) * dt + dt / 8) := by gcongr
      nlinarith
    have q1 : 1 / 2 ≤ fl (tb - ta) / dt := by rw [le_div_iff₀ hdt]; nlinarith
    have q2 : fl (tb - ta) / dt ≤ N + 1 := by rw [div_le_iff₀ hdt]; nlinarith
    rw [ha _ ((min_le_right _ _).trans q1) (q2.trans hh2), Res.bind_val]
  · rw [if_pos le_rfl, if_pos le_rfl]

theorem maybeMeasureR_at (hfl : Spec.Rounding fl u) (ha : AgreesOnTimes rnd fl dt huge) (hdt : 0 < dt) (hN : 32 * (N : ℝ) ^ 2 * u ≤ 1) (hN64 : N < 2 ^ 64)
    (hh1 : (N + 1) * dt ≤ huge) (hh2 : (N : ℝ) + 1 ≤ huge) {measure : H → Res (H × O)} {interval : ℕ}
    {inv : ℕ → H → Prop} {o : ℕ → O} {k : ℕ} (hk : k ≤ N)
    (hm : ∀ x, inv k x → ∃ y, measure x = .val (y, o k) ∧ inv k y) {x : H} (hx : inv k x) :
    ∃ y, maybeMeasureR rnd measure dt interval (stateAtF fl dt (max interval 1) x o k ((k - 1) / max interval 1)) =
      .val (stateAtF fl dt (max interval 1) y o k (k / max interval 1)) ∧ inv k y := by
  obtain ⟨y, e, hy⟩ := maybeMeasureF_at (interval := interval) hfl hdt hN hN64 hk hm hx
  refine ⟨y, ?_, hy⟩
  rw [← e]
  unfold maybeMeasureR maybeMeasureF
  have hlo : (k - 1) / max interval 1 * max interval 1 ≤ k - 1 := Nat.div_mul_le_self _ _
  rw [show (stateAtF fl dt (max interval 1) x o k ((k - 1) / max interval 1)).t = Sim.Spec.time fl dt k from rfl,
    show (stateAtF fl dt (max interval 1) x o k ((k - 1) / max interval 1)).last = Sim.Spec.time fl dt ((k - 1) / max interval 1 * max interval 1) from rfl,
    hasTimeIntervalPassedR_eq hfl ha hdt hN hh1 hh2 (by omega) hk]

theorem bodyR_at (hfl : Spec.Rounding fl u) (ha : AgreesOnTimes rnd fl dt huge) (hdt : 0 < dt) (hN : 32 * (N : ℝ) ^ 2 * u ≤ 1) (hN64 : N < 2 ^ 64)
    (hh1 : (N + 1) * dt ≤ huge) (hh2 : (N : ℝ) + 1 ≤ huge)
    {step : H → Res H} {measure : H → Res (H × O)} {interval : ℕ} {inv : ℕ → H → Prop} {o : ℕ → O} {k : ℕ} (hk : k < N)
    (hs : ∀ x, inv k x → ∃ y, step x = .val y ∧ inv (k + 1) y)
    (hm : ∀ x, inv k x → ∃ y, measure x = .val (y, o k) ∧ inv k y) {x : H} (hx : inv k x) :
    ∃ y, bodyR rnd step measure dt interval (stateAtF fl dt (max interval 1) x o k ((k - 1) / max interval 1)) =
      .val (stateAtF fl dt (max interval 1) y o (k + 1) (k / max interval 1)) ∧ inv (k + 1) y := by
  obtain ⟨y, e, hy⟩ := maybeMeasureR_at hfl ha hdt hN hN64 hh1 hh2 hk.le hm hx
  obtain ⟨z, e', hz⟩ := hs y hy
  refine ⟨z, ?_, hz⟩
  unfold bodyR
  rw [e, Res.bind_val, show (stateAtF fl dt (max interval 1) y o k (k / max interval 1)).h = y from rfl, e', Res.bind_val,
    show (stateAtF fl dt (max interval 1) y o k (k / max interval 1)).t = Sim.Spec.time fl dt k from rfl]
  have hc := abs_le.1 (time_close hfl hdt hN hk.le)
  have hk0 : (0 : ℝ) ≤ k * dt := by positivity
  have hkN : ((k : ℝ) + 1) * dt ≤ N * dt := mul_le_mul_of_nonneg_right (by exact_mod_cast hk) hdt.le
  rw [ha _ ((min_le_left _ _).trans (by linarith)) (by linarith), Res.bind_val]
  rfl

/-- `simulateF_output` (C73) with underflow and overflow. -/
theorem simulateR_output (hfl : Spec.Rounding fl u) (ha : AgreesOnTimes rnd fl dt huge) (hdt : 0 < dt) (hN : 32 * (N : ℝ) ^ 2 * u ≤ 1) (hN64 : N < 2 ^ 64)
    (hh1 : (N + 1) * dt ≤ huge) (hh2 : (N : ℝ) + 1 ≤ huge)
    {step : H → Res H} {measure : H → Res (H × O)} {tEnd : ℝ} (hend : tEnd + dt / 16 ≤ N * dt) {interval : ℕ}
    {inv : ℕ → H → Prop} {o : ℕ → O} (hs : ∀ k < N, ∀ x, inv k x → ∃ y, step x = .val y ∧ inv (k + 1) y)
    (hm : ∀ k ≤ N, ∀ x, inv k x → ∃ y, measure x = .val (y, o k) ∧ inv k y) {h0 : H} (h00 : inv 0 h0) :
    ∃ s n, simulateR rnd step measure dt tEnd interval h0 = .val s ∧ n ≤ N ∧
      ⌈(tEnd - dt / 16) / dt⌉₊ ≤ n ∧ n ≤ ⌈(tEnd + dt / 16) / dt⌉₊ ∧
      s.out.map Prod.snd = (List.range (n / max interval 1 + 1)).map (fun j => o (j * max interval 1)) ∧
      s.out.length = n / max interval 1 + 1 ∧
      ∀ j (hj : j < s.out.length), |s.out[j].1 - ((j * max interval 1 : ℕ) : ℝ) * dt| ≤ dt / 16 := by
  classical
  set I := max interval 1 with hIdef
  have hstop : ∃ k, ¬ Sim.Spec.time fl dt k < tEnd := by
    refine ⟨N, ?_⟩
    have := abs_le.1 (time_close hfl hdt hN le_rfl)
    linarith
  have hnN : Nat.find hstop ≤ N := Nat.find_min' hstop (by
    have := abs_le.1 (time_close hfl hdt hN le_rfl)
    linarith)
  set n := Nat.find hstop with hn
  obtain ⟨x0, e0, hx0⟩ := hm 0 (by omega) h0 h00
  have hiter : ∀ k ≤ n, ∃ y, (fun s : Res (State H O) => s.bind (bodyR rnd step measure dt interval))^[k]
      (.val (stateAtF fl dt I x0 o 0 0)) = .val (stateAtF fl dt I y o k ((k - 1) / I)) ∧ inv k y := by
    intro k
    induction k with
    | zero => intro _; exact ⟨x0, by simp, hx0⟩
    | succ k ih =>
      intro hk
      obtain ⟨y, e, hy⟩ := ih (by omega)
      obtain ⟨z, e', hz⟩ := bodyR_at (interval := interval) hfl ha hdt hN hN64 hh1 hh2 (by omega) (hs k (by omega)) (hm k (by omega)) hy
      refine ⟨z, ?_, hz⟩
      rw [Function.iterate_succ_apply', e, Res.bind_val, e']
      simp [hIdef]
  obtain ⟨y, hy1, hy2⟩ := hiter n le_rfl
  have hloop : whileLoop (running tEnd) (fun s : Res (State H O) => s.bind (bodyR rnd step measure dt interval))
      (.val (stateAtF fl dt I x0 o 0 0)) = .val (.val (stateAtF fl dt I y o n ((n - 1) / I))) := by
    rw [whileLoop_val]
    refine ⟨n, hy1.symm, Nat.find_spec hstop, ?_⟩
    intro k hk
    obtain ⟨z, hz, -⟩ := hiter k hk.le
    rw [hz]
    exact not_not.1 (Nat.find_min hstop hk)
  obtain ⟨z, e', hz⟩ := maybeMeasureR_at (interval := interval) hfl ha hdt hN hN64 hh1 hh2 hnN (hm n hnN) hy2
  refine ⟨stateAtF fl dt I z o n (n / I), n, ?_, hnN, ?_, ?_, ?_, ?_, ?_⟩
  · unfold simulateR
    rw [e0, Res.bind_val]
    have e : ({ h := x0, t := 0, last := 0, out := [(0, o 0)] } : State H O) = stateAtF fl dt I x0 o 0 0 := by
      unfold stateAtF Sim.Spec.rowsF; simp [Sim.Spec.time]
    simp only [e]
    rw [hloop, Res.bind_val, id, Res.bind_val, e']
  · rw [Nat.ceil_le, div_le_iff₀ hdt]
    have := abs_le.1 (time_close hfl hdt hN hnN)
    have h2 := not_lt.1 (Nat.find_spec hstop)
    rw [← hn] at h2
    linarith
  · by_contra hlt
    rw [not_le] at hlt
    obtain ⟨k, hk⟩ : ∃ k, n = k + 1 := ⟨n - 1, by omega⟩
    have hk' := not_not.1 (Nat.find_min hstop (by omega : k < Nat.find hstop))
    have h3 := abs_le.1 (time_close hfl hdt hN (by omega : k ≤ N))
    have h4 : ⌈(tEnd + dt / 16) / dt⌉₊ ≤ k := by omega
    rw [Nat.ceil_le, div_le_iff₀ hdt] at h4
    linarith
  · simp [stateAtF, Sim.Spec.rowsF, Function.comp_def]
  · simp [stateAtF, Sim.Spec.rowsF]
  · intro j hj
    simp only [stateAtF, Sim.Spec.rowsF, List.length_map, List.length_range] at hj
    simp only [stateAtF, Sim.Spec.rowsF, List.getElem_map, List.getElem_range]
    refine time_close hfl hdt hN (le_trans ?_ hnN)
    calc j * I ≤ n / I * I := Nat.mul_le_mul_right _ (by omega)
      _ ≤ n := Nat.div_mul_le_self _ _

end Ieompp.IEEE
