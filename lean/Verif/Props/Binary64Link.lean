import Verif.Props.Binary64Time
import Verif.Props.Binary64Nearest
import Verif.Props.Binary64Program

/-!
# C120: the time loop in binary64 is the time loop with correctly rounded operations

As long as the step width is not at the ends of the range, underflow and overflow cannot come up in the time variable, so what C73, C115 and C116 say
about the times holds for the programs in full binary64 arithmetic.
-/

set_option autoImplicit false
set_option linter.unusedSectionVars false

namespace Ieompp.IEEE

open Ieompp.Spec Sim

variable {H O : Type} {rnd : ℝ → Res ℝ} {fl : ℝ → ℝ} {u dt huge : ℝ} {N : ℕ}

/-- The time variable after `k` additions; the last measurement was not later. -/
def TimesAt (fl : ℝ → ℝ) (dt : ℝ) (k : ℕ) (s : State H O) : Prop := s.t = Sim.Spec.time fl dt k ∧ ∃ l ≤ k, s.last = Sim.Spec.time fl dt l

theorem maybeMeasureR_eq (hfl : Spec.Rounding fl u) (ha : AgreesOnTimes rnd fl dt huge) (hdt : 0 < dt) (hN : 32 * (N : ℝ) ^ 2 * u ≤ 1)
    (hh1 : (N + 1) * dt ≤ huge) (hh2 : (N : ℝ) + 1 ≤ huge) (measure : H → Res (H × O)) (interval : ℕ) {k : ℕ} (hk : k ≤ N) {s : State H O}
    (hs : TimesAt fl dt k s) :
    maybeMeasureR rnd measure dt interval s = maybeMeasureF fl measure dt interval s ∧
      ∀ s', maybeMeasureF fl measure dt interval s = .val s' → TimesAt fl dt k s' := by
  obtain ⟨h1, l, hl, h2⟩ := hs
  constructor
  · unfold maybeMeasureR maybeMeasureF
    rw [h1, h2, hasTimeIntervalPassedR_eq hfl ha hdt hN hh1 hh2 hl hk]
  · intro s' h
    unfold maybeMeasureF at h
    cases hp : hasTimeIntervalPassedF fl s.t s.last dt interval with
    | ub => rw [hp] at h; simp at h
    | diverges => rw [hp] at h; simp at h
    | val b =>
      rw [hp, Res.bind_val] at h
      cases b with
      | false =>
        simp only [Bool.false_eq_true, if_false, Res.val.injEq] at h
        rw [← h]; exact ⟨h1, l, hl, h2⟩
      | true =>
        simp only [if_true] at h
        cases hm : measure s.h with
        | ub => rw [hm] at h; simp at h
        | diverges => rw [hm] at h; simp at h
        | val r =>
          rw [hm, Res.map_val, Res.val.injEq] at h
          rw [← h]
          exact ⟨h1, k, le_rfl, h1⟩

theorem bodyR_eq (hfl : Spec.Rounding fl u) (ha : AgreesOnTimes rnd fl dt huge) (hdt : 0 < dt) (hN : 32 * (N : ℝ) ^ 2 * u ≤ 1)
    (hh1 : (N + 1) * dt ≤ huge) (hh2 : (N : ℝ) + 1 ≤ huge) (step : H → Res H) (measure : H → Res (H × O)) (interval : ℕ) {k : ℕ} (hk : k < N) {s : State H O}
    (hs : TimesAt fl dt k s) :
    bodyR rnd step measure dt interval s = bodyF fl step measure dt interval s ∧
      ∀ s', bodyF fl step measure dt interval s = .val s' → TimesAt fl dt (k + 1) s' := by
  obtain ⟨e, hv⟩ := maybeMeasureR_eq hfl ha hdt hN hh1 hh2 measure interval hk.le hs
  unfold bodyR bodyF
  rw [e]
  cases hm : maybeMeasureF fl measure dt interval s with
  | ub => exact ⟨rfl, fun s' h => by simp at h⟩
  | diverges => exact ⟨rfl, fun s' h => by simp at h⟩
  | val z =>
    obtain ⟨h1, l, hl, h2⟩ := hv z hm
    rw [Res.bind_val, Res.bind_val]
    have hc := abs_le.1 (time_close hfl hdt hN hk.le)
    have hk0 : (0 : ℝ) ≤ k * dt := by positivity
    have hkN : ((k : ℝ) + 1) * dt ≤ N * dt := mul_le_mul_of_nonneg_right (by exact_mod_cast hk) hdt.le
    have hr : rnd (z.t + dt) = .val (fl (z.t + dt)) := by
      rw [h1]
      exact ha _ ((min_le_left _ _).trans (by linarith)) (by linarith)
    rw [hr]
    cases hst : step z.h with
    | ub => exact ⟨rfl, fun s' h => by simp at h⟩
    | diverges => exact ⟨rfl, fun s' h => by simp at h⟩
    | val y =>
      rw [Res.bind_val, Res.bind_val, Res.map_val]
      refine ⟨rfl, fun s' h => ?_⟩
      rw [Res.val.injEq] at h
      rw [← h]
      refine ⟨?_, l, by omega, h2⟩
      show fl (z.t + dt) = _
      rw [h1]; rfl

/-- **C120**: for every step function and measurement, the simulation has the same outcome as with an arithmetic that has neither underflow nor overflow
in the time variable. -/
theorem simulateR_eq (hfl : Spec.Rounding fl u) (ha : AgreesOnTimes rnd fl dt huge) (hdt : 0 < dt) (hN : 32 * (N : ℝ) ^ 2 * u ≤ 1)
    (hh1 : (N + 1) * dt ≤ huge) (hh2 : (N : ℝ) + 1 ≤ huge) (step : H → Res H) (measure : H → Res (H × O)) {tEnd : ℝ} (hend : tEnd + dt / 16 ≤ N * dt)
    (interval : ℕ) (h0 : H) : simulateR rnd step measure dt tEnd interval h0 = simulateF fl step measure dt tEnd interval h0 := by
  classical
  unfold simulateR simulateF
  cases hm : measure h0 with
  | ub => rfl
  | diverges => rfl
  | val r =>
    rw [Res.bind_val, Res.bind_val]
    dsimp only
    generalize hx0 : (Res.val { h := r.1, t := 0, last := 0, out := [(0, r.2)] } : Res (State H O)) = x0
    set F := fun s : Res (State H O) => s.bind (bodyR rnd step measure dt interval) with hF
    set G := fun s : Res (State H O) => s.bind (bodyF fl step measure dt interval) with hG
    have hiter : ∀ k ≤ N, F^[k] x0 = G^[k] x0 ∧ ∀ z, G^[k] x0 = .val z → TimesAt fl dt k z := by
      intro k
      induction k with
      | zero =>
        intro _
        refine ⟨rfl, fun z hz => ?_⟩
        rw [Function.iterate_zero, id, ← hx0, Res.val.injEq] at hz
        rw [← hz]
        exact ⟨rfl, 0, le_rfl, rfl⟩
      | succ k ih =>
        intro hk
        obtain ⟨e, hv⟩ := ih (by omega)
        rw [Function.iterate_succ_apply', Function.iterate_succ_apply', e]
        cases hz : G^[k] x0 with
        | ub => exact ⟨rfl, fun z h => by simp [hG] at h⟩
        | diverges => exact ⟨rfl, fun z h => by simp [hG] at h⟩
        | val z => exact bodyR_eq hfl ha hdt hN hh1 hh2 step measure interval (by omega) (hv z hz)
    have hstopN : ¬ running tEnd (G^[N] x0) := by
      obtain ⟨-, hv⟩ := hiter N le_rfl
      cases hz : G^[N] x0 with
      | ub => exact id
      | diverges => exact id
      | val z =>
        obtain ⟨h1, -⟩ := hv z hz
        have := abs_le.1 (time_close hfl hdt hN (le_refl N))
        show ¬ z.t < tEnd
        rw [h1]
        linarith
    have hstop : ∃ k, ¬ running tEnd (G^[k] x0) := ⟨N, hstopN⟩
    have hnN : Nat.find hstop ≤ N := Nat.find_min' hstop hstopN
    have hG' : whileLoop (running tEnd) G x0 = .val (G^[Nat.find hstop] x0) := by
      rw [whileLoop_val]
      exact ⟨_, rfl, Nat.find_spec hstop, fun k hk => not_not.1 (Nat.find_min hstop hk)⟩
    have hF' : whileLoop (running tEnd) F x0 = .val (G^[Nat.find hstop] x0) := by
      rw [whileLoop_val]
      refine ⟨Nat.find hstop, (hiter _ hnN).1.symm, Nat.find_spec hstop, fun k hk => ?_⟩
      rw [(hiter k (by omega)).1]
      exact not_not.1 (Nat.find_min hstop hk)
    rw [hF', hG', Res.bind_val, id]
    cases hz : G^[Nat.find hstop] x0 with
    | ub => rfl
    | diverges => rfl
    | val z =>
      rw [Res.bind_val, Res.bind_val]
      exact (maybeMeasureR_eq hfl ha hdt hN hh1 hh2 measure interval hnN ((hiter _ hnN).2 z hz)).1

/-! ### binary64 -/

/-- Normal numbers are rounded as if the exponent had no bounds. -/
theorem binary64_normal {x : ℝ} (h1 : 1 / 2 ^ 1022 ≤ |x|) (h2 : |x| ≤ 2 ^ 1023) : binary64 x = .val (double x) := by
  have hv : binary64Value x = double x := by unfold binary64Value; rw [if_neg (not_lt.2 h1)]
  have hb := double_err x
  have h3 : |double x| < 2 ^ 1024 := by
    have e : (2 : ℝ) ^ 1024 = 2 * 2 ^ 1023 := by rw [← pow_succ']
    rw [e]
    have hp : (0 : ℝ) < 2 ^ 1023 := pow_pos two_pos _
    generalize (2 : ℝ) ^ 1023 = P at h2 hp
    have h4 : |double x| ≤ |double x - x| + |x| := by
      have := abs_add_le (double x - x) x
      rwa [sub_add_cancel] at this
    have h5 : (1 : ℝ) / 2 ^ 53 * |x| ≤ 1 / 2 * P := by
      have : (1 : ℝ) / 2 ^ 53 ≤ 1 / 2 := by norm_num
      gcongr
    clear h1 hv e
    linarith
  unfold binary64
  rw [hv, if_pos h3]

theorem binary64_times {dt : ℝ} (hdt : 1 / 2 ^ 1000 ≤ dt) : AgreesOnTimes binary64 double dt (2 ^ 1023) := by
  intro x h1 h2
  have e1 : (1 : ℝ) / 2 ^ 1022 ≤ 1 / 2 ^ 1000 / 2 := by
    rw [div_div]
    refine one_div_le_one_div_of_le (mul_pos (pow_pos two_pos _) two_pos) ?_
    rw [← pow_succ]
    exact pow_le_pow_right₀ one_le_two (by norm_num)
  have e2 : (1 : ℝ) / 2 ^ 1000 ≤ 1 := by
    rw [div_le_one (pow_pos two_pos _)]
    exact one_le_pow₀ one_le_two
  have hp : (0 : ℝ) < 1 / 2 ^ 1022 := one_div_pos.2 (pow_pos two_pos _)
  have h3 : (1 : ℝ) / 2 ^ 1022 ≤ x := by
    refine le_trans (le_min ?_ ?_) h1
    · exact e1.trans (div_le_div_of_nonneg_right hdt two_pos.le)
    · exact e1.trans (div_le_div_of_nonneg_right e2 two_pos.le)
  have h4 : |x| = x := abs_of_pos (lt_of_lt_of_le hp h3)
  exact binary64_normal (by rw [h4]; exact h3) (by rw [h4]; exact h2)

/-- **C120, binary64**: for every step function and measurement, with a step width between `2^-1000` and `2^900` and at most `2^24` steps: underflow and overflow
do not come up in the time variable; the outcome is that of the simulation with 53 digits and an unbounded exponent in `t`. -/
theorem simulateR_binary64 {dt tEnd : ℝ} (hdt1 : 1 / 2 ^ 1000 ≤ dt) (hdt2 : dt ≤ 2 ^ 900) (hend : tEnd + dt / 16 ≤ 2 ^ 24 * dt) (step : H → Res H)
    (measure : H → Res (H × O)) (interval : ℕ) (h0 : H) :
    simulateR binary64 step measure dt tEnd interval h0 = simulateF double step measure dt tEnd interval h0 := by
  obtain ⟨d0, -, -, -, -, -, -, -, d8, d9⟩ := binary64_scales (n := 0) (by norm_num) hdt1 hdt2
  refine simulateR_eq (N := 2 ^ 24) double_rounding (binary64_times hdt1) d0 ?_ d8 d9 step measure ?_ interval h0
  · rw [Nat.cast_pow, Nat.cast_ofNat]; norm_num
  · rw [Nat.cast_pow, Nat.cast_ofNat]; exact hend

end Ieompp.IEEE
