import Verif.Props.SimulationFloat

/-!
# The times in the output

The times of the rows do not depend on what is integrated and measured: they are the values of the time variable after every `I`-th step.
-/

set_option autoImplicit false
set_option linter.unusedSectionVars false

namespace Ieompp.Sim

variable {H O : Type*}

/-- What remains of a state if only the times are of interest. -/
def forget (s : State H O) : State Unit Unit := { h := (), t := s.t, last := s.last, out := s.out.map fun r => (r.1, ()) }

/-- A measurement without a result. -/
def noMeasure : Unit → Res (Unit × Unit) := fun _ => .val ((), ())

/-- A step without an effect. -/
def noStep : Unit → Res Unit := fun _ => .val ()

theorem maybeMeasureF_forget {fl : ℝ → ℝ} {measure : H → Res (H × O)} {dt : ℝ} {interval : ℕ} {s s' : State H O}
    (h : maybeMeasureF fl measure dt interval s = .val s') : maybeMeasureF fl noMeasure dt interval (forget s) = .val (forget s') := by
  unfold maybeMeasureF at h ⊢
  rw [show (forget s).t = s.t from rfl, show (forget s).last = s.last from rfl]
  cases hp : hasTimeIntervalPassedF fl s.t s.last dt interval with
  | ub => rw [hp] at h; simp at h
  | diverges => rw [hp] at h; simp at h
  | val b =>
    rw [hp, Res.bind_val] at h
    rw [Res.bind_val]
    cases b with
    | false => simp only [Bool.false_eq_true, if_false, Res.val.injEq] at h ⊢; rw [h]
    | true =>
      simp only [if_true] at h ⊢
      cases hm : measure s.h with
      | ub => rw [hm] at h; simp at h
      | diverges => rw [hm] at h; simp at h
      | val r =>
        rw [hm, Res.map_val, Res.val.injEq] at h
        rw [← h]
        simp [noMeasure, forget]

theorem bodyF_forget {fl : ℝ → ℝ} {step : H → Res H} {measure : H → Res (H × O)} {dt : ℝ} {interval : ℕ} {s s' : State H O}
    (h : bodyF fl step measure dt interval s = .val s') : bodyF fl noStep noMeasure dt interval (forget s) = .val (forget s') := by
  unfold bodyF at h ⊢
  cases hm : maybeMeasureF fl measure dt interval s with
  | ub => rw [hm] at h; simp at h
  | diverges => rw [hm] at h; simp at h
  | val r =>
    rw [hm, Res.bind_val] at h
    rw [maybeMeasureF_forget hm, Res.bind_val]
    cases hs : step r.h with
    | ub => rw [hs] at h; simp at h
    | diverges => rw [hs] at h; simp at h
    | val x =>
      rw [hs, Res.map_val, Res.val.injEq] at h
      rw [← h]
      rfl

section
variable {fl : ℝ → ℝ} {u dt : ℝ} {N : ℕ}

/-- **C73**: whatever is integrated and measured, if the program ends then the times of its rows are exactly the values that `t` has after `0, I, 2I, …` additions `t += dt`, up to the
number `n` of the additions after which the end time is reached. -/
theorem simulateF_times (hfl : Spec.Rounding fl u) (hdt : 0 < dt) (hN : 32 * (N : ℝ) ^ 2 * u ≤ 1) (hN64 : N < 2 ^ 64)
    {step : H → Res H} {measure : H → Res (H × O)} {tEnd : ℝ} (hend : tEnd + dt / 16 ≤ N * dt) {interval : ℕ} {h0 : H} {s : State H O}
    (h : simulateF fl step measure dt tEnd interval h0 = .val s) :
    ∃ n ≤ N, (∀ k < n, Spec.time fl dt k < tEnd) ∧ tEnd ≤ Spec.time fl dt n ∧ s.t = Spec.time fl dt n ∧
      s.out.map Prod.fst = (List.range (n / max interval 1 + 1)).map fun j => Spec.time fl dt (j * max interval 1) := by
  set I := max interval 1 with hI
  unfold simulateF at h
  cases hm : measure h0 with
  | ub => rw [hm] at h; simp at h
  | diverges => rw [hm] at h; simp at h
  | val r =>
    rw [hm, Res.bind_val] at h
    simp only at h
    cases hw : whileLoop (running tEnd) (fun s : Res (State H O) => s.bind (bodyF fl step measure dt interval)) (.val { h := r.1, t := 0, last := 0, out := [(0, r.2)] }) with
    | ub => rw [hw] at h; simp at h
    | diverges => rw [hw] at h; simp at h
    | val y =>
      rw [hw, Res.bind_val, id] at h
      cases y with
      | ub => simp at h
      | diverges => simp at h
      | val y =>
        rw [Res.bind_val] at h
        rw [whileLoop_val] at hw
        obtain ⟨n, e, hy, hk⟩ := hw
        set F := fun s : Res (State H O) => s.bind (bodyF fl step measure dt interval)
        set x0 : Res (State H O) := .val { h := r.1, t := 0, last := 0, out := [(0, r.2)] } with hx0
        have hall : ∀ k ≤ n, ∃ z, F^[k] x0 = .val z ∧ (k < n → z.t < tEnd) := by
          intro k hkn
          rcases hkn.lt_or_eq with hlt | rfl
          · have := hk k hlt
            cases hz : F^[k] x0 with
            | ub => rw [hz] at this; exact this.elim
            | diverges => rw [hz] at this; exact this.elim
            | val z => rw [hz] at this; exact ⟨z, rfl, fun _ => this⟩
          · exact ⟨y, e.symm, fun h => absurd h (lt_irrefl _)⟩
        have hstate : ∀ k ≤ n, k ≤ N → ∀ z, F^[k] x0 = .val z → forget z = stateAtF fl dt I () (fun _ => ()) k ((k - 1) / I) := by
          intro k
          induction k with
          | zero =>
            intro _ _ z hz
            rw [Function.iterate_zero, id, hx0, Res.val.injEq] at hz
            rw [← hz]
            simp [forget, stateAtF, Spec.rowsF, Spec.time]
          | succ k ih =>
            intro hkn hkN z hz
            obtain ⟨z', hz', -⟩ := hall k (by omega)
            have hf := ih (by omega) (by omega) z' hz'
            rw [Function.iterate_succ_apply', hz'] at hz
            have hb := bodyF_forget hz
            obtain ⟨w, hw, -⟩ := bodyF_at (interval := interval) (step := noStep) (measure := noMeasure) (inv := fun _ _ => True) (o := fun _ => ()) hfl hdt hN hN64
              (by omega : k ≤ N) (fun _ _ => ⟨(), rfl, trivial⟩) (fun _ _ => ⟨(), rfl, trivial⟩) (x := ()) trivial
            rw [hf, hw, Res.val.injEq] at hb
            rw [← hb]
            simp [hI]
        have hnN : n ≤ N := by
          by_contra hcon
          obtain ⟨z, hz, hlt⟩ := hall N (by omega)
          have hf := hstate N (by omega) le_rfl z hz
          have ht : z.t = Spec.time fl dt N := congrArg State.t hf
          have := hlt (by omega)
          have h2 := abs_le.1 (time_close hfl hdt hN (le_refl N))
          rw [ht] at this
          linarith
        have hy' := hstate n le_rfl hnN y e.symm
        have hfin := maybeMeasureF_forget h
        obtain ⟨w, hw, -⟩ := maybeMeasureF_at (interval := interval) (measure := noMeasure) (inv := fun _ _ => True) (o := fun _ => ()) hfl hdt hN hN64
          hnN (fun _ _ => ⟨(), rfl, trivial⟩) (x := ()) trivial
        rw [hy', hw, Res.val.injEq] at hfin
        refine ⟨n, hnN, fun k hkn => ?_, ?_, (congrArg State.t hfin).symm, ?_⟩
        · obtain ⟨z, hz, hlt⟩ := hall k hkn.le
          have := hstate k hkn.le (by omega) z hz
          rw [← show z.t = Spec.time fl dt k from congrArg State.t this]
          exact hlt hkn
        · have : y.t = Spec.time fl dt n := congrArg State.t hy'
          rw [← this]
          exact not_lt.1 hy
        · have := congrArg (fun s : State Unit Unit => s.out.map Prod.fst) hfin
          simp only [stateAtF, Spec.rowsF, forget, List.map_map, Function.comp_def] at this
          exact this.symm

end

end Ieompp.Sim
