import Verif.Spec.Extended
import Verif.Props.Binary64Link

/-! # C128: step widths and end times that are not finite -/

set_option autoImplicit false
set_option linter.unusedSectionVars false

namespace Ieompp.Sim

variable {H O : Type} {rnd : ℝ → Res ℝ} {step : H → Res H} {measure : H → Res (H × O)} {dt tEnd : Ext} {interval : ℕ}

/-- What the loop does from a state on. -/
noncomputable abbrev loopX (rnd : ℝ → Res ℝ) (step : H → Res H) (measure : H → Res (H × O)) (dt tEnd : Ext) (interval : ℕ) (s : Res (StateX H O)) :=
  whileLoop (runningX tEnd) (fun s => s.bind (bodyX rnd step measure dt interval)) s

theorem maybeMeasureX_idle {s : StateX H O} (h : Ext.Ge s.last s.t) : maybeMeasureX rnd measure dt interval s = .val s := by
  unfold maybeMeasureX hasTimeIntervalPassedX
  rw [if_pos h]; rfl

theorem maybeMeasureX_ub {s : StateX H O} (h : ¬ Ext.Ge s.last s.t) (hu : Ext.toU64 (Ext.div rnd (Ext.sub rnd s.t s.last) dt) = .ub) :
    maybeMeasureX rnd measure dt interval s = .ub := by
  unfold maybeMeasureX hasTimeIntervalPassedX
  rw [if_neg h, hu]; rfl

/-- The state before the loop. -/
abbrev startX (r : H × O) : StateX H O := { h := r.1, t := .fin 0, last := .fin 0, out := [(.fin 0, r.2)] }

theorem bodyX_start {r : H × O} {h1 : H} (hs : step r.1 = .val h1) :
    bodyX rnd step measure dt interval (startX r) = .val { startX r with h := h1, t := Ext.add rnd (.fin 0) dt } := by
  unfold bodyX
  rw [maybeMeasureX_idle (show Ext.Ge (.fin 0) (.fin 0) from le_refl (0 : ℝ))]
  simp only [Res.bind_val, hs, Res.map_val]

/-- **C128**: if the end time is not after 0 (it is NaN, minus infinity, 0 or negative), a program writes the row of time 0 and ends, whatever the step
width is. -/
theorem simulateX_not_started {h0 : H} {r : H × O} (hm : measure h0 = .val r) (hend : ¬ Ext.Lt (.fin 0) tEnd) :
    simulateX rnd step measure dt tEnd interval h0 = .val ⟨r.1, .fin 0, .fin 0, [(.fin 0, r.2)]⟩ := by
  unfold simulateX
  rw [hm]
  simp only [Res.bind_val]
  rw [(whileLoop_eq _ _ _).2 (show ¬ runningX tEnd (Res.val (startX r)) from hend)]
  simp only [Res.bind_val, id]
  exact maybeMeasureX_idle (show Ext.Ge (.fin 0) (.fin 0) from le_refl (0 : ℝ))

/-- **C128**: the step width is NaN or plus infinity and the end time is after 0: after one step, the behaviour is undefined. -/
theorem simulateX_undefined {h0 h1 : H} {r : H × O} (hm : measure h0 = .val r) (hs : step r.1 = .val h1) (hend : Ext.Lt (.fin 0) tEnd)
    (hdt : dt = .nan ∨ dt = .inf false) : simulateX rnd step measure dt tEnd interval h0 = .ub := by
  unfold simulateX
  rw [hm]
  simp only [Res.bind_val]
  rw [(whileLoop_eq _ _ _).1 (show runningX tEnd (Res.val (startX r)) from hend)]
  simp only [Res.bind_val]
  rw [bodyX_start hs]
  have hstop : ¬ runningX tEnd (Res.val { startX r with h := h1, t := Ext.add rnd (.fin 0) dt }) := by
    show ¬ Ext.Lt (Ext.add rnd (.fin 0) dt) tEnd
    rcases hdt with rfl | rfl
    · cases tEnd <;> exact not_false
    · cases tEnd with
      | fin x => exact fun h => by cases h
      | inf s => exact fun h => by cases h.1
      | nan => exact not_false
  rw [(whileLoop_eq _ _ _).2 hstop]
  simp only [Res.bind_val, id]
  rcases hdt with rfl | rfl
  · exact maybeMeasureX_ub not_false rfl
  · exact maybeMeasureX_ub (show ¬ (false = true) by decide) rfl

/-- The loop goes on for ever if the states it runs through have a property which implies its condition. -/
theorem loopX_forever (P : StateX H O → Prop) (hrun : ∀ s, P s → Ext.Lt s.t tEnd)
    (hstep : ∀ s, P s → ∃ s', bodyX rnd step measure dt interval s = .val s' ∧ P s') {s : StateX H O} (h : P s) :
    loopX rnd step measure dt tEnd interval (.val s) = .diverges := by
  refine whileLoop_diverges _ _ _ fun n => ?_
  have : ∃ s', (fun s : Res (StateX H O) => s.bind (bodyX rnd step measure dt interval))^[n] (.val s) = .val s' ∧ P s' := by
    induction n with
    | zero => exact ⟨s, rfl, h⟩
    | succ n ih =>
      obtain ⟨s', e, hp⟩ := ih
      obtain ⟨s'', e', hp'⟩ := hstep s' hp
      exact ⟨s'', by rw [Function.iterate_succ_apply', e]; exact e', hp'⟩
  obtain ⟨s', e, hp⟩ := this
  rw [e]
  exact hrun s' hp

/-- **C128**: the step width is minus infinity and the end time is after 0: the program never ends. (`I` is whatever the steps need, such as the size of a vector.) -/
theorem simulateX_minus_infinity (I : H → Prop) {h0 : H} {r : H × O} (hm : measure h0 = .val r) (hr : I r.1)
    (hs : ∀ h, I h → ∃ h', step h = .val h' ∧ I h') (hend : Ext.Lt (.fin 0) tEnd) :
    simulateX rnd step measure (.inf true) tEnd interval h0 = .diverges := by
  unfold simulateX
  rw [hm]
  simp only [Res.bind_val]
  have hlt : Ext.Lt (.inf true) tEnd := by
    cases tEnd with
    | fin x => rfl
    | inf s => exact ⟨rfl, hend⟩
    | nan => exact hend
  have := loopX_forever (rnd := rnd) (step := step) (measure := measure) (dt := .inf true) (tEnd := tEnd) (interval := interval)
    (fun s => I s.h ∧ Ext.Ge s.last s.t ∧ Ext.Lt s.t tEnd ∧ (∃ x, s.last = .fin x) ∧ (s.t = .inf true ∨ ∃ x, s.t = .fin x)) (fun s h => h.2.2.1) (by
      rintro s ⟨hi, h1, h2, ⟨x, hx⟩, h3⟩
      obtain ⟨h', hh, hi'⟩ := hs s.h hi
      refine ⟨{ s with h := h', t := .inf true }, ?_, hi', ?_, hlt, ⟨x, hx⟩, Or.inl rfl⟩
      · unfold bodyX
        rw [maybeMeasureX_idle h1]
        simp only [Res.bind_val, hh, Res.map_val]
        congr 2
        rcases h3 with h3 | ⟨y, h3⟩ <;> rw [h3] <;> rfl
      · show Ext.Ge s.last (.inf true)
        rw [hx]; rfl) (s := startX r) ⟨hr, le_refl (0 : ℝ), hend, ⟨0, rfl⟩, Or.inr ⟨0, rfl⟩⟩
  unfold loopX at this
  rw [this]; rfl

/-- **C128**: the end time is plus infinity and the step width finite: whatever the arithmetic, the program never comes to its end. (Either it runs for ever, or its
behaviour is undefined.) -/
theorem simulateX_no_end {h0 : H} {d : ℝ} (s : StateX H O) : simulateX rnd step measure (.fin d) (.inf false) interval h0 ≠ .val s := by
  unfold simulateX
  cases hm : measure h0 with
  | ub => exact fun h => by cases h
  | diverges => exact fun h => by cases h
  | val r =>
    simp only [Res.bind_val]
    intro h
    cases hl : loopX rnd step measure (.fin d) (.inf false) interval (.val (startX r)) with
    | ub => unfold loopX at hl; rw [hl] at h; cases h
    | diverges => unfold loopX at hl; rw [hl] at h; cases h
    | val q =>
      unfold loopX at hl
      rw [hl] at h
      obtain ⟨n, hq, hstop, -⟩ := (whileLoop_val _ _ _ _).1 hl
      -- the times are never NaN, and the time of the last measurement is finite
      have inv : ∀ n, ∀ s', (fun s : Res (StateX H O) => s.bind (bodyX rnd step measure (.fin d) interval))^[n] (.val (startX r)) = .val s' →
          s'.t ≠ .nan ∧ (∃ x, s'.last = .fin x) := by
        intro n
        induction n with
        | zero => intro s' e; cases e; exact ⟨fun h => (by cases h), 0, rfl⟩
        | succ n ih =>
          intro s' e
          rw [Function.iterate_succ_apply'] at e
          cases hp : (fun s : Res (StateX H O) => s.bind (bodyX rnd step measure (.fin d) interval))^[n] (.val (startX r)) with
          | ub => rw [hp] at e; cases e
          | diverges => rw [hp] at e; cases e
          | val p =>
            rw [hp] at e
            obtain ⟨i1, x, i2⟩ := ih p hp
            have e : bodyX rnd step measure (.fin d) interval p = .val s' := e
            unfold bodyX at e
            -- after the measurement block
            cases hmm : maybeMeasureX rnd measure (.fin d) interval p with
            | ub => rw [hmm] at e; cases e
            | diverges => rw [hmm] at e; cases e
            | val p' =>
              rw [hmm, Res.bind_val] at e
              have hp' : p'.t = p.t ∧ ∃ y, p'.last = .fin y := by
                unfold maybeMeasureX hasTimeIntervalPassedX at hmm
                by_cases hge : Ext.Ge p.last p.t
                · rw [if_pos hge] at hmm
                  cases hmm
                  exact ⟨rfl, x, i2⟩
                · rw [if_neg hge] at hmm
                  cases ht : p.t with
                  | nan => exact absurd ht i1
                  | inf b => 
                    rw [ht, i2] at hmm
                    cases hmm
                  | fin y =>
                    cases hc : Ext.toU64 (Ext.div rnd (Ext.sub rnd p.t p.last) (.fin d)) with
                    | ub => rw [hc] at hmm; cases hmm
                    | diverges => rw [hc] at hmm; cases hmm
                    | val k =>
                      rw [hc] at hmm
                      simp only [Res.map_val, Res.bind_val] at hmm
                      split_ifs at hmm with hk
                      · cases hmr : measure p.h with
                        | ub => rw [hmr] at hmm; cases hmm
                        | diverges => rw [hmr] at hmm; cases hmm
                        | val r' =>
                          rw [hmr] at hmm
                          cases hmm
                          exact ⟨ht, y, ht⟩
                      · cases hmm
                        exact ⟨ht, x, i2⟩
              cases hst : step p'.h with
              | ub => rw [hst] at e; cases e
              | diverges => rw [hst] at e; cases e
              | val h' =>
                rw [hst] at e
                cases e
                refine ⟨?_, hp'.2⟩
                show Ext.add rnd p'.t (.fin d) ≠ .nan
                rw [hp'.1]
                cases ht : p.t with
                | nan => exact absurd ht i1
                | inf b => exact fun h => by cases h
                | fin y =>
                  show Ext.round rnd (y + d) ≠ .nan
                  unfold Ext.round
                  split <;> exact fun h => by cases h
      cases q with
      | ub => cases h
      | diverges => cases h
      | val p =>
        obtain ⟨i1, x, i2⟩ := inv n p hq.symm
        have hstop' : ¬ Ext.Lt p.t (.inf false) := hstop
        cases ht : p.t with
        | nan => exact i1 ht
        | fin y => rw [ht] at hstop'; exact hstop' rfl
        | inf b =>
          rw [ht] at hstop'
          have hb : b = false := by
            cases b
            · rfl
            · exact absurd ⟨rfl, rfl⟩ hstop'
          subst hb
          simp only [Res.bind_val, id] at h
          rw [maybeMeasureX_ub (by rw [i2, ht]; exact fun h => by cases h) (by rw [i2, ht]; rfl)] at h
          cases h

end Ieompp.Sim
