import Verif.Props.ExtendedTime

/-! # C128: with an infinite end time the programs run for ever; the model with infinities extends the one without -/

set_option autoImplicit false
set_option linter.unusedSectionVars false

namespace Ieompp.Sim

open Ieompp.Spec IEEE

variable {H O : Type} {rnd : ℝ → Res ℝ} {step : H → Res H} {measure : H → Res (H × O)} {interval : ℕ}

/-- Times are absorbed: repeated addition of `dt` in 53 digits stays below `2^55 dt`. -/
theorem double_absorbs {dt : ℝ} (h : 0 < dt) : ∃ B, 0 ≤ B ∧ B ≤ 2 ^ 55 * dt ∧ ∀ x, 0 ≤ x → x ≤ B → 0 ≤ double (x + dt) ∧ double (x + dt) ≤ B := by
  set k := Int.log 2 dt
  have h1 : (2 : ℝ) ^ k ≤ dt := Int.zpow_log_le_self (by norm_num) h
  have h2 : dt < (2 : ℝ) ^ (k + 1) := Int.lt_zpow_succ_log_self (by norm_num) dt
  have hk : (0 : ℝ) < 2 ^ k := by positivity
  have e : ∀ n : ℕ, (2 : ℝ) ^ (k + n) = 2 ^ k * 2 ^ n := fun n => by rw [zpow_add₀ two_ne_zero, zpow_natCast]
  have e1 : (2 : ℝ) ^ (k + 1) = 2 ^ k * 2 := by simpa using e 1
  have e3 : (2 : ℝ) ^ (k + 3) = 2 ^ k * 8 := by rw [show k + 3 = k + (3 : ℕ) by norm_num, e]; norm_num
  have e55 : (2 : ℝ) ^ (k + 3 + 52) = 2 ^ k * 2 ^ 55 := by rw [show k + 3 + 52 = k + (55 : ℕ) by push_cast; ring, e]
  have e56 : (2 : ℝ) ^ (k + 3 + 53) = 2 ^ k * 2 ^ 56 := by rw [show k + 3 + 53 = k + (56 : ℕ) by push_cast; ring, e]
  rw [e1] at h2
  refine ⟨2 ^ k * 2 ^ 55, by positivity, by rw [mul_comm]; gcongr, fun x hx hB => ⟨(double_pos (by linarith)).le, ?_⟩⟩
  have hd : double (2 ^ k * 2 ^ 55 + dt) = ((2 ^ 52 : ℤ) : ℝ) * 2 ^ (k + 3) := by
    refine double_eq (r := (2 ^ k * 2 ^ 55 + dt) / 2 ^ (k + 3)) ?_ ?_ ?_ (Or.inl ?_)
    · rw [e55, abs_of_pos (by positivity)]; linarith
    · rw [e56, abs_of_pos (by positivity)]; nlinarith
    · rw [div_mul_cancel₀ _ (by positivity)]
    · rw [e3]
      have : (2 ^ k * 2 ^ 55 + dt) / (2 ^ k * 8) - ((2 ^ 52 : ℤ) : ℝ) = dt / (2 ^ k * 8) := by push_cast; field_simp; ring
      rw [this, abs_of_pos (by positivity), div_lt_iff₀ (by positivity)]
      linarith
  calc double (x + dt) ≤ double (2 ^ k * 2 ^ 55 + dt) := double_monotone (by linarith)
    _ = 2 ^ k * 2 ^ 55 := by rw [hd, e3]; push_cast; ring

theorem round_val {x y : ℝ} (h : rnd x = .val y) : Ext.round rnd x = .fin y := by unfold Ext.round; rw [h]

/-- The cast of the number of steps since the last measurement is defined. -/
theorem passed_val {x y dt B : ℝ} (hdt1 : 1 / 2 ^ 1000 ≤ dt) (hdt2 : dt ≤ 2 ^ 900) (hB : B ≤ 2 ^ 55 * dt) (hy : 0 ≤ y) (hxy : y < x) (hx : x ≤ B) :
    ∃ n, Ext.toU64 (Ext.div binary64 (Ext.sub binary64 (.fin x) (.fin y)) (.fin dt)) = .val n := by
  have hdt : 0 < dt := lt_of_lt_of_le (one_div_pos.2 (pow_pos two_pos _)) hdt1
  have ht : (1 : ℝ) / 2 ^ 1022 ≤ dt := le_trans (one_div_le_one_div_of_le (pow_pos two_pos _) (pow_le_pow_right₀ one_le_two (by norm_num))) hdt1
  have hb : (2 : ℝ) ^ 55 * dt ≤ 2 ^ 1023 := by
    calc (2 : ℝ) ^ 55 * dt ≤ 2 ^ 55 * 2 ^ 900 := mul_le_mul_of_nonneg_left hdt2 (pow_pos two_pos _).le
      _ = 2 ^ (55 + 900) := (pow_add _ _ _).symm
      _ ≤ 2 ^ 1023 := pow_le_pow_right₀ one_le_two (by norm_num)
  have hd0 : |x - y| ≤ 2 ^ 55 * dt := by rw [abs_of_pos (sub_pos.2 hxy)]; exact le_trans (by linarith) hB
  obtain ⟨d, e1, b1⟩ := binary64_arithmetic.rounds (x - y) (hd0.trans hb)
  have b1' : |d - (x - y)| ≤ 2 ^ 55 * dt := by
    refine b1.trans ?_
    have : max |x - y| (1 / 2 ^ 1022) ≤ 2 ^ 55 * dt := max_le hd0 (ht.trans (le_mul_of_one_le_left hdt.le (one_le_pow₀ one_le_two)))
    calc (1 : ℝ) / 2 ^ 53 * max |x - y| (1 / 2 ^ 1022) ≤ 1 * (2 ^ 55 * dt) :=
          mul_le_mul (by norm_num) this (le_max_of_le_left (abs_nonneg _)) zero_le_one
      _ = 2 ^ 55 * dt := one_mul _
  -- `d` is not below `-dt/4`
  have b2 : -(dt / 4) ≤ d := by
    have h1 : (1 : ℝ) / 2 ^ 53 * max |x - y| (1 / 2 ^ 1022) ≤ 1 / 4 * ((x - y) + dt) := by
      refine mul_le_mul (by norm_num) (max_le ?_ ?_) (le_max_of_le_left (abs_nonneg _)) (by norm_num)
      · rw [abs_of_pos (sub_pos.2 hxy)]; linarith
      · exact ht.trans (by linarith)
    have h2 := (abs_le.1 (b1.trans h1)).1
    clear ht hb b1 b1' h1 hdt1 hdt2
    linarith
  have b3 : d ≤ 2 ^ 56 * dt := by
    have h1 := (abs_le.1 b1').2
    have h2 := le_of_abs_le hd0
    have e : (2 : ℝ) ^ 56 = 2 * 2 ^ 55 := by norm_num
    rw [e]
    clear ht hb b1 hdt1 hdt2
    linarith
  have hq : |d / dt| ≤ 2 ^ 56 := by
    rw [abs_div, abs_of_pos hdt, div_le_iff₀ hdt, abs_le]
    refine ⟨?_, b3⟩
    have : dt / 4 ≤ 2 ^ 56 * dt := by
      have : (0 : ℝ) < dt := hdt
      norm_num; linarith
    linarith
  have hq0 : -(1 / 4) ≤ d / dt := by rw [le_div_iff₀ hdt]; linarith
  obtain ⟨q, e2, b4⟩ := binary64_arithmetic.rounds (d / dt) (hq.trans (pow_le_pow_right₀ one_le_two (by norm_num)))
  have b5 : |q - d / dt| ≤ 8 := by
    refine b4.trans ?_
    have : max |d / dt| (1 / 2 ^ 1022) ≤ 2 ^ 56 := max_le hq (le_trans (div_le_one_of_le₀ (one_le_pow₀ one_le_two) (pow_pos two_pos _).le) (one_le_pow₀ one_le_two))
    calc (1 : ℝ) / 2 ^ 53 * max |d / dt| (1 / 2 ^ 1022) ≤ 1 / 2 ^ 53 * 2 ^ 56 := mul_le_mul_of_nonneg_left this (by norm_num)
      _ = 8 := by norm_num
  have b6 : -(1 / 2) < q := by
    rcases le_or_gt 16 (d / dt) with h | h
    · have := (abs_le.1 b5).1
      linarith
    · have h1 : max |d / dt| (1 / 2 ^ 1022) ≤ 16 :=
        max_le (abs_le.2 ⟨by linarith, h.le⟩) (le_trans (div_le_one_of_le₀ (one_le_pow₀ one_le_two) (pow_pos two_pos _).le) (by norm_num))
      have h2 := (abs_le.1 (b4.trans (mul_le_mul_of_nonneg_left h1 (by norm_num)))).1
      have h3 : (1 : ℝ) / 2 ^ 53 * 16 < 1 / 4 := by norm_num
      linarith
  have b7 : q ≤ 2 ^ 57 := by
    have h1 := (abs_le.1 b5).2
    have h2 := le_of_abs_le hq
    have : (2 : ℝ) ^ 57 = 2 ^ 56 + 2 ^ 56 := by norm_num
    rw [this]
    have : (8 : ℝ) ≤ 2 ^ 56 := by norm_num
    linarith
  refine ⟨(cround q).toNat, ?_⟩
  have ed : Ext.sub binary64 (.fin x) (.fin y) = .fin d := round_val (by rw [← sub_eq_add_neg]; exact e1)
  have eq : Ext.div binary64 (.fin d) (.fin dt) = .fin q := by
    show (if dt = 0 then _ else _) = _
    rw [if_neg hdt.ne']
    exact round_val e2
  rw [ed, eq]
  show castU64 (cround q) = _
  unfold castU64
  have hc : 0 ≤ cround q ∧ cround q < 2 ^ 64 := by
    unfold cround
    split_ifs with h
    · refine ⟨Int.floor_nonneg.2 (by linarith), Int.floor_lt.2 ?_⟩
      push_cast
      refine lt_of_le_of_lt (add_le_add_left b7 _) (by norm_num)
    · have : ⌈q - 1 / 2⌉ = 0 := by
        rw [Int.ceil_eq_iff]
        push_cast
        constructor <;> linarith
      rw [this]; norm_num
  rw [if_pos hc]

/-- **C128, binary64**: the end time is plus infinity (or only above `2^55` steps) and the step width is any number between `2^-1000` and `2^900`: the program runs for
ever, for every step function and measurement that are defined on the vectors the program runs through (`I`). -/
theorem simulateX_forever (I : H → Prop) {dt : ℝ} {tEnd : Ext} (hdt1 : 1 / 2 ^ 1000 ≤ dt) (hdt2 : dt ≤ 2 ^ 900) (hend : Ext.Lt (.fin (2 ^ 55 * dt)) tEnd)
    (hs : ∀ h, I h → ∃ h', step h = .val h' ∧ I h') (hm : ∀ h, I h → ∃ r, measure h = .val r ∧ I r.1) {h0 : H} (h0I : I h0) :
    simulateX binary64 step measure (.fin dt) tEnd interval h0 = .diverges := by
  have hdt : 0 < dt := lt_of_lt_of_le (one_div_pos.2 (pow_pos two_pos _)) hdt1
  obtain ⟨B, hB0, hB, hstay⟩ := double_absorbs hdt
  obtain ⟨r, hr, hrI⟩ := hm h0 h0I
  have hrun : ∀ x, x ≤ B → Ext.Lt (.fin x) tEnd := by
    intro x hx
    cases tEnd with
    | fin T => exact lt_of_le_of_lt (hx.trans hB) hend
    | inf b => exact hend
    | nan => exact hend
  have hadd : ∀ x, 0 ≤ x → x ≤ B → Ext.add binary64 (.fin x) (.fin dt) = .fin (double (x + dt)) := by
    intro x h1 h2
    refine round_val (binary64_normal ?_ ?_)
    · rw [abs_of_pos (by linarith)]
      exact le_trans (le_trans (one_div_le_one_div_of_le (pow_pos two_pos _) (pow_le_pow_right₀ one_le_two (by norm_num))) hdt1) (by linarith)
    · rw [abs_of_pos (by linarith)]
      calc x + dt ≤ 2 ^ 55 * dt + 1 * dt := by rw [one_mul]; exact add_le_add (h2.trans hB) le_rfl
        _ = (2 ^ 55 + 1) * dt := (add_mul _ _ _).symm
        _ ≤ 2 ^ 56 * 2 ^ 900 := mul_le_mul (by norm_num) hdt2 hdt.le (pow_pos two_pos _).le
        _ = 2 ^ (56 + 900) := (pow_add _ _ _).symm
        _ ≤ 2 ^ 1023 := pow_le_pow_right₀ one_le_two (by norm_num)
  unfold simulateX
  rw [hr]
  simp only [Res.bind_val]
  have := loopX_forever (rnd := binary64) (step := step) (measure := measure) (dt := .fin dt) (tEnd := tEnd) (interval := interval)
    (fun s => I s.h ∧ ∃ x y, s.t = .fin x ∧ s.last = .fin y ∧ 0 ≤ y ∧ 0 ≤ x ∧ x ≤ B) (fun s h => by
      obtain ⟨-, x, y, e, -, -, -, hx⟩ := h
      rw [e]; exact hrun x hx) (by
      rintro s ⟨hi, x, y, et, el, hy, hx0, hx⟩
      have hmm : ∃ s', maybeMeasureX binary64 measure (.fin dt) interval s = .val s' ∧ I s'.h ∧ s'.t = .fin x ∧ ∃ z, s'.last = .fin z ∧ 0 ≤ z := by
        by_cases hge : Ext.Ge s.last s.t
        · exact ⟨s, maybeMeasureX_idle hge, hi, et, y, el, hy⟩
        · have hxy : y < x := by
            rw [et, el] at hge
            exact not_le.1 hge
          obtain ⟨n, hn⟩ := passed_val hdt1 hdt2 hB hy hxy hx
          rw [← et, ← el] at hn
          unfold maybeMeasureX hasTimeIntervalPassedX
          rw [if_neg hge, hn]
          simp only [Res.map_val, Res.bind_val]
          obtain ⟨r', hr', hi'⟩ := hm s.h hi
          split_ifs
          · rw [hr']
            exact ⟨_, rfl, hi', et, x, et, hx0⟩
          · exact ⟨s, rfl, hi, et, y, el, hy⟩
      obtain ⟨s', e1, hi', e2, z, e3, hz⟩ := hmm
      obtain ⟨h', hh, hI⟩ := hs s'.h hi'
      have hst := hstay x hx0 hx
      refine ⟨{ s' with h := h', t := .fin (double (x + dt)) }, ?_, hI, _, z, rfl, e3, hz, hst.1, hst.2⟩
      unfold bodyX
      rw [e1]
      simp only [Res.bind_val, hh, Res.map_val]
      rw [e2, hadd x hx0 hx]) (s := startX r) ⟨hrI, 0, 0, rfl, rfl, le_refl _, le_refl _, hB0⟩
  unfold loopX at this
  rw [this]; rfl

/-! ### The model without infinities -/

theorem hasPassed_extends {t last dt : ℝ} {b : Bool} (h : hasTimeIntervalPassedR rnd t last dt interval = .val b) :
    hasTimeIntervalPassedX rnd (.fin t) (.fin last) (.fin dt) interval = .val b := by
  unfold hasTimeIntervalPassedR at h
  unfold hasTimeIntervalPassedX
  by_cases h1 : last ≥ t
  · rw [if_pos h1] at h
    rw [if_pos (show Ext.Ge (.fin last) (.fin t) from h1)]
    exact h
  · rw [if_neg h1] at h
    rw [if_neg (show ¬ Ext.Ge (.fin last) (.fin t) from h1)]
    by_cases h2 : dt = 0
    · rw [if_pos h2] at h; cases h
    · rw [if_neg h2] at h
      cases e1 : rnd (t - last) with
      | ub => rw [e1] at h; cases h
      | diverges => rw [e1] at h; cases h
      | val d =>
        rw [e1, Res.bind_val] at h
        cases e2 : rnd (d / dt) with
        | ub => rw [e2] at h; cases h
        | diverges => rw [e2] at h; cases h
        | val q =>
          rw [e2, Res.bind_val] at h
          have ed : Ext.sub rnd (.fin t) (.fin last) = .fin d := round_val (by rw [← sub_eq_add_neg]; exact e1)
          have eq : Ext.div rnd (.fin d) (.fin dt) = .fin q := by
            show (if dt = 0 then _ else _) = _
            rw [if_neg h2]
            exact round_val e2
          rw [ed, eq]
          exact h

theorem maybeMeasure_extends {dt : ℝ} {s s' : State H O} (h : maybeMeasureR rnd measure dt interval s = .val s') :
    maybeMeasureX rnd measure (.fin dt) interval (embed s) = .val (embed s') := by
  unfold maybeMeasureR at h
  unfold maybeMeasureX
  cases e : hasTimeIntervalPassedR rnd s.t s.last dt interval with
  | ub => rw [e] at h; cases h
  | diverges => rw [e] at h; cases h
  | val b =>
    rw [e, Res.bind_val] at h
    rw [show hasTimeIntervalPassedX rnd (embed s).t (embed s).last (.fin dt) interval = .val b from hasPassed_extends e, Res.bind_val]
    cases b with
    | false => cases h; rfl
    | true =>
      simp only [if_true] at h ⊢
      cases em : measure s.h with
      | ub => rw [em] at h; cases h
      | diverges => rw [em] at h; cases h
      | val r =>
        rw [em] at h
        cases h
        rw [show (embed s).h = s.h from rfl, em]
        simp [embed, Res.map_val]

theorem body_extends {dt : ℝ} {s s' : State H O} (h : bodyR rnd step measure dt interval s = .val s') :
    bodyX rnd step measure (.fin dt) interval (embed s) = .val (embed s') := by
  unfold bodyR at h
  unfold bodyX
  cases e : maybeMeasureR rnd measure dt interval s with
  | ub => rw [e] at h; cases h
  | diverges => rw [e] at h; cases h
  | val p =>
    rw [e, Res.bind_val] at h
    rw [maybeMeasure_extends e, Res.bind_val]
    cases es : step p.h with
    | ub => rw [es] at h; cases h
    | diverges => rw [es] at h; cases h
    | val h' =>
      rw [es, Res.bind_val] at h
      cases et : rnd (p.t + dt) with
      | ub => rw [et] at h; cases h
      | diverges => rw [et] at h; cases h
      | val t =>
        rw [et, Res.bind_val] at h
        cases h
        rw [show (embed p).h = p.h from rfl, es, Res.map_val]
        have : Ext.add rnd (embed p).t (.fin dt) = .fin t := round_val et
        rw [this]
        rfl

/-- **C128**: the model with infinities and NaN extends the model of C117 - C120: as long as nothing but finite numbers comes up, the rows are the same. -/
theorem simulateX_extends {dt tEnd : ℝ} {h0 : H} {s : State H O} (h : simulateR rnd step measure dt tEnd interval h0 = .val s) :
    simulateX rnd step measure (.fin dt) (.fin tEnd) interval h0 = .val (embed s) := by
  unfold simulateR at h
  unfold simulateX
  cases hm : measure h0 with
  | ub => rw [hm] at h; cases h
  | diverges => rw [hm] at h; cases h
  | val r =>
    rw [hm] at h
    simp only [Res.bind_val] at h ⊢
    set s0 : State H O := { h := r.1, t := 0, last := 0, out := [(0, r.2)] }
    have e0 : startX r = embed s0 := rfl
    show ((whileLoop _ _ (Res.val (startX r))).bind id).bind _ = _
    rw [e0]
    cases hl : whileLoop (running tEnd) (fun s => s.bind (bodyR rnd step measure dt interval)) (Res.val s0) with
    | ub => rw [hl] at h; cases h
    | diverges => rw [hl] at h; cases h
    | val q =>
      rw [hl] at h
      obtain ⟨n, hq, hstop, hrun⟩ := (whileLoop_val _ _ _ _).1 hl
      -- all rounds
      have key : ∀ n p, (fun s : Res (State H O) => s.bind (bodyR rnd step measure dt interval))^[n] (Res.val s0) = .val p →
          (fun s : Res (StateX H O) => s.bind (bodyX rnd step measure (.fin dt) interval))^[n] (Res.val (embed s0)) = .val (embed p) := by
        intro n
        induction n with
        | zero => intro p e; cases e; rfl
        | succ n ih =>
          intro p e
          rw [Function.iterate_succ_apply'] at e ⊢
          cases hp : (fun s : Res (State H O) => s.bind (bodyR rnd step measure dt interval))^[n] (Res.val s0) with
          | ub => rw [hp] at e; cases e
          | diverges => rw [hp] at e; cases e
          | val p' =>
            rw [hp] at e
            rw [ih p' hp]
            exact body_extends e
      have hval : ∀ k < n, ∃ p, (fun s : Res (State H O) => s.bind (bodyR rnd step measure dt interval))^[k] (Res.val s0) = .val p ∧ p.t < tEnd := by
        intro k hk
        have := hrun k hk
        cases hp : (fun s : Res (State H O) => s.bind (bodyR rnd step measure dt interval))^[k] (Res.val s0) with
        | ub => rw [hp] at this; exact this.elim
        | diverges => rw [hp] at this; exact this.elim
        | val p => rw [hp] at this; exact ⟨p, rfl, this⟩
      cases q with
      | ub => cases h
      | diverges => cases h
      | val p =>
        have hx : whileLoop (runningX (.fin tEnd)) (fun s => s.bind (bodyX rnd step measure (.fin dt) interval)) (Res.val (embed s0)) = .val (.val (embed p)) := by
          refine (whileLoop_val _ _ _ _).2 ⟨n, (key n p hq.symm).symm, hstop, fun k hk => ?_⟩
          obtain ⟨p', e, ht⟩ := hval k hk
          rw [key k p' e]
          exact ht
        rw [hx]
        simp only [Res.bind_val, id] at h ⊢
        exact maybeMeasure_extends h

end Ieompp.Sim
