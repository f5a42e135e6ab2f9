import Verif.Props.ExtendedProgram

/-! # C128: what the coefficient programs do with parameters that are not finite -/

set_option autoImplicit false
set_option linter.unusedSectionVars false

namespace Ieompp.Program

open Ieompp.Spec ExtC IEEE

variable {rnd : ℝ → Res ℝ}

open Sim in
/-- The outcomes of a program with a matrix and coefficients, for step widths and end times that are not finite. -/
theorem outcomes {n : ℕ} (hn : 0 < n) (m : Sparse ExtC) (dt tEnd : Ext) (interval : ℕ) :
    let h0 : List ExtC := ⟨.fin 1, .fin 0⟩ :: List.replicate (n - 1) ExtC.zero
    let run := simulateX rnd (ODE.stepMatrixX rnd n dt m) (fun h => .val (h, coefficientRowX h)) dt tEnd interval h0
    (¬ Ext.Lt (.fin 0) tEnd → run = .val ⟨h0, .fin 0, .fin 0, [(.fin 0, .fin 1 :: List.replicate (2 * n - 1) (.fin 0))]⟩) ∧
    (Ext.Lt (.fin 0) tEnd → (dt = .nan ∨ dt = .inf false → run = .ub) ∧ (dt = .inf true → run = .diverges) ∧
      (rnd = binary64 → ∀ d, dt = .fin d → 1 / 2 ^ 1000 ≤ d → d ≤ 2 ^ 900 → tEnd = .inf false → run = .diverges)) := by
  intro h0 run
  have hl : h0.length = n := by simp [h0]; omega
  have hm0 : (fun h : List ExtC => Res.val (h, coefficientRowX h)) h0 = .val (h0, coefficientRowX h0) := rfl
  have hs : ∀ h : List ExtC, h.length = n → ∃ h', ODE.stepMatrixX rnd n dt m h = .val h' ∧ h'.length = n := fun h hh => ODE.stepMatrixX_val dt m hh
  have hrow : coefficientRowX h0 = .fin 1 :: List.replicate (2 * n - 1) (.fin 0) := by
    have : ∀ k, coefficientRowX (List.replicate k ExtC.zero) = List.replicate (2 * k) (.fin 0) := by
      intro k
      induction k with
      | zero => rfl
      | succ k ih =>
        unfold coefficientRowX at ih ⊢
        rw [List.replicate_succ, List.flatMap_cons, ih, show 2 * (k + 1) = 2 * k + 1 + 1 by ring, List.replicate_succ, List.replicate_succ]
        rfl
    have h2 := this (n - 1)
    unfold coefficientRowX at h2 ⊢
    show [Ext.fin 1, Ext.fin 0] ++ List.flatMap _ (List.replicate (n - 1) ExtC.zero) = _
    rw [h2, show 2 * n - 1 = 2 * (n - 1) + 1 by omega, List.replicate_succ]
    rfl
  refine ⟨fun hend => ?_, fun hend => ⟨fun hdt => ?_, fun hdt => ?_, fun hr d hdt h1 h2 h3 => ?_⟩⟩
  · show simulateX _ _ _ _ _ _ _ = _
    rw [simulateX_not_started hm0 hend, hrow]
  · obtain ⟨h1, e, -⟩ := hs h0 hl
    exact simulateX_undefined hm0 e hend hdt
  · subst hdt
    exact simulateX_minus_infinity (fun h => h.length = n) hm0 hl hs hend
  · subst hr hdt h3
    exact simulateX_forever (fun h : List ExtC => h.length = n) (tEnd := .inf false) h1 h2 (by simp only [Ext.Lt]) hs (fun h hh => ⟨_, rfl, hh⟩) hl

/-- The rows of a program every step of which gives NaN. -/
theorem rows_bad {n : ℕ} (hn : 0 < n) {step : List ExtC → Res (List ExtC)} {dt tEnd : ℝ} (hdt1 : 1 / 2 ^ 1000 ≤ dt) (hdt2 : dt ≤ 2 ^ 900)
    (hend : tEnd + dt / 16 ≤ 2 ^ 24 * dt) (interval : ℕ)
    (hs : ∀ u, u = (⟨.fin 1, .fin 0⟩ : ExtC) :: List.replicate (n - 1) ExtC.zero ∨ u = List.replicate n NN → step u = .val (List.replicate n NN)) :
    ∃ s k, Sim.simulateX binary64 step (fun h => .val (h, coefficientRowX h)) (.fin dt) (.fin tEnd) interval
        ((⟨.fin 1, .fin 0⟩ : ExtC) :: List.replicate (n - 1) ExtC.zero) = .val s ∧
      ⌈(tEnd - dt / 16) / dt⌉₊ ≤ k ∧ k ≤ ⌈(tEnd + dt / 16) / dt⌉₊ ∧ s.out.length = k / max interval 1 + 1 ∧
      s.out.map Prod.snd = (.fin 1 :: List.replicate (2 * n - 1) (.fin 0)) :: List.replicate (k / max interval 1) (List.replicate (2 * n) .nan) := by
  have hdt : 0 < dt := lt_of_lt_of_le (one_div_pos.2 (pow_pos two_pos _)) hdt1
  set h0 : List ExtC := ⟨.fin 1, .fin 0⟩ :: List.replicate (n - 1) ExtC.zero with hh0
  have hend' : tEnd + dt / 16 ≤ ((2 ^ 24 : ℕ) : ℝ) * dt := by rw [Nat.cast_pow, Nat.cast_ofNat]; exact hend
  obtain ⟨s, k, e, -, -, k1, k2, -, rows, len, -⟩ := Sim.simulateF_output (N := 2 ^ 24) double_rounding hdt
    (by rw [Nat.cast_pow, Nat.cast_ofNat]; norm_num) (by norm_num) hend' (step := step) (measure := fun h => .val (h, coefficientRowX h)) (interval := interval)
    (inv := fun k u => u = if k = 0 then h0 else List.replicate n NN)
    (o := fun k => coefficientRowX (if k = 0 then h0 else List.replicate n NN))
    (fun k _ u hu => ⟨List.replicate n NN, hs u (by split_ifs at hu; exacts [Or.inl hu, Or.inr hu]), by rw [if_neg (by omega)]⟩)
    (fun k _ u hu => ⟨u, by rw [hu], hu⟩) (h0 := h0) (by simp)
  have eR := IEEE.simulateR_binary64 hdt1 hdt2 hend step (fun h => .val (h, coefficientRowX h)) interval h0
  rw [e] at eR
  refine ⟨embed s, k, Sim.simulateX_extends eR, k1, k2, ?_, ?_⟩
  · simp [embed, len]
  · have : (embed s).out.map Prod.snd = s.out.map Prod.snd := by simp [embed, Function.comp_def]
    rw [this, rows, List.range_succ_eq_map, List.map_cons, List.map_map]
    have hrow := ((outcomes (rnd := binary64) hn (Sparse.init 0 0) .nan .nan 1).1 (fun h => h))
    congr 1
    · rw [Nat.zero_mul, if_pos rfl]
      have := Sim.simulateX_not_started (rnd := binary64) (step := ODE.stepMatrixX binary64 n .nan (Sparse.init 0 0)) (dt := .nan) (tEnd := .nan) (interval := 1)
        (measure := fun h => .val (h, coefficientRowX h)) (h0 := h0) rfl (fun h => h)
      rw [this] at hrow
      have := congrArg (fun r => match r with | Res.val s => s.out | _ => []) hrow
      simpa using this
    · rw [List.eq_replicate_iff]
      refine ⟨by simp, ?_⟩
      intro b hb
      obtain ⟨j, -, rfl⟩ := List.mem_map.1 hb
      show coefficientRowX (if (j + 1) * max interval 1 = 0 then h0 else List.replicate n NN) = _
      rw [if_neg (by positivity), coefficientRowX_NN]

variable {N : ℕ} {sort : List (Triplet Ext) → List (Triplet Ext)}

/-- **C128**, `hubbard_real_1d_rk4_coefficients` with an infinity or NaN as step width or end time, for every arithmetic, couplings of any kind and every chain of
three sites or more. The end time is not after 0: the row of time 0 and a normal end. Otherwise: a step width NaN or plus infinity leads to undefined behaviour, a step
width of minus infinity to a run without end, and in binary64 an infinite end time to a run without end. Nothing is refused. -/
theorem real1dRk4CoefficientsX_outcomes (hN : 3 ≤ N) (hs : IsSort sort) (J U dt tEnd : Ext) (interval : ℕ) :
    (¬ Ext.Lt (.fin 0) tEnd → ∃ s, real1dRk4CoefficientsX rnd sort N J U dt tEnd interval = .val s ∧
      s.out = [(.fin 0, .fin 1 :: List.replicate (2 * (N + N ^ 3) - 1) (.fin 0))]) ∧
    (Ext.Lt (.fin 0) tEnd → (dt = .nan ∨ dt = .inf false → real1dRk4CoefficientsX rnd sort N J U dt tEnd interval = .ub) ∧
      (dt = .inf true → real1dRk4CoefficientsX rnd sort N J U dt tEnd interval = .diverges) ∧
      (rnd = binary64 → ∀ d, dt = .fin d → 1 / 2 ^ 1000 ≤ d → d ≤ 2 ^ 900 → tEnd = .inf false →
        real1dRk4CoefficientsX rnd sort N J U dt tEnd interval = .diverges)) := by
  have hreg := chain_regular (Chain.Constructed.real (N := N) (1 : ℝ) (by omega) rfl) hN
  obtain ⟨m, em, -⟩ := RealSpace.initMatrixX_val (rnd := rnd) hreg sort hs J U
  have hlen : (RealSpace.basis3 N).length = N + N ^ 3 := by rw [(RealSpace.realBasis_size N).2]; ring
  have hpos : 0 < N + N ^ 3 := by positivity
  have e : real1dRk4CoefficientsX rnd sort N J U dt tEnd interval = Sim.simulateX rnd (ODE.stepMatrixX rnd (N + N ^ 3) dt (RealSpace.timesIX rnd m))
      (fun h => .val (h, coefficientRowX h)) dt tEnd interval (⟨.fin 1, .fin 0⟩ :: List.replicate (N + N ^ 3 - 1) ExtC.zero) := by
    unfold real1dRk4CoefficientsX
    simp only [em, Res.bind_val, initVectorX, hlen, if_pos hpos]
  rw [e]
  obtain ⟨o1, o2⟩ := outcomes (rnd := rnd) hpos (RealSpace.timesIX rnd m) dt tEnd interval
  exact ⟨fun h => ⟨_, o1 h, rfl⟩, o2⟩

/-- **C128**: the same for `hubbard_real_1d_kinetic_rk4_coefficients`. -/
theorem real1dKineticRk4CoefficientsX_outcomes (hN : 3 ≤ N) (hs : IsSort sort) (J dt tEnd : Ext) (interval : ℕ) :
    (¬ Ext.Lt (.fin 0) tEnd → ∃ s, real1dKineticRk4CoefficientsX rnd sort N J dt tEnd interval = .val s ∧
      s.out = [(.fin 0, .fin 1 :: List.replicate (2 * N - 1) (.fin 0))]) ∧
    (Ext.Lt (.fin 0) tEnd → (dt = .nan ∨ dt = .inf false → real1dKineticRk4CoefficientsX rnd sort N J dt tEnd interval = .ub) ∧
      (dt = .inf true → real1dKineticRk4CoefficientsX rnd sort N J dt tEnd interval = .diverges) ∧
      (rnd = binary64 → ∀ d, dt = .fin d → 1 / 2 ^ 1000 ≤ d → d ≤ 2 ^ 900 → tEnd = .inf false →
        real1dKineticRk4CoefficientsX rnd sort N J dt tEnd interval = .diverges)) := by
  have hreg := chain_regular (Chain.Constructed.real (N := N) (1 : ℝ) (by omega) rfl) hN
  obtain ⟨m, em, -⟩ := RealSpace.initKineticMatrixX_val hreg sort hs J
  have hlen : (RealSpace.basis1 N).length = N := (RealSpace.realBasis_size N).1
  have hpos : 0 < N := by omega
  have e : real1dKineticRk4CoefficientsX rnd sort N J dt tEnd interval = Sim.simulateX rnd (ODE.stepMatrixX rnd N dt (RealSpace.timesIX rnd m))
      (fun h => .val (h, coefficientRowX h)) dt tEnd interval (⟨.fin 1, .fin 0⟩ :: List.replicate (N - 1) ExtC.zero) := by
    unfold real1dKineticRk4CoefficientsX
    simp only [em, Res.bind_val, initVectorX, hlen, if_pos hpos]
  rw [e]
  obtain ⟨o1, o2⟩ := outcomes (rnd := rnd) hpos (RealSpace.timesIX rnd m) dt tEnd interval
  exact ⟨fun h => ⟨_, o1 h, rfl⟩, o2⟩

/-- **C128, binary64**: `J` or `U` is an infinity or NaN (the other may be anything), step width and end time are usual: the program ends normally, with the usual
number of rows; the first is that of the unit vector, and every number of every other row is NaN. -/
theorem real1dRk4CoefficientsX_nan (hN : 3 ≤ N) (hs : IsSort sort) {J U : Ext} (hbad : J.NotFinite ∨ U.NotFinite) {dt tEnd : ℝ} (hdt1 : 1 / 2 ^ 1000 ≤ dt)
    (hdt2 : dt ≤ 2 ^ 900) (hend : tEnd + dt / 16 ≤ 2 ^ 24 * dt) (interval : ℕ) :
    ∃ s k, real1dRk4CoefficientsX binary64 sort N J U (.fin dt) (.fin tEnd) interval = .val s ∧
      ⌈(tEnd - dt / 16) / dt⌉₊ ≤ k ∧ k ≤ ⌈(tEnd + dt / 16) / dt⌉₊ ∧ s.out.length = k / max interval 1 + 1 ∧
      s.out.map Prod.snd = (.fin 1 :: List.replicate (2 * (N + N ^ 3) - 1) (.fin 0)) ::
        List.replicate (k / max interval 1) (List.replicate (2 * (N + N ^ 3)) .nan) := by
  have hreg := chain_regular (Chain.Constructed.real (N := N) (1 : ℝ) (by omega) rfl) hN
  obtain ⟨m, em, hm⟩ := RealSpace.initMatrixX_val (rnd := binary64) hreg sort hs J U
  have hn : N + N * N * N = N + N ^ 3 := by ring
  rw [hn] at hm
  have hlen : (RealSpace.basis3 N).length = N + N ^ 3 := by rw [(RealSpace.realBasis_size N).2]; ring
  have hpos : 0 < N + N ^ 3 := by positivity
  have e : real1dRk4CoefficientsX binary64 sort N J U (.fin dt) (.fin tEnd) interval =
      Sim.simulateX binary64 (ODE.stepMatrixX binary64 (N + N ^ 3) (.fin dt) (RealSpace.timesIX binary64 m))
      (fun h => .val (h, coefficientRowX h)) (.fin dt) (.fin tEnd) interval (⟨.fin 1, .fin 0⟩ :: List.replicate (N + N ^ 3 - 1) ExtC.zero) := by
    unfold real1dRk4CoefficientsX
    simp only [em, Res.bind_val, initVectorX, hlen, if_pos hpos]
  rw [e]
  refine rows_bad hpos hdt1 hdt2 hend interval fun u hu => step_bad binary64_zero hpos _ (fun row hr => ?_) hu
  obtain ⟨l, e1, e2, e3⟩ := hm row hr
  obtain ⟨t, ht, h1, h2⟩ := RealSpace.rowX_bad hreg le_rfl hbad (by rw [hn]; exact hr) e1
  exact ⟨sort l, e2, fun t ht => e3 t ((hs _).1.mem_iff.1 ht), t, (hs _).1.mem_iff.2 ht, h1, h2⟩

/-- **C128, binary64**: the same for `hubbard_real_1d_kinetic_rk4_coefficients`. -/
theorem real1dKineticRk4CoefficientsX_nan (hN : 3 ≤ N) (hs : IsSort sort) {J : Ext} (hbad : J.NotFinite) {dt tEnd : ℝ} (hdt1 : 1 / 2 ^ 1000 ≤ dt)
    (hdt2 : dt ≤ 2 ^ 900) (hend : tEnd + dt / 16 ≤ 2 ^ 24 * dt) (interval : ℕ) :
    ∃ s k, real1dKineticRk4CoefficientsX binary64 sort N J (.fin dt) (.fin tEnd) interval = .val s ∧
      ⌈(tEnd - dt / 16) / dt⌉₊ ≤ k ∧ k ≤ ⌈(tEnd + dt / 16) / dt⌉₊ ∧ s.out.length = k / max interval 1 + 1 ∧
      s.out.map Prod.snd = (.fin 1 :: List.replicate (2 * N - 1) (.fin 0)) :: List.replicate (k / max interval 1) (List.replicate (2 * N) .nan) := by
  have hreg := chain_regular (Chain.Constructed.real (N := N) (1 : ℝ) (by omega) rfl) hN
  obtain ⟨m, em, hm⟩ := RealSpace.initKineticMatrixX_val hreg sort hs J
  have hlen : (RealSpace.basis1 N).length = N := (RealSpace.realBasis_size N).1
  have hpos : 0 < N := by omega
  have e : real1dKineticRk4CoefficientsX binary64 sort N J (.fin dt) (.fin tEnd) interval =
      Sim.simulateX binary64 (ODE.stepMatrixX binary64 N (.fin dt) (RealSpace.timesIX binary64 m))
      (fun h => .val (h, coefficientRowX h)) (.fin dt) (.fin tEnd) interval (⟨.fin 1, .fin 0⟩ :: List.replicate (N - 1) ExtC.zero) := by
    unfold real1dKineticRk4CoefficientsX
    simp only [em, Res.bind_val, initVectorX, hlen, if_pos hpos]
  rw [e]
  refine rows_bad hpos hdt1 hdt2 hend interval fun u hu => step_bad binary64_zero hpos _ (fun row hr => ⟨_, hm row hr, fun t ht => ?_, ?_⟩) hu
  · have := (hs _).1.mem_iff.1 ht
    simp only [RealSpace.kineticTripletsX, List.mem_map] at this
    obtain ⟨n, hn, rfl⟩ := this
    exact hreg.lt row hr n hn
  · obtain ⟨n, hn, h0⟩ := RealSpace.other_neighbour hreg le_rfl hr
    exact ⟨⟨row, n, Ext.neg J⟩, (hs _).1.mem_iff.2 (List.mem_map_of_mem hn), h0, RealSpace.neg_notFinite hbad⟩

/-- The hypotheses are met: ten sites, `U = inf`, a hundred steps of width 0.01. -/
theorem real1dRk4CoefficientsX_nan_example :
    ∃ s k, real1dRk4CoefficientsX binary64 (fun l => l.mergeSort fun a b => decide (a.column ≤ b.column)) 10 (.fin 1) (.inf false) (.fin (1 / 100)) (.fin 1) 1 = .val s ∧
      99 ≤ k ∧ k ≤ 101 ∧ s.out.length = k + 1 ∧ (s.out.map Prod.snd)[1]? = some (List.replicate 2020 .nan) := by
  obtain ⟨s, k, e, k1, k2, l, r⟩ := real1dRk4CoefficientsX_nan (N := 10) (sort := fun l => l.mergeSort fun a b => decide (a.column ≤ b.column)) (by norm_num) (by
    intro l
    refine ⟨List.mergeSort_perm _ _, ?_⟩
    have := List.pairwise_mergeSort (le := fun a b : Triplet Ext => decide (a.column ≤ b.column)) (by intro a b c; simp; omega) (by intro a b; simp; omega) l
    refine this.imp ?_
    intro a b h
    simpa using h) (J := .fin 1) (U := .inf false) (Or.inr (Or.inr ⟨false, rfl⟩)) (dt := 1 / 100) (tEnd := 1)
    (le_trans (one_div_le_one_div_of_le (pow_pos two_pos 7) (pow_le_pow_right₀ one_le_two (by norm_num))) (by norm_num))
    (le_trans (by norm_num : (1 : ℝ) / 100 ≤ 1) (one_le_pow₀ one_le_two)) (by norm_num) 1
  have h1 : 99 ≤ k := by
    have : ((98 : ℕ) : ℝ) < (1 - 1 / 100 / 16) / (1 / 100) := by norm_num
    have := Nat.lt_ceil.2 this
    omega
  have h2 : k ≤ 101 := k2.trans (Nat.ceil_le.2 (by norm_num))
  rw [max_self, Nat.div_one] at l r
  refine ⟨s, k, e, h1, h2, l, ?_⟩
  rw [r, List.getElem?_cons_succ, List.getElem?_replicate, if_pos (by omega), show 2 * (10 + 10 ^ 3) = 2020 by norm_num]

end Ieompp.Program
