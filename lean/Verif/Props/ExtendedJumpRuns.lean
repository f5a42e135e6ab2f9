import Verif.Props.ExtendedJump

/-! # C134: the programs that write the Fermi jump with parameters that are not finite -/

set_option autoImplicit false
set_option linter.unusedSectionVars false

namespace Ieompp.Program

open Ieompp.Spec ExtC IEEE RealSpace

variable {rnd : ℝ → Res ℝ} {sinF cosF : ℝ → ℝ}

/-- The static vector is not constructed yet or has the right size. -/
abbrev Static (M : ℕ) (st : Option (List ExtC)) : Prop := ∀ v ∈ st, v.length = M

/-- A measurement by a function `call` of the number of steps, the vector and the static vector. -/
abbrev measured (call : ℕ → List ExtC → Option (List ExtC) → Res (Option (List ExtC) × Ext)) (s : JumpVarsX) : Res (JumpVarsX × Ext) :=
  (call s.1.1 s.1.2 s.2).map fun r => ((s.1, r.1), r.2)

/-- A measurement with the value `x`, whatever the static vector contains. -/
def Measures (M : ℕ) (call : ℕ → List ExtC → Option (List ExtC) → Res (Option (List ExtC) × Ext)) (k : ℕ) (u : List ExtC) (x : Ext) : Prop :=
  ∃ w, w.length = M ∧ ∀ st, Static M st → call k u st = .val (some w, x)

section
variable {n M : ℕ} (hn : 0 < n) {call : ℕ → List ExtC → Option (List ExtC) → Res (Option (List ExtC) × Ext)} {x0 : Ext}

theorem measured_val {k : ℕ} {u : List ExtC} {x : Ext} (h : Measures M call k u x) {st : Option (List ExtC)} (hst : Static M st) :
    ∃ st', measured call ((k, u), st) = .val (((k, u), st'), x) ∧ Static M st' := by
  obtain ⟨w, hw, h⟩ := h
  refine ⟨some w, ?_, fun v hv => ?_⟩
  · show (call k u st).map _ = _
    rw [h st hst]; rfl
  · cases hv; exact hw

theorem static_none : Static M none := fun v hv => by cases hv

theorem stepJumpX_val {dt : Ext} {m : Sparse ExtC} {u u' : List ExtC} (h : ODE.stepMatrixX rnd n dt m u = .val u') (k : ℕ) (st : Option (List ExtC)) :
    stepJumpX rnd n dt m ((k, u), st) = .val ((k + 1, u'), st) := by
  unfold stepJumpX stepVarsX; simp only [h, Res.map_val]

include hn

open Sim in
/-- The outcomes for step widths and end times that are not finite. -/
theorem jump_outcomes (h0 : Measures M call 0 (startX n) x0) (ho : ∀ k u, u.length = n → ∃ x, Measures M call k u x) (m : Sparse ExtC) (dt tEnd : Ext) (interval : ℕ) :
    let run := simulateX rnd (stepJumpX rnd n dt m) (measured call) dt tEnd interval ((0, startX n), none)
    (¬ Ext.Lt (.fin 0) tEnd → ∃ s, run = .val s ∧ s.out = [(.fin 0, x0)]) ∧
    (Ext.Lt (.fin 0) tEnd → (dt = .nan ∨ dt = .inf false → run = .ub) ∧ (dt = .inf true → run = .diverges) ∧
      (rnd = binary64 → ∀ d, dt = .fin d → 1 / 2 ^ 1000 ≤ d → d ≤ 2 ^ 900 → tEnd = .inf false → run = .diverges)) := by
  intro run
  obtain ⟨st0, hm, hst0⟩ := measured_val h0 static_none
  have hs : ∀ s : JumpVarsX, s.1.2.length = n ∧ Static M s.2 → ∃ s', stepJumpX rnd n dt m s = .val s' ∧ s'.1.2.length = n ∧ Static M s'.2 := by
    rintro ⟨⟨k, u⟩, st⟩ ⟨hl, hst⟩
    obtain ⟨u', e, hu⟩ := ODE.stepMatrixX_val (rnd := rnd) dt m hl
    exact ⟨_, stepJumpX_val e k st, hu, hst⟩
  have hl := startX_length hn
  refine ⟨fun hend => ⟨_, simulateX_not_started hm hend, rfl⟩, fun hend => ⟨fun hdt => ?_, fun hdt => ?_, fun hr d hdt h1 h2 h3 => ?_⟩⟩
  · obtain ⟨s1, e, -⟩ := hs ((0, startX n), st0) ⟨hl, hst0⟩
    exact simulateX_undefined hm e hend hdt
  · subst hdt
    exact simulateX_minus_infinity (fun s : JumpVarsX => s.1.2.length = n ∧ Static M s.2) hm ⟨hl, hst0⟩ hs hend
  · subst hr hdt h3
    refine simulateX_forever (fun s : JumpVarsX => s.1.2.length = n ∧ Static M s.2) (tEnd := .inf false) h1 h2 (by simp only [Ext.Lt]) hs ?_ ⟨hl, static_none⟩
    rintro ⟨⟨k, u⟩, st⟩ ⟨hl, hst⟩
    obtain ⟨x, hx⟩ := ho k u hl
    obtain ⟨st', e, h'⟩ := measured_val hx hst
    exact ⟨_, e, hl, h'⟩

open Sim in
/-- The rows, given what every state contains. -/
theorem jump_rows {m : Sparse ExtC} {dt tEnd : ℝ} (hdt1 : 1 / 2 ^ 1000 ≤ dt) (hdt2 : dt ≤ 2 ^ 900) (hend : tEnd + dt / 16 ≤ 2 ^ 24 * dt) (interval : ℕ)
    (inv : ℕ → List ExtC → Prop) (o : ℕ → Ext) (hinv : inv 0 (startX n))
    (hs : ∀ k u, inv k u → ∃ u', ODE.stepMatrixX binary64 n (.fin dt) m u = .val u' ∧ inv (k + 1) u') (ho : ∀ k u, inv k u → Measures M call k u (o k)) :
    ∃ s k, simulateX binary64 (stepJumpX binary64 n (.fin dt) m) (measured call) (.fin dt) (.fin tEnd) interval ((0, startX n), none) = .val s ∧
      ⌈(tEnd - dt / 16) / dt⌉₊ ≤ k ∧ k ≤ ⌈(tEnd + dt / 16) / dt⌉₊ ∧ s.out.length = k / max interval 1 + 1 ∧
      s.out.map Prod.snd = (List.range (k / max interval 1 + 1)).map fun j => o (j * max interval 1) := by
  have hdt : 0 < dt := lt_of_lt_of_le (one_div_pos.2 (pow_pos two_pos _)) hdt1
  have hend' : tEnd + dt / 16 ≤ ((2 ^ 24 : ℕ) : ℝ) * dt := by rw [Nat.cast_pow, Nat.cast_ofNat]; exact hend
  obtain ⟨s, k, e, -, -, k1, k2, -, rows, len, -⟩ := Sim.simulateF_output (N := 2 ^ 24) double_rounding hdt
    (by rw [Nat.cast_pow, Nat.cast_ofNat]; norm_num) (by norm_num) hend' (step := stepJumpX binary64 n (.fin dt) m)
    (measure := measured call) (interval := interval) (inv := fun k s => s.1.1 = k ∧ inv k s.1.2 ∧ Static M s.2) (o := o)
    (by
      rintro k - ⟨⟨k', u⟩, st⟩ ⟨hk, hu, hst⟩
      obtain ⟨u', e, hu'⟩ := hs k u hu
      exact ⟨_, stepJumpX_val e k' st, by rw [← hk], hu', hst⟩)
    (by
      rintro k - ⟨⟨k', u⟩, st⟩ ⟨hk, hu, hst⟩
      cases hk
      obtain ⟨st', e, h'⟩ := measured_val (ho k' u hu) hst
      exact ⟨_, e, rfl, hu, h'⟩) (h0 := ((0, startX n), none)) ⟨rfl, hinv, static_none⟩
  have eR := IEEE.simulateR_binary64 hdt1 hdt2 hend (stepJumpX binary64 n (.fin dt) m) (measured call) interval ((0, startX n), none)
  rw [e] at eR
  refine ⟨embed s, k, Sim.simulateX_extends eR, k1, k2, ?_, ?_⟩
  · simp [embed, len]
  · rw [← rows]
    simp [embed, Function.comp_def]

/-- The rows of a program every step of which gives NaN. -/
theorem jump_bad (h0 : Measures M call 0 (startX n) x0) (ho : ∀ k, Measures M call k (List.replicate n NN) .nan) {m : Sparse ExtC} {dt tEnd : ℝ}
    (hdt1 : 1 / 2 ^ 1000 ≤ dt) (hdt2 : dt ≤ 2 ^ 900) (hend : tEnd + dt / 16 ≤ 2 ^ 24 * dt) (interval : ℕ)
    (hs : ∀ u, u = startX n ∨ u = List.replicate n NN → ODE.stepMatrixX binary64 n (.fin dt) m u = .val (List.replicate n NN)) :
    ∃ s k, Sim.simulateX binary64 (stepJumpX binary64 n (.fin dt) m) (measured call) (.fin dt) (.fin tEnd) interval ((0, startX n), none) = .val s ∧
      ⌈(tEnd - dt / 16) / dt⌉₊ ≤ k ∧ k ≤ ⌈(tEnd + dt / 16) / dt⌉₊ ∧ s.out.length = k / max interval 1 + 1 ∧
      s.out.map Prod.snd = x0 :: List.replicate (k / max interval 1) .nan := by
  obtain ⟨s, k, e, k1, k2, len, rows⟩ := jump_rows hn (call := call) (M := M) (m := m) hdt1 hdt2 hend interval
    (inv := fun k u => u = if k = 0 then startX n else List.replicate n NN) (o := fun k => if k = 0 then x0 else .nan) (by simp)
    (fun k u hu => ⟨List.replicate n NN, hs u (by split_ifs at hu; exacts [Or.inl hu, Or.inr hu]), by rw [if_neg (by omega)]⟩)
    (fun k u hu => by
      split_ifs at hu ⊢ with hk
      · rw [hu, hk]; exact h0
      · rw [hu]; exact ho k)
  refine ⟨s, k, e, k1, k2, len, ?_⟩
  rw [rows, List.range_succ_eq_map, List.map_cons, List.map_map]
  congr 1
  · rw [Nat.zero_mul, if_pos rfl]
  · rw [List.eq_replicate_iff]
    refine ⟨by simp, ?_⟩
    intro b hb
    obtain ⟨j, -, rfl⟩ := List.mem_map.1 hb
    show (if (j + 1) * max interval 1 = 0 then x0 else Ext.nan) = _
    rw [if_neg (by positivity)]

/-- The rows of a program every measurement of which gives NaN. -/
theorem jump_all_bad (ho : ∀ k u, u.length = n → Measures M call k u .nan) {m : Sparse ExtC} {dt tEnd : ℝ}
    (hdt1 : 1 / 2 ^ 1000 ≤ dt) (hdt2 : dt ≤ 2 ^ 900) (hend : tEnd + dt / 16 ≤ 2 ^ 24 * dt) (interval : ℕ) :
    ∃ s k, Sim.simulateX binary64 (stepJumpX binary64 n (.fin dt) m) (measured call) (.fin dt) (.fin tEnd) interval ((0, startX n), none) = .val s ∧
      ⌈(tEnd - dt / 16) / dt⌉₊ ≤ k ∧ k ≤ ⌈(tEnd + dt / 16) / dt⌉₊ ∧ s.out.map Prod.snd = List.replicate (k / max interval 1 + 1) .nan := by
  obtain ⟨s, k, e, k1, k2, len, rows⟩ := jump_rows hn (call := call) (M := M) (m := m) hdt1 hdt2 hend interval
    (inv := fun _ u => u.length = n) (o := fun _ => .nan) (startX_length hn) (fun k u hu => ODE.stepMatrixX_val (.fin dt) m hu) ho
  exact ⟨s, k, e, k1, k2, by rw [rows, List.map_const', List.length_range]⟩

end

/-- The measurements of a program with `S` sites: defined, and NaN when the coefficients are, or when `bad` holds. -/
def Calls (rnd : ℝ → Res ℝ) (S : ℕ) (bad : Prop) (call : ℕ → List ExtC → Option (List ExtC) → Res (Option (List ExtC) × Ext)) : Prop :=
  ∀ k u, u.length = S + S * S * S → ∃ x, Measures S call k u x ∧ (rnd 0 = .val 0 → bad ∨ u = List.replicate (S + S * S * S) NN → x = .nan)

/-- What the two programs have in common. -/
theorem jump_common {S z : ℕ} {nb : ℕ → List ℕ} (hreg : RegularLattice S z nb) (hz : 2 ≤ z) (hS : 0 < S) {bad : Prop}
    {call : ℕ → List ExtC → Option (List ExtC) → Res (Option (List ExtC) × Ext)} (hc : Calls rnd S bad call) :
    ∃ x0, ∀ sort, IsSort sort → ∀ (J U dt tEnd : Ext) (interval : ℕ), ∃ m, initMatrixX rnd sort S z nb J U = .val m ∧
      let run := Sim.simulateX rnd (stepJumpX rnd (S + S * S * S) dt (timesIX rnd m)) (measured call) dt tEnd interval ((0, startX (S + S * S * S)), none)
      ((¬ Ext.Lt (.fin 0) tEnd → ∃ s, run = .val s ∧ s.out = [(.fin 0, x0)]) ∧
      (Ext.Lt (.fin 0) tEnd → (dt = .nan ∨ dt = .inf false → run = .ub) ∧ (dt = .inf true → run = .diverges) ∧
        (rnd = binary64 → ∀ d, dt = .fin d → 1 / 2 ^ 1000 ≤ d → d ≤ 2 ^ 900 → tEnd = .inf false → run = .diverges)) ∧
      (rnd = binary64 → J.NotFinite ∨ U.NotFinite → ∀ d T : ℝ, dt = .fin d → tEnd = .fin T → 1 / 2 ^ 1000 ≤ d → d ≤ 2 ^ 900 → T + d / 16 ≤ 2 ^ 24 * d →
        ∃ s k, run = .val s ∧ ⌈(T - d / 16) / d⌉₊ ≤ k ∧ k ≤ ⌈(T + d / 16) / d⌉₊ ∧
          s.out.length = k / max interval 1 + 1 ∧ s.out.map Prod.snd = x0 :: List.replicate (k / max interval 1) .nan)) ∧
      (rnd = binary64 → bad → ∀ d T : ℝ, dt = .fin d → tEnd = .fin T → 1 / 2 ^ 1000 ≤ d → d ≤ 2 ^ 900 → T + d / 16 ≤ 2 ^ 24 * d →
        ∃ s k, run = .val s ∧ ⌈(T - d / 16) / d⌉₊ ≤ k ∧ k ≤ ⌈(T + d / 16) / d⌉₊ ∧ s.out.map Prod.snd = List.replicate (k / max interval 1 + 1) .nan) := by
  have hpos : 0 < S + S * S * S := by positivity
  obtain ⟨x0, hx0, -⟩ := hc 0 (startX (S + S * S * S)) (startX_length hpos)
  refine ⟨x0, fun sort hs J U dt tEnd interval => ?_⟩
  obtain ⟨m, em, hm⟩ := RealSpace.initMatrixX_val (rnd := rnd) hreg sort hs J U
  obtain ⟨o1, o2⟩ := jump_outcomes (rnd := rnd) hpos hx0 (fun k u hu => (hc k u hu).imp fun _ h => h.1) (timesIX rnd m) dt tEnd interval
  refine ⟨m, em, ⟨o1, o2, fun hr hbad d T h1 h2 h3 h4 h5 => ?_⟩, fun hr hbad d T h1 h2 h3 h4 h5 => ?_⟩
  · subst hr h1 h2
    refine jump_bad hpos hx0 (fun k => ?_) h3 h4 h5 interval fun u hu => step_bad binary64_zero hpos _ (fun row hr => ?_) hu
    · obtain ⟨x, e1, e2⟩ := hc k (List.replicate (S + S * S * S) NN) (by simp)
      rw [e2 binary64_zero (Or.inr rfl)] at e1
      exact e1
    · obtain ⟨l, e1, e2, e3⟩ := hm row hr
      obtain ⟨t, ht, h1, h2⟩ := RealSpace.rowX_bad hreg hz hbad hr e1
      exact ⟨sort l, e2, fun t ht => e3 t ((hs _).1.mem_iff.1 ht), t, (hs _).1.mem_iff.2 ht, h1, h2⟩
  · subst hr h1 h2
    refine jump_all_bad (M := S) hpos (fun k u hu => ?_) h3 h4 h5 interval
    obtain ⟨x, e1, e2⟩ := hc k u hu
    rw [e2 binary64_zero (Or.inl hbad)] at e1
    exact e1

variable {N : ℕ} {sort : List (Triplet Ext) → List (Triplet Ext)} {e : JumpExecution}

/-- `hubbard_real_1d_rk4_jump` as a time loop. -/
theorem real1dRk4JumpX_eq (hN : 3 ≤ N) (he : e.Valid N) (ht : e.table.Perm (List.range' 1 (N / 2))) (filling : Ext) :
    ∃ call, Calls rnd N filling.NotFinite call ∧ ∀ (sort : List (Triplet Ext) → List (Triplet Ext)) (J U dt tEnd : Ext) (interval : ℕ),
      ∀ m, initMatrixX rnd sort N 2 (Chain.real (K := ℝ) N 1).neighbors J U = .val m →
        real1dRk4JumpX rnd sinF cosF sort e N J U dt tEnd interval filling =
          Sim.simulateX rnd (stepJumpX rnd (N + N * N * N) dt (timesIX rnd m)) (measured call) dt tEnd interval ((0, startX (N + N * N * N)), none) := by
  have hlen : (basis3 N).length = N + N * N * N := (realBasis_size N).2
  have hpos : 0 < N + N * N * N := by positivity
  obtain ⟨values, et, hd, -⟩ := evFunctionX_defined (rnd := rnd) (sinF := sinF) hN filling ht
  set f := (List.range N).map fun i => phaseFactorX sinF cosF (phase1DX rnd (Chain.real (K := ℝ) N 1) (fermiMomentum1DX rnd filling) i) with hf
  refine ⟨fun k u st => jumpCallX rnd (evFunctionX (Chain.real (K := ℝ) N 1) values) (basis3 N) u N f (e.threads k) (e.normalOrder k) (e.sum k) st,
    fun k u hu => ?_, fun sort J U dt tEnd interval m em => ?_⟩
  · obtain ⟨w, x, h1, h2, h3⟩ := jumpCallX_val (rnd := rnd) hd (f := f) (by simp [hf]) hu (he.normalOrder k) (he.sum k)
    refine ⟨x, ⟨w, h1, h2⟩, fun h0 hb => h3 h0 (by omega) (hb.imp (fun hb => ?_) id)⟩
    rw [List.eq_replicate_iff]
    refine ⟨by simp [hf], fun b hb' => ?_⟩
    obtain ⟨i, -, rfl⟩ := List.mem_map.1 hb'
    exact phase1DX_bad hb _ _
  · unfold real1dRk4JumpX
    simp only [et, em, Res.bind_val, initVectorX, hlen, if_pos hpos, jumpCtorX_val _ he.coefficients]
    rfl

/-- `hubbard_real_2d_rk4_jump` with `Nx = Ny` as a time loop. -/
theorem real2dRk4JumpX_eq (hN : 3 ≤ N) (he : e.Valid (N * N)) (ht : e.table2.Perm (evPairs (N / 2) (N / 2))) (kx ky : Ext) :
    ∃ call, Calls rnd (N * N) (kx.NotFinite ∨ ky.NotFinite) call ∧ ∀ (sort : List (Triplet Ext) → List (Triplet Ext)) (J U dt tEnd : Ext) (interval : ℕ),
      ∀ m, initMatrixX rnd sort (N * N) 4 (Square.real (K := ℝ) N N 1 1).neighbors J U = .val m →
        real2dRk4JumpX rnd sinF cosF sort e N N J U dt tEnd interval kx ky =
          Sim.simulateX rnd (stepJumpX rnd (N * N + N * N * (N * N) * (N * N)) dt (timesIX rnd m)) (measured call) dt tEnd interval
            ((0, startX (N * N + N * N * (N * N) * (N * N))), none) := by
  have hlen : (basis3 (N * N)).length = N * N + N * N * (N * N) * (N * N) := (realBasis_size (N * N)).2
  have hNN : 0 < N * N := Nat.mul_pos (by omega) (by omega)
  have hpos : 0 < N * N + N * N * (N * N) * (N * N) := by omega
  obtain ⟨values, et, hd⟩ := evFunction2DX_defined (rnd := rnd) (sinF := sinF) ht
  have hsz : (Square.real (K := ℝ) N N 1 1).size = N * N := rfl
  set f := (List.range (N * N)).map fun i => phaseFactorX sinF cosF (phase2DX rnd (Square.real (K := ℝ) N N 1 1) (kx, ky) i) with hf
  refine ⟨fun k u st => jumpCallX rnd (evFunction2DX (Square.real (K := ℝ) N N 1 1) values) (basis3 (N * N)) u (N * N) f (e.threads k) (e.normalOrder k) (e.sum k) st,
    fun k u hu => ?_, fun sort J U dt tEnd interval m em => ?_⟩
  · obtain ⟨w, x, h1, h2, h3⟩ := jumpCallX_val (rnd := rnd) hd (f := f) (by simp [hf]) hu (he.normalOrder k) (he.sum k)
    refine ⟨x, ⟨w, h1, h2⟩, fun h0 hb => h3 h0 hNN (hb.imp (fun hb => ?_) id)⟩
    rw [List.eq_replicate_iff]
    refine ⟨by simp [hf], fun b hb' => ?_⟩
    obtain ⟨i, -, rfl⟩ := List.mem_map.1 hb'
    exact phase2DX_bad hb _ _
  · unfold real2dRk4JumpX
    simp only [et, hsz, em, Res.bind_val, initVectorX, hlen, if_pos hpos, jumpCtorX_val _ he.coefficients]
    rfl

/-- **C134**, `hubbard_real_1d_rk4_jump` with parameters that are not finite: the first row `x0` depends only on the filling (and on how the program is executed). For every
arithmetic: an end time not after 0 gives the first row and a normal end; otherwise a step width NaN or plus infinity leads to undefined behaviour, minus infinity to a run
without end. In binary64: an infinite end time leads to a run without end, and with `J` or `U` infinite or NaN and a usual step width and end time, every row after the first
is NaN and the program ends normally. -/
theorem real1dRk4JumpX_outcomes (hN : 3 ≤ N) (he : e.Valid N) (ht : e.table.Perm (List.range' 1 (N / 2))) (filling : Ext) :
    ∃ x0, ∀ sort, IsSort sort → ∀ (J U dt tEnd : Ext) (interval : ℕ),
      (¬ Ext.Lt (.fin 0) tEnd → ∃ s, real1dRk4JumpX rnd sinF cosF sort e N J U dt tEnd interval filling = .val s ∧ s.out = [(.fin 0, x0)]) ∧
      (Ext.Lt (.fin 0) tEnd → (dt = .nan ∨ dt = .inf false → real1dRk4JumpX rnd sinF cosF sort e N J U dt tEnd interval filling = .ub) ∧
        (dt = .inf true → real1dRk4JumpX rnd sinF cosF sort e N J U dt tEnd interval filling = .diverges) ∧
        (rnd = binary64 → ∀ d, dt = .fin d → 1 / 2 ^ 1000 ≤ d → d ≤ 2 ^ 900 → tEnd = .inf false →
          real1dRk4JumpX rnd sinF cosF sort e N J U dt tEnd interval filling = .diverges)) ∧
      (rnd = binary64 → J.NotFinite ∨ U.NotFinite → ∀ d T : ℝ, dt = .fin d → tEnd = .fin T → 1 / 2 ^ 1000 ≤ d → d ≤ 2 ^ 900 → T + d / 16 ≤ 2 ^ 24 * d →
        ∃ s k, real1dRk4JumpX rnd sinF cosF sort e N J U dt tEnd interval filling = .val s ∧ ⌈(T - d / 16) / d⌉₊ ≤ k ∧ k ≤ ⌈(T + d / 16) / d⌉₊ ∧
          s.out.length = k / max interval 1 + 1 ∧ s.out.map Prod.snd = x0 :: List.replicate (k / max interval 1) .nan) := by
  have hreg := chain_regular (Chain.Constructed.real (N := N) (1 : ℝ) (by omega) rfl) hN
  obtain ⟨call, hc, hrun⟩ := real1dRk4JumpX_eq (rnd := rnd) (sinF := sinF) (cosF := cosF) hN he ht filling
  obtain ⟨x0, h⟩ := jump_common hreg le_rfl (by omega) hc
  refine ⟨x0, fun sort hs J U dt tEnd interval => ?_⟩
  obtain ⟨m, em, h1, -⟩ := h sort hs J U dt tEnd interval
  rw [hrun sort J U dt tEnd interval m em]
  exact h1

/-- **C134**: the same for `hubbard_real_2d_rk4_jump` on a square with `Nx = Ny`. -/
theorem real2dRk4JumpX_outcomes_partial (hN : 3 ≤ N) (he : e.Valid (N * N)) (ht : e.table2.Perm (evPairs (N / 2) (N / 2))) (kx ky : Ext) :
    ∃ x0, ∀ sort, IsSort sort → ∀ (J U dt tEnd : Ext) (interval : ℕ),
      (¬ Ext.Lt (.fin 0) tEnd → ∃ s, real2dRk4JumpX rnd sinF cosF sort e N N J U dt tEnd interval kx ky = .val s ∧ s.out = [(.fin 0, x0)]) ∧
      (Ext.Lt (.fin 0) tEnd → (dt = .nan ∨ dt = .inf false → real2dRk4JumpX rnd sinF cosF sort e N N J U dt tEnd interval kx ky = .ub) ∧
        (dt = .inf true → real2dRk4JumpX rnd sinF cosF sort e N N J U dt tEnd interval kx ky = .diverges) ∧
        (rnd = binary64 → ∀ d, dt = .fin d → 1 / 2 ^ 1000 ≤ d → d ≤ 2 ^ 900 → tEnd = .inf false →
          real2dRk4JumpX rnd sinF cosF sort e N N J U dt tEnd interval kx ky = .diverges)) ∧
      (rnd = binary64 → J.NotFinite ∨ U.NotFinite → ∀ d T : ℝ, dt = .fin d → tEnd = .fin T → 1 / 2 ^ 1000 ≤ d → d ≤ 2 ^ 900 → T + d / 16 ≤ 2 ^ 24 * d →
        ∃ s k, real2dRk4JumpX rnd sinF cosF sort e N N J U dt tEnd interval kx ky = .val s ∧ ⌈(T - d / 16) / d⌉₊ ≤ k ∧ k ≤ ⌈(T + d / 16) / d⌉₊ ∧
          s.out.length = k / max interval 1 + 1 ∧ s.out.map Prod.snd = x0 :: List.replicate (k / max interval 1) .nan) := by
  have hreg := square_regular (Square.Constructed.real (s := Square.real (K := ℝ) N N 1 1) (Nx := N) (Ny := N) 1 1 (by omega) (by omega) rfl) hN
  obtain ⟨call, hc, hrun⟩ := real2dRk4JumpX_eq (rnd := rnd) (sinF := sinF) (cosF := cosF) hN he ht kx ky
  obtain ⟨x0, h⟩ := jump_common hreg (by norm_num) (Nat.mul_pos (by omega) (by omega)) hc
  refine ⟨x0, fun sort hs J U dt tEnd interval => ?_⟩
  obtain ⟨m, em, h1, -⟩ := h sort hs J U dt tEnd interval
  rw [hrun sort J U dt tEnd interval m em]
  exact h1

/-- **C134, binary64**: a filling that is infinite or NaN, a usual step width and end time: the program (as built without assertions) ends normally, with the usual number
of rows, all of which are NaN, for couplings of any kind. -/
theorem real1dRk4JumpX_filling (hN : 3 ≤ N) (hs : IsSort sort) (he : e.Valid N) (ht : e.table.Perm (List.range' 1 (N / 2))) {filling : Ext} (hf : filling.NotFinite)
    (J U : Ext) {dt tEnd : ℝ} (hdt1 : 1 / 2 ^ 1000 ≤ dt) (hdt2 : dt ≤ 2 ^ 900) (hend : tEnd + dt / 16 ≤ 2 ^ 24 * dt) (interval : ℕ) :
    ∃ s k, real1dRk4JumpX binary64 sinF cosF sort e N J U (.fin dt) (.fin tEnd) interval filling = .val s ∧
      ⌈(tEnd - dt / 16) / dt⌉₊ ≤ k ∧ k ≤ ⌈(tEnd + dt / 16) / dt⌉₊ ∧ s.out.map Prod.snd = List.replicate (k / max interval 1 + 1) .nan := by
  have hreg := chain_regular (Chain.Constructed.real (N := N) (1 : ℝ) (by omega) rfl) hN
  obtain ⟨call, hc, hrun⟩ := real1dRk4JumpX_eq (rnd := binary64) (sinF := sinF) (cosF := cosF) hN he ht filling
  obtain ⟨x0, h⟩ := jump_common hreg le_rfl (by omega) hc
  obtain ⟨m, em, -, h1⟩ := h sort hs J U (.fin dt) (.fin tEnd) interval
  rw [hrun sort J U _ _ interval m em]
  exact h1 rfl hf dt tEnd rfl rfl hdt1 hdt2 hend

/-- **C134, binary64**: a momentum with a component that is infinite or NaN, for `hubbard_real_2d_rk4_jump` on a square with `Nx = Ny`: all rows are NaN. -/
theorem real2dRk4JumpX_momentum_partial (hN : 3 ≤ N) (hs : IsSort sort) (he : e.Valid (N * N)) (ht : e.table2.Perm (evPairs (N / 2) (N / 2))) {kx ky : Ext}
    (hk : kx.NotFinite ∨ ky.NotFinite) (J U : Ext) {dt tEnd : ℝ} (hdt1 : 1 / 2 ^ 1000 ≤ dt) (hdt2 : dt ≤ 2 ^ 900) (hend : tEnd + dt / 16 ≤ 2 ^ 24 * dt) (interval : ℕ) :
    ∃ s k, real2dRk4JumpX binary64 sinF cosF sort e N N J U (.fin dt) (.fin tEnd) interval kx ky = .val s ∧
      ⌈(tEnd - dt / 16) / dt⌉₊ ≤ k ∧ k ≤ ⌈(tEnd + dt / 16) / dt⌉₊ ∧ s.out.map Prod.snd = List.replicate (k / max interval 1 + 1) .nan := by
  have hreg := square_regular (Square.Constructed.real (s := Square.real (K := ℝ) N N 1 1) (Nx := N) (Ny := N) 1 1 (by omega) (by omega) rfl) hN
  obtain ⟨call, hc, hrun⟩ := real2dRk4JumpX_eq (rnd := binary64) (sinF := sinF) (cosF := cosF) hN he ht kx ky
  obtain ⟨x0, h⟩ := jump_common hreg (by norm_num) (Nat.mul_pos (by omega) (by omega)) hc
  obtain ⟨m, em, -, h1⟩ := h sort hs J U (.fin dt) (.fin tEnd) interval
  rw [hrun sort J U _ _ interval m em]
  exact h1 rfl hk dt tEnd rfl rfl hdt1 hdt2 hend

/-- One thread that does everything in order; a table of the square lattice with `N * N = S` sites. -/
def serialJump (S N : ℕ) : JumpExecution where
  table := List.range' 1 (S / 2)
  table2 := evPairs (N / 2) (N / 2)
  coefficients := List.range S
  normalOrder := fun _ => List.range S
  threads := fun _ => 1
  sum := fun _ => (jumpPairs S).map fun p => (0, p)

theorem serialJump_valid (S N : ℕ) : (serialJump S N).Valid S where
  coefficients := List.Perm.refl _
  normalOrder := fun _ => List.Perm.refl _
  sum := fun _ => ⟨by simp [serialJump, Function.comp_def], fun e he => by simp only [serialJump, List.mem_map] at he; obtain ⟨p, -, rfl⟩ := he; exact Nat.one_pos⟩

theorem usual_step : (1 : ℝ) / 2 ^ 1000 ≤ 1 / 100 ∧ (1 : ℝ) / 100 ≤ 2 ^ 900 :=
  ⟨le_trans (one_div_le_one_div_of_le (pow_pos two_pos 7) (pow_le_pow_right₀ one_le_two (by norm_num))) (by norm_num),
   le_trans (by norm_num : (1 : ℝ) / 100 ≤ 1) (one_le_pow₀ one_le_two)⟩

theorem usual_steps {k : ℕ} (h : ⌈((1 : ℝ) - 1 / 100 / 16) / (1 / 100)⌉₊ ≤ k) : 99 ≤ k := by
  have : ((98 : ℕ) : ℝ) < (1 - 1 / 100 / 16) / (1 / 100) := by norm_num
  have := Nat.lt_ceil.2 this
  omega

/-- The hypotheses are met: ten sites, an infinite filling, a hundred steps of width 0.01: all rows are NaN. -/
theorem real1dRk4JumpX_filling_example :
    ∃ s k, real1dRk4JumpX binary64 Real.sin Real.cos sorted (serialJump 10 0) 10 (.fin 1) (.fin 1) (.fin (1 / 100)) (.fin 1) 1 (.inf false) = .val s ∧
      99 ≤ k ∧ s.out.map Prod.snd = List.replicate (k + 1) .nan := by
  obtain ⟨s, k, e, k1, -, r⟩ := real1dRk4JumpX_filling (N := 10) (sinF := Real.sin) (cosF := Real.cos) (by norm_num) sorted_isSort (serialJump_valid 10 0)
    (List.Perm.refl _) (filling := .inf false) (Or.inr ⟨false, rfl⟩) (.fin 1) (.fin 1) usual_step.1 usual_step.2 (tEnd := 1) (by norm_num) 1
  rw [max_self, Nat.div_one] at r
  exact ⟨s, k, e, usual_steps k1, r⟩

/-- The hypotheses are met: four by four sites, `U = NaN`: every row after the first is NaN. -/
theorem real2dRk4JumpX_coupling_example :
    ∃ s k x0, real2dRk4JumpX binary64 Real.sin Real.cos sorted (serialJump 16 4) 4 4 (.fin 1) .nan (.fin (1 / 100)) (.fin 1) 1 (.fin 1) (.fin 2) = .val s ∧
      99 ≤ k ∧ s.out.map Prod.snd = x0 :: List.replicate k .nan := by
  obtain ⟨x0, h⟩ := real2dRk4JumpX_outcomes_partial (rnd := binary64) (N := 4) (sinF := Real.sin) (cosF := Real.cos) (by norm_num) (serialJump_valid 16 4) (List.Perm.refl _)
    (.fin 1) (.fin 2)
  obtain ⟨s, k, e, k1, -, -, r⟩ := (h sorted sorted_isSort (.fin 1) .nan (.fin (1 / 100)) (.fin 1) 1).2.2 rfl (Or.inr (Or.inl rfl)) (1 / 100) 1 rfl rfl
    usual_step.1 usual_step.2 (by norm_num)
  rw [max_self, Nat.div_one] at r
  exact ⟨s, k, x0, e, usual_steps k1, r⟩

/-- The hypotheses are met: four by four sites, `ky = -inf`: all rows are NaN. -/
theorem real2dRk4JumpX_momentum_example :
    ∃ s k, real2dRk4JumpX binary64 Real.sin Real.cos sorted (serialJump 16 4) 4 4 (.fin 1) (.fin 1) (.fin (1 / 100)) (.fin 1) 1 (.fin 1) (.inf true) = .val s ∧
      99 ≤ k ∧ s.out.map Prod.snd = List.replicate (k + 1) .nan := by
  obtain ⟨s, k, e, k1, -, r⟩ := real2dRk4JumpX_momentum_partial (N := 4) (sinF := Real.sin) (cosF := Real.cos) (by norm_num) sorted_isSort (serialJump_valid 16 4)
    (List.Perm.refl _) (kx := .fin 1) (ky := .inf true) (Or.inr (Or.inr ⟨true, rfl⟩)) (.fin 1) (.fin 1) usual_step.1 usual_step.2 (tEnd := 1) (by norm_num) 1
  rw [max_self, Nat.div_one] at r
  exact ⟨s, k, e, usual_steps k1, r⟩

end Ieompp.Program
