import Verif.Props.ExtendedOccupation

/-! # C133: the programs that write the site occupation with parameters that are not finite -/

set_option autoImplicit false
set_option linter.unusedSectionVars false

namespace Ieompp.RealSpace

open Ieompp.Spec
open MomentumSpace (vecAt)

variable {rnd : ℝ → Res ℝ} {sinF : ℝ → ℝ}

/-! ### The table of expectation values -/

theorem mul_notFinite {x : Ext} (hx : x.NotFinite) (y : Ext) : (Ext.mul rnd x y).NotFinite := by
  rcases hx with rfl | ⟨s, rfl⟩
  · rw [Ext.mul_nan_left]; exact Or.inl rfl
  · cases y with
    | fin y =>
      show (if y = 0 then Ext.nan else Ext.inf (s != decide (y < 0))).NotFinite
      split_ifs
      · exact Or.inl rfl
      · exact Or.inr ⟨_, rfl⟩
    | inf r => exact Or.inr ⟨_, rfl⟩
    | nan => exact Or.inl rfl

theorem sinX_notFinite {x : Ext} (hx : x.NotFinite) : sinX sinF x = .nan := by
  rcases hx with rfl | ⟨s, rfl⟩ <;> rfl

/-- Beside the diagonal, the table for a filling that is not finite consists of NaN. -/
theorem evValue1DX_nan {filling : Ext} (hf : filling.NotFinite) (dx : ℝ) (d : ℕ) : evValue1DX rnd sinF (fermiMomentum1DX rnd filling) dx d = .nan := by
  unfold evValue1DX fermiMomentum1DX
  rw [sinX_notFinite (mul_notFinite (mul_notFinite (mul_notFinite hf _) _) _), div_nan_left]

theorem evTable1DX_val {N : ℕ} (filling kF : Ext) {sched : List ℕ} (hs : sched.Perm (List.range' 1 (N / 2))) :
    ∃ values, evTable1DX rnd sinF (Chain.real (K := ℝ) N 1) filling kF sched = .val values ∧ values[0]? = some filling ∧
      ∀ d, 1 ≤ d → d ≤ N / 2 → values[d]? = some (evValue1DX rnd sinF kF 1 d) := by
  have hmem : ∀ d, d ∈ sched ↔ 1 ≤ d ∧ d ≤ N / 2 := fun d => by rw [hs.mem_iff, List.mem_range'_1]; omega
  set v0 : List Ext := (List.replicate (N / 2 + 1) (.fin 0)).set 0 filling with hv0
  have hl : v0.length = N / 2 + 1 := by simp [hv0]
  obtain ⟨w, e1, -, e3⟩ := storeLoop_ok (f := fun d => .val (evValue1DX rnd sinF kF 1 d)) (g := fun d => evValue1DX rnd sinF kF 1 d) sched v0
    (fun d hd => ⟨rfl, by rw [hl]; have := (hmem d).1 hd; omega⟩)
  refine ⟨w, ?_, ?_, fun d h1 h2 => ?_⟩
  · have : assignAt (List.replicate (N / 2 + 1) (.fin 0)) 0 filling = .val v0 := by unfold assignAt; rw [if_pos (by simp)]
    unfold evTable1DX
    rw [show (Chain.real (K := ℝ) N 1).size = N from rfl, this]
    exact e1
  · rw [e3, if_neg (fun h => by have := (hmem 0).1 h.1; omega)]
    simp [hv0]
  · rw [e3, if_pos ⟨(hmem d).2 ⟨h1, h2⟩, by omega⟩]

theorem evFunctionX_defined {N : ℕ} (hN : 3 ≤ N) (filling : Ext) {sched : List ℕ} (hs : sched.Perm (List.range' 1 (N / 2))) :
    ∃ values, evTable1DX rnd sinF (Chain.real (K := ℝ) N 1) filling (fermiMomentum1DX rnd filling) sched = .val values ∧
      Defined N (evFunctionX (Chain.real (K := ℝ) N 1) values) ∧
      (filling.NotFinite → evFunctionX (Chain.real (K := ℝ) N 1) values ⟨true, (1, true)⟩ ⟨false, (0, true)⟩ = .val .nan) := by
  have hc := Chain.Constructed.real (N := N) (1 : ℝ) (by omega) rfl
  obtain ⟨values, e, h0, h1⟩ := evTable1DX_val (rnd := rnd) (sinF := sinF) filling (fermiMomentum1DX rnd filling) hs
  refine ⟨values, e, fun a b ha hb => ?_, fun hf => ?_⟩
  · have hd := (chain_distance_metric hc a.index.1 b.index.1 a.index.1 ha hb ha).2.2.2
    set d := (Chain.real (K := ℝ) N 1).latticeDistance a.index.1 b.index.1 with hdd
    rcases Nat.eq_zero_or_pos d with hz | hz
    · exact ⟨filling, vecAt_get (by rw [← hdd, hz]; exact h0)⟩
    · exact ⟨_, vecAt_get (h1 d hz (by omega))⟩
  · have hd : (Chain.real (K := ℝ) N 1).latticeDistance 1 0 = 1 := by
      unfold Chain.latticeDistance
      rw [show (Chain.real (K := ℝ) N 1).size = N from rfl]
      simp
      omega
    refine vecAt_get ?_
    show values[(Chain.real (K := ℝ) N 1).latticeDistance 1 0]? = _
    rw [hd, h1 1 le_rfl (by omega), evValue1DX_nan hf]

end Ieompp.RealSpace

namespace Ieompp.Program

open Ieompp.Spec ExtC IEEE RealSpace

variable {rnd : ℝ → Res ℝ} {sinF : ℝ → ℝ}

/-- The vector with which the programs start. -/
abbrev startX (n : ℕ) : List ExtC := ⟨.fin 1, .fin 0⟩ :: List.replicate (n - 1) ExtC.zero

section
variable {n : ℕ} (hn : 0 < n) {occ : ℕ → List ExtC → Res Ext} {x0 : Ext}

theorem startX_length (hn : 0 < n) : (startX n).length = n := by simp [startX]; omega

include hn

open Sim in
/-- The outcomes of a program that measures, for step widths and end times that are not finite. -/
theorem occupation_outcomes (h0 : occ 0 (startX n) = .val x0) (ho : ∀ k u, u.length = n → ∃ x, occ k u = .val x) (m : Sparse ExtC) (dt tEnd : Ext) (interval : ℕ) :
    let run := simulateX rnd (stepVarsX rnd n dt m) (fun s => (occ s.1 s.2).map fun x => (s, x)) dt tEnd interval (0, startX n)
    (¬ Ext.Lt (.fin 0) tEnd → ∃ s, run = .val s ∧ s.out = [(.fin 0, x0)]) ∧
    (Ext.Lt (.fin 0) tEnd → (dt = .nan ∨ dt = .inf false → run = .ub) ∧ (dt = .inf true → run = .diverges) ∧
      (rnd = binary64 → ∀ d, dt = .fin d → 1 / 2 ^ 1000 ≤ d → d ≤ 2 ^ 900 → tEnd = .inf false → run = .diverges)) := by
  intro run
  have hm : (fun s : ℕ × List ExtC => (occ s.1 s.2).map fun x => (s, x)) (0, startX n) = .val ((0, startX n), x0) := by
    show (occ 0 (startX n)).map _ = _
    rw [h0]; rfl
  have hs : ∀ s : ℕ × List ExtC, s.2.length = n → ∃ s', stepVarsX rnd n dt m s = .val s' ∧ s'.2.length = n := by
    intro s hl
    obtain ⟨u, e, hu⟩ := ODE.stepMatrixX_val (rnd := rnd) dt m hl
    exact ⟨_, by rw [stepVarsX, e]; rfl, hu⟩
  have hl : ((0, startX n) : ℕ × List ExtC).2.length = n := startX_length hn
  refine ⟨fun hend => ⟨_, simulateX_not_started hm hend, rfl⟩, fun hend => ⟨fun hdt => ?_, fun hdt => ?_, fun hr d hdt h1 h2 h3 => ?_⟩⟩
  · obtain ⟨s1, e, -⟩ := hs _ hl
    exact simulateX_undefined hm e hend hdt
  · subst hdt
    exact simulateX_minus_infinity (fun s => s.2.length = n) hm hl hs hend
  · subst hr hdt h3
    refine simulateX_forever (fun s : ℕ × List ExtC => s.2.length = n) (tEnd := .inf false) h1 h2 (by simp only [Ext.Lt]) hs (fun s hs => ?_) hl
    obtain ⟨x, e⟩ := ho s.1 s.2 hs
    exact ⟨(s, x), by rw [e]; rfl, hs⟩

open Sim in
/-- The rows of a program that measures, given what every state contains. -/
theorem occupation_rows {m : Sparse ExtC} {dt tEnd : ℝ} (hdt1 : 1 / 2 ^ 1000 ≤ dt) (hdt2 : dt ≤ 2 ^ 900) (hend : tEnd + dt / 16 ≤ 2 ^ 24 * dt) (interval : ℕ)
    (inv : ℕ → List ExtC → Prop) (o : ℕ → Ext) (hinv : inv 0 (startX n))
    (hs : ∀ k u, inv k u → ∃ u', ODE.stepMatrixX binary64 n (.fin dt) m u = .val u' ∧ inv (k + 1) u') (ho : ∀ k u, inv k u → occ k u = .val (o k)) :
    ∃ s k, simulateX binary64 (stepVarsX binary64 n (.fin dt) m) (fun s => (occ s.1 s.2).map fun x => (s, x)) (.fin dt) (.fin tEnd) interval (0, startX n) = .val s ∧
      ⌈(tEnd - dt / 16) / dt⌉₊ ≤ k ∧ k ≤ ⌈(tEnd + dt / 16) / dt⌉₊ ∧ s.out.length = k / max interval 1 + 1 ∧
      s.out.map Prod.snd = (List.range (k / max interval 1 + 1)).map fun j => o (j * max interval 1) := by
  have hdt : 0 < dt := lt_of_lt_of_le (one_div_pos.2 (pow_pos two_pos _)) hdt1
  have hend' : tEnd + dt / 16 ≤ ((2 ^ 24 : ℕ) : ℝ) * dt := by rw [Nat.cast_pow, Nat.cast_ofNat]; exact hend
  obtain ⟨s, k, e, -, -, k1, k2, -, rows, len, -⟩ := Sim.simulateF_output (N := 2 ^ 24) double_rounding hdt
    (by rw [Nat.cast_pow, Nat.cast_ofNat]; norm_num) (by norm_num) hend' (step := stepVarsX binary64 n (.fin dt) m)
    (measure := fun s => (occ s.1 s.2).map fun x => (s, x)) (interval := interval) (inv := fun k s => s.1 = k ∧ inv k s.2) (o := o)
    (fun k _ s hk => by
      obtain ⟨u, e, hu⟩ := hs k s.2 hk.2
      exact ⟨(s.1 + 1, u), by rw [stepVarsX, e]; rfl, by rw [hk.1], hu⟩)
    (fun k _ s hk => ⟨s, by rw [hk.1, ho k s.2 hk.2]; rfl, hk⟩) (h0 := (0, startX n)) ⟨rfl, hinv⟩
  have eR := IEEE.simulateR_binary64 hdt1 hdt2 hend (stepVarsX binary64 n (.fin dt) m) (fun s => (occ s.1 s.2).map fun x => (s, x)) interval (0, startX n)
  rw [e] at eR
  refine ⟨embed s, k, Sim.simulateX_extends eR, k1, k2, ?_, ?_⟩
  · simp [embed, len]
  · rw [← rows]
    simp [embed, Function.comp_def]

/-- The rows of a program every step of which gives NaN. -/
theorem occupation_bad (h0 : occ 0 (startX n) = .val x0) (ho : ∀ k, occ k (List.replicate n NN) = .val .nan) {m : Sparse ExtC} {dt tEnd : ℝ}
    (hdt1 : 1 / 2 ^ 1000 ≤ dt) (hdt2 : dt ≤ 2 ^ 900) (hend : tEnd + dt / 16 ≤ 2 ^ 24 * dt) (interval : ℕ)
    (hs : ∀ u, u = startX n ∨ u = List.replicate n NN → ODE.stepMatrixX binary64 n (.fin dt) m u = .val (List.replicate n NN)) :
    ∃ s k, Sim.simulateX binary64 (stepVarsX binary64 n (.fin dt) m) (fun s => (occ s.1 s.2).map fun x => (s, x)) (.fin dt) (.fin tEnd) interval (0, startX n) = .val s ∧
      ⌈(tEnd - dt / 16) / dt⌉₊ ≤ k ∧ k ≤ ⌈(tEnd + dt / 16) / dt⌉₊ ∧ s.out.length = k / max interval 1 + 1 ∧
      s.out.map Prod.snd = x0 :: List.replicate (k / max interval 1) .nan := by
  obtain ⟨s, k, e, k1, k2, len, rows⟩ := occupation_rows hn (occ := occ) (m := m) hdt1 hdt2 hend interval
    (inv := fun k u => u = if k = 0 then startX n else List.replicate n NN) (o := fun k => if k = 0 then x0 else .nan) (by simp)
    (fun k u hu => ⟨List.replicate n NN, hs u (by split_ifs at hu; exacts [Or.inl hu, Or.inr hu]), by rw [if_neg (by omega)]⟩)
    (fun k u hu => by
      split_ifs at hu ⊢ with hk
      · rw [hu, hk, h0]
      · rw [hu, ho k])
  refine ⟨s, k, e, k1, k2, len, ?_⟩
  rw [rows, List.range_succ_eq_map, List.map_cons, List.map_map]
  congr 1
  · rw [Nat.zero_mul, if_pos rfl]
  · rw [List.eq_replicate_iff]
    refine ⟨by simp, ?_⟩
    intro b hb
    obtain ⟨j, -, rfl⟩ := List.mem_map.1 hb
    show (if (j + 1) * max interval 1 = 0 then x0 else Ext.nan) = _
    rw [if_neg (by positivity)]

/-- The rows of a program every measurement of which gives NaN. -/
theorem occupation_all_bad (ho : ∀ k u, u.length = n → occ k u = .val .nan) {m : Sparse ExtC} {dt tEnd : ℝ}
    (hdt1 : 1 / 2 ^ 1000 ≤ dt) (hdt2 : dt ≤ 2 ^ 900) (hend : tEnd + dt / 16 ≤ 2 ^ 24 * dt) (interval : ℕ) :
    ∃ s k, Sim.simulateX binary64 (stepVarsX binary64 n (.fin dt) m) (fun s => (occ s.1 s.2).map fun x => (s, x)) (.fin dt) (.fin tEnd) interval (0, startX n) = .val s ∧
      ⌈(tEnd - dt / 16) / dt⌉₊ ≤ k ∧ k ≤ ⌈(tEnd + dt / 16) / dt⌉₊ ∧ s.out.map Prod.snd = List.replicate (k / max interval 1 + 1) .nan := by
  obtain ⟨s, k, e, k1, k2, len, rows⟩ := occupation_rows hn (occ := occ) (m := m) hdt1 hdt2 hend interval
    (inv := fun _ u => u.length = n) (o := fun _ => .nan) (startX_length hn) (fun k u hu => ODE.stepMatrixX_val (.fin dt) m hu) ho
  exact ⟨s, k, e, k1, k2, by rw [rows, List.map_const', List.length_range]⟩

end

variable {N : ℕ} {sort : List (Triplet Ext) → List (Triplet Ext)} {e : Execution}

/-- `hubbard_real_1d_rk4` as a time loop. -/
theorem real1dRk4X_eq (hN : 3 ≤ N) (he : e.Valid N) (filling : Ext) :
    ∃ occ : ℕ → List ExtC → Res Ext,
      (∀ k u, u.length = N + N ^ 3 → ∃ x, occ k u = .val x ∧ (u = List.replicate (N + N ^ 3) NN → x = .nan) ∧ (filling.NotFinite → x = .nan)) ∧
      ∀ (sort : List (Triplet Ext) → List (Triplet Ext)) (J U dt tEnd : Ext) (interval : ℕ), ∀ m, initMatrixX rnd sort N 2 (Chain.real (K := ℝ) N 1).neighbors J U = .val m →
        real1dRk4X rnd sinF sort e N J U dt tEnd interval filling =
          Sim.simulateX rnd (stepVarsX rnd (N + N ^ 3) dt (timesIX rnd m)) (fun s => (occ s.1 s.2).map fun x => (s, x)) dt tEnd interval (0, startX (N + N ^ 3)) := by
  have hlen : (basis3 N).length = N + N ^ 3 := by rw [(realBasis_size N).2]; ring
  have hn3 : N + N * N * N = N + N ^ 3 := by ring
  have hpos : 0 < N + N ^ 3 := by positivity
  have hc : getConjugate e.conjugation (basis3 N) = conjOf (basis3 N) := parallelModify_eq_map _ _ _ he.conjugation
  obtain ⟨values, et, hd, hf⟩ := evFunctionX_defined (rnd := rnd) (sinF := sinF) hN filling he.table
  refine ⟨fun k u => siteOccupation3X rnd (evFunctionX (Chain.real (K := ℝ) N 1) values) (basis3 N) (conjOf (basis3 N)) u (e.threads k) (e.loop1 k) (e.loop2 k) (e.loop3 k),
    fun k u hu => ?_, fun sort J U dt tEnd interval m em => ?_⟩
  · obtain ⟨x, e1, e2, e3⟩ := siteOccupation3X_val (rnd := rnd) (by omega) hd (hu.trans hn3.symm) (he.loop1 k) (he.loop2 k) (he.loop3 k)
    rw [hn3] at e2
    exact ⟨x, e1, e2, fun h => e3 (hf h)⟩
  · unfold real1dRk4X
    simp only [et, em, Res.bind_val, initVectorX, hlen, if_pos hpos, hc]

/-- `hubbard_real_1d_kinetic_rk4` as a time loop. -/
theorem real1dKineticRk4X_eq (hN : 3 ≤ N) (he : e.ValidKinetic N) (filling : Ext) :
    ∃ occ : ℕ → List ExtC → Res Ext,
      (∀ k u, u.length = N → ∃ x, occ k u = .val x ∧ (u = List.replicate N NN → x = .nan) ∧ (filling.NotFinite → x = .nan)) ∧
      ∀ (sort : List (Triplet Ext) → List (Triplet Ext)) (J dt tEnd : Ext) (interval : ℕ), ∀ m, initKineticMatrixX sort N 2 (Chain.real (K := ℝ) N 1).neighbors J = .val m →
        real1dKineticRk4X rnd sinF sort e N J dt tEnd interval filling =
          Sim.simulateX rnd (stepVarsX rnd N dt (timesIX rnd m)) (fun s => (occ s.1 s.2).map fun x => (s, x)) dt tEnd interval (0, startX N) := by
  have hlen : (basis1 N).length = N := (realBasis_size N).1
  have hc : getConjugate e.conjugation (basis1 N) = conjOf (basis1 N) := parallelModify_eq_map _ _ _ he.conjugation
  obtain ⟨values, et, hd, hf⟩ := evFunctionX_defined (rnd := rnd) (sinF := sinF) hN filling he.table
  refine ⟨fun k u => siteOccupation1X rnd (evFunctionX (Chain.real (K := ℝ) N 1) values) (basis1 N) (conjOf (basis1 N)) u (e.threads k) (e.loop1 k),
    fun k u hu => ?_, fun sort J dt tEnd interval m em => ?_⟩
  · obtain ⟨x, e1, e2, e3⟩ := siteOccupation1X_val (rnd := rnd) (by omega) hd hu (he.loop1 k)
    exact ⟨x, e1, e2, fun h => e3 (hf h)⟩
  · have hpos : 0 < N := by omega
    unfold real1dKineticRk4X
    simp only [et, em, Res.bind_val, initVectorX, hlen, if_pos hpos, hc]

/-- **C133**, `hubbard_real_1d_rk4` with parameters that are not finite: the first row `x0` depends only on the filling (and on how the program is executed). For every arithmetic:
an end time not after 0 gives the first row and a normal end; otherwise a step width NaN or plus infinity leads to undefined behaviour, minus infinity to a run
without end. In binary64: an infinite end time leads to a run without end, and with `J` or `U` infinite or NaN and a usual step width and end time, every row after the first
is NaN and the program ends normally. -/
theorem real1dRk4X_outcomes (hN : 3 ≤ N) (he : e.Valid N) (filling : Ext) :
    ∃ x0, ∀ sort, IsSort sort → ∀ (J U dt tEnd : Ext) (interval : ℕ),
      (¬ Ext.Lt (.fin 0) tEnd → ∃ s, real1dRk4X rnd sinF sort e N J U dt tEnd interval filling = .val s ∧ s.out = [(.fin 0, x0)]) ∧
      (Ext.Lt (.fin 0) tEnd → (dt = .nan ∨ dt = .inf false → real1dRk4X rnd sinF sort e N J U dt tEnd interval filling = .ub) ∧
        (dt = .inf true → real1dRk4X rnd sinF sort e N J U dt tEnd interval filling = .diverges) ∧
        (rnd = binary64 → ∀ d, dt = .fin d → 1 / 2 ^ 1000 ≤ d → d ≤ 2 ^ 900 → tEnd = .inf false →
          real1dRk4X rnd sinF sort e N J U dt tEnd interval filling = .diverges)) ∧
      (rnd = binary64 → J.NotFinite ∨ U.NotFinite → ∀ d T : ℝ, dt = .fin d → tEnd = .fin T → 1 / 2 ^ 1000 ≤ d → d ≤ 2 ^ 900 → T + d / 16 ≤ 2 ^ 24 * d →
        ∃ s k, real1dRk4X rnd sinF sort e N J U dt tEnd interval filling = .val s ∧ ⌈(T - d / 16) / d⌉₊ ≤ k ∧ k ≤ ⌈(T + d / 16) / d⌉₊ ∧
          s.out.length = k / max interval 1 + 1 ∧ s.out.map Prod.snd = x0 :: List.replicate (k / max interval 1) .nan) := by
  have hreg := chain_regular (Chain.Constructed.real (N := N) (1 : ℝ) (by omega) rfl) hN
  have hn : N + N * N * N = N + N ^ 3 := by ring
  have hpos : 0 < N + N ^ 3 := by positivity
  obtain ⟨occ, ho, hrun⟩ := real1dRk4X_eq (rnd := rnd) (sinF := sinF) hN he filling
  obtain ⟨x0, hx0, -⟩ := ho 0 (startX (N + N ^ 3)) (startX_length hpos)
  refine ⟨x0, fun sort hs J U dt tEnd interval => ?_⟩
  obtain ⟨m, em, hm⟩ := RealSpace.initMatrixX_val (rnd := rnd) hreg sort hs J U
  rw [hn] at hm
  rw [hrun sort J U dt tEnd interval m em]
  obtain ⟨o1, o2⟩ := occupation_outcomes (rnd := rnd) hpos hx0 (fun k u hu => (ho k u hu).imp fun _ h => h.1) (timesIX rnd m) dt tEnd interval
  refine ⟨o1, o2, fun hr hbad d T h1 h2 h3 h4 h5 => ?_⟩
  subst hr h1 h2
  refine occupation_bad hpos hx0 (fun k => ?_) h3 h4 h5 interval fun u hu => step_bad binary64_zero hpos _ (fun row hr => ?_) hu
  · obtain ⟨x, e1, e2, -⟩ := ho k (List.replicate (N + N ^ 3) NN) (by simp)
    rw [e1, e2 rfl]
  · obtain ⟨l, e1, e2, e3⟩ := hm row hr
    obtain ⟨t, ht, h1, h2⟩ := RealSpace.rowX_bad hreg le_rfl hbad (by rw [hn]; exact hr) e1
    exact ⟨sort l, e2, fun t ht => e3 t ((hs _).1.mem_iff.1 ht), t, (hs _).1.mem_iff.2 ht, h1, h2⟩

/-- **C133**: the same for `hubbard_real_1d_kinetic_rk4`. -/
theorem real1dKineticRk4X_outcomes (hN : 3 ≤ N) (he : e.ValidKinetic N) (filling : Ext) :
    ∃ x0, ∀ sort, IsSort sort → ∀ (J dt tEnd : Ext) (interval : ℕ),
      (¬ Ext.Lt (.fin 0) tEnd → ∃ s, real1dKineticRk4X rnd sinF sort e N J dt tEnd interval filling = .val s ∧ s.out = [(.fin 0, x0)]) ∧
      (Ext.Lt (.fin 0) tEnd → (dt = .nan ∨ dt = .inf false → real1dKineticRk4X rnd sinF sort e N J dt tEnd interval filling = .ub) ∧
        (dt = .inf true → real1dKineticRk4X rnd sinF sort e N J dt tEnd interval filling = .diverges) ∧
        (rnd = binary64 → ∀ d, dt = .fin d → 1 / 2 ^ 1000 ≤ d → d ≤ 2 ^ 900 → tEnd = .inf false →
          real1dKineticRk4X rnd sinF sort e N J dt tEnd interval filling = .diverges)) ∧
      (rnd = binary64 → J.NotFinite → ∀ d T : ℝ, dt = .fin d → tEnd = .fin T → 1 / 2 ^ 1000 ≤ d → d ≤ 2 ^ 900 → T + d / 16 ≤ 2 ^ 24 * d →
        ∃ s k, real1dKineticRk4X rnd sinF sort e N J dt tEnd interval filling = .val s ∧ ⌈(T - d / 16) / d⌉₊ ≤ k ∧ k ≤ ⌈(T + d / 16) / d⌉₊ ∧
          s.out.length = k / max interval 1 + 1 ∧ s.out.map Prod.snd = x0 :: List.replicate (k / max interval 1) .nan) := by
  have hreg := chain_regular (Chain.Constructed.real (N := N) (1 : ℝ) (by omega) rfl) hN
  have hpos : 0 < N := by omega
  obtain ⟨occ, ho, hrun⟩ := real1dKineticRk4X_eq (rnd := rnd) (sinF := sinF) hN he filling
  obtain ⟨x0, hx0, -⟩ := ho 0 (startX N) (startX_length hpos)
  refine ⟨x0, fun sort hs J dt tEnd interval => ?_⟩
  obtain ⟨m, em, hm⟩ := RealSpace.initKineticMatrixX_val hreg sort hs J
  rw [hrun sort J dt tEnd interval m em]
  obtain ⟨o1, o2⟩ := occupation_outcomes (rnd := rnd) hpos hx0 (fun k u hu => (ho k u hu).imp fun _ h => h.1) (timesIX rnd m) dt tEnd interval
  refine ⟨o1, o2, fun hr hbad d T h1 h2 h3 h4 h5 => ?_⟩
  subst hr h1 h2
  refine occupation_bad hpos hx0 (fun k => ?_) h3 h4 h5 interval fun u hu => step_bad binary64_zero hpos _ (fun row hr => ⟨_, hm row hr, fun t ht => ?_, ?_⟩) hu
  · obtain ⟨x, e1, e2, -⟩ := ho k (List.replicate N NN) (by simp)
    rw [e1, e2 rfl]
  · have := (hs _).1.mem_iff.1 ht
    simp only [RealSpace.kineticTripletsX, List.mem_map] at this
    obtain ⟨n, hn, rfl⟩ := this
    exact hreg.lt row hr n hn
  · obtain ⟨n, hn, h0⟩ := RealSpace.other_neighbour hreg le_rfl hr
    exact ⟨⟨row, n, Ext.neg J⟩, (hs _).1.mem_iff.2 (List.mem_map_of_mem hn), h0, RealSpace.neg_notFinite hbad⟩

/-- **C133, binary64**: a filling that is infinite or NaN, a usual step width and end time: the program (as built without assertions) ends normally, with the usual number
of rows, all of which are NaN, for couplings of any kind. -/
theorem real1dRk4X_filling (hN : 3 ≤ N) (hs : IsSort sort) (he : e.Valid N) {filling : Ext} (hf : filling.NotFinite) (J U : Ext) {dt tEnd : ℝ}
    (hdt1 : 1 / 2 ^ 1000 ≤ dt) (hdt2 : dt ≤ 2 ^ 900) (hend : tEnd + dt / 16 ≤ 2 ^ 24 * dt) (interval : ℕ) :
    ∃ s k, real1dRk4X binary64 sinF sort e N J U (.fin dt) (.fin tEnd) interval filling = .val s ∧
      ⌈(tEnd - dt / 16) / dt⌉₊ ≤ k ∧ k ≤ ⌈(tEnd + dt / 16) / dt⌉₊ ∧ s.out.map Prod.snd = List.replicate (k / max interval 1 + 1) .nan := by
  have hreg := chain_regular (Chain.Constructed.real (N := N) (1 : ℝ) (by omega) rfl) hN
  have hpos : 0 < N + N ^ 3 := by positivity
  obtain ⟨occ, ho, hrun⟩ := real1dRk4X_eq (rnd := binary64) (sinF := sinF) hN he filling
  obtain ⟨m, em, -⟩ := RealSpace.initMatrixX_val (rnd := binary64) hreg sort hs J U
  rw [hrun sort J U (.fin dt) (.fin tEnd) interval m em]
  refine occupation_all_bad hpos (fun k u hu => ?_) hdt1 hdt2 hend interval
  obtain ⟨x, e1, -, e2⟩ := ho k u hu
  rw [e1, e2 hf]

/-- **C133, binary64**: the same for `hubbard_real_1d_kinetic_rk4`. -/
theorem real1dKineticRk4X_filling (hN : 3 ≤ N) (hs : IsSort sort) (he : e.ValidKinetic N) {filling : Ext} (hf : filling.NotFinite) (J : Ext) {dt tEnd : ℝ}
    (hdt1 : 1 / 2 ^ 1000 ≤ dt) (hdt2 : dt ≤ 2 ^ 900) (hend : tEnd + dt / 16 ≤ 2 ^ 24 * dt) (interval : ℕ) :
    ∃ s k, real1dKineticRk4X binary64 sinF sort e N J (.fin dt) (.fin tEnd) interval filling = .val s ∧
      ⌈(tEnd - dt / 16) / dt⌉₊ ≤ k ∧ k ≤ ⌈(tEnd + dt / 16) / dt⌉₊ ∧ s.out.map Prod.snd = List.replicate (k / max interval 1 + 1) .nan := by
  have hreg := chain_regular (Chain.Constructed.real (N := N) (1 : ℝ) (by omega) rfl) hN
  have hpos : 0 < N := by omega
  obtain ⟨occ, ho, hrun⟩ := real1dKineticRk4X_eq (rnd := binary64) (sinF := sinF) hN he filling
  obtain ⟨m, em, -⟩ := RealSpace.initKineticMatrixX_val hreg sort hs J
  rw [hrun sort J (.fin dt) (.fin tEnd) interval m em]
  refine occupation_all_bad hpos (fun k u hu => ?_) hdt1 hdt2 hend interval
  obtain ⟨x, e1, -, e2⟩ := ho k u hu
  rw [e1, e2 hf]

/-- With assertions, a filling that is not finite fails `filling_factor >= 0.` or `filling_factor <= 1.` (expectation_value.hpp:33-34). -/
theorem filling_assertion {filling : Ext} (hf : filling.NotFinite) : ¬ (Ext.Ge filling (.fin 0) ∧ Ext.Ge (.fin 1) filling) := by
  rintro ⟨h1, h2⟩
  rcases hf with rfl | ⟨s, rfl⟩
  · exact h1
  · cases s
    · exact Bool.noConfusion (show false = true from h2)
    · exact Bool.noConfusion (show true = false from h1)

/-- One thread that does everything in order. -/
def serial (N : ℕ) : Execution where
  conjugation := List.range (basis3 N).length
  table := List.range' 1 (N / 2)
  threads := fun _ => 1
  loop1 := fun _ => (loopA true N).map fun p => (0, p)
  loop2 := fun _ => (loopB N (basis3 N).length).map fun p => (0, p)
  loop3 := fun _ => (loopC true N (basis3 N).length).map fun p => (0, p)

theorem serial_valid (N : ℕ) : (serial N).Valid N where
  conjugation := List.Perm.refl _
  table := List.Perm.refl _
  loop1 := fun _ => ⟨by simp [serial, Function.comp_def], fun e he => by simp only [serial, List.mem_map] at he; obtain ⟨p, -, rfl⟩ := he; exact Nat.one_pos⟩
  loop2 := fun _ => ⟨by simp [serial, Function.comp_def], fun e he => by simp only [serial, List.mem_map] at he; obtain ⟨p, -, rfl⟩ := he; exact Nat.one_pos⟩
  loop3 := fun _ => ⟨by simp [serial, Function.comp_def], fun e he => by simp only [serial, List.mem_map] at he; obtain ⟨p, -, rfl⟩ := he; exact Nat.one_pos⟩

/-- A sorting function. -/
def sorted (l : List (Triplet Ext)) : List (Triplet Ext) := l.mergeSort fun a b => decide (a.column ≤ b.column)

theorem sorted_isSort : IsSort sorted := by
  intro l
  refine ⟨List.mergeSort_perm _ _, ?_⟩
  have := List.pairwise_mergeSort (le := fun a b : Triplet Ext => decide (a.column ≤ b.column)) (by intro a b c; simp; omega) (by intro a b; simp; omega) l
  refine this.imp ?_
  intro a b h
  simpa using h

/-- The hypotheses are met: ten sites, a filling of NaN, a hundred steps of width 0.01: 100 to 102 rows, all NaN. -/
theorem real1dRk4X_filling_example :
    ∃ s k, real1dRk4X binary64 Real.sin sorted (serial 10) 10 (.fin 1) (.fin 1) (.fin (1 / 100)) (.fin 1) 1 .nan = .val s ∧
      99 ≤ k ∧ k ≤ 101 ∧ s.out.map Prod.snd = List.replicate (k + 1) .nan := by
  obtain ⟨s, k, e, k1, k2, r⟩ := real1dRk4X_filling (N := 10) (sinF := Real.sin) (by norm_num) sorted_isSort (serial_valid 10) (filling := .nan) (Or.inl rfl)
    (.fin 1) (.fin 1) (dt := 1 / 100) (tEnd := 1)
    (le_trans (one_div_le_one_div_of_le (pow_pos two_pos 7) (pow_le_pow_right₀ one_le_two (by norm_num))) (by norm_num))
    (le_trans (by norm_num : (1 : ℝ) / 100 ≤ 1) (one_le_pow₀ one_le_two)) (by norm_num) 1
  have h1 : 99 ≤ k := by
    have : ((98 : ℕ) : ℝ) < (1 - 1 / 100 / 16) / (1 / 100) := by norm_num
    have := Nat.lt_ceil.2 this
    omega
  have h2 : k ≤ 101 := k2.trans (Nat.ceil_le.2 (by norm_num))
  rw [max_self, Nat.div_one] at r
  exact ⟨s, k, e, h1, h2, r⟩

/-- The hypotheses are met: ten sites, `J = -inf`: every row after the first is NaN. -/
theorem real1dRk4X_coupling_example :
    ∃ s k x0, real1dRk4X binary64 Real.sin sorted (serial 10) 10 (.inf true) (.fin 1) (.fin (1 / 100)) (.fin 1) 1 (.fin (1 / 2)) = .val s ∧
      99 ≤ k ∧ s.out.map Prod.snd = x0 :: List.replicate k .nan := by
  obtain ⟨x0, h⟩ := real1dRk4X_outcomes (rnd := binary64) (N := 10) (sinF := Real.sin) (by norm_num) (serial_valid 10) (.fin (1 / 2))
  obtain ⟨s, k, e, k1, -, -, r⟩ := (h sorted sorted_isSort (.inf true) (.fin 1) (.fin (1 / 100)) (.fin 1) 1).2.2 rfl (Or.inl (Or.inr ⟨true, rfl⟩)) (1 / 100) 1 rfl rfl
    (le_trans (one_div_le_one_div_of_le (pow_pos two_pos 7) (pow_le_pow_right₀ one_le_two (by norm_num))) (by norm_num))
    (le_trans (by norm_num : (1 : ℝ) / 100 ≤ 1) (one_le_pow₀ one_le_two)) (by norm_num)
  have h1 : 99 ≤ k := by
    have : ((98 : ℕ) : ℝ) < (1 - 1 / 100 / 16) / (1 / 100) := by norm_num
    have := Nat.lt_ceil.2 this
    omega
  rw [max_self, Nat.div_one] at r
  exact ⟨s, k, x0, e, h1, r⟩

/-- One thread that does everything in order, kinetic program. -/
def serialKinetic (N : ℕ) : Execution where
  conjugation := List.range (basis1 N).length
  table := List.range' 1 (N / 2)
  threads := fun _ => 1
  loop1 := fun _ => (RealSpace.loop1 (basis1 N).length).map fun p => (0, p)
  loop2 := fun _ => []
  loop3 := fun _ => []

theorem serialKinetic_valid (N : ℕ) : (serialKinetic N).ValidKinetic N where
  conjugation := List.Perm.refl _
  table := List.Perm.refl _
  loop1 := fun _ => ⟨by simp [serialKinetic, Function.comp_def], fun e he => by
    simp only [serialKinetic, List.mem_map] at he; obtain ⟨p, -, rfl⟩ := he; exact Nat.one_pos⟩

/-- The hypotheses are met for the kinetic program: ten sites, an infinite filling and hopping, a hundred steps. -/
theorem real1dKineticRk4X_filling_example :
    ∃ s k, real1dKineticRk4X binary64 Real.sin sorted (serialKinetic 10) 10 (.inf false) (.fin (1 / 100)) (.fin 1) 1 (.inf false) = .val s ∧
      99 ≤ k ∧ s.out.map Prod.snd = List.replicate (k + 1) .nan := by
  obtain ⟨s, k, e, k1, -, r⟩ := real1dKineticRk4X_filling (N := 10) (sinF := Real.sin) (by norm_num) sorted_isSort (serialKinetic_valid 10) (filling := .inf false)
    (Or.inr ⟨false, rfl⟩) (.inf false) (dt := 1 / 100) (tEnd := 1)
    (le_trans (one_div_le_one_div_of_le (pow_pos two_pos 7) (pow_le_pow_right₀ one_le_two (by norm_num))) (by norm_num))
    (le_trans (by norm_num : (1 : ℝ) / 100 ≤ 1) (one_le_pow₀ one_le_two)) (by norm_num) 1
  have h1 : 99 ≤ k := by
    have : ((98 : ℕ) : ℝ) < (1 - 1 / 100 / 16) / (1 / 100) := by norm_num
    have := Nat.lt_ceil.2 this
    omega
  rw [max_self, Nat.div_one] at r
  exact ⟨s, k, e, h1, r⟩

end Ieompp.Program
