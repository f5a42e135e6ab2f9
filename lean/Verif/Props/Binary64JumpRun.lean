import Verif.Props.Binary64Jump
import Verif.Props.Binary64Measured
import Verif.Props.JumpDouble

/-! # C119, second part: the time loop with the Fermi jump -/

set_option autoImplicit false
set_option linter.unusedSectionVars false

namespace Ieompp.IEEE

open Ieompp.Spec ODE RealSpace Program
open MomentumSpace (vecAt)

section Run
variable {rnd : ℝ → Res ℝ} {u tiny huge : ℝ} {n : ℕ} {sp : Sparse ℝ} {spc : Sparse ℂ} {z : ℕ} {B dt : ℝ} {steps : ℕ} {q σ : ℝ}

/-- As `SettingR.simulate`, for a measurement which has a state of its own. -/
theorem SettingR.simulateState {T O : Type} (S : SettingR u tiny huge n sp spc z B dt steps q σ) (A : Arithmetic rnd u tiny huge)
    {tEnd : ℝ} (hend : tEnd + dt / 16 ≤ steps * dt) {interval : ℕ} {meas : Vars × T → Res ((Vars × T) × O)} (Q : T → Prop) (P : ℕ → (Fin n → ℂ) → O → Prop)
    (hmeas : ∀ k w (y : Fin n → ℂ), norm2 y ≤ 1 + vectorErrorR u z (dt * B) (stepSlack dt q σ) steps →
      ∃ x, (∀ st, Q st → ∃ st', Q st' ∧ meas ((k, w, List.ofFn y), st) = .val (((k, w, List.ofFn y), st'), x)) ∧ P k y x) (w : Work ℂ)
    {st0 : T} (hst0 : Q st0) :
    ∃ h s k, initVector n = .val h ∧ simulateR rnd (fun s : Vars × T => (stepVarsR rnd n dt spc s.1).map fun v => (v, s.2)) meas dt tEnd interval
        ((0, w, h), st0) = .val s ∧
      ⌈(tEnd - dt / 16) / dt⌉₊ ≤ k ∧ k ≤ ⌈(tEnd + dt / 16) / dt⌉₊ ∧ s.out.length = k / max interval 1 + 1 ∧
      ∀ j, j < s.out.length → ∃ t x, s.out[j]? = some (t, x) ∧ |t - ((j * max interval 1 : ℕ) : ℝ) * dt| ≤ dt / 16 ∧
        ∃ y : Fin n → ℂ, P (j * max interval 1) y x ∧
          ∀ v, IsFlow n (fun i j => sp.get i j) v → norm2 (y - fun p : Fin n => v ((j * max interval 1 : ℕ) * dt) p) ≤
            vectorErrorR u z (dt * B) (stepSlack dt q σ) (j * max interval 1) := by
  have hdt := S.step
  obtain ⟨h, e, hl, hh⟩ := initVector_correct S.pos
  have hhu : h = List.ofFn (unit0 n) := by
    apply List.ext_getElem?
    intro i
    by_cases hi : i < n
    · rw [hh i hi, List.getElem?_ofFn]; simp [hi, unit0]
    · rw [List.getElem?_eq_none (by omega), List.getElem?_eq_none (by simp; omega)]
  obtain ⟨X, hX0, hXs, hclose⟩ := S.flowVectors A w
  have hrow : ∀ k, ∃ o : O, k ≤ steps → ∃ (w' : Work ℂ) (y : Fin n → ℂ), X k = (k, w', List.ofFn y) ∧
      (∀ st, Q st → ∃ st', Q st' ∧ meas (X k, st) = .val ((X k, st'), o)) ∧ P k y o ∧
      ∀ v, IsFlow n (fun i j => sp.get i j) v → norm2 (y - fun p : Fin n => v ((k : ℕ) * dt) p) ≤ vectorErrorR u z (dt * B) (stepSlack dt q σ) k := by
    have key : ∀ k ≤ steps, ∃ (o : O) (w' : Work ℂ) (y : Fin n → ℂ), X k = (k, w', List.ofFn y) ∧
        (∀ st, Q st → ∃ st', Q st' ∧ meas (X k, st) = .val ((X k, st'), o)) ∧ P k y o ∧
        ∀ v, IsFlow n (fun i j => sp.get i j) v → norm2 (y - fun p : Fin n => v ((k : ℕ) * dt) p) ≤ vectorErrorR u z (dt * B) (stepSlack dt q σ) k := by
      intro k hk
      obtain ⟨w', y, e1, e3, e2⟩ := hclose k hk
      obtain ⟨o, ho, hP⟩ := hmeas k w' y e3
      exact ⟨o, w', y, e1, by rw [e1]; exact ho, hP, e2⟩
    intro k
    by_cases hk : k ≤ steps
    · obtain ⟨o, h⟩ := key k hk
      exact ⟨o, fun _ => h⟩
    · obtain ⟨o, h⟩ := key 0 (by omega)
      exact ⟨o, fun h => absurd h hk⟩
  choose o ho using hrow
  obtain ⟨fl, hfl, hat⟩ := exists_time_rounding A (dt := dt) (by have := S.normal; linarith) S.normal1
  obtain ⟨s, k, h1, h2, h3, h4, h5, h6, h7⟩ := simulateR_output (step := fun s : Vars × T => (stepVarsR rnd n dt spc s.1).map fun v => (v, s.2))
    (measure := meas) hfl hat hdt S.few S.few64
    S.times S.quotients hend (interval := interval) (inv := fun k x => x.1 = X k ∧ Q x.2) (o := o) (by
      rintro k hk ⟨x, st⟩ ⟨hx, hq⟩
      simp only at hx hq
      subst hx
      exact ⟨(X (k + 1), st), by simp only [hXs k hk, Res.map_val], rfl, hq⟩) (by
      rintro k hk ⟨x, st⟩ ⟨hx, hq⟩
      simp only at hx hq
      subst hx
      obtain ⟨w', y, -, e2, -⟩ := ho k hk
      obtain ⟨st', hq', e'⟩ := e2 st hq
      exact ⟨_, e', rfl, hq'⟩) (h0 := ((0, w, h), st0)) ⟨by rw [hhu, hX0], hst0⟩
  refine ⟨h, s, k, e, h1, h3, h4, h6, fun j hj => ?_⟩
  have hx : s.out[j].2 = o (j * max interval 1) := by
    have := congrArg (fun l => l[j]?) h5
    simp only [List.getElem?_map] at this
    rw [List.getElem?_eq_getElem hj, List.getElem?_range (by omega)] at this
    simpa using this
  have hjs : j * max interval 1 ≤ steps := by
    refine le_trans ?_ h2
    calc j * max interval 1 ≤ k / max interval 1 * max interval 1 := Nat.mul_le_mul_right _ (by omega)
      _ ≤ k := Nat.div_mul_le_self _ _
  obtain ⟨w', y, -, -, hP, hy⟩ := ho _ hjs
  refine ⟨s.out[j].1, s.out[j].2, List.getElem?_eq_getElem hj, h7 j hj, y, ?_, hy⟩
  rw [hx]; exact hP

end Run

/-! ### Numbers -/

/-- A nonnegative value is not rounded to a negative number. -/
theorem binary64_nonneg {x y : ℝ} (hx : 0 ≤ x) (h : binary64 x = .val y) : 0 ≤ y := by
  unfold binary64 at h
  split_ifs at h with h1
  · rw [Res.val.injEq] at h
    subst h
    have := binary64Value_err x
    by_cases h2 : |x| < 1 / 2 ^ 1022
    · unfold binary64Value
      rw [if_pos h2]
      refine div_nonneg ?_ (pow_pos two_pos _).le
      have h3 : 0 ≤ x * 2 ^ 1074 := mul_nonneg hx (pow_pos two_pos _).le
      rw [Int.cast_nonneg_iff]
      unfold roundEven
      split_ifs
      · exact Int.floor_nonneg.2 h3
      · exact Int.floor_nonneg.2 (add_nonneg h3 (by norm_num))
    · rw [max_eq_left (not_lt.1 h2), abs_of_nonneg hx] at this
      have := (abs_le.1 this).1
      linarith

/-- As `vectorErrorR_binary64`, for matrices with at most 14 elements in a row. -/
theorem vectorErrorR_binary64_14 {z : ℕ} (hz : z ≤ 14) {x τ : ℝ} (hx : 0 ≤ x) (h : x ^ 2 ≤ 8) (hτ0 : 0 ≤ τ) (hτ : τ ≤ 1 / 8) {k : ℕ} (hk : k ≤ 2 ^ 24) :
    vectorErrorR (1 / 2 ^ 53) z x τ k ≤ vectorErrorDouble14 x k := by
  obtain ⟨h0, h1'⟩ := stepError_le (z := z) (by omega) hx h
  have h1 : stepError (1 / 2 ^ 53) z x ≤ 1200 / 2 ^ 52 := by
    refine h1'.trans ?_
    have hz' : ((4 * z + 24 : ℕ) : ℝ) ≤ 80 := by exact_mod_cast (by omega : 4 * z + 24 ≤ 80)
    rw [show (1200 : ℝ) = 80 * 15 by norm_num]
    gcongr
  have hk' : (k : ℝ) ≤ 2 ^ 24 := by exact_mod_cast hk
  have h2 : (k : ℝ) * stepError (1 / 2 ^ 53) z x ≤ k * (1200 / 2 ^ 52) := mul_le_mul_of_nonneg_left h1 (Nat.cast_nonneg k)
  have h3 := RealSpace.pow_sub_one_le (n := k) h0 (by
    refine h2.trans ?_
    calc (k : ℝ) * (1200 / 2 ^ 52) ≤ 2 ^ 24 * (1200 / 2 ^ 52) := by gcongr
      _ ≤ 1 := by norm_num)
  have h6 : 0 ≤ (1 + stepError (1 / 2 ^ 53) z x) ^ k - 1 := sub_nonneg.2 (one_le_pow₀ (by linarith))
  unfold vectorErrorR vectorErrorDouble14
  have h4 : (k : ℝ) * (1 / 2 ^ 40 + x ^ 5 / 120 * Real.exp x) = k * (1 / 2 ^ 40) + k * (x ^ 5 / 120 * Real.exp x) := by ring
  have h5 : 2 * ((k : ℝ) * (1200 / 2 ^ 52)) * (9 / 8) ≤ k * (1 / 2 ^ 40) := by
    have : 2 * ((k : ℝ) * (1200 / 2 ^ 52)) * (9 / 8) = k * (2700 / 2 ^ 52) := by ring
    rw [this]
    exact mul_le_mul_of_nonneg_left (by norm_num) (Nat.cast_nonneg k)
  have h7 : ((1 + stepError (1 / 2 ^ 53) z x) ^ k - 1) * (1 + τ) ≤ 2 * ((k : ℝ) * (1200 / 2 ^ 52)) * (9 / 8) :=
    mul_le_mul (h3.trans (by linarith)) (by linarith) (by linarith) (by positivity)
  rw [h4]
  linarith

theorem vectorErrorDouble14_le {x : ℝ} (hx : 0 ≤ x) (h : x ^ 2 ≤ 8) : 1 + vectorErrorDouble14 x (2 ^ 24) ≤ 2 ^ 31 := by
  have hx3 : x ≤ 3 := by nlinarith
  have e1 : Real.exp x ≤ 27 := by
    have h1 : Real.exp x ≤ Real.exp 3 := Real.exp_le_exp.2 hx3
    have h2 : Real.exp 3 = Real.exp 1 ^ 3 := by rw [← Real.exp_nat_mul]; norm_num
    have h3 : Real.exp 1 ^ 3 ≤ 3 ^ 3 := pow_le_pow_left₀ (Real.exp_pos 1).le (by linarith [Real.exp_one_lt_d9]) 3
    linarith
  have e2 : x ^ 5 ≤ 3 ^ 5 := pow_le_pow_left₀ hx hx3 5
  have e3 : x ^ 5 / 120 * Real.exp x ≤ 3 ^ 5 / 120 * 27 := by gcongr
  unfold vectorErrorDouble14
  rw [Nat.cast_pow, Nat.cast_ofNat]
  linarith

/-- As `jump_close`, with a multiple of the smallest number in the error of the sum. -/
theorem jump_close_slack {u : ℝ} {N n : ℕ} (hn : n = N + N * N * N) (hu : 0 ≤ u) {ev : ℕ → ℕ → ℝ} {phase : ℕ → ℝ}
    {y : Fin n → ℂ} {v : ℕ → ℂ} {ε x : ℝ} {r : ℕ} (hv : norm2 (fun p : Fin n => v p) ≤ 1)
    (hy : norm2 (y - fun p : Fin n => v p) ≤ ε)
    (hx : |x - fermiJump ev N phase fun i => (List.ofFn y).getD i 0| ≤ ((1 + u) ^ r - 1) * (9 * (n : ℝ) * norm2 y ^ 2 + n)) :
    |x - fermiJump ev N phase v| ≤ quadraticErrorF u r (jumpWeight ev N) (10 * (n : ℝ)) ε := by
  have hε : 0 ≤ ε := (norm2_nonneg _).trans hy
  have h1 := jump_close (x := fermiJump ev N phase fun i => (List.ofFn y).getD i 0) (ev := ev) (phase := phase) (r := 0) hn hu hv hy (by simp)
  have h2 : norm2 y ≤ 1 + ε := by
    have := norm2_add_le (y - fun p : Fin n => v p) (fun p : Fin n => v p)
    rw [sub_add_cancel] at this
    linarith
  have h3 : norm2 y ^ 2 ≤ (1 + ε) ^ 2 := pow_le_pow_left₀ (norm2_nonneg _) h2 2
  have h4 : 0 ≤ (1 + u) ^ r - 1 := sub_nonneg.2 (one_le_pow₀ (by linarith))
  have h5 : 9 * (n : ℝ) * norm2 y ^ 2 + n ≤ 10 * (n : ℝ) * (1 + ε) ^ 2 := by
    have a := mul_le_mul_of_nonneg_left h3 (show (0 : ℝ) ≤ 9 * n by positivity)
    have b := mul_le_mul_of_nonneg_left (show (1 : ℝ) ≤ (1 + ε) ^ 2 by nlinarith) (Nat.cast_nonneg (α := ℝ) n)
    linarith [show 10 * (n : ℝ) * (1 + ε) ^ 2 = 9 * n * (1 + ε) ^ 2 + n * (1 + ε) ^ 2 by ring]
  have h6 := hx.trans (mul_le_mul_of_nonneg_left h5 h4)
  have h7 := abs_sub_le x (fermiJump ev N phase fun i => (List.ofFn y).getD i 0) (fermiJump ev N phase v)
  unfold quadraticErrorF at h1 ⊢
  rw [pow_zero, sub_self, zero_mul, add_zero] at h1
  linarith

/-- The sums of the measurement are far from the ends of the range. -/
theorem jump_slack {tiny huge Q s : ℝ} {n c : ℕ} (ht0 : 0 ≤ tiny) (ht : tiny ≤ 1 / 2 ^ 200) (hh : 2 ^ 200 ≤ huge) (hn1 : 1 ≤ n) (hn : n ≤ 2 ^ 64)
    (hc : c ≤ 2 ^ 70) (hQ : Q ≤ 2 ^ 62) (hs0 : 0 ≤ s) (hs : s ^ 2 ≤ n * Q) :
    7 * (3 * s + c * tiny) ≤ huge ∧ 27 * (3 * s + c * tiny) ^ 2 + 6 * tiny ≤ huge ∧ (3 * s + c * tiny) ^ 2 + 2 * tiny ≤ 9 * n * Q + n := by
  have hn' : (n : ℝ) ≤ 2 ^ 64 := by exact_mod_cast hn
  have hn1' : (1 : ℝ) ≤ n := by exact_mod_cast hn1
  have hc' : (c : ℝ) ≤ 2 ^ 70 := by exact_mod_cast hc
  have hs1 : s ≤ 2 ^ 63 := by
    refine le_of_sq_le_sq ?_ (by positivity)
    refine hs.trans ?_
    have : (n : ℝ) * Q ≤ n * 2 ^ 62 := mul_le_mul_of_nonneg_left hQ (by positivity)
    have : (n : ℝ) * 2 ^ 62 ≤ 2 ^ 64 * 2 ^ 62 := mul_le_mul_of_nonneg_right hn' (by positivity)
    linarith [show (2 : ℝ) ^ 64 * 2 ^ 62 = (2 ^ 63) ^ 2 by norm_num]
  have hd : c * tiny ≤ 1 / 2 ^ 130 := by
    calc (c : ℝ) * tiny ≤ 2 ^ 70 * (1 / 2 ^ 200) := by gcongr
      _ = _ := by norm_num
  have hd0 : 0 ≤ c * tiny := by positivity
  generalize (c : ℝ) * tiny = d at hd hd0
  have h1 : s * d ≤ 2 ^ 63 * (1 / 2 ^ 130) := by gcongr
  have h2 : d * d ≤ 1 / 2 ^ 130 * (1 / 2 ^ 130) := by gcongr
  have e : (3 * s + d) ^ 2 = 9 * s ^ 2 + 6 * (s * d) + d * d := by ring
  have h3 : s ^ 2 ≤ (2 ^ 63) ^ 2 := by gcongr
  rw [e]
  refine ⟨?_, ?_, ?_⟩
  · refine le_trans ?_ hh
    have : (7 : ℝ) * (3 * 2 ^ 63 + 1 / 2 ^ 130) ≤ 2 ^ 200 := by norm_num
    linarith
  · refine le_trans ?_ hh
    have : (27 : ℝ) * (9 * (2 ^ 63) ^ 2 + 6 * (2 ^ 63 * (1 / 2 ^ 130)) + 1 / 2 ^ 130 * (1 / 2 ^ 130)) + 6 * (1 / 2 ^ 200) ≤ 2 ^ 200 := by norm_num
    linarith
  · have : (6 : ℝ) * (2 ^ 63 * (1 / 2 ^ 130)) + 1 / 2 ^ 130 * (1 / 2 ^ 130) + 2 * (1 / 2 ^ 200) ≤ 1 := by norm_num
    linarith [show 9 * (n : ℝ) * Q = 9 * (n * Q) by ring]

/-! ### What the two programs have in common -/

theorem jumpR_program {sinF cosF : ℝ → ℝ} {N z : ℕ} (hN : 1 ≤ N) (hz : 3 * z + 2 ≤ 14) (hn : N + N * N * N < 2 ^ 64) {nb : ℕ → List ℕ}
    (hreg : RegularLattice N z nb) {sort : List (Triplet ℝ) → List (Triplet ℝ)} (hs : IsSort sort) {J U dt tEnd : ℝ} (hJ : IsBinary64 J) (hU : IsBinary64 U)
    (hU' : U = 0 ∨ 1 / 2 ^ 1021 ≤ |U|) (hdt1 : 1 / 2 ^ 1000 ≤ dt) (hdt2 : dt ≤ 2 ^ 900) (hst : (dt * (3 * z * |J| + |U|)) ^ 2 ≤ 8)
    (hend : tEnd + dt / 16 ≤ 2 ^ 24 * dt) {fl : ℝ → ℝ} (M : Machine binary64 fl (1 / 2 ^ 53) (1 / 2 ^ 1022) (2 ^ 1023) (2 ^ 53))
    {E : ℕ → ℝ} (hE : ∀ k ≤ 2 ^ 24, vectorErrorR (1 / 2 ^ 53) (3 * z + 2) (dt * (3 * z * |J| + |U|))
      (stepSlack dt (rowSlack (3 * z + 2) (1 / 2 ^ 1022) * Real.sqrt (N + N * N * N : ℕ)) (slack (N + N * N * N) (1 / 2 ^ 1022))) k ≤ E k)
    (hE1 : 1 + E (2 ^ 24) ≤ 2 ^ 31) {ev' ev : ℕ → ℕ → ℝ} {K L : ℕ}
    (hev : ∀ a < N, ∀ b < N, ApproxR (1 / 2 ^ 53) L (ev' a b) (ev a b) 1) {phaseR : ℕ → Res ℝ} {phase' phase : ℕ → ℝ}
    (hph : ∀ i < N, phaseR i = .val (phase' i))
    (hF : ∀ i < N, ApproxC (1 / 2 ^ 53) K (phaseFactorF sinF cosF phase' i) (Complex.exp (Complex.I * phase i)) 1) (interval : ℕ)
    {e : JumpExecution} (he : e.Valid N) (hr : ∀ k, 2 * (K + (L + 3 + N * N) + 4 + N + e.threads k) + 2 ≤ 2 ^ 53) (w : Work ℂ) :
    ∃ m h f s k, initMatrix sort N z nb J U = .val m ∧ timesIR binary64 m = .val (timesI m) ∧ initVector (basis3 N).length = .val h ∧
      jumpCtorR sinF cosF N phaseR e.coefficients = .val f ∧
      simulateR binary64 (stepJumpR binary64 (basis3 N).length dt (timesI m)) (measureJumpR binary64 (siteEv ev') (basis3 N) N f e) dt tEnd interval
        ((0, w, h), none) = .val s ∧
      ⌈(tEnd - dt / 16) / dt⌉₊ ≤ k ∧ k ≤ ⌈(tEnd + dt / 16) / dt⌉₊ ∧ s.out.length = k / max interval 1 + 1 ∧
      ∀ v, IsFlow (N + N * N * N) (fun i j => m.get i j) v →
      ∀ j < s.out.length, ∃ t x, s.out[j]? = some (t, x) ∧ |t - ((j * max interval 1 : ℕ) : ℝ) * dt| ≤ dt / 16 ∧ 0 ≤ x ∧
        |x - fermiJump ev N phase (v ((j * max interval 1 : ℕ) * dt))| ≤ jumpWeight ev N * (E (j * max interval 1) * (2 + E (j * max interval 1))) +
          (2 * (K + (L + 3 + N * N) + 4 + N + e.threads (j * max interval 1)) + 2 : ℕ) / 2 ^ 52 *
            (10 * ((N + N * N * N : ℕ) : ℝ) * (1 + E (j * max interval 1)) ^ 2) := by
  obtain ⟨d0, -, -, -, d5, d6, -⟩ := binary64_scales hn hdt1 hdt2
  obtain ⟨r0, r1, r2⟩ := binary64_range
  have hsz := (realBasis_size N).2
  obtain ⟨m, h1, S⟩ := settingRegular (fl := id) identity_rounding hN hreg hs (J := J) (U := U) (dt := dt) d0 rfl rfl rfl hst
  have SR := settingR_of S hz hn hdt1 hdt2
  have hI : timesIR binary64 m = .val (timesI m) := timesIR_eq binary64_zero fun r hr e he => by
    obtain ⟨i, hi, t, ht, hv⟩ := mem_done (initMatrix_done hreg sort J U h1) r hr e he
    rcases rowList_values J U hi t ((hs _).1.mem_iff.1 ht) with h | h | h <;> rw [hv, h]
    · exact binary64_exact hJ
    · exact binary64_exact hJ.neg
    · exact binary64_exact (hU.half hU')
  set f : List ℂ := (List.range N).map (phaseFactorF sinF cosF phase') with hf
  have hfc : jumpCtorR sinF cosF N phaseR e.coefficients = .val f := jumpCtorR_ok hph he.coefficients
  have hF' : ∀ i < N, ApproxC (1 / 2 ^ 53) K (f.getD i 0) (Complex.exp (Complex.I * phase i)) 1 := by
    intro i hi
    have : f.getD i 0 = phaseFactorF sinF cosF phase' i := by simp [hf, List.getD_eq_getElem?_getD, hi]
    rw [this]; exact hF i hi
  obtain ⟨h, s, k, i1, i2, i3, i4, i5, i6⟩ := SR.simulateState binary64_arithmetic (tEnd := tEnd) (by rw [Nat.cast_pow, Nat.cast_ofNat]; exact hend)
    (interval := interval)
    (meas := measureJumpR binary64 (siteEv ev') (basis3 N) N f e) (fun st : Option (List ℂ) => ∀ v ∈ st, v.length = N)
    (fun k y x => 0 ≤ x ∧ |x - fermiJump ev N phase fun i => (List.ofFn y).getD i 0| ≤
      ((1 + 1 / 2 ^ 53) ^ (2 * (K + (L + 3 + N * N) + 4 + N + e.threads k) + 2) - 1) *
        (9 * ((N + N * N * N : ℕ) : ℝ) * norm2 y ^ 2 + ((N + N * N * N : ℕ) : ℝ))) (by
      intro k w y hy
      have hy1 : norm2 y ≤ 2 ^ 31 := hy.trans (le_trans (by linarith [hE (2 ^ 24) le_rfl]) hE1)
      have hy2 : norm2 y ^ 2 ≤ 2 ^ 62 := (pow_le_pow_left₀ (norm2_nonneg _) hy1 2).trans (by norm_num)
      have hrk := hr k
      have hsum : (∑ p ∈ Finset.range (N + N * N * N), ‖(List.ofFn y).getD p 0‖) ^ 2 ≤ ((N + N * N * N : ℕ) : ℝ) * norm2 y ^ 2 := by
        have := sq_sum_le_card_mul_sum_sq (s := Finset.range (N + N * N * N)) (f := fun p => ‖(List.ofFn y).getD p 0‖)
        rwa [Finset.card_range, sum_ofFn_sq] at this
      obtain ⟨b1, b2, b3⟩ := jump_slack (n := N + N * N * N) (c := 4 * (N * N * N) + 5 * N + 2 * e.threads k) r0 r1 r2 (by omega) hn.le (by omega) hy2
        (Finset.sum_nonneg fun _ _ => norm_nonneg _) hsum
      obtain ⟨x, hx, hx0, hxe⟩ := jumpCallR_close M (fun x y => binary64_nonneg) (f := f) (by simp [hf]) hF' hev (List.ofFn y)
        (by rw [List.length_ofFn, hsz]) (he.normalOrder k) (he.sum k) (by omega) le_rfl b1 b2
      refine ⟨x, fun st hst => ?_, hx0, hxe.trans (mul_le_mul_of_nonneg_left b3 (sub_nonneg.2 (one_le_pow₀ (by norm_num))))⟩
      obtain ⟨w', hw', ew⟩ := hx st hst
      refine ⟨some w', ?_, ?_⟩
      · rintro v ⟨⟩; exact hw'
      · unfold measureJumpR
        simp only [ew, Res.map_val]) w (st0 := none) (by simp)
  refine ⟨m, h, f, s, k, h1, hI, by rw [hsz]; exact i1, hfc, by rw [hsz]; exact i2, i3, i4, i5, fun v hv j hj => ?_⟩
  obtain ⟨t, x, hx, htt, y, ⟨hP0, hP⟩, hy⟩ := i6 j hj
  have hε := (norm2_nonneg _).trans (hy v hv)
  exact ⟨t, x, hx, htt, hP0, (jump_close_slack rfl (by positivity) (flow_norm2 S.pos S.symm hv _) (hy v hv) hP).trans
    (quadraticErrorF_double (hr _) (by unfold jumpWeight; positivity) (by positivity) hε (hE _ (rows_le d0 hend i4 i5 hj)))⟩

end Ieompp.IEEE
