import Verif.Props.Binary64MomentumEnergies
import Verif.Props.Binary64MomentumNumber

/-! # C122: the program `hubbard_momentum_1d_rk4` in IEEE binary64 arithmetic -/

set_option autoImplicit false
set_option linter.unusedSectionVars false

namespace Ieompp.IEEE

open Ieompp.Spec ODE RealSpace Program MomentumSpace
open ComplexConjugate

variable {N : ℕ} {cosF : ℝ → ℝ}

/-- The elements of the computed matrix are numbers of the format. -/
theorem momentumTimesI_ok {q : ℕ} (hN : 0 < N) {eps' : ℕ → ℝ} {U : ℝ} {m' : Sparse ℝ}
    (hm : initMatrixF double (Spec.entries N q) N eps' U N = .val m') (ho : OnGrid (double (U / double (2 * (N : ℝ)))))
    (hob : |double (U / double (2 * (N : ℝ)))| ≤ 2 ^ 1023)
    (hd : ∀ r ≤ N * N, OnGrid (diagonalF double N q eps' U r) ∧ |diagonalF double N q eps' U r| ≤ 2 ^ 1023) :
    timesIR binary64 m' = .val (timesI m') := by
  obtain ⟨_, m, -, h2, -, -, -, h6⟩ := initMatrixF_elements double hN q eps' eps' U
  rw [hm] at h2
  cases h2
  refine timesIR_eq binary64_zero fun r hr e he => ?_
  obtain ⟨i, hi, rfl⟩ := List.mem_iff_getElem.1 hr
  have hmem : e ∈ m'.done.getD i [] := by
    rw [List.getD_eq_getElem?_getD, List.getElem?_eq_getElem hi]; exact he
  rcases h6 i e hmem with h | ⟨r, hr, h⟩
  · rw [h]
    have := (sum_ok ho le_rfl hob).1
    rwa [double_idem] at this
  · rw [h]
    have := (sum_ok (hd r hr).1 le_rfl (hd r hr).2).1
    have hi : double (diagonalF double N q eps' U r) = diagonalF double N q eps' U r := by
      unfold diagonalF
      split_ifs <;> rw [double_idem]
    rwa [hi] at this

/-- The elements of the computed matrix are within the range. -/
theorem momentumEntries_range {q : ℕ} (hN : 0 < N) (hq : q < N) {eps' : ℕ → ℝ} {U : ℝ} (he : ∀ k < N, |eps' k| ≤ 2 ^ 1002)
    (hU : |U| ≤ 2 ^ 1000) :
    |double (U / double (2 * (N : ℝ)))| ≤ 2 ^ 1023 ∧ ∀ r ≤ N * N, |diagonalF double N q eps' U r| ≤ 2 ^ 1023 := by
  have hNr : (1 : ℝ) ≤ N := by exact_mod_cast hN
  have hw : |double (U / 2)| ≤ 2 ^ 1002 := by
    refine (double_le_pow (k := 1000) ?_).trans (pow_le_succ 1000 2)
    rw [abs_div, abs_two]
    exact (div_le_self (abs_nonneg U) one_le_two).trans hU
  refine ⟨?_, fun r hr => ?_⟩
  · have h2N : (1 : ℝ) ≤ double (2 * (N : ℝ)) := by
      have h1 : double 1 = 1 := by
        have := double_fix (m := 1) (e := 0) (by norm_num)
        simpa using this
      rw [← h1]
      exact double_monotone (by linarith)
    refine (double_le_pow (k := 1000) ?_).trans (pow_le_succ 1000 23)
    rw [abs_div, abs_of_pos (a := double (2 * (N : ℝ))) (by linarith)]
    exact (div_le_self (abs_nonneg U) h2N).trans hU
  · unfold diagonalF
    split_ifs with h
    · exact (double_le_pow (pow_double (he q hq) hw).1).trans (pow_le_succ 1003 20)
    · have ha := he _ (Nat.div_lt_of_lt_mul (show r - 1 < N * N by have := Nat.mul_pos hN hN; omega))
      have hb := he _ (Nat.mod_lt (r - 1) hN)
      have hc := he _ (third_lt hN q ((r - 1) / N) ((r - 1) % N))
      have h1 := double_le_pow (pow_double ha hb).1
      have h2 := double_le_pow (pow_double h1 (hc.trans (pow_le_succ 1002 1))).2
      exact (double_le_pow (pow_double h2 (hw.trans (pow_le_succ 1002 2))).1).trans (pow_le_succ 1005 18)

/-- The error of the coefficients after eight steps. -/
theorem momentumVectorR_bound (hN : 1 ≤ N) (hN' : N ≤ 1024) {x x' τ : ℝ} (hx : 0 ≤ x) (hst : x ≤ 14 / 5) (hx' : x' = x * (1 + 1 / 2 ^ 46))
    (hτ : τ ≤ 1 / 10) :
    vectorErrorR (1 / 2 ^ 53) (N * N + 1) x' τ 8 ≤ ((N : ℝ) ^ 2 + 1) / 2 ^ 39 + 8 * (x ^ 5 / 100 * Real.exp x) := by
  obtain ⟨p1, -, p3, p4⟩ := momentumVector_parts hN hN' hx hst hx'
  have e : stepError (1 / 2 ^ 53) (N * N + 1) x' = rk4StepRounding (1 / 2 ^ 53) (N * N + 1) x' := rfl
  unfold vectorErrorR
  rw [e]
  generalize rk4StepRounding (1 / 2 ^ 53) (N * N + 1) x' = δ at p1 p3
  have h1 : 0 ≤ (1 + δ) ^ 8 - 1 := sub_nonneg.2 (one_le_pow₀ (by linarith))
  have h2 : ((1 + δ) ^ 8 - 1) * (1 + τ) ≤ ((1 + δ) ^ 8 - 1) * (11 / 10) := mul_le_mul_of_nonneg_left (by linarith) h1
  push_cast
  linarith

theorem momentumVectorR_small (hN' : N ≤ 1024) {x : ℝ} (hx : 0 ≤ x) (hst : x ≤ 14 / 5) :
    ((N : ℝ) ^ 2 + 1) / 2 ^ 39 + 8 * (x ^ 5 / 100 * Real.exp x) ≤ 1000 := by
  have hNr : (N : ℝ) ≤ 1024 := by exact_mod_cast hN'
  have e1 : Real.exp x ≤ 27 := by
    have h1 : Real.exp x ≤ Real.exp 3 := Real.exp_le_exp.2 (by linarith)
    have h2 : Real.exp 3 = Real.exp 1 ^ 3 := by rw [← Real.exp_nat_mul]; norm_num
    have h3 : Real.exp 1 ^ 3 ≤ 3 ^ 3 := pow_le_pow_left₀ (Real.exp_pos 1).le (by linarith [Real.exp_one_lt_d9]) 3
    linarith
  have e2 : x ^ 5 ≤ 3 ^ 5 := pow_le_pow_left₀ hx (by linarith) 5
  have e3 : x ^ 5 / 100 * Real.exp x ≤ 3 ^ 5 / 100 * 27 := by gcongr
  have e4 : (N : ℝ) ^ 2 ≤ 1024 ^ 2 := by gcongr
  have e5 : ((N : ℝ) ^ 2 + 1) / 2 ^ 39 ≤ (1024 ^ 2 + 1) / 2 ^ 39 := by gcongr
  have e6 : ((1024 : ℝ) ^ 2 + 1) / 2 ^ 39 ≤ 1 := by norm_num
  linarith

/-- The sums of the measurement are far from the ends of the range. -/
theorem momentumSum_range {n : ℕ} (hn1 : 1 ≤ n) (hn : n ≤ 2 ^ 21) {tiny huge Q : ℝ} (ht : tiny ≤ 1 / 2 ^ 200) (hh : 2 ^ 200 ≤ huge)
    (hQ0 : 0 ≤ Q) (hQ : Q ≤ 1001) : 38 * tiny * (n * n : ℕ) ≤ n ∧ 3 * (18 * n * Q ^ 2 + n) ≤ huge := by
  have hn' : (n : ℝ) ≤ 2 ^ 21 := by exact_mod_cast hn
  have hn1' : (1 : ℝ) ≤ n := by exact_mod_cast hn1
  constructor
  · have h1 : 38 * tiny * (n * n : ℕ) ≤ 38 * (1 / 2 ^ 200) * (2 ^ 21 * 2 ^ 21) := by
      push_cast
      gcongr
    have h2 : (38 : ℝ) * (1 / 2 ^ 200) * (2 ^ 21 * 2 ^ 21) ≤ 1 := by norm_num
    linarith
  · refine le_trans ?_ hh
    have h1 : 18 * (n : ℝ) * Q ^ 2 ≤ 18 * 2 ^ 21 * 1001 ^ 2 := by gcongr
    have h2 : (3 : ℝ) * (18 * 2 ^ 21 * 1001 ^ 2 + 2 ^ 21) ≤ 2 ^ 200 := by norm_num
    linarith

/-- **C122, `hubbard_momentum_1d_rk4` in IEEE binary64 arithmetic.** With gradual underflow and overflow, for every number of momenta up to 1024, all `J > 0`
and `U` of the format with `|U|` and `J` between `2^-1000` and `2^1000` (or `U = 0`), every step width with `dt (6 J + (N+1)/2 |U|) ≤ 2.8`, all schedules of
the parallel loops and every `std::cos` with error at most `2^-53`: neither an infinity nor a NaN comes up, and the program prints two numbers. The Fermi sea
in use has both spins of every momentum with negative energy and none with positive energy (and is exactly the Fermi sea of the tight binding chain if 4 does
not divide `N`). The first number is exactly 1 or 0. The second is the matrix element (with the sign that C63 refutes) for the exact solution of the exact
equations of motion, to within `momentumErrorBinary64`. -/
theorem momentum1dRk4_binary64_partial (hN : 1 ≤ N) (hN' : N ≤ 1024) {J U dt : ℝ} (hJ : IsBinary64 J) (hJ1 : 1 / 2 ^ 1000 ≤ J) (hJ2 : J ≤ 2 ^ 1000)
    (hU : IsBinary64 U) (hU1 : U = 0 ∨ 1 / 2 ^ 1000 ≤ |U|) (hU2 : |U| ≤ 2 ^ 1000) (hdt1 : 1 / 2 ^ 1000 ≤ dt) (hdt2 : dt ≤ 2 ^ 900)
    (hst : dt * (6 * J + (N + 1) / 2 * |U|) ≤ 14 / 5) (hcos : ∀ x, |cosF x - Real.cos x| ≤ 1 / 2 ^ 53) {conjugation energies : List ℕ}
    (hc : conjugation.Perm (List.range (N * N + 1))) (he : energies.Perm (List.range N)) (w : Work ℂ) :
    ∃ (first second : ℝ) (FS : Finset Mode) (m : Sparse ℝ),
      momentum1dRk4R binary64 cosF (double Real.pi) conjugation energies w N J U dt = .val (first, second) ∧
      (∀ k < N, ∀ σ, bandEnergy N J k ≠ 0 → (toLex (k, σ) ∈ FS ↔ bandEnergy N J k < 0)) ∧
      (¬ 4 ∣ N → FS = fermiSea N J) ∧
      first = (if bandEnergy N J (N / 2) < 0 then 1 else 0) ∧
      initMatrix (Spec.entries N (N / 2)) N (bandEnergy N J) U N = .val m ∧
      ∀ v, IsFlow (N * N + 1) (fun i j => m.get i j) v →
        |second - (seaNumber 1 FS (Spec.entries N (N / 2)) (v (8 * dt))).re| ≤ momentumErrorBinary64 N (dt * (6 * J + (N + 1) / 2 * |U|)) := by
  have hNp : 0 < N := by omega
  have hJp : 0 < J := lt_of_lt_of_le (one_div_pos.2 (pow_pos two_pos _)) hJ1
  have hdt : 0 < dt := lt_of_lt_of_le (one_div_pos.2 (pow_pos two_pos _)) hdt1
  set q := N / 2 with hqd
  have hq : q < N := Nat.div_lt_self hNp (by norm_num)
  obtain ⟨values, d1, d2, d3⟩ := chainDispersionR_ok hN hN' hcos hJ hJ1 hJ2 he
  obtain ⟨π1, π2, π3⟩ := doublePi_setup
  have hband : ∀ k < N, |bandEnergy N J k| ≤ 2 * J := fun k _ => by
    have := bandEnergy_abs_le N J k
    rwa [abs_of_pos hJp] at this
  have heps : ∀ k < N, |dispersionFunction values k| ≤ 2 ^ 1002 := fun k hk => by
    have h1 := hband k hk
    have h2 := (d2 k hk).2
    have h3 := abs_sub_abs_le_abs_sub (dispersionFunction values k) (bandEnergy N J k)
    have h4 : J / 2 ^ 46 ≤ J := div_le_self hJp.le (by norm_num)
    have h5 : (2 : ℝ) ^ 1002 = 4 * 2 ^ 1000 := by rw [pow_add (2 : ℝ) 1000 2, mul_comm]; norm_num1; rfl
    rw [h5]
    clear h5 hdt1 hdt2 hU1 hU2 hJ1
    generalize (2 : ℝ) ^ 1000 = X at *
    linarith
  obtain ⟨m, m', m1, m2, m3, S, m4⟩ := momentumMatrix_double (dt := dt) hNp hN' hq (isBinary64_double hU) hJp.le (eps := bandEnergy N J) hband
    (fun k hk => (d2 k hk).2) hdt hst
  obtain ⟨r1, r2, r3⟩ := momentumMatrixR_ok hNp hN' hq (fun k hk => ⟨(d2 k hk).1, heps k hk⟩) hU1 hU2
  obtain ⟨t1, t2⟩ := momentumEntries_range hNp hq heps hU2
  have hI := momentumTimesI_ok hNp m2 r2 t1 fun r hr => ⟨r3 r hr, t2 r hr⟩
  rw [m2] at r1
  have hn21 : N * N + 1 ≤ 2 ^ 21 := by
    have := Nat.mul_le_mul hN' hN'
    norm_num; omega
  have SR := momentumSettingR S hn21 hn21 hdt1 hdt2
  clear hU1 hU2 r2 r3 t1 t2 heps hJ1 hJ2
  set FS := seaOf N (dispersionFunction values) with hFS
  have hFSmem : ∀ k < N, ∀ σ, toLex (k, σ) ∈ FS ↔ dispersionFunction values k < 0 := fun k hk σ => mem_seaOf hk σ
  have htable := nonVanishing_eq (K := ℝ) (disp := dispersionFunction values) (eF := 0) hFSmem hq
  set B : ℝ := 6 * J + (N + 1) / 2 * |U| with hB
  have hB0 : 0 ≤ B := by positivity
  obtain ⟨c1, c2, c3, c4, c5, c6, c7, c8, c9, c10⟩ := binary64_scales (n := N * N + 1) (by omega) hdt1 hdt2
  obtain ⟨s0, s1, -⟩ := momentumSlack_small (n := N * N + 1) (z := N * N + 1) hn21 binary64_range.1 hdt (one_le_pow₀ one_le_two) hdt2
    (momentum_scales hn21)
  have hvec := momentumVectorR_bound hN hN' (x := dt * B) (by positivity) hst rfl s1
  rw [mul_assoc dt B] at hvec
  have hsmall := momentumVectorR_small hN' (x := dt * B) (by positivity) hst
  obtain ⟨n, hn⟩ : ∃ n, n = N * N + 1 := ⟨_, rfl⟩
  rw [← hn] at htable S SR m4 m3 hc hn21 hvec ⊢
  have hn1 : 1 ≤ n := by omega
  obtain ⟨X, X0, X1, X2⟩ := SR.flowVectors binary64_arithmetic w
  obtain ⟨w', y, y0, y1, y2⟩ := X2 8 le_rfl
  obtain ⟨fl, M⟩ := binary64_machine
  have hr : 3 + n ^ 2 ≤ 2 ^ 53 := by
    have hn21' : n ≤ 2097152 := hn21
    calc 3 + n ^ 2 ≤ 3 + 2097152 ^ 2 := by gcongr
      _ ≤ 2 ^ 53 := by norm_num
  obtain ⟨f1, f2⟩ := momentumSum_range hn1 hn21 binary64_range.2.1 binary64_range.2.2 (norm2_nonneg y) (by linarith)
  obtain ⟨x, x1, x2⟩ := particleNumberR_close (FS := FS) M hn hq y hr f1 f2
  clear f1 f2
  have hunit := particleNumberR_unit (FS := FS) (q := q) binary64_zero (binary64_exact isBinary64_one) hn
  have hqF : ¬ FermiPoint N q := by
    rw [Hubbard.fermiPoint_iff hNp]
    omega
  have hsteps := stepsR_chain X1 8 0 le_rfl
  rw [X0, zero_add, y0] at hsteps
  refine ⟨_, x, FS, m, ?_, fun k hk σ hne => ?_, fun h4 => ?_, rfl, m1, fun v hv => ?_⟩
  · unfold momentum1dRk4R
    simp only
    rw [(momentumR_ok π1 π2 hNp hN').1, Res.bind_val, momentumBasis3R_ok π1 π2 π3 hNp hN' (by rw [← hqd]; exact hq), ← hqd, Res.bind_val, d1, Res.bind_val]
    have hsz : (Chain.momentumF double (double Real.pi) N).size = N := rfl
    have hsz' : (Chain.real (K := ℝ) N 1).size = N := rfl
    rw [hsz, hsz', r1, Res.bind_val, hI, Res.bind_val, entries_length, ← hn, initVector_ofFn hn1, Res.bind_val,
      show RealSpace.getConjugate conjugation (Spec.entries N q) = conjBasis (Spec.entries N q) from
        parallelModify_eq_map _ _ _ (by rw [entries_length, ← hn]; exact hc), htable, Res.bind_val]
    change (particleNumberR binary64 (List.ofFn (unit0 n)) _).bind _ = _
    rw [hunit, Res.bind_val]
    change (stepsR binary64 n dt (timesI m') 8 (0, w, List.ofFn (unit0 n))).bind _ = _
    rw [hsteps, Res.bind_val]
    change Res.map _ (particleNumberR binary64 (List.ofFn y) _) = _
    rw [x1, Res.map_val]
    congr 2
    have hup : up q ∈ FS ↔ bandEnergy N J q < 0 := (hFSmem q hq true).trans (d3 q hq hqF)
    simp only [hup]
  · rw [hFSmem k hk σ]
    exact d3 k hk fun h => hne (fermiPoint_band h)
  · rw [hFS]
    refine seaOf_congr fun k hk => d3 k hk fun h => h4 ?_
    rw [Hubbard.fermiPoint_iff hNp] at h
    omega
  · obtain ⟨v', hv'⟩ := flow_exists n fun i j => m'.get i j
    have hder : ∀ (g : Sparse ℝ) (v : ℝ → ℕ → ℂ), IsFlow n (fun i j => g.get i j) v → ∀ t, HasDerivAt (fun t (p : Fin n) => v t p)
        (fun i : Fin n => ∑ j : Fin n, Complex.I * (g.get i j : ℂ) * v t j) t := by
      intro g v hv t
      refine hasDerivAt_pi.2 fun p => (hv.flow t p p.2).congr_deriv ?_
      rw [Finset.mul_sum, ← Fin.sum_univ_eq_sum_range (fun q => Complex.I * ((g.get p q : ℂ) * v t q)) n]
      exact Finset.sum_congr rfl fun j _ => by rw [mul_assoc]
    have hstart : ∀ (g : Sparse ℝ) (v : ℝ → ℕ → ℂ), IsFlow n (fun i j => g.get i j) v → (fun p : Fin n => v 0 p) = unit0 n := by
      intro g v hv
      funext p; exact hv.start p p.2
    have hpert := solutions_close (n := n) (fun i j => m.get i j) (fun i j => m'.get i j) m3 S.symm (by positivity : 0 ≤ B / 2 ^ 46) m4
      (fun t (p : Fin n) => v t p) (fun t (p : Fin n) => v' t p) (hder m v hv) (hder m' v' hv') (by rw [hstart m v hv, hstart m' v' hv']) (8 * dt)
    rw [hstart m v hv, norm2_unit0 hn1, abs_of_pos (by positivity)] at hpert
    have hyv' := y2 v' hv'
    have hyv : norm2 (y - fun p : Fin n => v (8 * dt) p) ≤ momentumVectorError N (dt * B) := by
      have h1 := norm2_sub_le y (fun p : Fin n => v' (8 * dt) p) (fun p : Fin n => v (8 * dt) p)
      rw [Nat.cast_ofNat] at hyv'
      unfold momentumVectorError
      have h3 : B / 2 ^ 46 * 1 * (8 * dt) = 8 * (dt * B) / 2 ^ 46 := by ring
      rw [h3] at hpert
      linarith [h1, hvec, hyv', hpert]
    have hquad := quadratic_close_slack (n := n) (E := fun i j => seaValue (1 : ℝ) FS (Spec.entries N q) i j) (u := 1 / 2 ^ 53) (A := 18 * n) (T := n)
      (R := 9 * N + 3) (by positivity) (by positivity) (by positivity) (by positivity)
      (fun i hi => by rw [hn]; exact seaValue_rows FS hq (by rw [← hn]; exact hi))
      (fun j hj => by
        rw [hn] at hj ⊢
        refine le_of_eq_of_le (Finset.sum_congr rfl fun i hi => ?_) (seaValue_rows FS hq hj)
        rw [seaValue_symm 1 hq (Finset.mem_range.1 hi) hj])
      (flow_norm2 hn1 m3 hv (8 * dt)) hyv x2
    have hform := form_sea hq FS 1 (Or.inl rfl) (v (8 * dt))
    rw [Complex.ofReal_one, ← hn] at hform
    rw [← hform]
    refine hquad.trans ?_
    have hε : 0 ≤ momentumVectorError N (dt * B) := (norm2_nonneg _).trans hyv
    refine (quadraticErrorF_double hr (by positivity) (by positivity) hε le_rfl).trans ?_
    have hnr : ((N : ℝ) ^ 2 + 1) = n := by rw [hn]; push_cast; ring
    unfold momentumErrorBinary64
    simp only [hnr]
    refine le_of_eq ?_
    push_cast; ring

end Ieompp.IEEE
