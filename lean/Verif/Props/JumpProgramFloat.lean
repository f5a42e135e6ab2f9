import Verif.Props.JumpFloat

/-!
# C110: the programs which write the Fermi jump, in floating point arithmetic

The programs `hubbard_real_1d_rk4_jump` and `hubbard_real_2d_rk4_jump` as a whole.
-/

set_option autoImplicit false
set_option linter.unusedSectionVars false

namespace Ieompp.RealSpace

variable {fl sinF cosF : ℝ → ℝ} {u : ℝ}

/-! ### Quotients -/

/-- A quotient: the denominator is approximated with `m` roundings. -/
theorem ApproxR.div' (hu : 0 ≤ u) {k m : ℕ} {x' x A D' D : ℝ} (hx : ApproxR u k x' x A) (hD : ApproxR u m D' D D) (h0 : 0 < D)
    (hm : (1 + u) ^ m ≤ 3 / 2) : D' ≠ 0 ∧ ApproxR u (k + 2 * m) (x' / D') (x / D) (A / D) := by
  set q := (1 + u) ^ m with hq
  have hq1 : 1 ≤ q := one_le_pow₀ (by linarith)
  have h1 : |D' - D| ≤ (q - 1) * D := hD.1
  have h2 : (2 - q) * D ≤ D' := by
    have := (abs_le.1 h1).1
    nlinarith
  have hD' : 0 < D' := lt_of_lt_of_le (mul_pos (by linarith) h0) h2
  have h3 : ApproxR u (2 * m) (D / D') 1 1 := by
    refine ⟨?_, by simp⟩
    rw [mul_comm 2 m, pow_mul, ← hq, mul_one, show D / D' - 1 = (D - D') / D' by field_simp, abs_div, abs_of_pos hD', div_le_iff₀ hD',
      abs_sub_comm]
    have h4 : (q ^ 2 - 1) * ((2 - q) * D) ≤ (q ^ 2 - 1) * D' := mul_le_mul_of_nonneg_left h2 (by nlinarith)
    have h5 : (q - 1) * D ≤ (q ^ 2 - 1) * ((2 - q) * D) := by
      have : (q ^ 2 - 1) * ((2 - q) * D) - (q - 1) * D = (q - 1) * D * (1 + q - q ^ 2) := by ring
      have : 0 ≤ (q - 1) * D * (1 + q - q ^ 2) := mul_nonneg (mul_nonneg (by linarith) h0.le) (by nlinarith)
      linarith
    linarith
  have h4 := (hx.mul' h3)
  rw [mul_one, mul_one] at h4
  have h5 : ApproxR u (k + 2 * m) (x' / D') (x / D) (A / D) := by
    have e : x' / D' = x' * (D / D') / D := by field_simp
    refine ⟨?_, ?_⟩
    · rw [e, ← sub_div, abs_div, abs_of_pos h0, ← mul_div_assoc ((1 + u) ^ (k + 2 * m) - 1)]
      exact div_le_div_of_nonneg_right h4.1 h0.le
    · rw [abs_div, abs_of_pos h0]
      exact div_le_div_of_nonneg_right h4.2 h0.le
  exact ⟨hD'.ne', h5⟩

/-- The rounded quotient. -/
theorem ApproxR.div (hfl : Spec.Rounding fl u) {k m : ℕ} {x' x A D' D : ℝ} (hx : ApproxR u k x' x A) (hD : ApproxR u m D' D D) (h0 : 0 < D)
    (hm : (1 + u) ^ m ≤ 3 / 2) : ApproxR u (k + 2 * m + 1) (fl (x' / D')) (x / D) (A / D) :=
  (ApproxR.div' hfl.nonneg hx hD h0 hm).2.round hfl

theorem approxR_pos (hfl : Spec.Rounding fl u) {x : ℝ} (hx : 0 ≤ x) : ApproxR u 1 (fl x) x x := by
  have := (ApproxR.exact (u := u) x).round hfl
  rwa [abs_of_nonneg hx] at this

theorem pow_small (hu : 0 ≤ u) (hu1 : u ≤ 1 / 1000) {m : ℕ} (hm : m ≤ 100) : (1 + u) ^ m - 1 ≤ 2 * m * u := by
  have hm' : (m : ℝ) ≤ 100 := by exact_mod_cast hm
  have := pow_sub_one_le (n := m) hu (by nlinarith)
  linarith

/-! ### The table of the square lattice -/

/-- The sine of an approximate angle. -/
theorem sinAngle_close (hu : 0 ≤ u) (hu1 : u ≤ 1 / 1000) (hsin : ∀ x, |sinF x - Real.sin x| ≤ u) {d : ℕ} (hd : d ≠ 0) {a : ℝ}
    (h1 : ApproxR u 3 a (Real.pi / 2 * d) (Real.pi / 2 * d)) : ApproxR u 11 (sinF a) (Real.sin (Real.pi / 2 * d)) d := by
  have hd1 : (1 : ℝ) ≤ d := by exact_mod_cast Nat.one_le_iff_ne_zero.2 hd
  refine ⟨?_, (Real.abs_sin_le_one _).trans hd1⟩
  have h2 := hsin a
  have h3 := Real.abs_sin_sub_sin_le a (Real.pi / 2 * d)
  have h4 := abs_sub_le (sinF a) (Real.sin a) (Real.sin (Real.pi / 2 * d))
  have h5 : |a - Real.pi / 2 * d| ≤ 6 * u * (1.6 * d) := by
    refine h1.1.trans ?_
    have e1 := pow_small hu hu1 (m := 3) (by norm_num)
    have e2 : Real.pi / 2 * d ≤ 1.6 * d := by
      have := Real.pi_lt_d2
      nlinarith
    have e3 : (0 : ℝ) ≤ Real.pi / 2 * d := by positivity
    refine mul_le_mul ?_ e2 e3 (by positivity)
    norm_num at e1 ⊢
    linarith
  have h6 := one_add_mul_le_pow (a := u) (by linarith) 11
  have h7 : 11 * u * d ≤ ((1 + u) ^ 11 - 1) * d := by
    refine mul_le_mul_of_nonneg_right ?_ (by linarith)
    push_cast at h6
    linarith
  have h8 : u ≤ u * d := by nlinarith
  have h9 : 6 * u * (1.6 * d) = 9.6 * (u * d) := by ring
  have h10 : 11 * u * (d : ℝ) = 11 * (u * d) := by ring
  have h11 : 0 ≤ u * (d : ℝ) := by positivity
  linarith

/-- `std::sin(pi_half * d)`. -/
theorem sinHalfPi_close (hfl : Spec.Rounding fl u) (hu1 : u ≤ 1 / 1000) (hsin : ∀ x, |sinF x - Real.sin x| ≤ u) {d : ℕ} (hd : d ≠ 0) :
    ApproxR u 11 (sinF (fl (fl (Real.pi / 2) * fl d))) (Real.sin (Real.pi / 2 * d)) d :=
  sinAngle_close hfl.nonneg hu1 hsin hd
    (ApproxR.mul hfl (approxR_pos hfl (x := Real.pi / 2) (by positivity)) (approxR_pos hfl (x := (d : ℝ)) (by positivity)))

theorem evValue2DF_close (hfl : Spec.Rounding fl u) (hu1 : u ≤ 1 / 1000) (hsin : ∀ x, |sinF x - Real.sin x| ≤ u) (x y : ℕ) :
    ApproxR u 37 (evValue2DF fl sinF x y) (Spec.squareCorrelation x y) 1 := by
  have hu := hfl.nonneg
  have hpi := Real.pi_gt_three
  have p1 := approxR_pos hfl (x := Real.pi) Real.pi_pos.le
  have b1 : (1 + u) ^ 1 ≤ 3 / 2 := by linarith [pow_small hu hu1 (m := 1) (by norm_num)]
  have b3 : (1 + u) ^ 3 ≤ 3 / 2 := by
    have := pow_small hu hu1 (m := 3) (by norm_num)
    push_cast at this
    linarith
  have one : ApproxR u 0 (1 : ℝ) 1 1 := by simpa using ApproxR.exact (u := u) (1 : ℝ)
  have two : ApproxR u 0 (2 : ℝ) 2 2 := by simpa using ApproxR.exact (u := u) (2 : ℝ)
  have hp1 := ApproxR.div hfl two (ApproxR.mul hfl p1 p1) (by positivity) b3
  have hp2 := ApproxR.div hfl one p1 Real.pi_pos b1
  have hsq : ∀ d : ℕ, d ≠ 0 → ApproxR u 14 (fl (sinF (fl (fl (Real.pi / 2) * fl d)) / fl d)) (Real.sin (Real.pi / 2 * d) / d) 1 := by
    intro d hd
    have hd0 : (0 : ℝ) < d := by exact_mod_cast Nat.pos_of_ne_zero hd
    have := ApproxR.div hfl (sinHalfPi_close hfl hu1 hsin hd) (approxR_pos hfl hd0.le) hd0 b1
    rwa [div_self hd0.ne'] at this
  rw [squareCorrelation_eq]
  unfold evValue2DF evValue2D
  simp only
  by_cases hxy : x = y
  · rw [if_pos hxy, if_pos hxy]
    by_cases hx : x = 0
    · rw [if_pos hx, if_pos hx]
      exact (ApproxR.exact (u := u) (0.5 : ℝ)).mono hu (by norm_num) (by norm_num [abs_of_pos])
    · rw [if_neg hx, if_neg hx]
      have hd : x + y ≠ 0 := by omega
      have hd0 : (0 : ℝ) < ((x + y : ℕ) : ℝ) := by exact_mod_cast Nat.pos_of_ne_zero hd
      have h1 := ApproxR.mul hfl hp2 (sinHalfPi_close hfl hu1 hsin hd)
      have h2 := ApproxR.div hfl h1 (approxR_pos hfl hd0.le) hd0 b1
      refine h2.mono hu (by norm_num) ?_
      rw [mul_div_assoc, div_self hd0.ne', mul_one, div_le_one Real.pi_pos]
      linarith
  · rw [if_neg hxy, if_neg hxy]
    have hd : x + y ≠ 0 := by omega
    have hd' : (if x > y then x - y else y - x) ≠ 0 := by split_ifs <;> omega
    have h1 := ApproxR.mul hfl (ApproxR.mul hfl hp1 (hsq _ hd)) (hsq _ hd')
    refine h1.mono hu (by norm_num) ?_
    rw [mul_one, mul_one, div_le_one (by positivity)]
    nlinarith

theorem evTable2DF_ok {s : Square ℝ} {Nx Ny : ℕ} (hs : s.Constructed Nx Ny) {sched : List (ℕ × ℕ)}
    (hp : sched.Perm (evPairs (Nx / 2) (Ny / 2))) :
    ∃ values, evTable2DF fl sinF s sched = .val values ∧ values.length = (Nx / 2 + 1) * (Ny / 2 + 1) ∧
      ∀ x y, x ≤ Nx / 2 → y ≤ Ny / 2 → values[(Ny / 2 + 1) * x + y]? = some (evValue2DF fl sinF x y) := by
  obtain ⟨h1, h2, _⟩ := hs.fields
  set my := Ny / 2 with hmy
  have hm : ∀ d ∈ sched, d.1 ≤ Nx / 2 ∧ d.2 ≤ my := fun d hd => (mem_evPairs _ _ _).1 (hp.mem_iff.1 hd)
  have hstore : evTable2DF fl sinF s sched = storeLoop (fun i => .val (evValue2DF fl sinF (i / (my + 1)) (i % (my + 1))))
      (sched.map fun d => (my + 1) * d.1 + d.2) (List.replicate ((Nx / 2 + 1) * (my + 1)) 0) := by
    unfold evTable2DF storeLoop
    rw [List.foldl_map, h1, h2, ← hmy]
    refine List.foldl_ext _ _ _ fun acc d hd => ?_
    obtain ⟨q1, q2⟩ := evIndex_coord (x := d.1) (hm d hd).2
    simp only [q1, q2]; rfl
  obtain ⟨w, e1, e2, e3⟩ := storeLoop_ok (f := fun i => Res.val (evValue2DF fl sinF (i / (my + 1)) (i % (my + 1))))
    (sched.map fun d => (my + 1) * d.1 + d.2) (List.replicate ((Nx / 2 + 1) * (my + 1)) 0) (fun i hi => by
      refine ⟨rfl, ?_⟩
      obtain ⟨d, hd, rfl⟩ := List.mem_map.1 hi
      rw [List.length_replicate]
      exact evIndex_lt (hm d hd).1 (hm d hd).2)
  refine ⟨w, by rw [hstore, e1], by simpa using e2, fun x y hx hy => ?_⟩
  rw [e3, if_pos, (evIndex_coord hy).1, (evIndex_coord hy).2]
  refine ⟨List.mem_map.2 ⟨(x, y), hp.mem_iff.2 ((mem_evPairs _ _ _).2 ⟨hx, hy⟩), rfl⟩, ?_⟩
  rw [List.length_replicate]; exact evIndex_lt hx hy

/-- The table of the square lattice, by site. -/
theorem table2F_ok' {N : ℕ} (hclose : ∀ x y, x ≤ N / 2 → y ≤ N / 2 → ApproxR u 37 (evValue2DF fl sinF x y) (Spec.squareCorrelation x y) 1) (hN : 1 ≤ N)
    {sched : List (ℕ × ℕ)} (hs : sched.Perm (evPairs (N / 2) (N / 2))) :
    ∃ values, evTable2DF fl sinF (Square.real (K := ℝ) N N 1 1) sched = .val values ∧
      ∃ ev : ℕ → ℕ → ℝ, Program.evFunction2D (Square.real (K := ℝ) N N 1 1) values = siteEv ev ∧
        ∀ a < N * N, ∀ b < N * N, evLookup2D (Square.real (K := ℝ) N N 1 1) values a b = .val (ev a b) ∧
          ApproxR u 37 (ev a b) (Ieompp.Spec.torusCorrelation N a b) 1 := by
  have hc := Square.Constructed.real (s := Square.real (K := ℝ) N N 1 1) (Nx := N) (Ny := N) 1 1 hN hN rfl
  obtain ⟨values, e1, _, e3⟩ := evTable2DF_ok (fl := fl) (sinF := sinF) hc hs
  refine ⟨values, e1, fun a b => match evLookup2D (Square.real (K := ℝ) N N 1 1) values a b with | .val x => x | _ => 0, rfl, ?_⟩
  intro a ha b hb
  have hlt : ∀ a < N * N, a / N < N ∧ a % N < N := fun a ha => ⟨Nat.div_lt_of_lt_mul ha, Nat.mod_lt _ (by omega)⟩
  have hidx : ∀ a, (Square.real (K := ℝ) N N 1 1).index (a / N) (a % N) = a := fun a => by
    show a / N * N + a % N = a
    rw [Nat.mul_comm]; exact Nat.div_add_mod a N
  obtain ⟨d1, d2⟩ := square_distance_eq hc (hlt a ha).1 (hlt a ha).2 (hlt b hb).1 (hlt b hb).2
  rw [hidx, hidx] at d1 d2
  have r1 : ringDist N (a / N) (b / N) = Ieompp.Spec.ringDistance N (a / N) (b / N) :=
    (ringDist_spec _ _ _ _).2 (Program.ringDistance_spec (hlt a ha).1 (hlt b hb).1)
  have r2 : ringDist N (a % N) (b % N) = Ieompp.Spec.ringDistance N (a % N) (b % N) :=
    (ringDist_spec _ _ _ _).2 (Program.ringDistance_spec (hlt a ha).2 (hlt b hb).2)
  rw [r1] at d1
  rw [r2] at d2
  have hle : ∀ x y, Ieompp.Spec.ringDistance N x y ≤ N / 2 := fun x y => by unfold Ieompp.Spec.ringDistance; omega
  have h2 : evLookup2D (Square.real (K := ℝ) N N 1 1) values a b =
      .val (evValue2DF fl sinF (Ieompp.Spec.ringDistance N (a / N) (b / N)) (Ieompp.Spec.ringDistance N (a % N) (b % N))) := by
    unfold evLookup2D MomentumSpace.vecAt
    rw [(wrappedDistance_eq _ _ _ _).1 d1, (wrappedDistance_eq _ _ _ _).2 d2]
    have := e3 _ _ (hle (a / N) (b / N)) (hle (a % N) (b % N))
    rw [show (Square.real (K := ℝ) N N 1 1).sizeY = N from rfl, this]
  refine ⟨by simp only [h2], ?_⟩
  simp only [h2]
  exact hclose _ _ (hle _ _) (hle _ _)

theorem table2F_ok (hfl : Spec.Rounding fl u) (hu1 : u ≤ 1 / 1000) (hsin : ∀ x, |sinF x - Real.sin x| ≤ u) {N : ℕ} (hN : 1 ≤ N)
    {sched : List (ℕ × ℕ)} (hs : sched.Perm (evPairs (N / 2) (N / 2))) :
    ∃ values, evTable2DF fl sinF (Square.real (K := ℝ) N N 1 1) sched = .val values ∧
      ∃ ev : ℕ → ℕ → ℝ, Program.evFunction2D (Square.real (K := ℝ) N N 1 1) values = siteEv ev ∧
        ∀ a < N * N, ∀ b < N * N, evLookup2D (Square.real (K := ℝ) N N 1 1) values a b = .val (ev a b) ∧
          ApproxR u 37 (ev a b) (Ieompp.Spec.torusCorrelation N a b) 1 :=
  table2F_ok' (fun x y _ _ => evValue2DF_close hfl hu1 hsin x y) hN hs

end Ieompp.RealSpace

namespace Ieompp.Program

open Ieompp.Spec RealSpace ODE ComplexConjugate

variable {fl sinF cosF : ℝ → ℝ} {u : ℝ}

/-- The setting on every regular lattice. -/
theorem settingRegular (hfl : Spec.Rounding fl u) {N z : ℕ} (hN : 1 ≤ N) {nb : ℕ → List ℕ} (hreg : RegularLattice N z nb)
    {sort : List (Triplet ℝ) → List (Triplet ℝ)} (hs : IsSort sort) {J U dt : ℝ} (hdt : 0 < dt) (hJ : fl J = J)
    (hJ' : fl (-J) = -J) (hU : fl (U / 2) = U / 2) (hst : (dt * (3 * z * |J| + |U|)) ^ 2 ≤ 8) :
    ∃ m, initMatrix sort N z nb J U = .val m ∧ Setting fl (N + N * N * N) m (3 * z + 2) (3 * z * |J| + |U|) dt := by
  obtain ⟨m, h1, h2, _, _, _, _, h3, _⟩ := initMatrix_ok hreg sort hs J U
  obtain ⟨m', h1', _, hsym⟩ := initMatrix_symm hreg sort hs J U
  rw [h1] at h1'; cases h1'
  rw [h2] at hsym
  refine ⟨m, h1, by omega, initMatrix_timesI hfl hreg hs hJ hJ' hU h1, hsym, ?_, by positivity, initMatrix_stored hreg sort hs J U h1, hdt, hst⟩
  intro i hi
  rw [Finset.sum_congr rfl fun c _ => by rw [h3 i hi c]]
  exact (sum_abs_columnSum _ _).trans (row_abs_sum hreg J U hi)

/-- The part which the two programs have in common. -/
theorem jumpF_program {dt tEnd : ℝ} {steps : ℕ} (hr : TimeRun fl u dt tEnd steps) (hu1 : u ≤ 1) {N z : ℕ} (hN : 1 ≤ N) {nb : ℕ → List ℕ}
    (hreg : RegularLattice N z nb) {sort : List (Triplet ℝ) → List (Triplet ℝ)} (hs : IsSort sort) {J U : ℝ} (hJ : fl J = J)
    (hJ' : fl (-J) = -J) (hU : fl (U / 2) = U / 2) (hst : (dt * (3 * z * |J| + |U|)) ^ 2 ≤ 8) {ev' ev : ℕ → ℕ → ℝ} {K L : ℕ}
    (hev : ∀ a < N, ∀ b < N, ApproxR u L (ev' a b) (ev a b) 1) {phase' phase : ℕ → ℝ}
    (hF : ∀ i < N, ApproxC u K (phaseFactorF sinF cosF phase' i) (Complex.exp (Complex.I * phase i)) 1) (interval : ℕ)
    {e : JumpExecution} (he : e.Valid N) (w : Work ℂ) :
    ∃ m h f s k, initMatrix sort N z nb J U = .val m ∧ initVector (basis3 N).length = .val h ∧
      jumpCtorF sinF cosF N phase' e.coefficients = .val f ∧
      Sim.simulateF fl (stepJumpF fl (basis3 N).length dt m) (measureJumpF fl (siteEv ev') (basis3 N) N f e) dt tEnd interval
        ((0, w, h), none) = .val s ∧
      ⌈(tEnd - dt / 16) / dt⌉₊ ≤ k ∧ k ≤ ⌈(tEnd + dt / 16) / dt⌉₊ ∧ s.out.length = k / max interval 1 + 1 ∧
      ∀ v, IsFlow (N + N * N * N) (fun i j => m.get i j) v →
      ∀ j < s.out.length, ∃ t x, s.out[j]? = some (t, x) ∧ |t - ((j * max interval 1 : ℕ) : ℝ) * dt| ≤ dt / 16 ∧ 0 ≤ x ∧
        |x - fermiJump ev N phase (v ((j * max interval 1 : ℕ) * dt))| ≤
          quadraticErrorF u (2 * (K + (L + 3 + N * N) + 4 + N + e.threads (j * max interval 1)) + 2) (jumpWeight ev N)
            (9 * ((N + N * N * N : ℕ) : ℝ)) (vectorErrorF u (3 * z + 2) (dt * (3 * z * |J| + |U|)) (j * max interval 1)) := by
  have hfl := hr.rounding
  have hsz := (realBasis_size N).2
  obtain ⟨m, h1, S⟩ := settingRegular hfl hN hreg hs hr.positive hJ hJ' hU hst
  set f : List ℂ := (List.range N).map (phaseFactorF sinF cosF phase') with hf
  have hfc : jumpCtorF sinF cosF N phase' e.coefficients = .val f := jumpCtorF_ok N phase' _ he.coefficients
  have hF' : ∀ i < N, ApproxC u K (f.getD i 0) (Complex.exp (Complex.I * phase i)) 1 := by
    intro i hi
    have : f.getD i 0 = phaseFactorF sinF cosF phase' i := by simp [hf, List.getD_eq_getElem?_getD, hi]
    rw [this]; exact hF i hi
  obtain ⟨h, s, k, i1, i2, i3, i4, i5, i6⟩ := S.simulateState hfl hr.few hr.few64 hr.finish (interval := interval)
    (meas := measureJumpF fl (siteEv ev') (basis3 N) N f e) (fun st : Option (List ℂ) => ∀ v ∈ st, v.length = N)
    (fun k y x => 0 ≤ x ∧ |x - fermiJump ev N phase fun i => (List.ofFn y).getD i 0| ≤
      ((1 + u) ^ (2 * (K + (L + 3 + N * N) + 4 + N + e.threads k) + 2) - 1) *
        (9 * ((N + N * N * N : ℕ) : ℝ) * ∑ i ∈ Finset.range (N + N * N * N), ‖(List.ofFn y).getD i 0‖ ^ 2)) (by
      intro k w y
      obtain ⟨x, hx, hx0, hxe⟩ := jumpCallF_close hfl hu1 (f := f) (by simp [hf]) hF' hev (List.ofFn y) (by rw [List.length_ofFn, hsz])
        (he.normalOrder k) (he.sum k)
      refine ⟨x, fun st hst => ?_, hx0, hxe⟩
      obtain ⟨w', hw', ew⟩ := hx st hst
      refine ⟨some w', ?_, ?_⟩
      · rintro v ⟨⟩; exact hw'
      · unfold measureJumpF
        simp only [ew, Res.map_val]) w (st0 := none) (by simp)
  refine ⟨m, h, f, s, k, h1, by rw [hsz]; exact i1, hfc, by rw [hsz]; exact i2, i3, i4, i5, fun v hv j hj => ?_⟩
  obtain ⟨t, x, hx, htt, y, ⟨hP0, hP⟩, hy⟩ := i6 j hj
  exact ⟨t, x, hx, htt, hP0, jump_close rfl hfl.nonneg (flow_norm2 S.pos S.symm hv _) (hy v hv) hP⟩

/-- The computed phases of the chain. -/
theorem phase1_close (hfl : Spec.Rounding fl u) (hu1 : u ≤ 1 / 1000) {filling : ℝ} (h0 : 0 ≤ filling) (h1 : filling ≤ 1) {N i : ℕ}
    (hi : i < N) :
    |fl (fermiMomentum1DF fl filling * (Chain.realF fl N 1).posF fl i) - filling * Real.pi * i| ≤ 32 * N * u := by
  have hu := hfl.nonneg
  have p1 := approxR_pos hfl (x := Real.pi) Real.pi_pos.le
  have p3 : ApproxR u 2 (fermiMomentum1DF fl filling) (filling * Real.pi) Real.pi := by
    have := ApproxR.const_mul hfl h0 p1
    exact this.mono hu le_rfl (by nlinarith [Real.pi_pos])
  have p2 : ApproxR u 2 ((Chain.realF fl N 1).posF fl i) (i : ℝ) (i : ℝ) := by
    have := (approxR_pos hfl (x := (i : ℝ)) (by positivity)).round hfl
    unfold Chain.posF
    simpa [Chain.realF] using this
  have h := ApproxR.mul hfl p3 p2
  refine h.1.trans ?_
  have e1 := pow_small hu hu1 (m := 5) (by norm_num)
  have e2 : Real.pi * i ≤ 3.2 * N := by
    have := Real.pi_lt_d2
    have hi' : (i : ℝ) ≤ N := by exact_mod_cast hi.le
    have : (0 : ℝ) ≤ i := by positivity
    nlinarith
  have e3 : (1 + u) ^ 5 - 1 ≤ 10 * u := by push_cast at e1; linarith
  calc ((1 + u) ^ 5 - 1) * (Real.pi * i) ≤ 10 * u * (3.2 * N) :=
        mul_le_mul e3 e2 (by positivity) (by positivity)
    _ = 32 * N * u := by ring

/-- The computed phases of the square lattice. -/
theorem phase2_close (hfl : Spec.Rounding fl u) (hu1 : u ≤ 1 / 1000) (kx ky : ℝ) {N i : ℕ} (hN : 1 ≤ N) (hi : i < N * N) :
    |dot2F fl (kx, ky) ((Square.realF fl N N 1 1).posF fl i) - (kx * (i / N : ℕ) + ky * (i % N : ℕ))| ≤ 8 * (|kx| + |ky|) * N * u := by
  have hu := hfl.nonneg
  have pos : ∀ j : ℕ, ApproxR u 2 (fl (0 + fl ((j : ℝ) * 1))) (j : ℝ) (j : ℝ) := by
    intro j
    have := (approxR_pos hfl (x := (j : ℝ)) (by positivity)).round hfl
    simpa using this
  have hx := ApproxR.mul hfl (ApproxR.exact (u := u) kx) (pos (i / N))
  have hy := ApproxR.mul hfl (ApproxR.exact (u := u) ky) (pos (i % N))
  have h := ApproxR.add hfl hx hy
  refine (show |dot2F fl (kx, ky) ((Square.realF fl N N 1 1).posF fl i) - (kx * (i / N : ℕ) + ky * (i % N : ℕ))| ≤ _ from h.1).trans ?_
  have e1 := pow_small hu hu1 (m := 4) (by norm_num)
  have hlt : ((i / N : ℕ) : ℝ) ≤ N ∧ ((i % N : ℕ) : ℝ) ≤ N := by
    constructor
    · exact_mod_cast (Nat.div_lt_of_lt_mul hi).le
    · exact_mod_cast (Nat.mod_lt i (by omega)).le
  have e2 : |kx| * ((i / N : ℕ) : ℝ) + |ky| * ((i % N : ℕ) : ℝ) ≤ (|kx| + |ky|) * N := by
    rw [add_mul]
    exact add_le_add (mul_le_mul_of_nonneg_left hlt.1 (abs_nonneg _)) (mul_le_mul_of_nonneg_left hlt.2 (abs_nonneg _))
  have e3 : (1 + u) ^ 4 - 1 ≤ 8 * u := by push_cast at e1; linarith
  calc _ ≤ 8 * u * ((|kx| + |ky|) * N) := mul_le_mul e3 e2 (by positivity) (by positivity)
    _ = _ := by ring

/-- **C110** for `hubbard_real_1d_rk4_jump`, every rounding. -/
theorem real1dRk4JumpF_correct {filling dt tEnd : ℝ} {steps : ℕ} (hr : TimeRun fl u dt tEnd steps) (ht : TableRun sinF u filling)
    (hcos : ∀ x, |cosF x - Real.cos x| ≤ u) {N : ℕ} (hN : 3 ≤ N) {sort : List (Triplet ℝ) → List (Triplet ℝ)} (hs : IsSort sort)
    {J U : ℝ} (hJ : fl J = J) (hJ' : fl (-J) = -J) (hU : fl (U / 2) = U / 2) (hst : (dt * (6 * |J| + |U|)) ^ 2 ≤ 8) (interval : ℕ)
    {e : JumpExecution} (he : e.Valid N) (het : e.table.Perm (List.range' 1 (N / 2))) (w : Work ℂ) :
    ∃ m s k, initMatrix sort N 2 (Chain.real (K := ℝ) N 1).neighbors J U = .val m ∧
      real1dRk4JumpF fl sinF cosF sort e w N J U dt tEnd interval filling = .val s ∧
      ⌈(tEnd - dt / 16) / dt⌉₊ ≤ k ∧ k ≤ ⌈(tEnd + dt / 16) / dt⌉₊ ∧ s.out.length = k / max interval 1 + 1 ∧
      ∀ v, IsFlow (N + N * N * N) (fun i j => m.get i j) v →
      ∀ j < s.out.length, ∃ t x, s.out[j]? = some (t, x) ∧ |t - ((j * max interval 1 : ℕ) : ℝ) * dt| ≤ dt / 16 ∧ 0 ≤ x ∧
        |x - fermiJump (ringCorrelation filling N) N (fun i => filling * Real.pi * i) (v ((j * max interval 1 : ℕ) * dt))| ≤
          quadraticErrorF u (2 * (N * N + 67 * N + 28 + e.threads (j * max interval 1))) (jumpWeight (ringCorrelation filling N) N)
            (9 * ((N + N * N * N : ℕ) : ℝ)) (vectorErrorF u 8 (dt * (6 * |J| + |U|)) (j * max interval 1)) := by
  have hfl := hr.rounding
  have hreg := chain_regular (Chain.Constructed.real (N := N) (1 : ℝ) (by omega) rfl) hN
  obtain ⟨values, e1, ev, hev, htab⟩ := tableF_ok hfl ht.small ht.sine (N := N) (by omega) ht.nonneg ht.le_one het
  have hN1 : (1 : ℝ) ≤ N := by exact_mod_cast (by omega : 1 ≤ N)
  have hK : 2 * (1 + 32 * (N : ℝ)) ≤ ((66 * N : ℕ) : ℝ) := by push_cast; linarith
  have hph : ∀ i < N, ApproxC u (66 * N) (phaseFactorF sinF cosF (fun i => fl (fermiMomentum1DF fl filling * (Chain.realF fl N 1).posF fl i)) i)
      (Complex.exp (Complex.I * ((fun i : ℕ => filling * Real.pi * i) i : ℝ))) 1 := fun i hi =>
    phaseFactorF_close (phase := fun i : ℕ => filling * Real.pi * i) hfl.nonneg ht.sine hcos (D := 32 * N)
      (phase1_close hfl ht.small ht.nonneg ht.le_one hi) hK
  obtain ⟨m, h, f, s, k, h1, h2, h3, h4, h5, h6, h7, h8⟩ := jumpF_program (sinF := sinF) (cosF := cosF) hr (by linarith [ht.small]) (by omega)
    hreg hs hJ hJ' hU (by push_cast; rw [show (3 * 2 : ℝ) = 6 by norm_num]; exact hst) (ev' := ev) (ev := ringCorrelation filling N) (L := 20)
    (K := 66 * N) (fun a ha b hb => (htab a ha b hb).2)
    (phase' := fun i => fl (fermiMomentum1DF fl filling * (Chain.realF fl N 1).posF fl i)) (phase := fun i => filling * Real.pi * i)
    hph interval he w
  refine ⟨m, s, k, h1, ?_, h5, h6, h7, fun v hv j hj => ?_⟩
  · have h2U : 2 * fl (U / 2) = U := by rw [hU]; ring
    show (evTable1DF fl sinF (Chain.real (K := ℝ) N 1) filling (fermiMomentum1DF fl filling) e.table).bind (fun values =>
      (initMatrix sort N 2 (Chain.real (K := ℝ) N 1).neighbors J (2 * fl (U / 2))).bind fun m =>
      (initVector (basis3 N).length).bind fun h =>
      (jumpCtorF sinF cosF N (fun i => fl (fermiMomentum1DF fl filling * (Chain.realF fl N 1).posF fl i)) e.coefficients).bind fun f =>
      Sim.simulateF fl (stepJumpF fl (basis3 N).length dt m) (measureJumpF fl (evFunction (Chain.real (K := ℝ) N 1) values) (basis3 N) N f e) dt tEnd
        interval ((0, w, h), none)) = _
    simp only [e1, h2U, h1, h2, h3, Res.bind_val, hev]
    exact h4
  · obtain ⟨t, x, a1, a2, a3, a4⟩ := h8 v hv j hj
    have er : 2 * (66 * N + (20 + 3 + N * N) + 4 + N + e.threads (j * max interval 1)) + 2 =
        2 * (N * N + 67 * N + 28 + e.threads (j * max interval 1)) := by ring
    have ex : 3 * ((2 : ℕ) : ℝ) * |J| + |U| = 6 * |J| + |U| := by push_cast; ring
    rw [er, ex] at a4
    exact ⟨t, x, a1, a2, a3, a4⟩

/-- **C110** for `hubbard_real_2d_rk4_jump` with `Nx = Ny`, every rounding. -/
theorem real2dRk4JumpF_correct {dt tEnd : ℝ} {steps : ℕ} (hr : TimeRun fl u dt tEnd steps) (hu1 : u ≤ 1 / 1000)
    (hsin : ∀ x, |sinF x - Real.sin x| ≤ u) (hcos : ∀ x, |cosF x - Real.cos x| ≤ u) {N : ℕ} (hN : 3 ≤ N)
    {sort : List (Triplet ℝ) → List (Triplet ℝ)} (hs : IsSort sort)
    {J U : ℝ} (hJ : fl J = J) (hJ' : fl (-J) = -J) (hU : fl (U / 2) = U / 2) (hst : (dt * (12 * |J| + |U|)) ^ 2 ≤ 8) (interval : ℕ) (kx ky : ℝ)
    {e : JumpExecution} (he : e.Valid (N * N)) (het : e.table2.Perm (evPairs (N / 2) (N / 2))) (w : Work ℂ) :
    ∃ m s k, initMatrix sort (N * N) 4 (Square.real (K := ℝ) N N 1 1).neighbors J U = .val m ∧
      real2dRk4JumpF fl sinF cosF sort e w N N J U dt tEnd interval kx ky = .val s ∧
      ⌈(tEnd - dt / 16) / dt⌉₊ ≤ k ∧ k ≤ ⌈(tEnd + dt / 16) / dt⌉₊ ∧ s.out.length = k / max interval 1 + 1 ∧
      ∀ v, IsFlow (N * N + N * N * (N * N) * (N * N)) (fun i j => m.get i j) v →
      ∀ j < s.out.length, ∃ t x, s.out[j]? = some (t, x) ∧ |t - ((j * max interval 1 : ℕ) : ℝ) * dt| ≤ dt / 16 ∧ 0 ≤ x ∧
        |x - fermiJump (torusCorrelation N) (N * N) (fun i => kx * (i / N : ℕ) + ky * (i % N : ℕ))
            (v ((j * max interval 1 : ℕ) * dt))| ≤
          quadraticErrorF u (2 * (N * N * (N * N) + N * N + ⌈16 * (|kx| + |ky|) * N⌉₊ + 47 + e.threads (j * max interval 1)))
            (jumpWeight (torusCorrelation N) (N * N)) (9 * ((N * N + N * N * (N * N) * (N * N) : ℕ) : ℝ))
            (vectorErrorF u 14 (dt * (12 * |J| + |U|)) (j * max interval 1)) := by
  have hfl := hr.rounding
  have hreg := square_regular
    (Square.Constructed.real (s := Square.real (K := ℝ) N N 1 1) (Nx := N) (Ny := N) 1 1 (by omega) (by omega) rfl) hN
  obtain ⟨values, e1, ev, hev, htab⟩ := table2F_ok hfl hu1 hsin (N := N) (by omega) het
  have hNN : 1 ≤ N * N := Nat.mul_pos (by omega) (by omega)
  have hK : 2 * (1 + 8 * (|kx| + |ky|) * (N : ℝ)) ≤ ((⌈16 * (|kx| + |ky|) * N⌉₊ + 2 : ℕ) : ℝ) := by
    have := Nat.le_ceil (16 * (|kx| + |ky|) * (N : ℝ))
    rw [Nat.cast_add]
    norm_num
    linarith
  have hph : ∀ i < N * N, ApproxC u (⌈16 * (|kx| + |ky|) * N⌉₊ + 2)
      (phaseFactorF sinF cosF (fun i => dot2F fl (kx, ky) ((Square.realF fl N N 1 1).posF fl i)) i)
      (Complex.exp (Complex.I * ((fun i : ℕ => kx * (i / N : ℕ) + ky * (i % N : ℕ)) i : ℝ))) 1 := fun i hi =>
    phaseFactorF_close (phase := fun i : ℕ => kx * (i / N : ℕ) + ky * (i % N : ℕ)) hfl.nonneg hsin hcos (D := 8 * (|kx| + |ky|) * N)
      (phase2_close hfl hu1 kx ky (by omega) hi) hK
  obtain ⟨m, h, f, s, k, h1, h2, h3, h4, h5, h6, h7, h8⟩ := jumpF_program (sinF := sinF) (cosF := cosF) hr (by linarith) hNN
    hreg hs hJ hJ' hU (by push_cast; rw [show (3 * 4 : ℝ) = 12 by norm_num]; exact hst) (ev' := ev) (ev := torusCorrelation N) (L := 37)
    (K := ⌈16 * (|kx| + |ky|) * N⌉₊ + 2) (fun a ha b hb => (htab a ha b hb).2)
    (phase' := fun i => dot2F fl (kx, ky) ((Square.realF fl N N 1 1).posF fl i)) (phase := fun i => kx * (i / N : ℕ) + ky * (i % N : ℕ))
    hph interval he w
  refine ⟨m, s, k, h1, ?_, h5, h6, h7, fun v hv j hj => ?_⟩
  · have h2U : 2 * fl (U / 2) = U := by rw [hU]; ring
    show (evTable2DF fl sinF (Square.real (K := ℝ) N N 1 1) e.table2).bind (fun values =>
      (initMatrix sort (N * N) 4 (Square.real (K := ℝ) N N 1 1).neighbors J (2 * fl (U / 2))).bind fun m =>
      (jumpCtorF sinF cosF (N * N) (fun i => dot2F fl (kx, ky) ((Square.realF fl N N 1 1).posF fl i)) e.coefficients).bind fun f =>
      (initVector (basis3 (N * N)).length).bind fun h =>
      Sim.simulateF fl (stepJumpF fl (basis3 (N * N)).length dt m) (measureJumpF fl (evFunction2D (Square.real (K := ℝ) N N 1 1) values)
        (basis3 (N * N)) (N * N) f e) dt tEnd interval ((0, w, h), none)) = _
    simp only [e1, h2U, h1, h2, h3, Res.bind_val, hev]
    exact h4
  · obtain ⟨t, x, a1, a2, a3, a4⟩ := h8 v hv j hj
    have er : 2 * (⌈16 * (|kx| + |ky|) * N⌉₊ + 2 + (37 + 3 + N * N * (N * N)) + 4 + N * N + e.threads (j * max interval 1)) + 2 =
        2 * (N * N * (N * N) + N * N + ⌈16 * (|kx| + |ky|) * N⌉₊ + 47 + e.threads (j * max interval 1)) := by ring
    have ex : 3 * ((4 : ℕ) : ℝ) * |J| + |U| = 12 * |J| + |U| := by push_cast; ring
    rw [er, ex] at a4
    exact ⟨t, x, a1, a2, a3, a4⟩

end Ieompp.Program
