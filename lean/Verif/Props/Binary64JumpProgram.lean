import Verif.Props.Binary64JumpRun

/-! # C119, third part: the programs that write the Fermi jump, in IEEE binary64 arithmetic -/

set_option autoImplicit false
set_option linter.unusedSectionVars false

namespace Ieompp.IEEE

open Ieompp.Spec ODE RealSpace Program
open MomentumSpace (vecAt)

section Table
variable {rnd : ℝ → Res ℝ} {fl sinF cosF : ℝ → ℝ} {u tiny huge : ℝ} {K : ℕ}

/-! ### The table of the square lattice -/

theorem Machine.div (M : Machine rnd fl u tiny huge K) {k m : ℕ} {x' x A D' D : ℝ} (hx : ApproxR u k x' x A) (hD : ApproxR u m D' D D) (h0 : 0 < D)
    (hm : (1 + u) ^ m ≤ 3 / 2) {C : ℝ} (hC : A / D ≤ C) (hk : k + 2 * m ≤ K) (hfit : Fits tiny huge C) :
    divR rnd x' D' = .val (fl (x' / D')) ∧ ApproxR u (k + 2 * m + 1) (fl (x' / D')) (x / D) C := by
  obtain ⟨h1, h2⟩ := ApproxR.div' M.nonneg hx hD h0 hm
  have h3 := M.round (h2.mono M.nonneg le_rfl hC) hk hfit
  exact ⟨by unfold divR; rw [if_neg h1]; exact h3.1, h3.2⟩

theorem evValue2DR_ok (M : Machine rnd fl u tiny huge K) (hK : 100 ≤ K) (hsin : ∀ x, |sinF x - Real.sin x| ≤ u) {x y : ℕ} (hfit : 6 * ((x + y : ℕ) : ℝ) ≤ huge) :
    evValue2DR rnd sinF x y = .val (evValue2DF fl sinF x y) ∧ ApproxR u 37 (evValue2DF fl sinF x y) (squareCorrelation x y) 1 := by
  have hu := M.nonneg
  have hu1 := M.small
  have ht := M.tiny_le
  have hpi := Real.pi_gt_three
  have hpi4 := Real.pi_le_four
  have b1 : (1 + u) ^ 1 ≤ 3 / 2 := by linarith [pow_small hu hu1 (m := 1) (by norm_num)]
  have b3 : (1 + u) ^ 3 ≤ 3 / 2 := by
    have := pow_small hu hu1 (m := 3) (by norm_num)
    push_cast at this
    linarith
  have one : ApproxR u 0 (1 : ℝ) 1 1 := by simpa using ApproxR.exact (u := u) (1 : ℝ)
  have two : ApproxR u 0 (2 : ℝ) 2 2 := by simpa using ApproxR.exact (u := u) (2 : ℝ)
  have pos : ∀ t : ℝ, 1 / 4 ≤ t → 3 * t ≤ huge → rnd t = .val (fl t) ∧ ApproxR u 1 (fl t) t t := fun t h1 h2 => by
    have := M.exact_fits (x := t) (by rw [abs_of_nonneg (by linarith)]; exact ⟨by linarith, h2⟩)
    rwa [abs_of_nonneg (by linarith : (0 : ℝ) ≤ t)] at this
  have hh := M.huge_ge
  obtain ⟨o1, p1⟩ := pos Real.pi (by linarith) (by linarith)
  obtain ⟨o2, p2⟩ := M.mul p1 p1 (by omega) ⟨by nlinarith, by nlinarith⟩
  obtain ⟨o3, p3⟩ := M.div two p2 (by positivity) b3 (C := 1) (by rw [div_le_one (by positivity)]; nlinarith) (by omega) (M.fits (by norm_num) (by norm_num))
  obtain ⟨o4, p4⟩ := M.div one p1 (by positivity) b1 (C := 1) (by rw [div_le_one (by positivity)]; linarith) (by omega) (M.fits (by norm_num) (by norm_num))
  obtain ⟨o5, p5⟩ := pos (Real.pi / 2) (by linarith) (by linarith)
  have angle : ∀ d : ℕ, d ≠ 0 → d ≤ x + y → rnd d = .val (fl d) ∧ ApproxR u 1 (fl d) d d ∧
      rnd (fl (Real.pi / 2) * fl d) = .val (fl (fl (Real.pi / 2) * fl d)) ∧
      ApproxR u 11 (sinF (fl (fl (Real.pi / 2) * fl d))) (Real.sin (Real.pi / 2 * d)) d := by
    intro d hd hle
    have hd1 : (1 : ℝ) ≤ d := by exact_mod_cast Nat.one_le_iff_ne_zero.2 hd
    have hle' : (d : ℝ) ≤ ((x + y : ℕ) : ℝ) := by exact_mod_cast hle
    obtain ⟨a1, a2⟩ := pos d (by linarith) (by linarith)
    obtain ⟨a3, a4⟩ := M.mul p5 a2 (by omega) ⟨by nlinarith, by nlinarith⟩
    exact ⟨a1, a2, a3, sinAngle_close hu hu1 hsin hd a4⟩
  have quot : ∀ d : ℕ, d ≠ 0 → d ≤ x + y → sineQuotientR rnd sinF (fl (Real.pi / 2)) d = .val (fl (sinF (fl (fl (Real.pi / 2) * fl d)) / fl d)) ∧
      ApproxR u 14 (fl (sinF (fl (fl (Real.pi / 2) * fl d)) / fl d)) (Real.sin (Real.pi / 2 * d) / d) 1 := by
    intro d hd hle
    obtain ⟨a1, a2, a3, a4⟩ := angle d hd hle
    have hd0 : (0 : ℝ) < d := by exact_mod_cast Nat.pos_of_ne_zero hd
    obtain ⟨a5, a6⟩ := M.div a4 a2 hd0 b1 (C := 1) (by rw [div_self hd0.ne']) (by omega) (M.fits (by norm_num) (by norm_num))
    exact ⟨by unfold sineQuotientR; rw [a1, Res.bind_val, a3, Res.bind_val, a5], a6⟩
  rw [squareCorrelation_eq]
  unfold evValue2DR evValue2DF evValue2D
  simp only [o1, o2, o3, o4, o5, Res.bind_val]
  by_cases hxy : x = y
  · rw [if_pos hxy, if_pos hxy, if_pos hxy]
    by_cases hx : x = 0
    · rw [if_pos hx, if_pos hx, if_pos hx]
      exact ⟨rfl, (ApproxR.exact (u := u) (0.5 : ℝ)).mono hu (by norm_num) (by norm_num [abs_of_pos])⟩
    · rw [if_neg hx, if_neg hx, if_neg hx]
      have hd : x + y ≠ 0 := by omega
      have hd1 : (1 : ℝ) ≤ ((x + y : ℕ) : ℝ) := by exact_mod_cast Nat.one_le_iff_ne_zero.2 hd
      obtain ⟨a1, a2, a3, a4⟩ := angle _ hd le_rfl
      obtain ⟨a5, a6⟩ := M.mul p4 a4 (by omega) ⟨by linarith, by linarith⟩
      obtain ⟨a7, a8⟩ := M.div a6 a2 (by linarith) b1 (C := 1) (by rw [one_mul, div_self (by linarith)]) (by omega) (M.fits (by norm_num) (by norm_num))
      exact ⟨by rw [a1, Res.bind_val, a3, Res.bind_val, a5, Res.bind_val, a7], a8.mono hu (by norm_num) le_rfl⟩
  · rw [if_neg hxy, if_neg hxy, if_neg hxy]
    have hd : x + y ≠ 0 := by omega
    have hd' : (if x > y then x - y else y - x) ≠ 0 := by split_ifs <;> omega
    have hd'' : (if x > y then x - y else y - x) ≤ x + y := by split_ifs <;> omega
    obtain ⟨a1, a2⟩ := quot _ hd le_rfl
    obtain ⟨a3, a4⟩ := quot _ hd' hd''
    obtain ⟨a5, a6⟩ := M.mul p3 a2 (by omega) (M.fits (by norm_num) (by norm_num))
    obtain ⟨a7, a8⟩ := M.mul a6 a4 (by omega) (M.fits (by norm_num) (by norm_num))
    exact ⟨by rw [a1, Res.bind_val, a5, Res.bind_val, a3, Res.bind_val, a7], a8.mono hu (by norm_num) (by norm_num)⟩

theorem table2R_ok (M : Machine rnd fl u tiny huge K) (hK : 100 ≤ K) (hsin : ∀ x, |sinF x - Real.sin x| ≤ u) {N : ℕ} (hN : 1 ≤ N) (hfit : 6 * (N : ℝ) ≤ huge)
    {sched : List (ℕ × ℕ)} (hs : sched.Perm (evPairs (N / 2) (N / 2))) :
    ∃ values, evTable2DR rnd sinF (Square.real (K := ℝ) N N 1 1) sched = .val values ∧
      ∃ ev : ℕ → ℕ → ℝ, Program.evFunction2D (Square.real (K := ℝ) N N 1 1) values = siteEv ev ∧
        ∀ a < N * N, ∀ b < N * N, ApproxR u 37 (ev a b) (torusCorrelation N a b) 1 := by
  have hval : ∀ x y, x ≤ N / 2 → y ≤ N / 2 → evValue2DR rnd sinF x y = .val (evValue2DF fl sinF x y) ∧
      ApproxR u 37 (evValue2DF fl sinF x y) (squareCorrelation x y) 1 := fun x y hx hy => by
    refine evValue2DR_ok M hK hsin (le_trans ?_ hfit)
    have : ((x + y : ℕ) : ℝ) ≤ N := by exact_mod_cast (by omega : x + y ≤ N)
    linarith
  obtain ⟨values, e1, ev, e2, e3⟩ := table2F_ok' (fl := fl) (sinF := sinF) (u := u) (fun x y hx hy => (hval x y hx hy).2) hN hs
  refine ⟨values, ?_, ev, e2, fun a ha b hb => (e3 a ha b hb).2⟩
  rw [← e1]
  unfold evTable2DR evTable2DF
  refine List.foldl_ext _ _ _ fun acc d hd => ?_
  obtain ⟨h1, h2⟩ := (mem_evPairs _ _ _).1 (hs.mem_iff.1 hd)
  simp only [(hval _ _ h1 h2).1, Res.bind_val]

end Table

/-! ### The phases -/

theorem isBinary64_nat {i : ℕ} (hi : i < 2 ^ 53) : IsBinary64 (i : ℝ) :=
  ⟨i, 0, by simp, by rw [abs_of_nonneg (by positivity)]; exact_mod_cast hi, by norm_num, by norm_num⟩

theorem coordinateR_nat {i : ℕ} (hi : i < 2 ^ 53) : coordinateR binary64 0 1 i = .val (i : ℝ) := by
  have h := binary64_exact (isBinary64_nat hi)
  unfold coordinateR
  simp only [h, Res.bind_val, mul_one, zero_add]

theorem fits_binary64 {A : ℝ} (h1 : 1 / 4 ≤ A) (h2 : A ≤ 2 ^ 60) : Fits (1 / 2 ^ 1022) (2 ^ 1023) A := by
  obtain ⟨-, r1, r2⟩ := binary64_range
  refine ⟨r1.trans (le_trans (by norm_num) h1), le_trans ?_ r2⟩
  have : (3 : ℝ) * 2 ^ 60 ≤ 2 ^ 200 := by norm_num
  linarith

section Phases
variable {fl : ℝ → ℝ} (M : Machine binary64 fl (1 / 2 ^ 53) (1 / 2 ^ 1022) (2 ^ 1023) (2 ^ 53))
include M

theorem phase1R_close {filling : ℝ} (h0 : 0 ≤ filling) (h1 : filling ≤ 1) {N i : ℕ} (hN : N ≤ 2 ^ 53) (hi : i < N) :
    phase1DR binary64 (Chain.real (K := ℝ) N 1) (fermiMomentum1DF fl filling) i = .val (fl (fermiMomentum1DF fl filling * i)) ∧
      |fl (fermiMomentum1DF fl filling * i) - filling * Real.pi * i| ≤ 32 * N * (1 / 2 ^ 53) := by
  have hu := M.nonneg
  obtain ⟨-, p⟩ := fermiMomentum1DR_ok M (by norm_num) h0 h1
  have hpi := Real.pi_gt_three
  have hpi4 := Real.pi_lt_d2
  have hN' : (N : ℝ) ≤ 2 ^ 53 := by exact_mod_cast hN
  have hi' : (i : ℝ) + 1 ≤ N := by exact_mod_cast hi
  have hi0 : (0 : ℝ) ≤ i := Nat.cast_nonneg i
  have q := (p.mul' (ApproxR.exact (u := 1 / 2 ^ 53) (i : ℝ))).mono (A := Real.pi * |(i : ℝ)|) (B := 3.2 * N) hu le_rfl (by
    rw [abs_of_nonneg hi0]; nlinarith)
  obtain ⟨o, e⟩ := M.round q (by norm_num) (fits_binary64 (by linarith) (by linarith))
  refine ⟨?_, e.1.trans ?_⟩
  · show (coordinateR binary64 0 1 i).bind (fun x => binary64 (fermiMomentum1DF fl filling * x)) = _
    rw [coordinateR_nat (by omega), Res.bind_val, o]
  · have h3 : ((1 : ℝ) + 1 / 2 ^ 53) ^ (2 + 0 + 1) - 1 ≤ 6 * (1 / 2 ^ 53) := by norm_num
    refine (mul_le_mul_of_nonneg_right h3 (by positivity)).trans ?_
    linarith [show 6 * (1 / 2 ^ 53) * (3.2 * (N : ℝ)) = 19.2 * (N * (1 / 2 ^ 53)) by ring, show 32 * (N : ℝ) * (1 / 2 ^ 53) = 32 * (N * (1 / 2 ^ 53)) by ring,
      show 0 ≤ (N : ℝ) * (1 / 2 ^ 53) by positivity]

/-- The computed phase of a site of the square lattice. -/
noncomputable def phase2' (fl : ℝ → ℝ) (N : ℕ) (kx ky : ℝ) (i : ℕ) : ℝ := fl (fl (kx * (i / N : ℕ)) + fl (ky * (i % N : ℕ)))

theorem phase2R_close (kx ky : ℝ) {N i : ℕ} (hN1 : 1 ≤ N) (hN : N ≤ 2 ^ 53) (hk : (|kx| + |ky|) * N ≤ 2 ^ 53) (hi : i < N * N) :
    phase2DR binary64 (Square.real (K := ℝ) N N 1 1) (kx, ky) i = .val (phase2' fl N kx ky i) ∧
      |phase2' fl N kx ky i - (kx * (i / N : ℕ) + ky * (i % N : ℕ))| ≤ (8 * (|kx| + |ky|) * N + 4) * (1 / 2 ^ 53) := by
  have hu := M.nonneg
  have hd : i / N < N := Nat.div_lt_of_lt_mul hi
  have hm : i % N < N := Nat.mod_lt i (by omega)
  have hd' : ((i / N : ℕ) : ℝ) ≤ N := by exact_mod_cast hd.le
  have hm' : ((i % N : ℕ) : ℝ) ≤ N := by exact_mod_cast hm.le
  have hx0 := abs_nonneg kx
  have hy0 := abs_nonneg ky
  have hN0 : (0 : ℝ) ≤ N := Nat.cast_nonneg N
  have ax : 0 ≤ |kx| * N := by positivity
  have ay : 0 ≤ |ky| * N := by positivity
  have one : ∀ (c : ℝ) (j : ℕ), (j : ℝ) ≤ N → |c| * N ≤ 2 ^ 53 → binary64 (c * j) = .val (fl (c * j)) ∧
      ApproxR (1 / 2 ^ 53) 1 (fl (c * j)) (c * j) (|c| * N + 1 / 2) := by
    intro c j hj hc
    have h1 : |c * (j : ℝ)| ≤ |c| * N + 1 / 2 := by
      rw [abs_mul, abs_of_nonneg (a := (j : ℝ)) (Nat.cast_nonneg j)]
      have := mul_le_mul_of_nonneg_left hj (abs_nonneg c)
      linarith
    have h2 : 0 ≤ |c| * (N : ℝ) := by positivity
    exact M.round ((ApproxR.exact (u := 1 / 2 ^ 53) (c * j)).mono hu le_rfl h1) (by norm_num) (fits_binary64 (by linarith) (by linarith))
  rw [add_mul] at hk
  obtain ⟨o1, p1⟩ := one kx (i / N) hd' (by linarith)
  obtain ⟨o2, p2⟩ := one ky (i % N) hm' (by linarith)
  obtain ⟨o3, p3⟩ := M.add p1 p2 (by norm_num) (fits_binary64 (by linarith) (by linarith))
  refine ⟨?_, p3.1.trans ?_⟩
  · show (coordinateR binary64 0 1 (i / N)).bind (fun x => (coordinateR binary64 0 1 (i % N)).bind fun y => (binary64 (kx * x)).bind fun a =>
      (binary64 (ky * y)).bind fun b => binary64 (a + b)) = _
    rw [coordinateR_nat (by omega), Res.bind_val, coordinateR_nat (by omega), Res.bind_val, o1, Res.bind_val, o2, Res.bind_val, o3]
    rfl
  · have h3 : ((1 : ℝ) + 1 / 2 ^ 53) ^ (1 + 1) - 1 ≤ 4 * (1 / 2 ^ 53) := by norm_num
    refine (mul_le_mul_of_nonneg_right h3 (by positivity)).trans ?_
    linarith [show 4 * (1 / 2 ^ 53) * (|kx| * (N : ℝ) + 1 / 2 + (|ky| * N + 1 / 2)) =
        4 * ((|kx| * N) * (1 / 2 ^ 53)) + 4 * ((|ky| * N) * (1 / 2 ^ 53)) + 4 * (1 / 2 ^ 53) by ring,
      show (8 * (|kx| + |ky|) * (N : ℝ) + 4) * (1 / 2 ^ 53) = 8 * ((|kx| * N) * (1 / 2 ^ 53)) + 8 * ((|ky| * N) * (1 / 2 ^ 53)) + 4 * (1 / 2 ^ 53) by ring,
      show 0 ≤ (|kx| * (N : ℝ)) * (1 / 2 ^ 53) by positivity, show 0 ≤ (|ky| * (N : ℝ)) * (1 / 2 ^ 53) by positivity]

end Phases

/-! ### The programs -/

section Programs
variable {N : ℕ} {sort : List (Triplet ℝ) → List (Triplet ℝ)} {sinF cosF : ℝ → ℝ}

/-- **C119, `hubbard_real_1d_rk4_jump`.** In IEEE binary64 arithmetic, with gradual underflow and overflow: neither an infinity nor a NaN comes up in the run,
and every number written is not negative and differs from the Fermi jump `|Σ_i e^{i k_F i} v^NO_i(t)|²` of the exact solution by at most
`S ε (2 + ε) + r 2^-52 10 n (1 + ε)²`, where `S = N (1 + Σ_jk (2 ⟨c†_j c_k⟩ - δ_jk)²)`, `n = N + N³`, `ε = k (2^-41 + x⁵/120 exp x)` after `k` steps,
`x = dt (6 |J| + |U|)` and `r = 2 (N² + 67 N + 28 + threads)`. -/
theorem real1dRk4Jump_binary64 (hN : 3 ≤ N) (hn : N + N * N * N < 2 ^ 64) (hs : IsSort sort) {J U filling dt tEnd : ℝ} (hJ : IsBinary64 J) (hU : IsBinary64 U)
    (hU' : U = 0 ∨ 1 / 2 ^ 1021 ≤ |U|) (hf0 : 0 ≤ filling) (hf1 : filling ≤ 1)
    (hsin : ∀ x, |sinF x - Real.sin x| ≤ 1 / 2 ^ 53) (hcos : ∀ x, |cosF x - Real.cos x| ≤ 1 / 2 ^ 53)
    (hdt1 : 1 / 2 ^ 1000 ≤ dt) (hdt2 : dt ≤ 2 ^ 900) (hst : (dt * (6 * |J| + |U|)) ^ 2 ≤ 8) (hend : tEnd + dt / 16 ≤ 2 ^ 24 * dt) (interval : ℕ)
    {e : JumpExecution} (he : e.Valid N) (het : e.table.Perm (List.range' 1 (N / 2)))
    (hthreads : ∀ k, 2 * (N * N + 67 * N + 28 + e.threads k) ≤ 2 ^ 53) (w : Work ℂ) :
    ∃ m s k, initMatrix sort N 2 (Chain.real (K := ℝ) N 1).neighbors J U = .val m ∧
      real1dRk4JumpR binary64 sinF cosF sort e w N J U dt tEnd interval filling = .val s ∧
      ⌈(tEnd - dt / 16) / dt⌉₊ ≤ k ∧ k ≤ ⌈(tEnd + dt / 16) / dt⌉₊ ∧ s.out.length = k / max interval 1 + 1 ∧
      ∀ v, IsFlow (N + N * N * N) (fun i j => m.get i j) v →
      ∀ j < s.out.length, ∃ t x, s.out[j]? = some (t, x) ∧ |t - ((j * max interval 1 : ℕ) : ℝ) * dt| ≤ dt / 16 ∧ 0 ≤ x ∧
        |x - fermiJump (ringCorrelation filling N) N (fun i => filling * Real.pi * i) (v ((j * max interval 1 : ℕ) * dt))| ≤
          jumpWeight (ringCorrelation filling N) N *
            (vectorErrorDouble (dt * (6 * |J| + |U|)) (j * max interval 1) * (2 + vectorErrorDouble (dt * (6 * |J| + |U|)) (j * max interval 1))) +
          (2 * (N * N + 67 * N + 28 + e.threads (j * max interval 1)) : ℕ) / 2 ^ 52 *
            (10 * ((N + N * N * N : ℕ) : ℝ) * (1 + vectorErrorDouble (dt * (6 * |J| + |U|)) (j * max interval 1)) ^ 2) := by
  have hN53 : N ≤ 2 ^ 53 := by
    have := hthreads 0
    omega
  obtain ⟨d0, -, -, -, d5, d6, -⟩ := binary64_scales hn hdt1 hdt2
  obtain ⟨fl, M⟩ := binary64_machine
  obtain ⟨r0, r1, r2⟩ := binary64_range
  have hreg := chain_regular (Chain.Constructed.real (N := N) (1 : ℝ) (by omega) rfl) hN
  obtain ⟨kf, -⟩ := fermiMomentum1DR_ok M (by norm_num) hf0 hf1
  obtain ⟨values, e1, ev, hev, htab⟩ := tableR_ok M (by norm_num) hsin (N := N) (by omega) (twelve_le (by omega)) hf0 hf1 het
  have hx0 : 0 ≤ dt * (6 * |J| + |U|) := by positivity
  have ex : 3 * ((2 : ℕ) : ℝ) * |J| + |U| = 6 * |J| + |U| := by push_cast; ring
  obtain ⟨s0, s1, -⟩ := slack_small (n := N + N * N * N) (z := 3 * 2 + 2) (by norm_num) r0 d0 d5 hdt2 d6
  have hN1 : (1 : ℝ) ≤ N := by exact_mod_cast (by omega : 1 ≤ N)
  have hK : 2 * (1 + 32 * (N : ℝ)) ≤ ((66 * N : ℕ) : ℝ) := by push_cast; linarith
  have hph := fun (i : ℕ) (hi : i < N) => phase1R_close M hf0 hf1 hN53 hi
  have er : ∀ t, 2 * (66 * N + (20 + 3 + N * N) + 4 + N + t) + 2 = 2 * (N * N + 67 * N + 28 + t) := fun t => by ring
  obtain ⟨m, h, f, s, k, h1, hI, h2, h3, h4, h5, h6, h7, h8⟩ := jumpR_program (sinF := sinF) (cosF := cosF) (z := 2) (by omega) (by norm_num) hn hreg hs hJ hU hU'
    hdt1 hdt2 (by rw [ex]; exact hst) hend M (E := vectorErrorDouble (dt * (6 * |J| + |U|)))
    (fun k hk => by rw [ex]; exact vectorErrorR_binary64 (by norm_num) hx0 hst s0 s1 hk) (vectorErrorDouble_le hx0 hst)
    (ev' := ev) (ev := ringCorrelation filling N) (K := 66 * N) (L := 20) htab (phaseR := phase1DR binary64 (Chain.real (K := ℝ) N 1) (fermiMomentum1DF fl filling))
    (phase' := fun i : ℕ => fl (fermiMomentum1DF fl filling * i)) (phase := fun i : ℕ => filling * Real.pi * i) (fun i hi => (hph i hi).1)
    (fun i hi => phaseFactorF_close (phase' := fun i : ℕ => fl (fermiMomentum1DF fl filling * i)) (phase := fun i : ℕ => filling * Real.pi * i)
      (by positivity) hsin hcos (D := 32 * N) (hph i hi).2 hK) interval he (fun k => by rw [er]; exact hthreads k) w
  refine ⟨m, s, k, h1, ?_, h5, h6, h7, fun v hv j hj => ?_⟩
  · unfold real1dRk4JumpR
    have h2U : 2 * (U / 2) = U := by ring
    simp only [kf, e1, binary64_exact (hU.half hU'), h2U, h1, Res.bind_val, hI, h2, h3, hev]
    exact h4
  · obtain ⟨t, x, a1, a2, a3, a4⟩ := h8 v hv j hj
    rw [er] at a4
    exact ⟨t, x, a1, a2, a3, a4⟩

/-- **C119, `hubbard_real_2d_rk4_jump`**, for `Nx = Ny = N ≥ 3`. (Missing: rectangular systems, for which the lattice itself is wrong, C20 and C39.) -/
theorem real2dRk4Jump_binary64_partial (hN : 3 ≤ N) (hn : N * N + N * N * (N * N) * (N * N) < 2 ^ 64) (hs : IsSort sort) {J U kx ky dt tEnd : ℝ}
    (hJ : IsBinary64 J) (hU : IsBinary64 U) (hU' : U = 0 ∨ 1 / 2 ^ 1021 ≤ |U|)
    (hsin : ∀ x, |sinF x - Real.sin x| ≤ 1 / 2 ^ 53) (hcos : ∀ x, |cosF x - Real.cos x| ≤ 1 / 2 ^ 53)
    (hdt1 : 1 / 2 ^ 1000 ≤ dt) (hdt2 : dt ≤ 2 ^ 900) (hst : (dt * (12 * |J| + |U|)) ^ 2 ≤ 8) (hend : tEnd + dt / 16 ≤ 2 ^ 24 * dt) (interval : ℕ)
    {e : JumpExecution} (he : e.Valid (N * N)) (het : e.table2.Perm (evPairs (N / 2) (N / 2)))
    (hthreads : ∀ k, 2 * (N * N * (N * N) + N * N + ⌈16 * (|kx| + |ky|) * N⌉₊ + 55 + e.threads k) ≤ 2 ^ 53) (w : Work ℂ) :
    ∃ m s k, initMatrix sort (N * N) 4 (Square.real (K := ℝ) N N 1 1).neighbors J U = .val m ∧
      real2dRk4JumpR binary64 sinF cosF sort e w N N J U dt tEnd interval kx ky = .val s ∧
      ⌈(tEnd - dt / 16) / dt⌉₊ ≤ k ∧ k ≤ ⌈(tEnd + dt / 16) / dt⌉₊ ∧ s.out.length = k / max interval 1 + 1 ∧
      ∀ v, IsFlow (N * N + N * N * (N * N) * (N * N)) (fun i j => m.get i j) v →
      ∀ j < s.out.length, ∃ t x, s.out[j]? = some (t, x) ∧ |t - ((j * max interval 1 : ℕ) : ℝ) * dt| ≤ dt / 16 ∧ 0 ≤ x ∧
        |x - fermiJump (torusCorrelation N) (N * N) (fun i => kx * (i / N : ℕ) + ky * (i % N : ℕ))
            (v ((j * max interval 1 : ℕ) * dt))| ≤
          jumpWeight (torusCorrelation N) (N * N) *
            (vectorErrorDouble14 (dt * (12 * |J| + |U|)) (j * max interval 1) *
              (2 + vectorErrorDouble14 (dt * (12 * |J| + |U|)) (j * max interval 1))) +
          (2 * (N * N * (N * N) + N * N + ⌈16 * (|kx| + |ky|) * N⌉₊ + 55 + e.threads (j * max interval 1)) : ℕ) / 2 ^ 52 *
            (10 * ((N * N + N * N * (N * N) * (N * N) : ℕ) : ℝ) *
              (1 + vectorErrorDouble14 (dt * (12 * |J| + |U|)) (j * max interval 1)) ^ 2) := by
  have hle : N ≤ N * N := Nat.le_mul_self N
  have hk53 : ⌈16 * (|kx| + |ky|) * (N : ℝ)⌉₊ ≤ 2 ^ 53 := by
    have := hthreads 0
    omega
  have hN53 : N ≤ 2 ^ 53 := by
    have := hthreads 0
    omega
  have hceil := Nat.le_ceil (16 * (|kx| + |ky|) * (N : ℝ))
  have hkN : (|kx| + |ky|) * (N : ℝ) ≤ 2 ^ 53 := by
    have h1 : ((⌈16 * (|kx| + |ky|) * (N : ℝ)⌉₊ : ℕ) : ℝ) ≤ 2 ^ 53 := by exact_mod_cast hk53
    have h2 : 0 ≤ (|kx| + |ky|) * (N : ℝ) := by positivity
    linarith [mul_assoc 16 (|kx| + |ky|) (N : ℝ)]
  obtain ⟨d0, -, -, -, d5, d6, -⟩ := binary64_scales hn hdt1 hdt2
  obtain ⟨fl, M⟩ := binary64_machine
  obtain ⟨r0, r1, r2⟩ := binary64_range
  have hreg := square_regular
    (Square.Constructed.real (s := Square.real (K := ℝ) N N 1 1) (Nx := N) (Ny := N) 1 1 (by omega) (by omega) rfl) hN
  obtain ⟨values, e1, ev, hev, htab⟩ := table2R_ok M (by norm_num) hsin (N := N) (by omega) (le_trans (by linarith [show (0 : ℝ) ≤ N by positivity])
    (twelve_le hN53)) het
  have hx0 : 0 ≤ dt * (12 * |J| + |U|) := by positivity
  have ex : 3 * ((4 : ℕ) : ℝ) * |J| + |U| = 12 * |J| + |U| := by push_cast; ring
  obtain ⟨s0, s1, -⟩ := slack_small (n := N * N + N * N * (N * N) * (N * N)) (z := 3 * 4 + 2) (by norm_num) r0 d0 d5 hdt2 d6
  have hNN : 1 ≤ N * N := by omega
  have hK : 2 * (1 + (8 * (|kx| + |ky|) * (N : ℝ) + 4)) ≤ ((⌈16 * (|kx| + |ky|) * N⌉₊ + 10 : ℕ) : ℝ) := by
    rw [Nat.cast_add]
    norm_num
    linarith
  have hph := fun (i : ℕ) (hi : i < N * N) => phase2R_close M kx ky (by omega) hN53 hkN hi
  have er : ∀ t, 2 * (⌈16 * (|kx| + |ky|) * N⌉₊ + 10 + (37 + 3 + N * N * (N * N)) + 4 + N * N + t) + 2 =
      2 * (N * N * (N * N) + N * N + ⌈16 * (|kx| + |ky|) * N⌉₊ + 55 + t) := fun t => by ring
  obtain ⟨m, h, f, s, k, h1, hI, h2, h3, h4, h5, h6, h7, h8⟩ := jumpR_program (sinF := sinF) (cosF := cosF) (z := 4) hNN (by norm_num) hn hreg hs hJ hU hU'
    hdt1 hdt2 (by rw [ex]; exact hst) hend M (E := vectorErrorDouble14 (dt * (12 * |J| + |U|)))
    (fun k hk => by rw [ex]; exact vectorErrorR_binary64_14 (by norm_num) hx0 hst s0 s1 hk) (vectorErrorDouble14_le hx0 hst)
    (ev' := ev) (ev := torusCorrelation N) (K := ⌈16 * (|kx| + |ky|) * N⌉₊ + 10) (L := 37) htab
    (phaseR := phase2DR binary64 (Square.real (K := ℝ) N N 1 1) (kx, ky))
    (phase' := phase2' fl N kx ky) (phase := fun i : ℕ => kx * (i / N : ℕ) + ky * (i % N : ℕ)) (fun i hi => (hph i hi).1)
    (fun i hi => phaseFactorF_close (phase' := phase2' fl N kx ky) (phase := fun i : ℕ => kx * (i / N : ℕ) + ky * (i % N : ℕ))
      (by positivity) hsin hcos (D := 8 * (|kx| + |ky|) * N + 4) (hph i hi).2 hK) interval he (fun k => by rw [er]; exact hthreads k) w
  refine ⟨m, s, k, h1, ?_, h5, h6, h7, fun v hv j hj => ?_⟩
  · have h2U : 2 * (U / 2) = U := by ring
    show (evTable2DR binary64 sinF (Square.real (K := ℝ) N N 1 1) e.table2).bind (fun values => (binary64 (U / 2)).bind fun half =>
      (initMatrix sort (N * N) 4 (Square.real (K := ℝ) N N 1 1).neighbors J (2 * half)).bind fun m => (timesIR binary64 m).bind fun m =>
      (jumpCtorR sinF cosF (N * N) (phase2DR binary64 (Square.real (K := ℝ) N N 1 1) (kx, ky)) e.coefficients).bind fun f =>
      (initVector (basis3 (N * N)).length).bind fun h =>
      simulateR binary64 (stepJumpR binary64 (basis3 (N * N)).length dt m) (measureJumpR binary64 (evFunction2D (Square.real (K := ℝ) N N 1 1) values)
        (basis3 (N * N)) (N * N) f e) dt tEnd interval ((0, w, h), none)) = _
    simp only [e1, binary64_exact (hU.half hU'), h2U, h1, Res.bind_val, hI, h2, h3, hev]
    exact h4
  · obtain ⟨t, x, a1, a2, a3, a4⟩ := h8 v hv j hj
    rw [er] at a4
    exact ⟨t, x, a1, a2, a3, a4⟩

end Programs

/-- The hypotheses can be met: sixteen sites, a square of `3 × 3` sites with `k_F = (π/2, π/2)`, eight threads; every execution on one thread is valid. -/
example (N : ℕ) : 2 * (16 * 16 + 67 * 16 + 28 + 8) ≤ 2 ^ 53 ∧ 16 + 16 * 16 * 16 < 2 ^ 64 ∧ 3 * 3 + 3 * 3 * (3 * 3) * (3 * 3) < 2 ^ 64 ∧
    2 * (3 * 3 * (3 * 3) + 3 * 3 + 200 + 55 + 8) ≤ 2 ^ 53 ∧ ⌈16 * (|Real.pi / 2| + |Real.pi / 2|) * (3 : ℕ)⌉₊ ≤ 200 ∧
    (∃ e : JumpExecution, e.Valid N ∧ e.table.Perm (List.range' 1 (N / 2)) ∧ e.table2.Perm (evPairs (N / 2) (N / 2)) ∧ ∀ k, e.threads k = 1) ∧
    IsBinary64 1 ∧ ((1 / 100 : ℝ) * (6 * |1| + |1|)) ^ 2 ≤ 8 ∧ ((1 / 100 : ℝ) * (12 * |1| + |1|)) ^ 2 ≤ 8 := by
  refine ⟨by norm_num, by norm_num, by norm_num, by norm_num, ?_, ?_, isBinary64_one, by norm_num, by norm_num⟩
  · rw [Nat.ceil_le, abs_of_pos (by positivity)]
    have := Real.pi_le_four
    push_cast
    linarith
  · exact ⟨⟨List.range' 1 (N / 2), evPairs (N / 2) (N / 2), List.range N, fun _ => List.range N, fun _ => 1, fun _ => (jumpPairs N).map fun p => (0, p)⟩,
      ⟨List.Perm.refl _, fun _ => List.Perm.refl _, fun _ => executes_sequential _⟩, List.Perm.refl _, List.Perm.refl _, fun _ => rfl⟩

end Ieompp.IEEE
