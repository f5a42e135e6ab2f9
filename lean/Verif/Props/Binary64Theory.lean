import Verif.Model.Binary64Small
import Verif.Props.Binary64Complex
import Verif.Props.Binary64Measured
import Verif.Props.Binary64Grid
import Verif.Props.Binary64JumpProgram
import Verif.Props.TheoryFloat

/-! # C127: `hubbard_real_1d_kinetic_theory` in binary64 arithmetic -/

set_option autoImplicit false
set_option linter.unusedSectionVars false

namespace Ieompp.IEEE

open Ieompp.Spec ODE RealSpace Program

variable {rnd : ℝ → Res ℝ} {fl sinF : ℝ → ℝ} {u tiny huge : ℝ} {K : ℕ}

/-- The table of the program with Fermi momentum `0.5` (and filling 1). -/
theorem evValue1DR_half (M : Machine rnd fl u tiny huge K) (hK : 20 ≤ K) (hsin : ∀ x, |sinF x - Real.sin x| ≤ u) {d : ℕ} (hd : d ≠ 0) (hfit : 12 * (d : ℝ) ≤ huge) :
    evValue1DR rnd sinF 0.5 1 d = .val (evValue1DF fl sinF 0.5 1 d) ∧ ApproxR u 13 (evValue1DF fl sinF 0.5 1 d) (Real.sin (d / 2) / (Real.pi * d)) 1 := by
  have hu := M.nonneg
  have hu1 := M.small
  have hpi := Real.pi_gt_three
  have hpi4 := Real.pi_le_four
  have hd1 : (1 : ℝ) ≤ d := by exact_mod_cast Nat.one_le_iff_ne_zero.2 hd
  have ht := M.tiny_le
  obtain ⟨e1, p1⟩ := M.exact_fits (x := Real.pi) (by rw [abs_of_pos Real.pi_pos]; exact M.fits (by linarith) (by linarith))
  rw [abs_of_pos Real.pi_pos] at p1
  obtain ⟨e2, p2⟩ := M.exact_fits (x := (d : ℝ)) (by rw [abs_of_nonneg (by linarith)]; exact ⟨by linarith, by linarith⟩)
  rw [abs_of_nonneg (by linarith)] at p2
  have hfit' : Fits tiny huge (Real.pi * d) := ⟨by nlinarith, by nlinarith⟩
  have hfit'' : Fits tiny huge (0.5 * (d : ℝ)) := ⟨by linarith, by linarith⟩
  obtain ⟨e3, q3⟩ := M.const_mul (c := 0.5) (by norm_num) p2 (by omega) hfit''
  obtain ⟨e4, p4⟩ := M.round q3 (by omega) hfit''
  obtain ⟨e5, q5⟩ := M.mul p1 p2 (by omega) hfit'
  obtain ⟨e6, p5⟩ := M.round q5 (by omega) hfit'
  rw [← mul_one (fl (0.5 * fl d))] at e4 p4
  rw [← mul_one (fl (fl Real.pi * fl d))] at e6 p5
  have hval0 : evValue1DF fl sinF 0.5 1 d = fl (sinF (fl (fl (0.5 * fl d) * 1)) / fl (fl (fl Real.pi * fl d) * 1)) := rfl
  have hR : evValue1DR rnd sinF 0.5 1 d = divR rnd (sinF (fl (fl (0.5 * fl d) * 1))) (fl (fl (fl Real.pi * fl d) * 1)) := by
    unfold evValue1DR
    simp only [e1, e2, e3, e4, e5, e6, Res.bind_val]
  rw [hR, hval0]
  set a' := fl (fl (0.5 * fl d) * 1) with ha'
  set D' := fl (fl (fl Real.pi * fl d) * 1) with hD'
  set D := Real.pi * (d : ℝ) with hD
  have ea : (0.5 : ℝ) * d = d / 2 := by ring
  rw [ea] at p4
  set a := (d : ℝ) / 2 with ha
  have hDd : 3 * (d : ℝ) ≤ D := by rw [hD]; nlinarith
  have hDpos : 3 ≤ D := by linarith
  have g3 : (1 + u) ^ 3 - 1 ≤ 6 * u := by
    have := pow_sub_one_le (n := 3) hu (by push_cast; linarith)
    push_cast at this; linarith
  have g4 : (1 + u) ^ 4 - 1 ≤ 8 * u := by
    have := pow_sub_one_le (n := 4) hu (by push_cast; linarith)
    push_cast at this; linarith
  have q1 : |a' - a| ≤ 6 * u * a := p4.1.trans (mul_le_mul_of_nonneg_right g3 (by rw [ha]; linarith))
  have q2 : |D' - D| ≤ 8 * u * D := p5.1.trans (mul_le_mul_of_nonneg_right g4 (by linarith))
  have ha2 : a ≤ D / 6 := by rw [ha]; linarith
  have q3 : |sinF a' - Real.sin a| ≤ u + 6 * u * a := by
    have e1 := hsin a'
    have e2 := Real.abs_sin_sub_sin_le a' a
    have e3 := abs_add_le (sinF a' - Real.sin a') (Real.sin a' - Real.sin a)
    rw [sub_add_sub_cancel] at e3
    linarith
  have hD'lo : 99 / 100 * D ≤ D' := by
    have := (abs_le.1 q2).1
    have : 8 * u * D ≤ 1 / 100 * D := mul_le_mul_of_nonneg_right (by linarith) (by linarith)
    linarith
  have hD'pos : 0 < D' := by linarith
  have hval : |Real.sin a / D| ≤ 1 := by
    rw [abs_div, abs_of_pos (show 0 < D by linarith), div_le_one (by linarith)]
    exact (Real.abs_sin_le_one a).trans (by linarith)
  have hq : |sinF a' / D' - Real.sin a / D| ≤ 12 * u := by
    have e : sinF a' / D' - Real.sin a / D = ((sinF a' - Real.sin a) + (D - D') * (Real.sin a / D)) / D' := by
      field_simp; ring
    rw [e, abs_div, abs_of_pos hD'pos, div_le_iff₀ hD'pos]
    refine (abs_add_le _ _).trans ?_
    rw [abs_mul, abs_sub_comm D D']
    have e1 : |D' - D| * |Real.sin a / D| ≤ 8 * u * D * 1 := mul_le_mul q2 hval (abs_nonneg _) (by positivity)
    have e2 : u ≤ u * (D / 3) := by nlinarith
    have e5 : 6 * u * a ≤ 6 * u * (D / 6) := mul_le_mul_of_nonneg_left ha2 (by positivity)
    have e3 : 12 * u * (99 / 100 * D) ≤ 12 * u * D' := mul_le_mul_of_nonneg_left hD'lo (by positivity)
    have e4 : 0 ≤ u * D := by positivity
    nlinarith
  have hap : ApproxR u 12 (sinF a' / D') (Real.sin a / D) 1 := by
    refine ⟨hq.trans ?_, hval⟩
    have := one_add_mul_le_pow (a := u) (by linarith) 12
    push_cast at this
    linarith
  obtain ⟨e7, p7⟩ := M.round hap (by omega) (M.fits (by norm_num) (by norm_num))
  refine ⟨?_, p7⟩
  rw [divR, if_neg hD'pos.ne', e7]

/-- The exact sum, with approximate Bessel functions. -/
theorem theoryNumber_perturbed {N : ℕ} {t ε : ℝ} (hε0 : 0 ≤ ε) {b' : ℕ → ℝ} (hbb : ∀ i, |b' i - besselJ (ringDistance N 0 i : ℕ) (2 * t)| ≤ ε)
    (hw : ∀ i < N, ∀ j < N, |theoryWeight N i j| ≤ 1) :
    ‖((pairsRect 0 N 0 N).map fun q => (theoryWeight N q.1 q.2 : ℂ) * (((b' q.1 : ℂ) * minusIPower (ringDistance N 0 q.1)) *
        ((b' q.2 : ℂ) * (starRingEnd ℂ) (minusIPower (ringDistance N 0 q.2))))).sum - theoryNumber N t‖ ≤ (N * N : ℕ) * (ε * (2 + ε)) := by
  set b : ℕ → ℝ := fun i => besselJ (ringDistance N 0 i : ℕ) (2 * t) with hbd
  set p : ℕ → ℂ := fun i => minusIPower (ringDistance N 0 i) with hp
  have hpn : ∀ i, ‖p i‖ = 1 := fun i => minusIPower_norm _
  have hb1 : ∀ i, |b i| ≤ 1 := fun i => besselJ_abs_le _ _
  have hb2 : ∀ i, |b' i| ≤ 1 + ε := fun i => by
    have := abs_add_le (b' i - b i) (b i)
    rw [sub_add_cancel] at this
    linarith [hbb i, hb1 i]
  rw [sum_pairsRect 0 N 0 N (Nat.zero_le _) (Nat.zero_le _) fun i j => (theoryWeight N i j : ℂ) * (((b' i : ℂ) * p i) * ((b' j : ℂ) * (starRingEnd ℂ) (p j)))]
  unfold theoryNumber
  simp only [← Finset.range_eq_Ico]
  rw [← Finset.sum_sub_distrib]
  have hin : ∀ i ∈ Finset.range N, ‖∑ j ∈ Finset.range N, (theoryWeight N i j : ℂ) * (((b' i : ℂ) * p i) * ((b' j : ℂ) * (starRingEnd ℂ) (p j))) -
      ∑ j ∈ Finset.range N, (theoryWeight N i j : ℂ) * (theoryAmplitude N i t * (starRingEnd ℂ) (theoryAmplitude N j t))‖ ≤ N * (ε * (2 + ε)) := by
    intro i hi
    rw [← Finset.sum_sub_distrib]
    have : ∀ j ∈ Finset.range N, ‖(theoryWeight N i j : ℂ) * (((b' i : ℂ) * p i) * ((b' j : ℂ) * (starRingEnd ℂ) (p j))) -
        (theoryWeight N i j : ℂ) * (theoryAmplitude N i t * (starRingEnd ℂ) (theoryAmplitude N j t))‖ ≤ ε * (2 + ε) := by
      intro j hj
      have w1 := hw i (by simpa using hi) j (by simpa using hj)
      have e5 : (theoryWeight N i j : ℂ) * (((b' i : ℂ) * p i) * ((b' j : ℂ) * (starRingEnd ℂ) (p j))) -
          (theoryWeight N i j : ℂ) * (theoryAmplitude N i t * (starRingEnd ℂ) (theoryAmplitude N j t)) =
          ((theoryWeight N i j * (b' i * b' j - b i * b j) : ℝ) : ℂ) * (p i * (starRingEnd ℂ) (p j)) := by
        simp only [theoryAmplitude, hp, hbd, minusIPower_eq, map_mul, Complex.conj_ofReal]
        push_cast
        ring
      rw [e5, norm_mul, norm_mul, RCLike.norm_conj, hpn, hpn, mul_one, mul_one, Complex.norm_real, Real.norm_eq_abs, abs_mul]
      have e6 : b' i * b' j - b i * b j = (b' i - b i) * b' j + b i * (b' j - b j) := by ring
      have e7 : |b' i * b' j - b i * b j| ≤ ε * (1 + ε) + 1 * ε := by
        rw [e6]
        refine (abs_add_le _ _).trans ?_
        rw [abs_mul, abs_mul]
        exact add_le_add (mul_le_mul (hbb i) (hb2 j) (abs_nonneg _) hε0) (mul_le_mul (hb1 i) (hbb j) (abs_nonneg _) (by norm_num))
      calc |theoryWeight N i j| * |b' i * b' j - b i * b j| ≤ 1 * (ε * (1 + ε) + 1 * ε) := mul_le_mul w1 e7 (abs_nonneg _) (by norm_num)
        _ = _ := by ring
    refine (norm_sum_le _ _).trans ((Finset.sum_le_sum this).trans (le_of_eq ?_))
    simp
  refine (norm_sum_le _ _).trans ((Finset.sum_le_sum hin).trans (le_of_eq ?_))
  simp; ring

/-- **C127**: the number of the program for one step, for every number of sites, threads and every execution. `ε` is the accuracy of the computed values of
the Bessel functions, `x` the computed argument. -/
theorem theoryValueR_close (M : Machine rnd fl u tiny huge K) (hsin : ∀ x, |sinF x - Real.sin x| ≤ u) {N : ℕ} (hN : 1 ≤ N)
    {sched : List ℕ} (hs : sched.Perm (List.range' 1 (N / 2))) {threads : ℕ} {s : List Event} (h : Executes threads (pairsRect 0 N 0 N) s)
    {besselF : ℕ → ℝ → ℝ} {dt t ε x : ℝ} {step : ℕ} (hε : ε ≤ 1) (hx : ((rnd (2 * step : ℕ)).bind fun y => rnd (y * dt)) = .val x)
    (hb : ∀ n : ℕ, |besselF n x - besselJ n (2 * t)| ≤ ε) (hK : 20 + N * N + threads ≤ K) (hfitN : 12 * (N : ℝ) ≤ huge)
    (hfit : 3 * ((N * N : ℕ) * 8 + 2 * (N * N + threads : ℕ) * tiny) ≤ huge) :
    ∃ z, theoryValueR rnd sinF besselF (Chain.real (K := ℝ) N 1) dt sched threads s step = .val z ∧
      ‖z - theoryNumber N t‖ ≤ (N * N : ℕ) * (ε * (2 + ε)) + ((1 + u) ^ (20 + N * N + threads) - 1) * ((N * N : ℕ) * 8 + 2 * (N * N + threads : ℕ) * tiny) := by
  have hu := M.nonneg
  have ht := M.tiny_nonneg
  have ht1 := M.tiny_le
  have hh := M.huge_ge
  have hε0 : 0 ≤ ε := (abs_nonneg _).trans (hb 0)
  have hc : (Chain.real (K := ℝ) N 1).Constructed N := .real 1 hN rfl
  have hev : ∀ d, d ≠ 0 → d ≤ N / 2 → _ := fun d hd hdN => evValue1DR_half (rnd := rnd) (sinF := sinF) M (by omega) hsin hd (by
    have : (d : ℝ) ≤ N := by exact_mod_cast (by omega : d ≤ N)
    linarith)
  obtain ⟨values, e1, _, e3⟩ := evTable1DF_ok (fl := fl) (sinF := sinF) hc 1 0.5 hs
  have e1' : evTable1DR rnd sinF (Chain.real (K := ℝ) N 1) 1 0.5 sched = .val values := by
    rw [evTable1DR_ok 1 _ hs fun d h2 h3 => (hev d h2 h3).1, e1]
  set b' : ℕ → ℝ := fun i => besselF (ringDistance N 0 i) x with hb'
  set p : ℕ → ℂ := fun i => minusIPower (ringDistance N 0 i) with hp
  have hpn : ∀ i, ‖p i‖ = 1 := fun i => minusIPower_norm _
  have hb2 : ∀ i, |b' i| ≤ 2 := fun i => by
    have h1 := besselJ_abs_le (ringDistance N 0 i : ℕ) (2 * t)
    have h2 := hb (ringDistance N 0 i)
    have := abs_add_le (b' i - besselJ (ringDistance N 0 i : ℕ) (2 * t)) (besselJ (ringDistance N 0 i : ℕ) (2 * t))
    rw [sub_add_cancel] at this
    have h3 : |b' i - besselJ (ringDistance N 0 i : ℕ) (2 * t)| ≤ ε := h2
    linarith
  have hld : ∀ i < N, ∀ j < N, (Chain.real (K := ℝ) N 1).latticeDistance i j = ringDistance N i j := fun i hi j hj => latticeDistance_ring id hi hj
  -- the elements of the table
  have hlook : ∀ i < N, ∀ j < N, ∃ e', evLookup1D (Chain.real (K := ℝ) N 1) values i j = .val e' ∧ ApproxR u 13 e' (theoryWeight N i j) 1 := by
    intro i hi j hj
    have hd : ringDistance N i j ≤ N / 2 := by unfold ringDistance; omega
    refine ⟨_, by unfold evLookup1D MomentumSpace.vecAt; rw [hld i hi j hj, e3 _ hd], ?_⟩
    unfold theoryWeight
    have hz : ringDistance N i j = 0 ↔ i = j := by unfold ringDistance; omega
    by_cases h0 : i = j
    · rw [if_pos (hz.2 h0), if_pos h0]
      exact (ApproxR.exact 1).mono hu (by omega) (by simp)
    · rw [if_neg (fun h => h0 (hz.1 h)), if_neg h0]
      exact (hev _ (fun h => h0 (hz.1 h)) hd).2
  choose! e' he1 he2 using hlook
  have hmem : ∀ q ∈ pairsRect 0 N 0 N, q.1 < N ∧ q.2 < N := by
    intro q hq
    rw [mem_pairsRect (Nat.zero_le _) (Nat.zero_le _)] at hq
    omega
  -- the coefficients
  have hco : ∀ (conjugate : Bool) (i : ℕ), i < N → ∃ z, theoryCoefficientR rnd besselF (Chain.real (K := ℝ) N 1) dt conjugate i step = .val z ∧
      ApproxC u 1 z ((b' i : ℂ) * (if conjugate then (starRingEnd ℂ) (p i) else p i)) (5 / 2) := by
    intro conjugate i hi
    set w := (if conjugate then (starRingEnd ℂ) (p i) else p i) with hw
    have hwn : ‖w‖ = 1 := by rw [hw]; split_ifs <;> simp only [RCLike.norm_conj, hpn]
    obtain ⟨o1, o2⟩ := scaleR_okC M (ApproxR.exact (u := u) (b' i)) (approxC_exact (u := u) w) (by omega) (by rw [hwn]; linarith [hb2 i])
    refine ⟨_, ?_, approxC_weaken hu o2 (by rw [hwn]; linarith [hb2 i])⟩
    unfold theoryCoefficientR
    cases hr : rnd (2 * step : ℕ) with
    | val y =>
      rw [hr, Res.bind_val] at hx
      simp only [hld 0 (by omega) i hi, Res.bind_val, hx]
      exact o1
    | ub => rw [hr] at hx; cases hx
    | diverges => rw [hr] at hx; cases hx
  let mid : ℕ → ℕ → ℂ := fun i j => (theoryWeight N i j : ℂ) * (((b' i : ℂ) * p i) * ((b' j : ℂ) * (starRingEnd ℂ) (p j)))
  let l : LoopR := ⟨fun i j => (evLookup1D (Chain.real (K := ℝ) N 1) values i j).bind fun ev =>
      (theoryCoefficientR rnd besselF (Chain.real (K := ℝ) N 1) dt false i step).bind fun a =>
      (theoryCoefficientR rnd besselF (Chain.real (K := ℝ) N 1) dt true j step).bind fun b => (mulR rnd a b).bind fun z => scaleR rnd ev z,
    mid, fun _ _ => 8, pairsRect 0 N 0 N, s⟩
  have hlen : (pairsRect 0 N 0 N).length = N * N := by simp [pairsRect, List.length_flatMap]
  obtain ⟨r, z, hr1, hr2, hr3⟩ := parallelR_close M (threads := threads) (k0 := 20) (count := N * N) [l] (by simpa using h)
    (by
      intro l' hl' q hq
      obtain rfl : l' = l := by simpa using hl'
      obtain ⟨h1, h2⟩ := hmem q hq
      obtain ⟨z1, c1, a1⟩ := hco false q.1 h1
      obtain ⟨z2, c2, a2⟩ := hco true q.2 h2
      obtain ⟨m1, m2⟩ := mulR_ok M a1 a2 (by omega) (by linarith)
      obtain ⟨s1, s2⟩ := scaleR_okC M (he2 q.1 h1 q.2 h2) m2 (by omega) (by linarith)
      refine ⟨_, ?_, approxC_weaken hu s2 (by linarith)⟩
      show (evLookup1D (Chain.real (K := ℝ) N 1) values q.1 q.2).bind _ = _
      rw [he1 q.1 h1 q.2 h2, Res.bind_val, c1, Res.bind_val, c2, Res.bind_val, m1, Res.bind_val, s1])
    (S := ((pairsRect 0 N 0 N).map fun q => mid q.1 q.2).sum) (A := (N * N : ℕ) * 8) (by simp [l]) (by simp [l, hlen]) (by simp [l, hlen]) (by omega)
    hfit
  refine ⟨z, ?_, ?_⟩
  · unfold theoryValueR
    rw [e1', Res.bind_val]
    have : runLoopR rnd l.body l.sched (List.replicate threads 0) = .val r := by
      simp only [List.map_cons, List.map_nil, runLoopsR] at hr1
      cases h0 : runLoopR rnd l.body l.sched (List.replicate threads 0) with
      | val x => rw [h0] at hr1; simpa [Res.bind] using hr1
      | ub => rw [h0] at hr1; simp [Res.bind] at hr1
      | diverges => rw [h0] at hr1; simp [Res.bind] at hr1
    exact (congrArg (fun x : Res (List ℂ) => x.bind fun results => accumulateR rnd results) this).trans hr2
  · have hmid := theoryNumber_perturbed (N := N) (t := t) hε0 (b' := b') (fun i => hb _) fun i hi j hj => (he2 i hi j hj).2
    have t1 := norm_sub_le_norm_sub_add_norm_sub z ((pairsRect 0 N 0 N).map fun q => mid q.1 q.2).sum (theoryNumber N t)
    have := hr3.1
    linarith

/-- The times are computed without leaving the range of the format. -/
theorem theoryTime {c k : ℕ} (hc : c ≤ 2) (hk : k ≤ 10000) :
    ((binary64 (c * k : ℕ)).bind fun x => binary64 (x * double theoryStep)) = .val (double ((c * k : ℕ) * double theoryStep)) := by
  have hck : c * k ≤ 20000 := by nlinarith
  have hst : theoryStep = 1 / 100 := by unfold theoryStep; norm_num
  have h1 := double_err (1 / 100)
  rw [hst]
  set d := double (1 / 100) with hd
  rw [show |(1 / 100 : ℝ)| = 1 / 100 by norm_num] at h1
  obtain ⟨h2, h3⟩ := abs_le.1 h1
  have d1 : 1 / 2 ^ 10 ≤ d := by norm_num at h2 ⊢; linarith
  have d2 : d ≤ 1 := by norm_num at h3 ⊢; linarith
  rw [binary64_exact (isBinary64_nat (lt_of_le_of_lt hck (by norm_num))), Res.bind_val]
  have hck' : ((c * k : ℕ) : ℝ) ≤ 20000 := by exact_mod_cast hck
  have d0 : 0 < d := lt_of_lt_of_le (by norm_num) d1
  refine (binary64_regular ?_ ?_).1
  · rcases Nat.eq_zero_or_pos (c * k) with h0 | h0
    · left; rw [h0]; simp
    · right
      have h4 : (1 : ℝ) ≤ (c * k : ℕ) := by exact_mod_cast h0
      rw [abs_of_nonneg (by positivity)]
      refine le_trans ?_ (d1.trans (le_mul_of_one_le_left d0.le h4))
      exact one_div_le_one_div_of_le (by positivity) (pow_le_pow_right₀ one_le_two (by norm_num))
  · rw [abs_of_nonneg (by positivity)]
    have h5 : ((c * k : ℕ) : ℝ) * d ≤ 20000 * 1 := mul_le_mul hck' d2 d0.le (by norm_num)
    refine h5.trans (le_trans ?_ binary64_range.2.2)
    norm_num

/-- **C127, `hubbard_real_1d_kinetic_theory` in IEEE binary64 arithmetic, with gradual underflow and overflow.** For every schedule, at most `2^16` threads,
every `std::sin` accurate to `2^-53` and Bessel functions that are off by at most `η`: no infinity and no NaN comes up and the program writes 10000 rows. The
time of row `k` is off by at most `2^-45` from `k/100`, the number by at most `40000 η + 2^-17` from the closed-form sum at that time, whose imaginary part is
zero. -/
theorem kineticTheory_binary64 {besselF : ℕ → ℝ → ℝ} {η : ℝ} (hsin : ∀ x, |sinF x - Real.sin x| ≤ 1 / 2 ^ 53) (hη : η ≤ 1 / 8)
    (hb : ∀ (n : ℕ) (x : ℝ), |besselF n x - besselJ n x| ≤ η) {sched : List ℕ} (hs : sched.Perm (List.range' 1 64)) {threads : ℕ}
    (ht : threads ≤ 2 ^ 16) {s : List Event} (h : Executes threads (pairsRect 0 128 0 128) s) :
    ∃ rows, kineticTheoryR binary64 sinF besselF sched threads s = .val rows ∧ rows.length = 10000 ∧
      ∀ k : ℕ, k < 10000 → ∃ t a b, rows[k]? = some (t, a, b) ∧ |t - (k : ℝ) / 100| ≤ 1 / 2 ^ 45 ∧
        |a - (theoryNumber 128 ((k : ℝ) / 100)).re| ≤ 40000 * η + 1 / 2 ^ 17 ∧ |b| ≤ 40000 * η + 1 / 2 ^ 17 := by
  have hη0 : 0 ≤ η := (abs_nonneg _).trans (hb 0 0)
  obtain ⟨fl, M⟩ := binary64_machine
  obtain ⟨r0, r1, r2⟩ := binary64_range
  -- the numbers
  have htiny : (2 * (128 * 128 + threads : ℕ) : ℝ) * (1 / 2 ^ 1022) ≤ 1 := by
    have h1 : ((128 * 128 + threads : ℕ) : ℝ) ≤ 2 ^ 17 := by exact_mod_cast (by omega : 128 * 128 + threads ≤ 2 ^ 17)
    calc (2 * (128 * 128 + threads : ℕ) : ℝ) * (1 / 2 ^ 1022) ≤ (2 * 2 ^ 17) * (1 / 2 ^ 200) := by gcongr
      _ ≤ 1 := by norm_num
  have hval : ∀ k : ℕ, k < 10000 → ∃ z, theoryValueR binary64 sinF besselF (Chain.real (K := ℝ) 128 1) (double theoryStep) sched threads s k = .val z ∧
      ‖z - theoryNumber 128 ((k : ℝ) / 100)‖ ≤ 40000 * η + 1 / 2 ^ 17 := by
    intro k hk
    have harg := theoryArgument_double hk.le 2
    have htime := theoryTime (c := 2) (le_refl 2) hk.le
    set x := double ((2 * k : ℕ) * double theoryStep) with hx
    obtain ⟨z, hz1, hz2⟩ := theoryValueR_close M hsin (N := 128) (by norm_num) (sched := sched) (by simpa using hs) h (besselF := besselF)
      (dt := double theoryStep) (t := (k : ℝ) / 100) (ε := η + 1 / 2 ^ 44) (step := k) (by norm_num; linarith) htime (fun n => by
        have e1 := hb n x
        have e2 := besselJ_lipschitz n x (2 * ((k : ℝ) / 100))
        have e3 := abs_sub_le (besselF n x) (besselJ n x) (besselJ n (2 * ((k : ℝ) / 100)))
        have e4 : ((2 : ℕ) : ℝ) * (1 / 2 ^ 45) = 1 / 2 ^ 44 := by norm_num
        rw [e4] at harg
        push_cast at harg
        linarith) (by omega) (le_trans (by norm_num) r2) (by
        refine le_trans (mul_le_mul_of_nonneg_left (add_le_add_right htiny _) (by norm_num)) (le_trans ?_ r2)
        norm_num)
    refine ⟨z, hz1, hz2.trans ?_⟩
    have g1 : (1 + 1 / 2 ^ 53 : ℝ) ^ (20 + 128 * 128 + threads) - 1 ≤ 1 / 2 ^ 35 := by
      have g2 : (1 + 1 / 2 ^ 53 : ℝ) ^ (20 + 128 * 128 + threads) ≤ (1 + 1 / 2 ^ 53 : ℝ) ^ (2 ^ 17) :=
        pow_le_pow_right₀ (by norm_num) (by omega)
      have g3 := pow_sub_one_le (n := 2 ^ 17) (u := 1 / 2 ^ 53) (by norm_num) (by norm_num)
      have g6 : (2 : ℝ) * (((2 ^ 17 : ℕ) : ℝ) * (1 / 2 ^ 53)) = 1 / 2 ^ 35 := by norm_num
      have g7 := sub_le_sub_right g2 1
      refine g7.trans (g3.trans ?_)
      norm_num
    have g7 : ((128 * 128 : ℕ) : ℝ) * ((η + 1 / 2 ^ 44) * (2 + (η + 1 / 2 ^ 44))) ≤ 40000 * η + 1 / 2 ^ 20 := by
      have : (η + 1 / 2 ^ 44) * (2 + (η + 1 / 2 ^ 44)) ≤ (η + 1 / 2 ^ 44) * 2.2 := by
        refine mul_le_mul_of_nonneg_left ?_ (by positivity)
        norm_num; linarith
      have h3 : ((128 * 128 : ℕ) : ℝ) = 16384 := by norm_num
      rw [h3]
      norm_num at this ⊢
      linarith
    have g8 : ((1 + 1 / 2 ^ 53 : ℝ) ^ (20 + 128 * 128 + threads) - 1) * (((128 * 128 : ℕ) : ℝ) * 8 + 2 * (128 * 128 + threads : ℕ) * (1 / 2 ^ 1022)) ≤
        1 / 2 ^ 35 * (((128 * 128 : ℕ) : ℝ) * 8 + 1) :=
      mul_le_mul g1 (add_le_add_right htiny _) (by positivity) (by norm_num)
    have g9 : (1 : ℝ) / 2 ^ 20 + 1 / 2 ^ 35 * (((128 * 128 : ℕ) : ℝ) * 8 + 1) ≤ 1 / 2 ^ 17 := by norm_num
    exact (add_le_add g7 g8).trans (by rw [add_assoc]; exact add_le_add le_rfl g9)
  choose! z hz1 hz2 using hval
  have htm : ∀ k : ℕ, k < 10000 → ((binary64 k).bind fun x => binary64 (x * double theoryStep)) = .val (double (k * double theoryStep)) := fun k hk => by
    have := theoryTime (c := 1) (by norm_num) hk.le
    rwa [one_mul] at this
  have key : ∀ n ≤ 10000, theoryFileR binary64 sinF besselF (double theoryStep) sched threads s n = .val ((List.range n).map fun k : ℕ =>
      (double (k * double theoryStep), (z k).re, (z k).im)) := by
    intro n hn
    induction n with
    | zero => rfl
    | succ n ih =>
      rw [theoryFileR, ih (by omega), Res.bind_val]
      have : theorySites = 128 := rfl
      rw [this, hz1 n (by omega), Res.bind_val, List.range_succ, List.map_append]
      have h1 := htm n (by omega)
      cases hr : binary64 (n : ℝ) with
      | val y => rw [hr, Res.bind_val] at h1; rw [Res.bind_val, h1, Res.bind_val]; rfl
      | ub => rw [hr] at h1; cases h1
      | diverges => rw [hr] at h1; cases h1
  have hdt : binary64 theoryStep = .val (double theoryStep) := by
    have hst : theoryStep = 1 / 100 := by unfold theoryStep; norm_num
    rw [hst]
    refine (binary64_regular (Or.inr ?_) ?_).1
    · refine r1.trans ?_
      rw [abs_of_pos] <;> norm_num
    · refine le_trans ?_ r2
      rw [abs_of_pos] <;> norm_num
  refine ⟨_, by rw [kineticTheoryR, hdt, Res.bind_val]; exact key theorySteps (le_refl 10000), by simp [theorySteps],
    fun k hk => ⟨double (k * double theoryStep), (z k).re, (z k).im, ?_, ?_, ?_, ?_⟩⟩
  · rw [List.getElem?_map, List.getElem?_range (by simpa [theorySteps] using hk)]
    rfl
  · have := theoryArgument_double hk.le 1
    simpa using this
  · rw [← Complex.sub_re]
    exact (Complex.abs_re_le_norm _).trans (hz2 k hk)
  · have := (Complex.abs_im_le_norm _).trans (hz2 k hk)
    rwa [Complex.sub_im, theoryNumber_im, sub_zero] at this

/-- The hypotheses can be met: exact functions, one thread, sequential execution. -/
example : ∃ rows, kineticTheoryR binary64 Real.sin (fun n x => besselJ n x) (List.range' 1 64) 1 ((pairsRect 0 128 0 128).map fun p => (0, p)) = .val rows ∧
    rows.length = 10000 := by
  obtain ⟨rows, h1, h2, _⟩ := kineticTheory_binary64 (sinF := Real.sin) (besselF := fun n x => besselJ n x) (η := 0) (fun x => by simp) (by norm_num)
    (fun n x => by simp) (List.Perm.refl _) (threads := 1) (by norm_num) (s := (pairsRect 0 128 0 128).map fun p => (0, p)) ⟨by
      rw [List.map_map]; simp [Function.comp_def], fun e he => by
      obtain ⟨p, -, rfl⟩ := List.mem_map.1 he
      simp⟩
  exact ⟨rows, h1, h2⟩

end Ieompp.IEEE
