import Verif.Model.SmallProgramsFloat
import Verif.Spec.KineticTheory
import Verif.Props.KineticTheory
import Verif.Props.JumpProgramFloat

/-! # C112: the kinetic theory program in `double` arithmetic -/

set_option autoImplicit false
set_option linter.unusedSectionVars false

namespace Ieompp.Spec

theorem besselJ_abs_le (n : ℤ) (x : ℝ) : |besselJ n x| ≤ 1 := by
  unfold besselJ
  rw [abs_mul, abs_of_pos (by positivity : (0 : ℝ) < 1 / Real.pi)]
  have h := intervalIntegral.norm_integral_le_of_norm_le_const (a := 0) (b := Real.pi) (C := 1)
    (f := fun τ => Real.cos (n * τ - x * Real.sin τ)) (fun τ _ => by rw [Real.norm_eq_abs]; exact Real.abs_cos_le_one _)
  rw [Real.norm_eq_abs, sub_zero, abs_of_pos Real.pi_pos, one_mul] at h
  calc 1 / Real.pi * _ ≤ 1 / Real.pi * Real.pi := by gcongr
    _ = 1 := by field_simp

theorem besselJ_lipschitz (n : ℤ) (x y : ℝ) : |besselJ n x - besselJ n y| ≤ |x - y| := by
  have h := (convex_univ (𝕜 := ℝ) (E := ℝ)).norm_image_sub_le_of_norm_hasDerivWithin_le (f := besselJ n) (C := 1) (x := y) (y := x)
    (f' := fun x => (besselJ (n - 1) x - besselJ (n + 1) x) / 2)
    (fun x _ => (besselJ_hasDerivAt n x).hasDerivWithinAt) (fun x _ => by
      rw [Real.norm_eq_abs, abs_div, abs_two, div_le_one (by norm_num)]
      have h1 := besselJ_abs_le (n - 1) x
      have h2 := besselJ_abs_le (n + 1) x
      have := abs_sub (besselJ (n - 1) x) (besselJ (n + 1) x)
      linarith) (Set.mem_univ _) (Set.mem_univ _)
  simpa [Real.norm_eq_abs] using h

end Ieompp.Spec

namespace Ieompp.RealSpace

open Ieompp.Spec ODE

variable {fl sinF : ℝ → ℝ} {u : ℝ}

theorem approxC_scaleR (hfl : Rounding fl u) {k l : ℕ} {c' c C : ℝ} {z' z : ℂ} {A : ℝ} (hc : ApproxR u k c' c C) (hz : ApproxC u l z' z A) :
    ApproxC u (k + l + 1) (ODE.scaleC fl c' z') ((c : ℂ) * z) (C * A) := by
  have hu := hfl.nonneg
  have hA := (norm_nonneg _).trans hz.2
  have hC := hc.nonneg
  have hc' := hc.toC
  refine ⟨?_, by rw [norm_mul]; exact mul_le_mul hc'.2 hz.2 (norm_nonneg _) hC⟩
  have h1 := scaleC_err hfl c' z'
  have h2 := (approxC_prod hc' hz).1
  have h3 : ‖(c' : ℂ) * z'‖ ≤ (1 + u) ^ k * C * ((1 + u) ^ l * A) := by
    rw [norm_mul]; exact mul_le_mul (approxC_le hc') (approxC_le hz) (norm_nonneg _) (by positivity)
  have h5 := mul_le_mul_of_nonneg_left h3 hu
  have h6 := norm_add_le (ODE.scaleC fl c' z' - c' * z') (c' * z' - c * z)
  rw [sub_add_sub_cancel] at h6
  have : ((1 + u) ^ (k + l + 1) - 1) * (C * A) = u * ((1 + u) ^ k * C * ((1 + u) ^ l * A)) +
      ((1 + u) ^ (k + l) - 1) * (C * A) := by rw [pow_add, pow_add]; ring
  linarith

/-- The table of the program with Fermi momentum `0.5` (and filling 1). -/
theorem evValue1DF_half (hfl : Rounding fl u) (hu1 : u ≤ 1 / 1000) (hsin : ∀ x, |sinF x - Real.sin x| ≤ u) {d : ℕ} (hd : d ≠ 0) :
    ApproxR u 13 (evValue1DF fl sinF 0.5 1 d) (Real.sin (d / 2) / (Real.pi * d)) 1 := by
  have hu := hfl.nonneg
  have hpi := Real.pi_gt_three
  have hd1 : (1 : ℝ) ≤ d := by exact_mod_cast Nat.one_le_iff_ne_zero.2 hd
  have p1 := approxR_pos hfl (x := Real.pi) Real.pi_pos.le
  have p2 := approxR_pos hfl (x := (d : ℝ)) (by linarith)
  have p3 : ApproxR u 3 (fl (fl (0.5 * fl d) * 1)) (0.5 * d) (0.5 * d) := by
    rw [mul_one]
    exact (ApproxR.const_mul hfl (by norm_num) p2).round hfl
  have p4 : ApproxR u 4 (fl (fl (fl Real.pi * fl d) * 1)) (Real.pi * d) (Real.pi * d) := by
    rw [mul_one]
    exact (ApproxR.mul hfl p1 p2).round hfl
  have p5 : ApproxR u 4 (sinF (fl (fl (0.5 * fl d) * 1))) (Real.sin (d / 2)) d := by
    have e0 : (d : ℝ) / 2 = 0.5 * d := by ring
    rw [e0]
    constructor
    · have e1 := hsin (fl (fl (0.5 * fl d) * 1))
      have e2 := Real.abs_sin_sub_sin_le (fl (fl (0.5 * fl d) * 1)) (0.5 * d)
      have e3 := abs_sub_le (sinF (fl (fl (0.5 * fl d) * 1))) (Real.sin (fl (fl (0.5 * fl d) * 1))) (Real.sin (0.5 * d))
      have e4 := p3.1
      have e5 : ((1 + u) ^ 4 - 1) * (d : ℝ) = ((1 + u) ^ 3 - 1) * d + (1 + u) ^ 3 * d * u := by ring
      have h3 : 1 ≤ (1 + u) ^ 3 := one_le_pow₀ (by linarith)
      have e6 : u ≤ (1 + u) ^ 3 * d * u := by
        have : 1 ≤ (1 + u) ^ 3 * d := by nlinarith
        nlinarith
      have e7 : ((1 + u) ^ 3 - 1) * (0.5 * (d : ℝ)) ≤ ((1 + u) ^ 3 - 1) * d := mul_le_mul_of_nonneg_left (by linarith) (by linarith)
      linarith
    · exact (Real.abs_sin_le_one _).trans hd1
  have h := ApproxR.div hfl p5 p4 (by positivity) (by
    have := pow_small hu hu1 (m := 4) (by norm_num)
    push_cast at this; linarith)
  exact h.mono hu le_rfl (by rw [div_le_one (by positivity)]; nlinarith)

end Ieompp.RealSpace

namespace Ieompp.Program

open Ieompp.Spec RealSpace ODE

variable {fl sinF : ℝ → ℝ} {u : ℝ}

theorem latticeDistance_ring {N i j : ℕ} (fl : ℝ → ℝ) (hi : i < N) (hj : j < N) :
    (Chain.realF fl N 1).latticeDistance i j = ringDistance N i j := by
  have hsp := Program.ringDistance_spec hi hj
  rw [← ringDist_spec] at hsp
  rw [← hsp]; rfl

theorem minusIPower_norm (p : ℕ) : ‖minusIPower p‖ = 1 := by
  rw [minusIPower_eq, norm_pow, norm_neg, Complex.norm_I, one_pow]

/-- **C112**: the number of the program for one step, for every number of sites, threads and every execution. `ε` is the accuracy of the
computed values of the Bessel functions. -/
theorem theoryValueF_close (hfl : Rounding fl u) (hu1 : u ≤ 1 / 1000) (hsin : ∀ x, |sinF x - Real.sin x| ≤ u) {N : ℕ} (hN : 1 ≤ N)
    {sched : List ℕ} (hs : sched.Perm (List.range' 1 (N / 2))) {threads : ℕ} {s : List Event} (h : Executes threads (pairsRect 0 N 0 N) s)
    {besselF : ℕ → ℝ → ℝ} {dt t ε : ℝ} {step : ℕ} (hε : ε ≤ 1)
    (hb : ∀ n : ℕ, |besselF n (fl ((2 * step : ℕ) * dt)) - besselJ n (2 * t)| ≤ ε) :
    ∃ z, theoryValueF fl sinF besselF (Chain.realF fl N 1) dt sched threads s step = .val z ∧
      ‖z - theoryNumber N t‖ ≤ (N * N : ℕ) * (ε * (2 + ε)) + ((1 + u) ^ (N * N + threads + 20) - 1) * ((N * N : ℕ) * 4) := by
  have hu := hfl.nonneg
  have hε0 : 0 ≤ ε := (abs_nonneg _).trans (hb 0)
  have hc : (Chain.real (K := ℝ) N 1).Constructed N := .real 1 hN rfl
  obtain ⟨values, e1, _, e3⟩ := evTable1DF_ok (fl := fl) (sinF := sinF) hc 1 0.5 hs
  have e1' : evTable1DF fl sinF (Chain.realF fl N 1) 1 0.5 sched = .val values := e1
  set b' : ℕ → ℝ := fun i => besselF (ringDistance N 0 i) (fl ((2 * step : ℕ) * dt)) with hb'
  set b : ℕ → ℝ := fun i => besselJ (ringDistance N 0 i : ℕ) (2 * t) with hbd
  set p : ℕ → ℂ := fun i => minusIPower (ringDistance N 0 i) with hp
  have hpn : ∀ i, ‖p i‖ = 1 := fun i => minusIPower_norm _
  have hbb : ∀ i, |b' i - b i| ≤ ε := fun i => hb _
  have hb1 : ∀ i, |b i| ≤ 1 := fun i => besselJ_abs_le _ _
  have hb2 : ∀ i, |b' i| ≤ 1 + ε := fun i => by
    have := abs_add_le (b' i - b i) (b i)
    rw [sub_add_cancel] at this
    linarith [hbb i, hb1 i]
  -- the elements of the table
  have hlook : ∀ i < N, ∀ j < N, ∃ e', evLookup1D (Chain.realF fl N 1) values i j = .val e' ∧ ApproxR u 13 e' (theoryWeight N i j) 1 := by
    intro i hi j hj
    have hd : ringDistance N i j ≤ N / 2 := by unfold ringDistance; omega
    refine ⟨_, by unfold evLookup1D MomentumSpace.vecAt; rw [latticeDistance_ring fl hi hj, e3 _ hd], ?_⟩
    unfold theoryWeight
    have hz : ringDistance N i j = 0 ↔ i = j := by unfold ringDistance; omega
    by_cases h0 : i = j
    · rw [if_pos (hz.2 h0), if_pos h0]
      exact (ApproxR.exact 1).mono hu (by omega) (by simp)
    · rw [if_neg (fun h => h0 (hz.1 h)), if_neg h0]
      exact evValue1DF_half hfl hu1 hsin (fun h => h0 (hz.1 h))
  choose! e' he1 he2 using hlook
  -- the statements of the loop
  let val : ℕ → ℕ → ℂ := fun i j => scaleC fl (e' i j) (mulC fl (scaleC fl (b' i) (p i)) (scaleC fl (b' j) ((starRingEnd ℂ) (p j))))
  let mid : ℕ → ℕ → ℂ := fun i j => (theoryWeight N i j : ℂ) * (((b' i : ℂ) * p i) * ((b' j : ℂ) * (starRingEnd ℂ) (p j)))
  let l : ParallelLoop := ⟨fun i j => (evLookup1D (Chain.realF fl N 1) values i j).bind fun ev =>
      .val (scaleC fl ev (mulC fl (theoryCoefficientF fl besselF (Chain.realF fl N 1) dt i step)
        (theoryCoefficientConjF fl besselF (Chain.realF fl N 1) dt j step))), val, pairsRect 0 N 0 N, s⟩
  have hmem : ∀ q ∈ pairsRect 0 N 0 N, q.1 < N ∧ q.2 < N := by
    intro q hq
    rw [mem_pairsRect (Nat.zero_le _) (Nat.zero_le _)] at hq
    omega
  have hleg : l.Legal threads := by
    refine ⟨h, fun q hq => ?_⟩
    obtain ⟨h1, h2⟩ := hmem q hq
    show (evLookup1D (Chain.realF fl N 1) values q.1 q.2).bind _ = _
    rw [he1 q.1 h1 q.2 h2, Res.bind_val]
    unfold theoryCoefficientF theoryCoefficientConjF
    simp only [latticeDistance_ring fl (by omega : 0 < N) h1, latticeDistance_ring fl (by omega : 0 < N) h2]
    rfl
  have happ : ∀ q ∈ pairsRect 0 N 0 N, ApproxC u 20 (val q.1 q.2) (mid q.1 q.2) 4 := by
    intro q hq
    obtain ⟨h1, h2⟩ := hmem q hq
    have a1 : ∀ i (w : ℂ), ‖w‖ = 1 → ApproxC u 1 (scaleC fl (b' i) w) ((b' i : ℂ) * w) 2 := by
      intro i w hw
      have := approxC_scaleR hfl (ApproxR.exact (u := u) (b' i)) (approxC_exact (u := u) w)
      refine approxC_bound hu this ?_
      rw [hw, mul_one]; linarith [hb2 i]
    have a2 := approxC_scaleR hfl (he2 q.1 h1 q.2 h2) (approxC_mul hfl (a1 q.1 (p q.1) (hpn _)) (a1 q.2 ((starRingEnd ℂ) (p q.2)) (by
      rw [RCLike.norm_conj]; exact hpn _)))
    refine approxC_bound hu a2 (by norm_num)
  obtain ⟨r, hr1, hr2⟩ := parallel_sum hfl [l] (by simpa using hleg)
  refine ⟨accumulateF fl r, ?_, ?_⟩
  · unfold theoryValueF
    rw [e1', Res.bind_val]
    have : runLoopF fl l.body l.sched (List.replicate threads 0) = .val r := by
      simp only [List.map_cons, List.map_nil, runLoopsF] at hr1
      cases h0 : runLoopF fl l.body l.sched (List.replicate threads 0) with
      | val x => rw [h0] at hr1; simpa [Res.bind] using hr1
      | ub => rw [h0] at hr1; simp [Res.bind] at hr1
      | diverges => rw [h0] at hr1; simp [Res.bind] at hr1
    exact (congrArg (fun x : Res (List ℂ) => x.map fun results => results.foldl (addC fl) 0) this).trans rfl
  · have hlen : (pairsRect 0 N 0 N).length = N * N := by simp [pairsRect, List.length_flatMap]
    obtain ⟨c1, c2⟩ := list_close (u := u) (k := 20) (g' := fun q : ℕ × ℕ => val q.1 q.2) (g := fun q => mid q.1 q.2) (A := fun _ => (4 : ℝ))
      (pairsRect 0 N 0 N) happ
    have hA : ((pairsRect 0 N 0 N).map fun _ => (4 : ℝ)).sum = (N * N : ℕ) * 4 := by
      rw [List.map_const', List.sum_replicate, hlen, nsmul_eq_mul]
    rw [hA] at c1 c2
    have hS : RealSpace.Spec.loopSum [l] = ((pairsRect 0 N 0 N).map fun q => val q.1 q.2).sum := by simp [RealSpace.Spec.loopSum, l]
    have hAb : RealSpace.Spec.loopAbs [l] = ((pairsRect 0 N 0 N).map fun q => ‖val q.1 q.2‖).sum := by simp [RealSpace.Spec.loopAbs, l]
    have hC : RealSpace.Spec.loopCount [l] = N * N := by simp [RealSpace.Spec.loopCount, l, hlen]
    rw [hS, hAb, hC] at hr2
    -- the exact sum with the computed Bessel functions
    have hmid : ‖((pairsRect 0 N 0 N).map fun q => mid q.1 q.2).sum - theoryNumber N t‖ ≤ (N * N : ℕ) * (ε * (2 + ε)) := by
      rw [sum_pairsRect 0 N 0 N (Nat.zero_le _) (Nat.zero_le _) mid]
      unfold theoryNumber
      simp only [← Finset.range_eq_Ico]
      rw [← Finset.sum_sub_distrib]
      have hin : ∀ i ∈ Finset.range N, ‖∑ j ∈ Finset.range N, mid i j - ∑ j ∈ Finset.range N, (theoryWeight N i j : ℂ) *
          (theoryAmplitude N i t * (starRingEnd ℂ) (theoryAmplitude N j t))‖ ≤ N * (ε * (2 + ε)) := by
        intro i hi
        rw [← Finset.sum_sub_distrib]
        have : ∀ j ∈ Finset.range N, ‖mid i j - (theoryWeight N i j : ℂ) * (theoryAmplitude N i t * (starRingEnd ℂ) (theoryAmplitude N j t))‖ ≤
            ε * (2 + ε) := by
          intro j hj
          have w1 : |theoryWeight N i j| ≤ 1 := (he2 i (by simpa using hi) j (by simpa using hj)).2
          have e5 : mid i j - (theoryWeight N i j : ℂ) * (theoryAmplitude N i t * (starRingEnd ℂ) (theoryAmplitude N j t)) =
              ((theoryWeight N i j * (b' i * b' j - b i * b j) : ℝ) : ℂ) * (p i * (starRingEnd ℂ) (p j)) := by
            simp only [mid, theoryAmplitude, hp, hbd, minusIPower_eq, map_mul, Complex.conj_ofReal]
            push_cast
            ring
          rw [e5, norm_mul, norm_mul, RCLike.norm_conj, hpn, hpn, mul_one, mul_one, Complex.norm_real, Real.norm_eq_abs, abs_mul]
          have e6 : b' i * b' j - b i * b j = (b' i - b i) * b' j + b i * (b' j - b j) := by ring
          have e7 : |b' i * b' j - b i * b j| ≤ ε * (1 + ε) + 1 * ε := by
            rw [e6]
            refine (abs_add_le _ _).trans ?_
            rw [abs_mul, abs_mul]
            exact add_le_add (mul_le_mul (hbb i) (hb2 j) (abs_nonneg _) hε0) (mul_le_mul (hb1 i) (hbb j) (abs_nonneg _) (by norm_num))
          calc |theoryWeight N i j| * |b' i * b' j - b i * b j| ≤ 1 * (ε * (1 + ε) + 1 * ε) := mul_le_mul w1 e7 (abs_nonneg _) (by norm_num)
            _ = _ := by ring
        refine (norm_sum_le _ _).trans ((Finset.sum_le_sum this).trans (le_of_eq ?_))
        simp
      refine (norm_sum_le _ _).trans ((Finset.sum_le_sum hin).trans (le_of_eq ?_))
      simp; ring
    have t1 := norm_sub_le_norm_sub_add_norm_sub (accumulateF fl r) ((pairsRect 0 N 0 N).map fun q => val q.1 q.2).sum (theoryNumber N t)
    have t2 := norm_sub_le_norm_sub_add_norm_sub ((pairsRect 0 N 0 N).map fun q => val q.1 q.2).sum
      ((pairsRect 0 N 0 N).map fun q => mid q.1 q.2).sum (theoryNumber N t)
    have hg : 0 ≤ (1 + u) ^ (N * N + threads) - 1 := by
      have := one_le_pow₀ (a := 1 + u) (n := N * N + threads) (by linarith)
      linarith
    have c3 := mul_le_mul_of_nonneg_left c2 hg
    have e8 : ((1 + u) ^ (N * N + threads + 20) - 1) * ((N * N : ℕ) * 4) =
        ((1 + u) ^ (N * N + threads) - 1) * ((1 + u) ^ 20 * ((N * N : ℕ) * 4)) + ((1 + u) ^ 20 - 1) * ((N * N : ℕ) * 4) := by
      rw [pow_add]; ring
    linarith

/-- The sum is a real number. -/
theorem theoryNumber_im (N : ℕ) (t : ℝ) : (theoryNumber N t).im = 0 := by
  rw [← Complex.conj_eq_iff_im]
  unfold theoryNumber
  rw [map_sum]
  simp only [map_sum, map_mul, Complex.conj_ofReal, Complex.conj_conj]
  rw [Finset.sum_comm]
  refine Finset.sum_congr rfl fun i hi => Finset.sum_congr rfl fun j hj => ?_
  have h1 : ringDistance N j i = ringDistance N i j := by unfold ringDistance; omega
  have h2 : theoryWeight N j i = theoryWeight N i j := by
    unfold theoryWeight
    rw [h1]
    simp only [eq_comm]
  rw [h2]
  ring

/-- With the exact Bessel functions, the sum of the program in exact arithmetic (C50) is the number of the specification. -/
theorem theorySum_eq (t : ℝ) : theorySum (fun n x => besselJ n x) t = theoryNumber 128 t := by
  unfold theorySum theoryNumber
  refine Finset.sum_congr rfl fun i hi => Finset.sum_congr rfl fun j hj => ?_
  have hi' := Finset.mem_range.1 hi
  have hj' := Finset.mem_range.1 hj
  have hl : ∀ a < 128, ∀ b < 128, (Chain.real (K := ℝ) 128 1).latticeDistance a b = ringDistance 128 a b := by
    intro a ha b hb
    have hsp := Program.ringDistance_spec ha hb
    rw [← ringDist_spec] at hsp
    rw [← hsp]; rfl
  have hz : ringDistance 128 i j = 0 ↔ i = j := by unfold ringDistance; omega
  unfold theoryCoefficient theoryWeight theoryAmplitude
  simp only [hl i hi' j hj', hl 0 (by norm_num) i hi', hl 0 (by norm_num) j hj', hz, minusIPower_eq]
  have e : ∀ d : ℕ, (0.5 : ℝ) * d = d / 2 := fun d => by ring
  simp only [e, map_mul, mul_comm]

theorem theoryArgument_double {k : ℕ} (hk : k ≤ 10000) (c : ℕ) :
    |double ((c * k : ℕ) * double theoryStep) - c * (k / 100)| ≤ c * (1 / 2 ^ 45) := by
  have h1 := double_err theoryStep
  have h2 := double_err ((c * k : ℕ) * double theoryStep)
  have hk' : (k : ℝ) ≤ 10000 := by exact_mod_cast hk
  have hk0 : (0 : ℝ) ≤ k := Nat.cast_nonneg k
  have hc0 : (0 : ℝ) ≤ c := Nat.cast_nonneg c
  have hck : (0 : ℝ) ≤ c * k := by positivity
  have hst : theoryStep = 1 / 100 := by unfold theoryStep; norm_num
  rw [hst] at h1 h2 ⊢
  push_cast at h2 ⊢
  set d := double (1 / 100) with hd
  have e0 : |(1 / 100 : ℝ)| = 1 / 100 := by norm_num
  rw [e0] at h1
  have h1' := abs_le.1 h1
  have e1 : |(c : ℝ) * k * d - c * (k / 100)| ≤ c * k * (1 / 2 ^ 53 * (1 / 100)) := by
    rw [show (c : ℝ) * k * d - c * (k / 100) = c * k * (d - 1 / 100) by ring, abs_mul, abs_of_nonneg hck]
    exact mul_le_mul_of_nonneg_left h1 hck
  have e2 : |(c : ℝ) * k * d| ≤ c * k * (1 / 100 + 1 / 2 ^ 53 * (1 / 100)) := by
    rw [abs_mul, abs_of_nonneg hck]
    refine mul_le_mul_of_nonneg_left ?_ hck
    rw [abs_le]
    constructor
    · have : (0 : ℝ) ≤ 1 / 2 ^ 53 * (1 / 100) ∧ (1 : ℝ) / 2 ^ 53 * (1 / 100) ≤ 1 / 100 := by norm_num
      linarith
    · linarith
  have e3 := abs_sub_le (double (c * k * d)) (c * k * d) (c * (k / 100))
  have e4 : (1 : ℝ) / 2 ^ 53 * |(c : ℝ) * k * d| ≤ 1 / 2 ^ 53 * (c * k * (1 / 100 + 1 / 2 ^ 53 * (1 / 100))) := by gcongr
  refine (e3.trans (add_le_add (h2.trans e4) e1)).trans ?_
  have e5 : (1 : ℝ) / 2 ^ 53 * (c * k * (1 / 100 + 1 / 2 ^ 53 * (1 / 100))) + c * k * (1 / 2 ^ 53 * (1 / 100)) =
      c * (k * (1 / 2 ^ 53 * (1 / 100 + 1 / 2 ^ 53 * (1 / 100)) + 1 / 2 ^ 53 * (1 / 100))) := by ring
  rw [e5]
  refine mul_le_mul_of_nonneg_left ?_ hc0
  calc (k : ℝ) * (1 / 2 ^ 53 * (1 / 100 + 1 / 2 ^ 53 * (1 / 100)) + 1 / 2 ^ 53 * (1 / 100)) ≤
      10000 * (1 / 2 ^ 53 * (1 / 100 + 1 / 2 ^ 53 * (1 / 100)) + 1 / 2 ^ 53 * (1 / 100)) := by gcongr
    _ ≤ 1 / 2 ^ 45 := by norm_num

/-- **C112, `hubbard_real_1d_kinetic_theory` in `double` arithmetic, end to end.** For every schedule, at most `2^16` threads, every `std::sin`
accurate to `2^-53` and Bessel functions that are off by at most `η`: the program writes 10000 rows. The time of row `k` is off by at most
`2^-45` from `k/100`, the number by at most `40000 η + 2^-18` from the closed-form sum at that time, whose imaginary part is zero. -/
theorem kineticTheory_double {sinF : ℝ → ℝ} {besselF : ℕ → ℝ → ℝ} {η : ℝ} (hsin : ∀ x, |sinF x - Real.sin x| ≤ 1 / 2 ^ 53) (hη : η ≤ 1 / 8)
    (hb : ∀ (n : ℕ) (x : ℝ), |besselF n x - besselJ n x| ≤ η) {sched : List ℕ} (hs : sched.Perm (List.range' 1 64)) {threads : ℕ}
    (ht : threads ≤ 2 ^ 16) {s : List Event} (h : Executes threads (pairsRect 0 128 0 128) s) :
    ∃ rows, kineticTheoryF double sinF besselF sched threads s = .val rows ∧ rows.length = 10000 ∧
      ∀ k : ℕ, k < 10000 → ∃ t a b, rows[k]? = some (t, a, b) ∧ |t - (k : ℝ) / 100| ≤ 1 / 2 ^ 45 ∧
        |a - (theoryNumber 128 ((k : ℝ) / 100)).re| ≤ 40000 * η + 1 / 2 ^ 18 ∧ |b| ≤ 40000 * η + 1 / 2 ^ 18 := by
  have hη0 : 0 ≤ η := (abs_nonneg _).trans (hb 0 0)
  -- the numbers
  have hval : ∀ k : ℕ, k < 10000 → ∃ z, theoryValueF double sinF besselF (Chain.realF double 128 1) (double theoryStep) sched threads s k = .val z ∧
      ‖z - theoryNumber 128 ((k : ℝ) / 100)‖ ≤ 40000 * η + 1 / 2 ^ 18 := by
    intro k hk
    have harg := theoryArgument_double hk.le 2
    set x := double ((2 * k : ℕ) * double theoryStep) with hx
    obtain ⟨z, hz1, hz2⟩ := theoryValueF_close (u := 1 / 2 ^ 53) double_rounding (by norm_num) hsin (N := 128) (by norm_num) (sched := sched) (by simpa using hs)
      h (besselF := besselF) (dt := double theoryStep) (t := (k : ℝ) / 100) (ε := η + 1 / 2 ^ 44) (step := k) (by norm_num; linarith) (fun n => by
        have e1 := hb n x
        have e2 := besselJ_lipschitz n x (2 * ((k : ℝ) / 100))
        have e3 := abs_sub_le (besselF n x) (besselJ n x) (besselJ n (2 * ((k : ℝ) / 100)))
        have e4 : ((2 : ℕ) : ℝ) * (1 / 2 ^ 45) = 1 / 2 ^ 44 := by norm_num
        rw [e4] at harg
        push_cast at harg
        rw [← hx]
        linarith)
    refine ⟨z, hz1, hz2.trans ?_⟩
    have g1 : (1 + 1 / 2 ^ 53 : ℝ) ^ (128 * 128 + threads + 20) - 1 ≤ 1 / 2 ^ 35 := by
      have g2 : (1 + 1 / 2 ^ 53 : ℝ) ^ (128 * 128 + threads + 20) ≤ (1 + 1 / 2 ^ 53 : ℝ) ^ (2 ^ 17) :=
        pow_le_pow_right₀ (by norm_num) (by omega)
      have g3 : (1 + 1 / 2 ^ 53 : ℝ) ^ (2 ^ 17) ≤ Real.exp (2 ^ 17 * (1 / 2 ^ 53)) := by
        have := Real.add_one_le_exp (1 / 2 ^ 53 : ℝ)
        calc (1 + 1 / 2 ^ 53 : ℝ) ^ (2 ^ 17) ≤ (Real.exp (1 / 2 ^ 53)) ^ (2 ^ 17) := pow_le_pow_left₀ (by norm_num) (by linarith) _
          _ = _ := by rw [← Real.exp_nat_mul]; norm_num
      have g4 := Real.abs_exp_sub_one_le (x := 2 ^ 17 * (1 / 2 ^ 53 : ℝ)) (by rw [abs_of_pos] <;> norm_num)
      rw [abs_of_pos (by norm_num : (0 : ℝ) < 2 ^ 17 * (1 / 2 ^ 53 : ℝ))] at g4
      have g5 := (abs_le.1 g4).2
      have g6 : (2 : ℝ) * (2 ^ 17 * (1 / 2 ^ 53)) = 1 / 2 ^ 35 := by norm_num
      exact (sub_le_sub_right (g2.trans g3) 1).trans (g5.trans g6.le)
    have g7 : ((128 * 128 : ℕ) : ℝ) * ((η + 1 / 2 ^ 44) * (2 + (η + 1 / 2 ^ 44))) ≤ 40000 * η + 1 / 2 ^ 20 := by
      have : (η + 1 / 2 ^ 44) * (2 + (η + 1 / 2 ^ 44)) ≤ (η + 1 / 2 ^ 44) * 2.2 := by
        refine mul_le_mul_of_nonneg_left ?_ (by positivity)
        norm_num; linarith
      have h3 : ((128 * 128 : ℕ) : ℝ) = 16384 := by norm_num
      rw [h3]
      norm_num at this ⊢
      linarith
    have g8 : ((1 + 1 / 2 ^ 53 : ℝ) ^ (128 * 128 + threads + 20) - 1) * (((128 * 128 : ℕ) : ℝ) * 4) ≤ 1 / 2 ^ 35 * (((128 * 128 : ℕ) : ℝ) * 4) :=
      mul_le_mul_of_nonneg_right g1 (by positivity)
    have g9 : (1 : ℝ) / 2 ^ 35 * (((128 * 128 : ℕ) : ℝ) * 4) = 1 / 2 ^ 19 := by norm_num
    have g10 : (1 : ℝ) / 2 ^ 20 + 1 / 2 ^ 19 ≤ 1 / 2 ^ 18 := by norm_num
    linarith
  choose! z hz1 hz2 using hval
  have key : ∀ n ≤ 10000, theoryFileF double sinF besselF (double theoryStep) sched threads s n = .val ((List.range n).map fun k : ℕ =>
      (double (k * double theoryStep), (z k).re, (z k).im)) := by
    intro n hn
    induction n with
    | zero => rfl
    | succ n ih =>
      rw [theoryFileF, ih (by omega), Res.bind_val]
      have : theorySites = 128 := rfl
      rw [this, hz1 n (by omega), Res.map_val, List.range_succ, List.map_append]
      rfl
  refine ⟨_, key theorySteps (le_refl 10000), by simp [theorySteps], fun k hk => ⟨double (k * double theoryStep), (z k).re, (z k).im, ?_, ?_, ?_, ?_⟩⟩
  · rw [List.getElem?_map, List.getElem?_range (by simpa [theorySteps] using hk)]
    rfl
  · have := theoryArgument_double hk.le 1
    simpa using this
  · rw [← Complex.sub_re]
    exact (Complex.abs_re_le_norm _).trans (hz2 k hk)
  · have := (Complex.abs_im_le_norm _).trans (hz2 k hk)
    rwa [Complex.sub_im, theoryNumber_im, sub_zero] at this

/-- The hypotheses can be met: exact functions, one thread, sequential execution. -/
example : ∃ rows, kineticTheoryF double Real.sin (fun n x => besselJ n x) (List.range' 1 64) 1 ((pairsRect 0 128 0 128).map fun p => (0, p)) = .val rows ∧
    rows.length = 10000 := by
  obtain ⟨rows, h1, h2, _⟩ := kineticTheory_double (sinF := Real.sin) (besselF := fun n x => besselJ n x) (η := 0) (fun x => by simp) (by norm_num)
    (fun n x => by simp) (List.Perm.refl _) (threads := 1) (by norm_num) (s := (pairsRect 0 128 0 128).map fun p => (0, p)) ⟨by
      rw [List.map_map]; simp [Function.comp_def], fun e he => by
      obtain ⟨p, -, rfl⟩ := List.mem_map.1 he
      simp⟩
  exact ⟨rows, h1, h2⟩

end Ieompp.Program
