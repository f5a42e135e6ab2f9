import Verif.Model.ParallelFloat
import Verif.Props.FermiJump
import Verif.Spec.Rounding
import Mathlib.Algebra.BigOperators.Fin

/-!
# C81: parallel sums with rounding errors
-/

set_option autoImplicit false
set_option linter.unusedSectionVars false

namespace Ieompp.RealSpace

open MomentumSpace (vecAt)

section
variable {fl : ℝ → ℝ} {u : ℝ}

/-- Componentwise relative errors are a relative error of the complex number. -/
theorem norm_le_of_components {z : ℂ} {a b c : ℝ} (hc : 0 ≤ c) (h1 : |z.re| ≤ c * |a|) (h2 : |z.im| ≤ c * |b|) : ‖z‖ ≤ c * ‖(⟨a, b⟩ : ℂ)‖ := by
  have e : ‖z‖ ^ 2 ≤ (c * ‖(⟨a, b⟩ : ℂ)‖) ^ 2 := by
    rw [mul_pow, Complex.sq_norm, Complex.sq_norm, Complex.normSq_apply, Complex.normSq_apply]
    have s1 := mul_self_le_mul_self (abs_nonneg _) h1
    have s2 := mul_self_le_mul_self (abs_nonneg _) h2
    simp only
    nlinarith [abs_mul_abs_self z.re, abs_mul_abs_self z.im, abs_mul_abs_self a, abs_mul_abs_self b]
  exact le_of_sq_le_sq e (by positivity)

theorem addC_err (hfl : Spec.Rounding fl u) (x y : ℂ) : ‖addC fl x y - (x + y)‖ ≤ u * ‖x + y‖ := by
  have := norm_le_of_components (z := addC fl x y - (x + y)) (a := (x + y).re) (b := (x + y).im) hfl.nonneg
    (by simpa [addC] using hfl.err (x.re + y.re)) (by simpa [addC] using hfl.err (x.im + y.im))
  exact this

/-- The state of the threads: `results` is close to `S`, with sums of absolute values `A`. -/
def Close (u : ℝ) (threads k : ℕ) (results : List ℂ) (S : ℕ → ℂ) (A : ℕ → ℝ) : Prop :=
  results.length = threads ∧ ∀ t < threads, ‖results.getD t 0 - S t‖ ≤ ((1 + u) ^ k - 1) * A t ∧ ‖S t‖ ≤ A t

theorem runLoopF_close (hfl : Spec.Rounding fl u) {body : ℕ → ℕ → Res ℂ} {g : ℕ → ℕ → ℂ} {threads : ℕ} :
    ∀ (s : List Event) (results : List ℂ) (S : ℕ → ℂ) (A : ℕ → ℝ) (k : ℕ), (∀ e ∈ s, body e.2.1 e.2.2 = .val (g e.2.1 e.2.2)) →
      (∀ e ∈ s, e.1 < threads) → Close u threads k results S A →
      ∃ r S' A', runLoopF fl body s results = .val r ∧ Close u threads (k + s.length) r S' A' ∧
        ∑ t ∈ Finset.range threads, S' t = ∑ t ∈ Finset.range threads, S t + (s.map fun e => g e.2.1 e.2.2).sum ∧
        ∑ t ∈ Finset.range threads, A' t = ∑ t ∈ Finset.range threads, A t + (s.map fun e => ‖g e.2.1 e.2.2‖).sum := by
  intro s
  induction s with
  | nil => intro results S A k _ _ h; exact ⟨results, S, A, rfl, by simpa using h, by simp, by simp⟩
  | cons e s ih =>
    intro results S A k hb ht hc
    obtain ⟨hlen, hinv⟩ := hc
    have he := ht e List.mem_cons_self
    have hu := hfl.nonneg
    have hpow : 1 ≤ (1 + u) ^ k := one_le_pow₀ (by linarith)
    set x := g e.2.1 e.2.2 with hx
    set r0 := results.getD e.1 0 with hr0
    have hv : vecAt results e.1 = .val r0 := by
      apply vecAt_get
      rw [hr0, List.getD_eq_getElem?_getD, List.getElem?_eq_getElem (by omega)]; rfl
    have step : Close u threads (k + 1) (results.set e.1 (addC fl r0 x)) (Function.update S e.1 (S e.1 + x))
        (Function.update A e.1 (A e.1 + ‖x‖)) := by
      refine ⟨by simpa using hlen, fun t htt => ?_⟩
      obtain ⟨h1, h2⟩ := hinv t htt
      have hA : 0 ≤ A t := le_trans (norm_nonneg _) h2
      by_cases hte : t = e.1
      · subst hte
        rw [Function.update_self, Function.update_self, List.getD_eq_getElem?_getD, List.getElem?_set_self (by omega), Option.getD_some]
        refine ⟨?_, le_trans (norm_add_le _ _) (by linarith)⟩
        rw [← hr0] at h1
        have a1 := addC_err hfl r0 x
        have a2 : ‖r0 + x‖ ≤ ‖r0‖ + ‖x‖ := norm_add_le _ _
        have a3 : ‖r0‖ ≤ ‖r0 - S e.1‖ + ‖S e.1‖ := by simpa using norm_add_le (r0 - S e.1) (S e.1)
        have a4 : ‖addC fl r0 x - (S e.1 + x)‖ ≤ ‖addC fl r0 x - (r0 + x)‖ + ‖r0 - S e.1‖ := by
          have := norm_add_le (addC fl r0 x - (r0 + x)) (r0 - S e.1)
          rwa [show addC fl r0 x - (r0 + x) + (r0 - S e.1) = addC fl r0 x - (S e.1 + x) by ring] at this
        have a5 : u * ‖r0 + x‖ ≤ u * ((1 + u) ^ k * A e.1 + ‖x‖) := mul_le_mul_of_nonneg_left (by linarith) hu
        have a6 : 0 ≤ ((1 + u) ^ k - 1) * ‖x‖ := mul_nonneg (by linarith) (norm_nonneg _)
        have a7 : 0 ≤ u * (((1 + u) ^ k - 1) * ‖x‖) := mul_nonneg hu a6
        have a8 : ((1 + u) ^ (k + 1) - 1) * (A e.1 + ‖x‖) = u * ((1 + u) ^ k * A e.1 + ‖x‖) + ((1 + u) ^ k - 1) * A e.1 +
            ((1 + u) ^ k - 1) * ‖x‖ + u * (((1 + u) ^ k - 1) * ‖x‖) := by ring
        linarith
      · rw [Function.update_of_ne hte, Function.update_of_ne hte, List.getD_eq_getElem?_getD, List.getElem?_set_ne (Ne.symm hte),
          ← List.getD_eq_getElem?_getD]
        refine ⟨h1.trans (mul_le_mul_of_nonneg_right ?_ hA), h2⟩
        have := pow_le_pow_right₀ (by linarith : (1 : ℝ) ≤ 1 + u) (Nat.le_add_right k 1)
        linarith
    obtain ⟨r, S', A', h1, h2, h3, h4⟩ := ih _ _ _ (k + 1) (fun x hx => hb x (List.mem_cons_of_mem _ hx))
      (fun x hx => ht x (List.mem_cons_of_mem _ hx)) step
    refine ⟨r, S', A', ?_, ?_, ?_, ?_⟩
    · rw [← h1]
      unfold runLoopF
      rw [List.foldl_cons]
      simp only [Res.bind_val, hb e List.mem_cons_self, addToF, hv]
      rfl
    · rwa [List.length_cons, show k + (s.length + 1) = k + 1 + s.length by ring]
    · rw [h3, Finset.sum_update_of_mem (Finset.mem_range.2 he), List.map_cons, List.sum_cons,
        ← Finset.sum_sdiff (Finset.singleton_subset_iff.2 (Finset.mem_range.2 he)) (f := S), Finset.sum_singleton]
      ring
    · rw [h4, Finset.sum_update_of_mem (Finset.mem_range.2 he), List.map_cons, List.sum_cons,
        ← Finset.sum_sdiff (Finset.singleton_subset_iff.2 (Finset.mem_range.2 he)) (f := A), Finset.sum_singleton]
      ring

theorem accumulateF_close (hfl : Spec.Rounding fl u) {q : ℝ} (hq : 1 ≤ q) :
    ∀ (results : List ℂ) (S : ℕ → ℂ) (A : ℕ → ℝ) (a Sa : ℂ) (Aa : ℝ) (j : ℕ), (∀ t < results.length, ‖results.getD t 0 - S t‖ ≤ (q - 1) * A t ∧ ‖S t‖ ≤ A t) →
      ‖a - Sa‖ ≤ ((1 + u) ^ j * q - 1) * Aa → ‖Sa‖ ≤ Aa →
      ‖results.foldl (addC fl) a - (Sa + ∑ t ∈ Finset.range results.length, S t)‖ ≤
        ((1 + u) ^ (j + results.length) * q - 1) * (Aa + ∑ t ∈ Finset.range results.length, A t) := by
  intro results
  induction results with
  | nil => intro S A a Sa Aa j _ h _; simpa using h
  | cons r results ih =>
    intro S A a Sa Aa j hr ha hSa
    have hu := hfl.nonneg
    have hpow : 1 ≤ (1 + u) ^ j := one_le_pow₀ (by linarith)
    obtain ⟨h1, h2⟩ := hr 0 (by simp)
    simp only [List.getD_cons_zero] at h1
    have hA : 0 ≤ A 0 := le_trans (norm_nonneg _) h2
    have hAa : 0 ≤ Aa := le_trans (norm_nonneg _) hSa
    have := ih (fun t => S (t + 1)) (fun t => A (t + 1)) (addC fl a r) (Sa + S 0) (Aa + A 0) (j + 1)
      (fun t ht => by simpa using hr (t + 1) (by simpa using ht)) ?_ (le_trans (norm_add_le _ _) (by linarith))
    · rw [List.foldl_cons, List.length_cons, Finset.sum_range_succ', Finset.sum_range_succ' A]
      rw [show j + (results.length + 1) = j + 1 + results.length by ring]
      convert this using 2
      · congr 1; ring
      · ring
    · have a1 := addC_err hfl a r
      have a2 : ‖a + r‖ ≤ ‖a‖ + ‖r‖ := norm_add_le _ _
      have a3 : ‖a‖ ≤ ‖a - Sa‖ + ‖Sa‖ := by simpa using norm_add_le (a - Sa) Sa
      have a3' : ‖r‖ ≤ ‖r - S 0‖ + ‖S 0‖ := by simpa using norm_add_le (r - S 0) (S 0)
      have a4 : ‖addC fl a r - (Sa + S 0)‖ ≤ ‖addC fl a r - (a + r)‖ + ‖a - Sa‖ + ‖r - S 0‖ := by
        have := norm_add₃_le (a := addC fl a r - (a + r)) (b := a - Sa) (c := r - S 0)
        rwa [show addC fl a r - (a + r) + (a - Sa) + (r - S 0) = addC fl a r - (Sa + S 0) by ring] at this
      have a5 : u * ‖a + r‖ ≤ u * ((1 + u) ^ j * q * Aa + q * A 0) := mul_le_mul_of_nonneg_left (by linarith) hu
      have a6 : (1 + u) * q * A 0 ≤ (1 + u) ^ (j + 1) * q * A 0 := by
        refine mul_le_mul_of_nonneg_right (mul_le_mul_of_nonneg_right ?_ (by linarith)) hA
        rw [pow_succ]
        nlinarith
      have a7 : (1 + u) ^ (j + 1) = (1 + u) ^ j * (1 + u) := pow_succ _ _
      rw [a7] at a6 ⊢
      nlinarith

/-- A parallel loop with the statements `results[thread] += body(i, j)` for the pairs `(i, j)`, whose right-hand sides have the values
`value i j`, and one of its executions. -/
structure ParallelLoop where
  body : ℕ → ℕ → Res ℂ
  value : ℕ → ℕ → ℂ
  pairs : List (ℕ × ℕ)
  sched : List Event

/-- Every statement is executed exactly once, by some thread, in some order. -/
def ParallelLoop.Legal (threads : ℕ) (l : ParallelLoop) : Prop :=
  Executes threads l.pairs l.sched ∧ ∀ p ∈ l.pairs, l.body p.1 p.2 = .val (l.value p.1 p.2)

/-- The exact sum of the loops. -/
noncomputable def Spec.loopSum (L : List ParallelLoop) : ℂ := (L.map fun l => (l.pairs.map fun p => l.value p.1 p.2).sum).sum

/-- The sum of the absolute values. -/
noncomputable def Spec.loopAbs (L : List ParallelLoop) : ℝ := (L.map fun l => (l.pairs.map fun p => ‖l.value p.1 p.2‖).sum).sum

/-- The number of statements. -/
def Spec.loopCount (L : List ParallelLoop) : ℕ := (L.map fun l => l.pairs.length).sum

theorem runLoopsF_close (hfl : Spec.Rounding fl u) {threads : ℕ} :
    ∀ (L : List ParallelLoop) (results : List ℂ) (S : ℕ → ℂ) (A : ℕ → ℝ) (k : ℕ), (∀ l ∈ L, l.Legal threads) → Close u threads k results S A →
      ∃ r S' A', runLoopsF fl (L.map fun l => (l.body, l.sched)) results = .val r ∧ Close u threads (k + Spec.loopCount L) r S' A' ∧
        ∑ t ∈ Finset.range threads, S' t = ∑ t ∈ Finset.range threads, S t + Spec.loopSum L ∧
        ∑ t ∈ Finset.range threads, A' t = ∑ t ∈ Finset.range threads, A t + Spec.loopAbs L := by
  intro L
  induction L with
  | nil => intro results S A k _ h; exact ⟨results, S, A, rfl, by simpa [Spec.loopCount] using h, by simp [Spec.loopSum], by simp [Spec.loopAbs]⟩
  | cons l L ih =>
    intro results S A k hL hc
    obtain ⟨⟨hp, ht⟩, hb⟩ := hL l List.mem_cons_self
    obtain ⟨r, S₁, A₁, h1, h2, h3, h4⟩ := runLoopF_close hfl (g := l.value) l.sched results S A k (fun e he => by
      exact hb e.2 (hp.mem_iff.1 (List.mem_map.2 ⟨e, he, rfl⟩))) ht hc
    obtain ⟨r', S₂, A₂, g1, g2, g3, g4⟩ := ih r S₁ A₁ _ (fun x hx => hL x (List.mem_cons_of_mem _ hx)) h2
    have hlen : l.sched.length = l.pairs.length := by rw [← hp.length_eq, List.length_map]
    have e1 : (l.sched.map fun e => l.value e.2.1 e.2.2).sum = (l.pairs.map fun p => l.value p.1 p.2).sum := by
      rw [← (hp.map fun p => l.value p.1 p.2).sum_eq, List.map_map]; rfl
    have e2 : (l.sched.map fun e => ‖l.value e.2.1 e.2.2‖).sum = (l.pairs.map fun p => ‖l.value p.1 p.2‖).sum := by
      rw [← (hp.map fun p => ‖l.value p.1 p.2‖).sum_eq, List.map_map]; rfl
    refine ⟨r', S₂, A₂, ?_, ?_, ?_, ?_⟩
    · rw [List.map_cons, runLoopsF, h1, Res.bind_val, g1]
    · rwa [Spec.loopCount, List.map_cons, List.sum_cons, ← hlen, ← add_assoc]
    · rw [g3, h3, e1, Spec.loopSum, Spec.loopSum, List.map_cons, List.sum_cons, add_assoc]
    · rw [g4, h4, e2, Spec.loopAbs, Spec.loopAbs, List.map_cons, List.sum_cons, add_assoc]

/-- The accumulated result of parallel loops with rounded additions. -/
theorem parallel_sum (hfl : Spec.Rounding fl u) {threads : ℕ} (L : List ParallelLoop) (hL : ∀ l ∈ L, l.Legal threads) :
    ∃ r, runLoopsF fl (L.map fun l => (l.body, l.sched)) (List.replicate threads 0) = .val r ∧
      ‖accumulateF fl r - Spec.loopSum L‖ ≤ ((1 + u) ^ (Spec.loopCount L + threads) - 1) * Spec.loopAbs L := by
  obtain ⟨r, S, A, h1, ⟨hlen, h2⟩, h3, h4⟩ := runLoopsF_close hfl L (List.replicate threads 0) (fun _ => 0) (fun _ => 0) 0 hL
    ⟨by simp, fun t ht => by simp [List.getD_eq_getElem?_getD, ht]⟩
  refine ⟨r, h1, ?_⟩
  have hu := hfl.nonneg
  have := accumulateF_close hfl (q := (1 + u) ^ Spec.loopCount L) (one_le_pow₀ (by linarith)) r S A 0 0 0 0
    (fun t ht => by simpa using h2 t (by omega)) (by simp) (by simp)
  rw [hlen, h3, h4, zero_add] at this
  simp only [Finset.sum_const_zero, zero_add, ← pow_add] at this
  rwa [add_comm (Spec.loopCount L)]

/-- **C81**: for every number of threads, every distribution of the statements and every interleaving, the computed occupation differs
from the exact sum of the right-hand sides by at most `(1 + u)^(n + threads) - 1` times the sum of their absolute values, where `n` is the
number of statements. -/
theorem siteOccupation_rounded (hfl : Spec.Rounding fl u) {threads : ℕ} (L : List ParallelLoop) (hL : ∀ l ∈ L, l.Legal threads) :
    ∃ x, siteOccupationF fl (L.map fun l => (l.body, l.sched)) threads = .val x ∧
      |x - (Spec.loopSum L).re| ≤ ((1 + u) ^ (Spec.loopCount L + threads) - 1) * Spec.loopAbs L := by
  obtain ⟨r, h1, h2⟩ := parallel_sum hfl L hL
  refine ⟨(accumulateF fl r).re, by rw [siteOccupationF, h1]; rfl, le_trans ?_ h2⟩
  rw [← Complex.sub_re]
  exact Complex.abs_re_le_norm _

/-- `(1 + u)^n - 1 ≤ 2 n u` as long as `n u ≤ 1`. -/
theorem pow_sub_one_le {n : ℕ} (hu : 0 ≤ u) (h : n * u ≤ 1) : (1 + u) ^ n - 1 ≤ 2 * (n * u) := by
  have h0 : 0 ≤ n * u := by positivity
  have h1 : (1 + u) ^ n ≤ Real.exp (n * u) := by
    rw [Real.exp_nat_mul]
    exact pow_le_pow_left₀ (by linarith) (by linarith [Real.add_one_le_exp u]) n
  have h2 := Real.abs_exp_sub_one_sub_id_le (x := n * u) (by rw [abs_of_nonneg h0]; exact h)
  have h3 := (abs_le.1 h2).2
  nlinarith

/-- **C81** for `double`: with `n` statements and `n + threads ≤ 2^53` the error is at most `(n + threads) 2^-52` times the sum of the
absolute values ... -/
theorem siteOccupation_double {threads : ℕ} (L : List ParallelLoop) (hL : ∀ l ∈ L, l.Legal threads)
    (hn : Spec.loopCount L + threads ≤ 2 ^ 53) :
    ∃ x, siteOccupationF Spec.double (L.map fun l => (l.body, l.sched)) threads = .val x ∧
      |x - (Spec.loopSum L).re| ≤ ((Spec.loopCount L + threads : ℕ) : ℝ) / 2 ^ 52 * Spec.loopAbs L := by
  obtain ⟨x, h1, h2⟩ := siteOccupation_rounded Spec.double_rounding L hL
  refine ⟨x, h1, h2.trans (mul_le_mul_of_nonneg_right ?_ ?_)⟩
  · have hn' : ((Spec.loopCount L + threads : ℕ) : ℝ) ≤ 2 ^ 53 := by exact_mod_cast hn
    have := pow_sub_one_le (u := 1 / 2 ^ 53) (n := Spec.loopCount L + threads) (by positivity) (by
      rw [mul_one_div, div_le_one (by positivity)]; exact hn')
    refine this.trans (le_of_eq ?_)
    ring
  · unfold Spec.loopAbs
    refine List.sum_nonneg ?_
    intro x hx
    obtain ⟨l, -, rfl⟩ := List.mem_map.1 hx
    refine List.sum_nonneg ?_
    intro y hy
    obtain ⟨p, -, rfl⟩ := List.mem_map.1 hy
    exact norm_nonneg _

/-- ... so two runs, with different numbers of threads and different schedules, differ by at most twice that. -/
theorem siteOccupation_reproducible {threads threads' : ℕ} (L L' : List ParallelLoop) (hL : ∀ l ∈ L, l.Legal threads)
    (hL' : ∀ l ∈ L', l.Legal threads') (hsame : L.map (fun l => (l.value, l.pairs)) = L'.map fun l => (l.value, l.pairs))
    (hn : Spec.loopCount L + threads ≤ 2 ^ 53) (hn' : Spec.loopCount L + threads' ≤ 2 ^ 53) :
    ∃ x x', siteOccupationF Spec.double (L.map fun l => (l.body, l.sched)) threads = .val x ∧
      siteOccupationF Spec.double (L'.map fun l => (l.body, l.sched)) threads' = .val x' ∧
      |x - x'| ≤ ((2 * Spec.loopCount L + threads + threads' : ℕ) : ℝ) / 2 ^ 52 * Spec.loopAbs L := by
  have e1 : Spec.loopSum L' = Spec.loopSum L := by
    have := congrArg (fun l : List ((ℕ → ℕ → ℂ) × List (ℕ × ℕ)) => (l.map fun q => (q.2.map fun p => q.1 p.1 p.2).sum).sum) hsame
    simp only [List.map_map] at this
    exact this.symm
  have e2 : Spec.loopAbs L' = Spec.loopAbs L := by
    have := congrArg (fun l : List ((ℕ → ℕ → ℂ) × List (ℕ × ℕ)) => (l.map fun q => (q.2.map fun p => ‖q.1 p.1 p.2‖).sum).sum) hsame
    simp only [List.map_map] at this
    exact this.symm
  have e3 : Spec.loopCount L' = Spec.loopCount L := by
    have := congrArg (fun l : List ((ℕ → ℕ → ℂ) × List (ℕ × ℕ)) => (l.map fun q => q.2.length).sum) hsame
    simp only [List.map_map] at this
    exact this.symm
  obtain ⟨x, h1, h2⟩ := siteOccupation_double L hL hn
  obtain ⟨x', h1', h2'⟩ := siteOccupation_double L' hL' (by rw [e3]; exact hn')
  refine ⟨x, x', h1, h1', ?_⟩
  rw [e1, e2, e3] at h2'
  have : |x - x'| ≤ |x - (Spec.loopSum L).re| + |x' - (Spec.loopSum L).re| := by
    rw [abs_sub_comm x']; exact abs_sub_le _ _ _
  have e4 : ((2 * Spec.loopCount L + threads + threads' : ℕ) : ℝ) / 2 ^ 52 * Spec.loopAbs L =
      ((Spec.loopCount L + threads : ℕ) : ℝ) / 2 ^ 52 * Spec.loopAbs L + ((Spec.loopCount L + threads' : ℕ) : ℝ) / 2 ^ 52 * Spec.loopAbs L := by
    push_cast; ring
  rw [e4]
  linarith

/-! ### The Fermi jump -/

theorem mulC_err (hfl : Spec.Rounding fl u) (x y : ℂ) : ‖mulC fl x y - x * y‖ ≤ 2 * ((2 * u + u ^ 2) * (‖x‖ * ‖y‖)) := by
  have hu := hfl.nonneg
  have key : ∀ (p q : ℝ) (s : ℝ), |s| = 1 → |fl (fl p + s * fl q) - (p + s * q)| ≤ (2 * u + u ^ 2) * (|p| + |q|) := by
    intro p q s hs
    have h1 := hfl.err (fl p + s * fl q)
    have h2 := hfl.err p
    have h3 := hfl.err q
    have h4 : |fl p + s * fl q - (p + s * q)| ≤ u * |p| + u * |q| := by
      rw [show fl p + s * fl q - (p + s * q) = (fl p - p) + s * (fl q - q) by ring]
      refine (abs_add_le _ _).trans ?_
      rw [abs_mul, hs, one_mul]
      linarith
    have h5 : |fl p + s * fl q| ≤ (1 + u) * (|p| + |q|) := by
      have : |fl p + s * fl q| ≤ |fl p + s * fl q - (p + s * q)| + |p + s * q| := by
        simpa using abs_add_le (fl p + s * fl q - (p + s * q)) (p + s * q)
      have h6 : |p + s * q| ≤ |p| + |q| := by
        refine (abs_add_le _ _).trans ?_
        rw [abs_mul, hs, one_mul]
      linarith
    have h6 : |fl (fl p + s * fl q) - (p + s * q)| ≤ |fl (fl p + s * fl q) - (fl p + s * fl q)| + |fl p + s * fl q - (p + s * q)| :=
      abs_sub_le _ _ _
    have h7 := mul_le_mul_of_nonneg_left h5 hu
    have h8 : (2 * u + u ^ 2) * (|p| + |q|) = u * ((1 + u) * (|p| + |q|)) + (u * |p| + u * |q|) := by ring
    linarith
  have cs : ∀ a b c d : ℝ, |a * c| + |b * d| ≤ ‖(⟨a, b⟩ : ℂ)‖ * ‖(⟨c, d⟩ : ℂ)‖ := by
    intro a b c d
    refine le_of_sq_le_sq ?_ (by positivity)
    rw [mul_pow, Complex.sq_norm, Complex.sq_norm, Complex.normSq_apply, Complex.normSq_apply, abs_mul, abs_mul]
    simp only
    have h1 := sq_nonneg (|a| * |d| - |b| * |c|)
    nlinarith [abs_mul_abs_self a, abs_mul_abs_self b, abs_mul_abs_self c, abs_mul_abs_self d, mul_comm (|a| * |d|) (|b| * |c|)]
  have h1 : |(mulC fl x y - x * y).re| ≤ (2 * u + u ^ 2) * (‖x‖ * ‖y‖) := by
    have := key (x.re * y.re) (x.im * y.im) (-1) (by norm_num)
    refine le_trans ?_ (this.trans (mul_le_mul_of_nonneg_left (cs x.re x.im y.re y.im) (by positivity)))
    simp only [mulC, Complex.sub_re, Complex.mul_re, neg_mul, one_mul, ← sub_eq_add_neg, le_refl]
  have h2 : |(mulC fl x y - x * y).im| ≤ (2 * u + u ^ 2) * (‖x‖ * ‖y‖) := by
    have := key (x.re * y.im) (x.im * y.re) 1 (by norm_num)
    have hc := cs x.re x.im y.im y.re
    have hn : ‖(⟨y.im, y.re⟩ : ℂ)‖ = ‖y‖ := by
      rw [← Real.sqrt_sq (norm_nonneg (⟨y.im, y.re⟩ : ℂ)), ← Real.sqrt_sq (norm_nonneg y), Complex.sq_norm, Complex.sq_norm,
        Complex.normSq_apply, Complex.normSq_apply]
      simp only [add_comm]
    rw [hn] at hc
    refine le_trans ?_ (this.trans (mul_le_mul_of_nonneg_left hc (by positivity)))
    simp only [mulC, Complex.sub_im, Complex.mul_im, one_mul, le_refl]
  have h3 := Complex.norm_le_abs_re_add_abs_im (mulC fl x y - x * y)
  linarith

theorem normF_err (hfl : Spec.Rounding fl u) (x : ℂ) : |normF fl x - Complex.normSq x| ≤ (2 * u + u ^ 2) * Complex.normSq x := by
  have hu := hfl.nonneg
  have h1 := hfl.err (fl (x.re * x.re) + fl (x.im * x.im))
  have h2 := hfl.err (x.re * x.re)
  have h3 := hfl.err (x.im * x.im)
  rw [abs_of_nonneg (mul_self_nonneg x.re)] at h2
  rw [abs_of_nonneg (mul_self_nonneg x.im)] at h3
  have h4 : |fl (x.re * x.re) + fl (x.im * x.im) - (x.re * x.re + x.im * x.im)| ≤ u * (x.re * x.re + x.im * x.im) := by
    rw [show fl (x.re * x.re) + fl (x.im * x.im) - (x.re * x.re + x.im * x.im) =
      (fl (x.re * x.re) - x.re * x.re) + (fl (x.im * x.im) - x.im * x.im) by ring]
    refine (abs_add_le _ _).trans ?_
    linarith
  have hpos : 0 ≤ x.re * x.re + x.im * x.im := by nlinarith [mul_self_nonneg x.re, mul_self_nonneg x.im]
  have h5 : |fl (x.re * x.re) + fl (x.im * x.im)| ≤ (1 + u) * (x.re * x.re + x.im * x.im) := by
    have := abs_add_le (fl (x.re * x.re) + fl (x.im * x.im) - (x.re * x.re + x.im * x.im)) (x.re * x.re + x.im * x.im)
    rw [sub_add_cancel, abs_of_nonneg hpos] at this
    linarith
  have h6 := abs_sub_le (fl (fl (x.re * x.re) + fl (x.im * x.im))) (fl (x.re * x.re) + fl (x.im * x.im)) (x.re * x.re + x.im * x.im)
  have h7 := mul_le_mul_of_nonneg_left h5 hu
  rw [Complex.normSq_apply, normF]
  have h8 : (2 * u + u ^ 2) * (x.re * x.re + x.im * x.im) = u * ((1 + u) * (x.re * x.re + x.im * x.im)) + u * (x.re * x.re + x.im * x.im) := by ring
  linarith

/-- **C81** for the Fermi jump: the error for every schedule, and the result is never negative. `B` is the sum of `|f_i| |h_i|`. -/
theorem fermiJump_rounded (hfl : Spec.Rounding fl u) (hu1 : u ≤ 1) {N : ℕ} {f h : List ℂ} (hf : N ≤ f.length) (hh : N ≤ h.length) {threads : ℕ}
    {s : List Event} (hs : Executes threads (jumpPairs N) s) {Z : ℂ} (hZ : Z = ∑ i ∈ Finset.range N, f.getD i 0 * h.getD i 0) {B δ E : ℝ}
    (hB : B = ∑ i ∈ Finset.range N, ‖f.getD i 0‖ * ‖h.getD i 0‖) (hδ : δ = 2 * (2 * u + u ^ 2))
    (hE : E = (((1 + u) ^ (N + threads) - 1) * (1 + δ) + δ) * B) :
    ∃ x, jumpSumF fl f h threads s = .val x ∧ 0 ≤ x ∧
      |x - Complex.normSq Z| ≤ (2 * u + u ^ 2) * (‖Z‖ + E) ^ 2 + E * (2 * ‖Z‖ + E) := by
  have hu := hfl.nonneg
  let l : ParallelLoop := ⟨fun i _ => (vecAt f i).bind fun fi => (vecAt h i).bind fun vi => .val (mulC fl fi vi),
    fun i _ => mulC fl (f.getD i 0) (h.getD i 0), jumpPairs N, s⟩
  obtain ⟨r, h1, h2⟩ := parallel_sum hfl (threads := threads) [l] (by
    intro x hx
    rw [List.mem_singleton] at hx
    subst hx
    refine ⟨hs, ?_⟩
    intro p hp
    simp only [l, jumpPairs, List.mem_map, List.mem_range] at hp
    obtain ⟨i, hi, rfl⟩ := hp
    simp only [l, getD_val (show i < f.length by omega), getD_val (show i < h.length by omega), Res.bind_val])
  have hsum : Spec.loopSum [l] = ∑ i ∈ Finset.range N, mulC fl (f.getD i 0) (h.getD i 0) := by
    simp only [Spec.loopSum, l, jumpPairs, List.map_cons, List.map_nil, List.sum_cons, List.sum_nil, add_zero, List.map_map]
    rw [← List.sum_toFinset _ List.nodup_range, List.toFinset_range]; rfl
  have habs : Spec.loopAbs [l] = ∑ i ∈ Finset.range N, ‖mulC fl (f.getD i 0) (h.getD i 0)‖ := by
    simp only [Spec.loopAbs, l, jumpPairs, List.map_cons, List.map_nil, List.sum_cons, List.sum_nil, add_zero, List.map_map]
    rw [← List.sum_toFinset _ List.nodup_range, List.toFinset_range]; rfl
  have hcount : Spec.loopCount [l] = N := by simp [Spec.loopCount, l, jumpPairs]
  rw [hsum, habs, hcount] at h2
  have hδ0 : 0 ≤ δ := by rw [hδ]; positivity
  have hB0 : 0 ≤ B := by rw [hB]; exact Finset.sum_nonneg fun i _ => by positivity
  have hdiff : ‖∑ i ∈ Finset.range N, mulC fl (f.getD i 0) (h.getD i 0) - Z‖ ≤ δ * B := by
    rw [hZ, ← Finset.sum_sub_distrib, hB, Finset.mul_sum]
    refine (norm_sum_le _ _).trans (Finset.sum_le_sum fun i _ => ?_)
    rw [hδ, mul_assoc]
    exact mulC_err hfl _ _
  have hAbs : ∑ i ∈ Finset.range N, ‖mulC fl (f.getD i 0) (h.getD i 0)‖ ≤ (1 + δ) * B := by
    rw [hB, Finset.mul_sum]
    refine Finset.sum_le_sum fun i _ => ?_
    have a1 := mulC_err hfl (f.getD i 0) (h.getD i 0)
    have a2 := norm_add_le (mulC fl (f.getD i 0) (h.getD i 0) - f.getD i 0 * h.getD i 0) (f.getD i 0 * h.getD i 0)
    rw [sub_add_cancel, norm_mul] at a2
    rw [hδ]
    linarith
  have hpow : 0 ≤ (1 + u) ^ (N + threads) - 1 := by linarith [one_le_pow₀ (by linarith : (1 : ℝ) ≤ 1 + u) (n := N + threads)]
  set R := accumulateF fl r with hR
  have hRZ : ‖R - Z‖ ≤ E := by
    have a1 := norm_add_le (R - ∑ i ∈ Finset.range N, mulC fl (f.getD i 0) (h.getD i 0)) (∑ i ∈ Finset.range N, mulC fl (f.getD i 0) (h.getD i 0) - Z)
    rw [sub_add_sub_cancel] at a1
    have a2 := mul_le_mul_of_nonneg_left hAbs hpow
    rw [hE]
    linarith
  have hE0 : 0 ≤ E := (norm_nonneg _).trans hRZ
  have hRn : ‖R‖ ≤ ‖Z‖ + E := by
    have := norm_add_le (R - Z) Z
    rw [sub_add_cancel] at this
    linarith
  refine ⟨normF fl R, ?_, ?_, ?_⟩
  · simp only [List.map_cons, List.map_nil, runLoopsF] at h1
    rw [jumpSumF]
    have h1' : runLoopF fl (fun i _ => (vecAt f i).bind fun fi => (vecAt h i).bind fun vi => .val (mulC fl fi vi)) s (List.replicate threads 0) =
        .val r := by
      cases hq : runLoopF fl l.body l.sched (List.replicate threads 0) with
      | val x => rw [hq] at h1; exact h1
      | ub => rw [hq] at h1; exact absurd h1 (by simp [Res.bind])
      | diverges => rw [hq] at h1; exact absurd h1 (by simp [Res.bind])
    rw [h1']
    rfl
  · have pos : ∀ x : ℝ, 0 ≤ x → 0 ≤ fl x := by
      intro x hx
      have := (abs_le.1 (hfl.err x)).1
      rw [abs_of_nonneg hx] at this
      nlinarith
    exact pos _ (add_nonneg (pos _ (mul_self_nonneg _)) (pos _ (mul_self_nonneg _)))
  · have a1 := normF_err hfl R
    have a2 : Complex.normSq R ≤ (‖Z‖ + E) ^ 2 := by
      rw [← Complex.sq_norm]
      exact pow_le_pow_left₀ (norm_nonneg _) hRn 2
    have a3 : |Complex.normSq R - Complex.normSq Z| ≤ E * (2 * ‖Z‖ + E) := by
      rw [← Complex.sq_norm, ← Complex.sq_norm, show ‖R‖ ^ 2 - ‖Z‖ ^ 2 = (‖R‖ - ‖Z‖) * (‖R‖ + ‖Z‖) by ring, abs_mul]
      refine mul_le_mul ((abs_norm_sub_norm_le _ _).trans hRZ) ?_ (abs_nonneg _) hE0
      rw [abs_of_nonneg (by positivity)]
      linarith
    have a4 := abs_sub_le (normF fl R) (Complex.normSq R) (Complex.normSq Z)
    have a5 : (2 * u + u ^ 2) * Complex.normSq R ≤ (2 * u + u ^ 2) * (‖Z‖ + E) ^ 2 := mul_le_mul_of_nonneg_left a2 (by positivity)
    linarith

end

/-! ### The result is not reproducible bit for bit -/

/-- Iterations 0 and 1 by thread 0, then 2 and 3 by thread 1: what a static schedule does with two threads. -/
def twoThreads : List Event := [(0, (0, 0)), (0, (1, 0)), (1, (2, 0)), (1, (3, 0))]

/-- The same by one thread. -/
def oneThread : List Event := [(0, (0, 0)), (0, (1, 0)), (0, (2, 0)), (0, (3, 0))]

/-- **C81** refuted for equality: with one thread the Fermi jump of the vector `(0, 1, 2^53, -2^53)` is 0, with two threads it is 1 (which
is the exact value). -/
theorem fermiJump_threads_wrong : Executes 1 (jumpPairs 4) oneThread ∧ Executes 2 (jumpPairs 4) twoThreads ∧
    jumpSumF Spec.double [1, 1, 1, 1] [0, 1, 9007199254740992, -9007199254740992] 1 oneThread = .val 0 ∧
    jumpSumF Spec.double [1, 1, 1, 1] [0, 1, 9007199254740992, -9007199254740992] 2 twoThreads = .val 1 := by
  have d0 : Spec.double 0 = 0 := Spec.double_zero
  have d1 : Spec.double 1 = 1 := by simpa using Spec.double_fix (m := 1) (e := 0) (by norm_num)
  have d2 : Spec.double 9007199254740992 = 9007199254740992 := by
    have := Spec.double_fix (m := 9007199254740992) (e := 0) (by norm_num)
    simpa using this
  have d3 : Spec.double (-9007199254740992) = -9007199254740992 := by
    have := Spec.double_fix (m := -9007199254740992) (e := 0) (by norm_num)
    simpa using this
  have d4 : Spec.double (1 + 9007199254740992) = 9007199254740992 := by
    have := Spec.double_eq (x := 1 + 9007199254740992) (r := 9007199254740993 / 2) (e := 1) (m := 4503599627370496) (by norm_num [abs_of_pos])
      (by norm_num [abs_of_pos]) (by norm_num) (Or.inr ⟨by norm_num [abs_of_pos], by decide⟩)
    rw [this]; norm_num
  have c1 : ∀ x : ℝ, Spec.double x = x → mulC Spec.double 1 (x : ℂ) = (x : ℂ) := by
    intro x hx
    apply Complex.ext <;> simp [mulC, hx, d0]
  have c2 : ∀ x y : ℝ, addC Spec.double (x : ℂ) (y : ℂ) = ((Spec.double (x + y) : ℝ) : ℂ) := by
    intro x y
    apply Complex.ext <;> simp [addC, d0]
  have n1 : ∀ x : ℝ, normF Spec.double (x : ℂ) = Spec.double (Spec.double (x * x)) := by
    intro x; simp [normF, d0]
  have c0 : (0 : ℂ) = ((0 : ℝ) : ℂ) := by simp
  have hv : ([0, 1, 9007199254740992, -9007199254740992] : List ℂ) =
      [((0 : ℝ) : ℂ), ((1 : ℝ) : ℂ), ((9007199254740992 : ℝ) : ℂ), ((-9007199254740992 : ℝ) : ℂ)] := by push_cast; rfl
  refine ⟨⟨by decide, by decide⟩, ⟨by decide, by decide⟩, ?_, ?_⟩
  · rw [hv]
    simp only [jumpSumF, runLoopF, oneThread, List.foldl_cons, List.foldl_nil, Res.bind_val, vecAt, List.replicate, List.getElem?_cons_zero,
      List.getElem?_cons_succ, addToF, List.set_cons_zero, c1 _ d0, c1 _ d1, c1 _ d2, c1 _ d3, c0, c2, zero_add, d0, d1, d4, add_neg_cancel,
      Res.map_val, accumulateF, n1, mul_zero]
  · rw [hv]
    simp only [jumpSumF, runLoopF, twoThreads, List.foldl_cons, List.foldl_nil, Res.bind_val, vecAt, List.replicate, List.getElem?_cons_zero,
      List.getElem?_cons_succ, addToF, List.set_cons_zero, List.set_cons_succ, c1 _ d0, c1 _ d1, c1 _ d2, c1 _ d3, c0, c2, zero_add, d0, d1, d2,
      add_neg_cancel, Res.map_val, accumulateF, n1, mul_one, add_zero]

/-! ### Without rounding the model is the one of C36-C38 -/

theorem addC_id : addC id = fun x y => x + y := by
  funext x y; apply Complex.ext <;> simp [addC]

theorem runLoopF_id (body : ℕ → ℕ → Res ℂ) (s : List Event) (results : List ℂ) : runLoopF id body s results = runLoop body s results := by
  unfold runLoopF runLoop addToF addTo
  simp only [addC_id]

theorem siteOccupationF_id (ev : HOp → HOp → ℝ) (basis conj : List HMonomial) (vec : List ℂ) (threads : ℕ) (s : List Event) :
    siteOccupationF id [(fullTerm basis conj vec (ev11 ev), s)] threads = siteOccupation1 ev basis conj vec threads s := by
  unfold siteOccupationF siteOccupation1 siteSum1 runLoopsF runLoopsF
  rw [runLoopF_id]
  have hsum : ∀ r : List ℂ, accumulateF id r = r.sum := by
    intro r
    rw [accumulateF, addC_id, List.sum_eq_foldl]
  cases runLoop (fullTerm basis conj vec (ev11 ev)) s (List.replicate threads 0) with
  | val r => simp [Res.map, Res.bind, hsum]
  | ub => rfl
  | diverges => rfl

theorem jumpSumF_id (f v : List ℂ) (threads : ℕ) (s : List Event) : jumpSumF id f v threads s = jumpSum f v threads s := by
  unfold jumpSumF jumpSum
  have hm : mulC id = fun x y => x * y := by funext x y; apply Complex.ext <;> simp [mulC]
  have hsum : ∀ r : List ℂ, normF id (accumulateF id r) = Complex.normSq r.sum := by
    intro r
    rw [accumulateF, addC_id, List.sum_eq_foldl, normF, Complex.normSq_apply]; rfl
  rw [runLoopF_id]
  simp only [hm, hsum]

/-- Non-vacuity: a loop of four statements, executed by two threads. -/
example : ∃ x, siteOccupationF Spec.double [(fun i _ => Res.val (i : ℂ), twoThreads)] 2 = .val x ∧
    |x - (Spec.loopSum [⟨fun i _ => .val (i : ℂ), fun i _ => (i : ℂ), jumpPairs 4, twoThreads⟩]).re| ≤
      ((6 : ℕ) : ℝ) / 2 ^ 52 * Spec.loopAbs [⟨fun i _ => .val (i : ℂ), fun i _ => (i : ℂ), jumpPairs 4, twoThreads⟩] :=
  siteOccupation_double (threads := 2) [⟨fun i _ => .val (i : ℂ), fun i _ => (i : ℂ), jumpPairs 4, twoThreads⟩] (by
    intro l hl
    rw [List.mem_singleton] at hl
    subst hl
    exact ⟨⟨by decide, by decide⟩, fun _ _ => rfl⟩) (by simp [Spec.loopCount, jumpPairs])

end Ieompp.RealSpace
