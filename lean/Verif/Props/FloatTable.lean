import Verif.Model.ProgramFloat
import Verif.Props.RK4Float
import Verif.Props.Program

/-!
# C109, first part: the rounding errors of the expectation values and of the measured site occupation
-/

set_option autoImplicit false
set_option linter.unusedSectionVars false

namespace Ieompp.RealSpace

open MomentumSpace (vecAt)
open ODE (ApproxC)

variable {fl sinF : ℝ → ℝ} {u : ℝ}

/-! ### A calculus of relative errors -/

/-- `x'` computed, `x` exact, `A` a bound for `|x|`, `k` rounded operations. -/
def ApproxR (u : ℝ) (k : ℕ) (x' x A : ℝ) : Prop := |x' - x| ≤ ((1 + u) ^ k - 1) * A ∧ |x| ≤ A

namespace ApproxR

variable {k l : ℕ} {x x' y y' A B : ℝ}

theorem nonneg (h : ApproxR u k x' x A) : 0 ≤ A := (abs_nonneg _).trans h.2

theorem exact (x : ℝ) : ApproxR u 0 x x |x| := ⟨by simp, le_rfl⟩

theorem mono (hu : 0 ≤ u) (hk : k ≤ l) (hA : A ≤ B) (h : ApproxR u k x' x A) : ApproxR u l x' x B := by
  refine ⟨h.1.trans ?_, h.2.trans hA⟩
  have h1 := pow_le_pow_right₀ (a := 1 + u) (by linarith) hk
  have h2 := one_le_pow₀ (a := 1 + u) (n := l) (by linarith)
  exact mul_le_mul (by linarith) hA h.nonneg (by linarith)

theorem le (h : ApproxR u k x' x A) : |x'| ≤ (1 + u) ^ k * A := by
  have h1 := h.1
  have h2 := h.2
  have : |x'| ≤ |x' - x| + |x| := by simpa using abs_add_le (x' - x) x
  have : ((1 + u) ^ k - 1) * A = (1 + u) ^ k * A - A := by ring
  linarith

/-- One more rounding. -/
theorem round (hfl : Spec.Rounding fl u) (h : ApproxR u k x' x A) : ApproxR u (k + 1) (fl x') x A := by
  refine ⟨?_, h.2⟩
  have h1 := hfl.err x'
  have h2 := mul_le_mul_of_nonneg_left h.le hfl.nonneg
  have h3 := h.1
  have h4 : |fl x' - x| ≤ |fl x' - x'| + |x' - x| := by
    have := abs_add_le (fl x' - x') (x' - x)
    rwa [sub_add_sub_cancel] at this
  have : ((1 + u) ^ (k + 1) - 1) * A = u * ((1 + u) ^ k * A) + ((1 + u) ^ k - 1) * A := by rw [pow_succ]; ring
  linarith

theorem add' (hk : k = l) (hx : ApproxR u k x' x A) (hy : ApproxR u l y' y B) : ApproxR u k (x' + y') (x + y) (A + B) := by
  subst hk
  refine ⟨?_, (abs_add_le _ _).trans (add_le_add hx.2 hy.2)⟩
  rw [add_sub_add_comm, mul_add]
  exact (abs_add_le _ _).trans (add_le_add hx.1 hy.1)

theorem neg (hx : ApproxR u k x' x A) : ApproxR u k (-x') (-x) A := by
  refine ⟨?_, by rw [abs_neg]; exact hx.2⟩
  rw [neg_sub_neg, abs_sub_comm]
  exact hx.1

theorem mul' (hx : ApproxR u k x' x A) (hy : ApproxR u l y' y B) : ApproxR u (k + l) (x' * y') (x * y) (A * B) := by
  refine ⟨?_, by rw [abs_mul]; exact mul_le_mul hx.2 hy.2 (abs_nonneg _) hx.nonneg⟩
  have e : x' * y' - x * y = (x' - x) * y' + x * (y' - y) := by ring
  have h1 : |(x' - x) * y'| ≤ ((1 + u) ^ k - 1) * A * ((1 + u) ^ l * B) := by
    rw [abs_mul]
    exact mul_le_mul hx.1 hy.le (abs_nonneg _) ((abs_nonneg _).trans hx.1)
  have h2 : |x * (y' - y)| ≤ A * (((1 + u) ^ l - 1) * B) := by
    rw [abs_mul]
    exact mul_le_mul hx.2 hy.1 (abs_nonneg _) hx.nonneg
  rw [e]
  refine (abs_add_le _ _).trans ((add_le_add h1 h2).trans (le_of_eq ?_))
  rw [pow_add]; ring

theorem add (hfl : Spec.Rounding fl u) (hx : ApproxR u k x' x A) (hy : ApproxR u k y' y B) :
    ApproxR u (k + 1) (fl (x' + y')) (x + y) (A + B) := (add' rfl hx hy).round hfl

theorem sub (hfl : Spec.Rounding fl u) (hx : ApproxR u k x' x A) (hy : ApproxR u k y' y B) :
    ApproxR u (k + 1) (fl (x' - y')) (x - y) (A + B) := by
  have := add hfl hx hy.neg
  simpa [sub_eq_add_neg] using this

theorem mul (hfl : Spec.Rounding fl u) (hx : ApproxR u k x' x A) (hy : ApproxR u l y' y B) :
    ApproxR u (k + l + 1) (fl (x' * y')) (x * y) (A * B) := (mul' hx hy).round hfl

/-- A constant times a computed number. -/
theorem const_mul (hfl : Spec.Rounding fl u) {c : ℝ} (hc : 0 ≤ c) (hx : ApproxR u k x' x A) :
    ApproxR u (k + 1) (fl (c * x')) (c * x) (c * A) := by
  have := mul hfl (exact (u := u) c) hx
  rwa [abs_of_nonneg hc, Nat.zero_add] at this

theorem half (hfl : Spec.Rounding fl u) (hx : ApproxR u k x' x A) : ApproxR u (k + 1) (fl (x' / 2)) (x / 2) (A / 2) := by
  have := const_mul hfl (c := 1 / 2) (by norm_num) hx
  simpa [div_eq_mul_inv, mul_comm] using this

end ApproxR

/-! ### The table of expectation values -/

/-- The value of the table for a distance, without rounding. -/
theorem chainCorrelation_one {filling : ℝ} {d : ℕ} (hd : d ≠ 0) :
    Spec.chainCorrelation (filling * Real.pi) d = Real.sin (filling * Real.pi * d) / (Real.pi * d) := by
  exact chainCorrelation_eq _ _ (by exact_mod_cast hd)

/-- Every value of the table is off by at most `20 u`, when the library's sine is accurate to one unit in the last place. -/
theorem evValue1DF_close (hfl : Spec.Rounding fl u) (hu1 : u ≤ 1 / 1000) (hsin : ∀ x, |sinF x - Real.sin x| ≤ u) {filling : ℝ}
    (h0 : 0 ≤ filling) (h1 : filling ≤ 1) {d : ℕ} (hd : d ≠ 0) :
    ApproxR u 20 (evValue1DF fl sinF (fermiMomentum1DF fl filling) 1 d) (Spec.chainCorrelation (filling * Real.pi) d) 1 := by
  have hu := hfl.nonneg
  have hpi := Real.pi_gt_three
  have hd1 : (1 : ℝ) ≤ d := by exact_mod_cast Nat.one_le_iff_ne_zero.2 hd
  have p1 : ApproxR u 1 (fl Real.pi) Real.pi Real.pi := by
    have := (ApproxR.exact (u := u) Real.pi).round hfl
    rwa [abs_of_pos Real.pi_pos] at this
  have p2 : ApproxR u 1 (fl (d : ℝ)) (d : ℝ) (d : ℝ) := by
    have := (ApproxR.exact (u := u) (d : ℝ)).round hfl
    rwa [abs_of_nonneg (by linarith)] at this
  have p3 : ApproxR u 2 (fermiMomentum1DF fl filling) (filling * Real.pi) Real.pi := by
    have := ApproxR.const_mul hfl h0 p1
    exact this.mono hu le_rfl (by nlinarith)
  have p4 : ApproxR u 5 (fl (fl (fermiMomentum1DF fl filling * fl d) * 1)) (filling * Real.pi * d) (Real.pi * d) := by
    have := (ApproxR.mul hfl p3 p2).round hfl
    rwa [mul_one]
  have p5 : ApproxR u 4 (fl (fl (fl Real.pi * fl d) * 1)) (Real.pi * d) (Real.pi * d) := by
    have := (ApproxR.mul hfl p1 p2).round hfl
    rwa [mul_one]
  set a' := fl (fl (fermiMomentum1DF fl filling * fl d) * 1) with ha'
  set D' := fl (fl (fl Real.pi * fl d) * 1) with hD'
  set a := filling * Real.pi * d with ha
  set D := Real.pi * (d : ℝ) with hD
  have hDpos : 3 < D := by rw [hD]; nlinarith
  have g5 : (1 + u) ^ 5 - 1 ≤ 10 * u := by
    have := pow_sub_one_le (n := 5) hu (by push_cast; linarith)
    push_cast at this; linarith
  have g4 : (1 + u) ^ 4 - 1 ≤ 8 * u := by
    have := pow_sub_one_le (n := 4) hu (by push_cast; linarith)
    push_cast at this; linarith
  have q1 : |a' - a| ≤ 10 * u * D := p4.1.trans (mul_le_mul_of_nonneg_right g5 (by linarith))
  have q2 : |D' - D| ≤ 8 * u * D := p5.1.trans (mul_le_mul_of_nonneg_right g4 (by linarith))
  have q3 : |sinF a' - Real.sin a| ≤ u + 10 * u * D := by
    have e1 := hsin a'
    have e2 := Real.abs_sin_sub_sin_le a' a
    have e3 := abs_add_le (sinF a' - Real.sin a') (Real.sin a' - Real.sin a)
    rw [sub_add_sub_cancel] at e3
    linarith
  have hD'lo : 99 / 100 * D ≤ D' := by
    have := (abs_le.1 q2).1
    have : 8 * u * D ≤ 1 / 100 * D := mul_le_mul_of_nonneg_right (by linarith) (by linarith)
    linarith
  have hD'pos : 0 < D' := by linarith
  have hsa : |Real.sin a| ≤ D := by
    have e0 : 0 ≤ a := by rw [ha]; positivity
    have := Real.abs_sin_le_abs (x := a)
    rw [abs_of_nonneg e0] at this
    refine this.trans ?_
    rw [ha, hD, mul_assoc]
    nlinarith
  have hval : |Real.sin a / D| ≤ 1 := by
    rw [abs_div, abs_of_pos (show 0 < D by linarith), div_le_one (by linarith)]; exact hsa
  have hq : |sinF a' / D' - Real.sin a / D| ≤ 19 * u := by
    have e : sinF a' / D' - Real.sin a / D = ((sinF a' - Real.sin a) + (D - D') * (Real.sin a / D)) / D' := by
      field_simp; ring
    rw [e, abs_div, abs_of_pos hD'pos, div_le_iff₀ hD'pos]
    refine (abs_add_le _ _).trans ?_
    rw [abs_mul, abs_sub_comm D D']
    have e1 : |D' - D| * |Real.sin a / D| ≤ 8 * u * D * 1 := mul_le_mul q2 hval (abs_nonneg _) (by positivity)
    have e2 : u ≤ u * (D / 3) := by nlinarith
    have e3 : 19 * u * (99 / 100 * D) ≤ 19 * u * D' := mul_le_mul_of_nonneg_left hD'lo (by positivity)
    have e4 : 0 ≤ u * D := by positivity
    nlinarith
  rw [chainCorrelation_one hd]
  refine ⟨?_, hval⟩
  have f1 := hfl.err (sinF a' / D')
  have f2 : |sinF a' / D'| ≤ 1 + 19 * u := by
    have := abs_add_le (sinF a' / D' - Real.sin a / D) (Real.sin a / D)
    rw [sub_add_cancel] at this
    linarith
  have f3 := abs_add_le (fl (sinF a' / D') - sinF a' / D') (sinF a' / D' - Real.sin a / D)
  rw [sub_add_sub_cancel] at f3
  have f4 : u * |sinF a' / D'| ≤ u * (1 + 19 * u) := mul_le_mul_of_nonneg_left f2 hu
  have f5 : 20 * u + 19 * u ^ 2 ≤ (1 + u) ^ 20 - 1 := by
    have h2 : 1 + 2 * u + u ^ 2 = (1 + u) ^ 2 := by ring
    have h3 := one_add_mul_le_pow (a := 2 * u + u ^ 2) (by nlinarith) 10
    have h4 : (1 + (2 * u + u ^ 2)) ^ 10 = (1 + u) ^ 20 := by
      rw [← add_assoc, h2, ← pow_mul]
    rw [h4] at h3
    push_cast at h3
    have h5 := one_add_mul_le_pow (a := 4 * u + 6 * u ^ 2 + 4 * u ^ 3 + u ^ 4) (by nlinarith [pow_nonneg hu 2, pow_nonneg hu 3, pow_nonneg hu 4]) 5
    have h6 : (1 + (4 * u + 6 * u ^ 2 + 4 * u ^ 3 + u ^ 4)) ^ 5 = (1 + u) ^ 20 := by
      rw [show 1 + (4 * u + 6 * u ^ 2 + 4 * u ^ 3 + u ^ 4) = (1 + u) ^ 4 by ring, ← pow_mul]
    rw [h6] at h5
    push_cast at h5
    have := pow_nonneg hu 3
    have := pow_nonneg hu 4
    nlinarith
  show |fl (sinF a' / D') - Real.sin a / D| ≤ _
  nlinarith

theorem evTable1DF_ok {c : Chain ℝ} {N : ℕ} (hc : c.Constructed N) (filling kF : ℝ) {sched : List ℕ}
    (hs : sched.Perm (List.range' 1 (N / 2))) :
    ∃ values, evTable1DF fl sinF c filling kF sched = .val values ∧ values.length = N / 2 + 1 ∧
      ∀ d, d ≤ N / 2 → values[d]? = some (if d = 0 then filling else evValue1DF fl sinF kF c.dx d) := by
  obtain ⟨h1, _, _⟩ := hc.fields
  have hm : ∀ d, d ∈ sched ↔ 1 ≤ d ∧ d ≤ N / 2 := by
    intro d; rw [hs.mem_iff, List.mem_range'_1]; omega
  obtain ⟨w, e1, e2, e3⟩ := storeLoop_ok (f := fun d : ℕ => Res.val (evValue1DF fl sinF kF c.dx d)) sched
    ((List.replicate (N / 2 + 1) (0 : ℝ)).set 0 filling) (fun i hi => ⟨rfl, by simp; have := (hm i).1 hi; omega⟩)
  refine ⟨w, ?_, by simpa using e2, ?_⟩
  · unfold evTable1DF assignAt
    rw [h1, if_pos (by simp), Res.bind_val, e1]
  · intro d hd
    rw [e3 d]
    by_cases h0 : d = 0
    · subst h0
      rw [if_neg (fun h => by have := (hm 0).1 h.1; omega)]
      simp
    · rw [if_pos ⟨(hm d).2 ⟨by omega, hd⟩, by simp; omega⟩, if_neg h0]

/-- The table of the program, by site. -/
theorem tableF_ok (hfl : Spec.Rounding fl u) (hu1 : u ≤ 1 / 1000) (hsin : ∀ x, |sinF x - Real.sin x| ≤ u) {N : ℕ} (hN : 1 ≤ N)
    {filling : ℝ} (h0 : 0 ≤ filling) (h1 : filling ≤ 1) {sched : List ℕ} (hs : sched.Perm (List.range' 1 (N / 2))) :
    ∃ values, evTable1DF fl sinF (Chain.real (K := ℝ) N 1) filling (fermiMomentum1DF fl filling) sched = .val values ∧
      ∃ ev : ℕ → ℕ → ℝ, Program.evFunction (Chain.real (K := ℝ) N 1) values = siteEv ev ∧
        ∀ a < N, ∀ b < N, evLookup1D (Chain.real (K := ℝ) N 1) values a b = .val (ev a b) ∧
          ApproxR u 20 (ev a b) (Spec.ringCorrelation filling N a b) 1 := by
  have hc := Chain.Constructed.real (N := N) (1 : ℝ) hN rfl
  obtain ⟨values, e1, _, e3⟩ := evTable1DF_ok (fl := fl) (sinF := sinF) hc filling (fermiMomentum1DF fl filling) hs
  refine ⟨values, e1, fun a b => match evLookup1D (Chain.real (K := ℝ) N 1) values a b with | .val x => x | _ => 0, rfl, ?_⟩
  intro a ha b hb
  set d := Spec.ringDistance N a b with hd
  have hdist : (Chain.real (K := ℝ) N 1).latticeDistance a b = d := by
    have hsp := Program.ringDistance_spec ha hb
    rw [← ringDist_spec] at hsp
    rw [hd, ← hsp]; unfold ringDist Chain.latticeDistance; rw [hc.fields.1]; rfl
  have hdN : d ≤ N / 2 := by rw [hd]; unfold Spec.ringDistance; omega
  have h2 : evLookup1D (Chain.real (K := ℝ) N 1) values a b =
      .val (if d = 0 then filling else evValue1DF fl sinF (fermiMomentum1DF fl filling) 1 d) := by
    unfold evLookup1D vecAt
    rw [hdist, e3 d hdN]
    rfl
  refine ⟨by simp only [h2], ?_⟩
  simp only [h2]
  unfold Spec.ringCorrelation
  rw [← hd]
  split_ifs with hz
  · rw [hz, Nat.cast_zero, chainCorrelation_zero]
    exact (ApproxR.exact filling).mono hfl.nonneg (by omega) (by rw [abs_of_nonneg h0]; exact h1)
  · exact evValue1DF_close hfl hu1 hsin h0 h1 hz

/-! ### The coefficients of the double sum -/

section Coefficients
variable {K : ℕ} (hfl : Spec.Rounding fl u)
include hfl

theorem approx_11 {e' e : ℝ} (h : ApproxR u K e' e 1) : ApproxR u (3 * K + 7) (fl (2 * e')) (2 * e) 34 := by
  have := ApproxR.const_mul hfl (c := 2) (by norm_num) h
  exact this.mono hfl.nonneg (by omega) (by norm_num)

theorem approx_13 {e1' e1 e2' e2 : ℝ} (p : Prop) [Decidable p] (h1 : ApproxR u K e1' e1 1) (h2 : ApproxR u K e2' e2 1) :
    ApproxR u (3 * K + 7) (fl (4 * fl ((if p then fl (e1' - 0.5) else e1') * e2'))) (4 * ((if p then e1 - 0.5 else e1) * e2)) 34 := by
  have hu := hfl.nonneg
  have h3 : ApproxR u (K + 1) (if p then fl (e1' - 0.5) else e1') (if p then e1 - 0.5 else e1) (3 / 2) := by
    split_ifs
    · have := ApproxR.sub hfl h1 ((ApproxR.exact (u := u) 0.5).mono hu (Nat.zero_le K) (show |(0.5 : ℝ)| ≤ 0.5 by norm_num [abs_le]))
      exact this.mono hu le_rfl (by norm_num)
    · exact h1.mono hu (by omega) (by norm_num)
  exact (ApproxR.const_mul hfl (c := 4) (by norm_num) (ApproxR.mul hfl h3 h2)).mono hu (by omega) (by norm_num)

theorem approx_33 {a' a b' b c' c d' d e' e : ℝ} (p q r : Prop) [Decidable p] [Decidable q] [Decidable r] (ha : ApproxR u K a' a 1)
    (hb : ApproxR u K b' b 1) (hc : ApproxR u K c' c 1) (hd : ApproxR u K d' d 1) (he : ApproxR u K e' e 1) :
    ApproxR u (3 * K + 7)
      (fl (fl (fl (fl (fl (fl (8 * a') * b') * c') + fl (fl (fl (8 * a') * d') * fl ((if r then 1 else 0) - e')))
        + (if q then fl ((if p then fl (0 - fl (fl (4 * a') * c')) else 0) - fl (fl (4 * a') * b'))
            else (if p then fl (0 - fl (fl (4 * a') * c')) else 0)))
        + (if p ∧ q then fl (0 + fl (2 * a')) else 0)))
      (8 * a * b * c + 8 * a * d * ((if r then 1 else 0) - e)
        + (if q then (if p then 0 - 4 * a * c else 0) - 4 * a * b else (if p then 0 - 4 * a * c else 0))
        + (if p ∧ q then 0 + 2 * a else 0)) 34 := by
  have hu := hfl.nonneg
  have z : ∀ k, ApproxR u k 0 0 0 := fun k => ⟨by simp, by simp⟩
  have a8 := ApproxR.const_mul hfl (c := 8) (by norm_num) ha
  have a4 := ApproxR.const_mul hfl (c := 4) (by norm_num) ha
  have a2 := ApproxR.const_mul hfl (c := 2) (by norm_num) ha
  have s1 := (ApproxR.mul hfl (ApproxR.mul hfl a8 hb) hc).mono hu (show _ ≤ 3 * K + 4 by omega) (show _ ≤ (8 : ℝ) by norm_num)
  have s2 : ApproxR u (K + 1) (fl ((if r then 1 else 0) - e')) ((if r then 1 else 0) - e) 2 := by
    have h1 : ApproxR u K (if r then 1 else 0 : ℝ) (if r then 1 else 0) 1 := by
      refine (ApproxR.exact _).mono hu (Nat.zero_le K) ?_
      split_ifs <;> simp
    exact (ApproxR.sub hfl h1 he).mono hu le_rfl (by norm_num)
  have s3 := (ApproxR.mul hfl (ApproxR.mul hfl a8 hd) s2).mono hu (show _ ≤ 3 * K + 4 by omega) (show _ ≤ (16 : ℝ) by norm_num)
  have s4 := ApproxR.add hfl s1 s3
  have t1 : ApproxR u (2 * K + 3) (if p then fl (0 - fl (fl (4 * a') * c')) else 0) (if p then 0 - 4 * a * c else 0) 4 := by
    split_ifs
    · exact (ApproxR.sub hfl (z (2 * K + 2)) ((ApproxR.mul hfl a4 hc).mono hu (by omega) le_rfl)).mono hu le_rfl (by norm_num)
    · exact (z (2 * K + 3)).mono hu le_rfl (by norm_num)
  have t2 : ApproxR u (2 * K + 4) (if q then fl ((if p then fl (0 - fl (fl (4 * a') * c')) else 0) - fl (fl (4 * a') * b'))
      else (if p then fl (0 - fl (fl (4 * a') * c')) else 0))
      (if q then (if p then 0 - 4 * a * c else 0) - 4 * a * b else (if p then 0 - 4 * a * c else 0)) 8 := by
    by_cases hq : q
    · rw [if_pos hq, if_pos hq]
      exact (ApproxR.sub hfl t1 ((ApproxR.mul hfl a4 hb).mono hu (by omega) le_rfl)).mono hu le_rfl (by norm_num)
    · rw [if_neg hq, if_neg hq]
      exact t1.mono hu (by omega) (by norm_num)
  have t3 : ApproxR u (K + 2) (if p ∧ q then fl (0 + fl (2 * a')) else 0) (if p ∧ q then 0 + 2 * a else 0) 2 := by
    split_ifs
    · exact (ApproxR.add hfl (z (K + 1)) a2).mono hu le_rfl (by norm_num)
    · exact (z (K + 2)).mono hu le_rfl (by norm_num)
  have r1 := ApproxR.add hfl s4 (t2.mono hu (show _ ≤ 3 * K + 4 + 1 by omega) le_rfl)
  have r2 := ApproxR.add hfl r1 (t3.mono hu (show _ ≤ 3 * K + 4 + 1 + 1 by omega) le_rfl)
  exact r2.mono hu (by omega) (by norm_num)

end Coefficients

/-- The computed coefficients `f(basis[i], conjugate_basis[j])` and their exact values `2 E i j`, in units of `34`. -/
structure WeightsF (u : ℝ) (k : ℕ) (f11 f13 f33 : HMonomial → HMonomial → Res ℝ) (basis cb : List HMonomial) (N size : ℕ)
    (E E' : ℕ → ℕ → ℝ) : Prop where
  e11 : ∀ i j, i < N → j < N → evAt basis cb f11 i j = .val (E' i j)
  e13 : ∀ i j, i < N → N ≤ j → j < size → evAt basis cb f13 i j = .val (E' i j)
  e33 : ∀ i j, N ≤ i → i < size → N ≤ j → j < size → evAt basis cb f33 i j = .val (E' i j)
  close : ∀ i < size, ∀ j < size, i < N ∨ N ≤ j → ApproxR u k (E' i j) (2 * E i j) 34

theorem weightsF_ok (hfl : Spec.Rounding fl u) {N K : ℕ} {ev ev' : ℕ → ℕ → ℝ} (h : ∀ a < N, ∀ b < N, ApproxR u K (ev' a b) (ev a b) 1) :
    ∃ E', WeightsF u (3 * K + 7) (ev11F fl (siteEv ev')) (ev13F fl (siteEv ev')) (ev33F fl (siteEv ev')) (basis3 N) (conjOf (basis3 N)) N
      (N + N * N * N) (weight ev (basis3 N)) E' := by
  have key : ∀ p q, p < N + N * N * N → q < N + N * N * N → p < N ∨ N ≤ q →
      ∃ x', (q < N → evAt (basis3 N) (conjOf (basis3 N)) (ev11F fl (siteEv ev')) p q = .val x') ∧
        (p < N → N ≤ q → evAt (basis3 N) (conjOf (basis3 N)) (ev13F fl (siteEv ev')) p q = .val x') ∧
        (N ≤ p → evAt (basis3 N) (conjOf (basis3 N)) (ev33F fl (siteEv ev')) p q = .val x') ∧
        ApproxR u (3 * K + 7) x' (2 * weight ev (basis3 N) p q) 34 := by
    intro p q hp hq hpq
    rcases basis3_cases hp with ⟨i, hpi, hi, e⟩ | ⟨a, b, c, hNp, ha, hb, hc, e⟩ <;>
      rcases basis3_cases hq with ⟨j, hqj, hj, e'⟩ | ⟨a', b', c', hNq, ha', hb', hc', e'⟩
    · refine ⟨fl (2 * ev' i j), fun _ => ?_, fun _ h2 => absurd h2 (by omega), fun h2 => absurd h2 (by omega), ?_⟩
      · rw [evAt, vecAt_get e, vecAt_get (conj_get e')]; rfl
      · rw [weight, e, e']
        exact approx_11 hfl (h i hi j hj)
    · refine ⟨fl (4 * fl ((if c' = b' then fl (ev' c' b' - 0.5) else ev' c' b') * ev' i a')), fun h2 => absurd h2 (by omega), fun _ _ => ?_,
        fun h2 => absurd h2 (by omega), ?_⟩
      · rw [evAt, vecAt_get e, vecAt_get (conj_get e')]; rfl
      · have := approx_13 hfl (c' = b') (h c' hc' b' hb') (h i hi a' ha')
        have e2 : 2 * weight ev (basis3 N) p q = 4 * ((if c' = b' then ev c' b' - 0.5 else ev c' b') * ev i a') := by
          rw [weight, e, e']
          simp only [Spec.one, Spec.three]
          rcases eq_or_ne c' b' with h2 | h2
          · subst h2; simp; ring
          · rw [if_neg h2, if_neg (Ne.symm h2)]; ring
        rw [e2]; exact this
    · omega
    · have := approx_33 hfl (b = c) (c' = b') (c = c') (h a ha a' ha') (h b hb c hc) (h c' hc' b' hb') (h b hb b' hb') (h c' hc' c hc)
      have e2 : (8 * ev a a' * ev b c * ev c' b' + 8 * ev a a' * ev b b' * ((if c = c' then 1 else 0) - ev c' c)
          + (if c' = b' then (if b = c then 0 - 4 * ev a a' * ev c' b' else 0) - 4 * ev a a' * ev b c
              else (if b = c then 0 - 4 * ev a a' * ev c' b' else 0))
          + (if b = c ∧ c' = b' then 0 + 2 * ev a a' else 0)) = 2 * weight ev (basis3 N) p q := by
        have e3 := code_33 (ev := ev) ha hb hc ha' hb' hc' e e'
        rw [evAt, vecAt_get e, vecAt_get (conj_get e')] at e3
        rw [weight, e, e']
        exact Res.val.inj e3
      rw [e2] at this
      refine ⟨_, fun h2 => absurd h2 (by omega), fun h2 => absurd h2 (by omega), fun _ => ?_, this⟩
      rw [evAt, vecAt_get e, vecAt_get (conj_get e')]; rfl
  choose! E' hE' using key
  refine ⟨E', ⟨fun i j hi hj => (hE' i j (by omega) (by omega) (.inl hi)).1 hj,
    fun i j hi hN hj => (hE' i j (by omega) hj (.inl hi)).2.1 hi hN,
    fun i j hi hi' hj hj' => (hE' i j hi' hj' (.inr hj)).2.2.1 hi, fun i hi j hj hij => (hE' i j hi hj hij).2.2.2⟩⟩

end Ieompp.RealSpace
