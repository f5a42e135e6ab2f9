import Verif.Props.Binary64Grid
import Verif.Props.Binary64JumpProgram

/-! # C122: the lattice and the basis -/

set_option autoImplicit false
set_option linter.unusedSectionVars false

namespace Ieompp.IEEE

open Ieompp.Spec MomentumSpace

theorem double_le_pow {x : ℝ} {k : ℕ} (h : |x| ≤ 2 ^ k) : |double x| ≤ 2 ^ k := by
  have h1 : double ((2 : ℝ) ^ k) = 2 ^ k := by
    have := double_fix (m := 1) (e := k) (by norm_num)
    rwa [Int.cast_one, one_mul, zpow_natCast] at this
  rw [abs_double]
  calc double |x| ≤ double (2 ^ k) := double_monotone h
    _ = 2 ^ k := h1

theorem pow_le_huge {k : ℕ} (hk : k ≤ 1023) : (2 : ℝ) ^ k ≤ 2 ^ 1023 := pow_le_pow_right₀ one_le_two hk

/-- A sum of moderate numbers. -/
theorem sum_ok {x : ℝ} (hx : OnGrid x) {k : ℕ} (hk : k ≤ 1023) (h : |x| ≤ 2 ^ k) :
    binary64 x = .val (double x) ∧ OnGrid (double x) ∧ |double x| ≤ 2 ^ k := by
  obtain ⟨h1, h2⟩ := binary64_sum hx (h.trans (pow_le_huge hk))
  exact ⟨h1, h2, double_le_pow h⟩

theorem regular_ok {x : ℝ} (hx : x = 0 ∨ 1 / 2 ^ 1022 ≤ |x|) {k : ℕ} (hk : k ≤ 1023) (h : |x| ≤ 2 ^ k) :
    binary64 x = .val (double x) ∧ OnGrid (double x) ∧ |double x| ≤ 2 ^ k := by
  obtain ⟨h1, h2⟩ := binary64_regular hx (h.trans (pow_le_huge hk))
  exact ⟨h1, h2, double_le_pow h⟩

theorem tiny_le {k : ℕ} (hk : k ≤ 1022) : (1 : ℝ) / 2 ^ 1022 ≤ 1 / 2 ^ k :=
  one_div_le_one_div_of_le (pow_pos two_pos _) (pow_le_pow_right₀ one_le_two hk)

variable {p : ℝ} {N : ℕ}

theorem dx_bounds (hp : 1 ≤ p) (hp' : p ≤ 4) (hN : 0 < N) (hN' : N ≤ 1024) :
    1 / 2 ^ 10 ≤ (Chain.momentumF double p N).dx ∧ (Chain.momentumF double p N).dx ≤ 9 := by
  have hNr : (1 : ℝ) ≤ N := by exact_mod_cast hN
  have hNr' : (N : ℝ) ≤ 1024 := by exact_mod_cast hN'
  obtain ⟨h1, h2⟩ := Chain.momentumF_dx (u := 1 / 2 ^ 53) double_rounding (by linarith : 0 < p) hN
  have h3 : 1 / 2 ^ 9 ≤ 2 * p / N := by
    rw [div_le_div_iff₀ (by norm_num) (by linarith)]
    linarith
  have h4 : 2 * p / N ≤ 8 := by
    rw [div_le_iff₀ (by linarith)]
    nlinarith
  constructor
  · refine le_trans ?_ h1
    norm_num at h3 ⊢
    linarith
  · refine h2.trans ?_
    norm_num
    linarith

/-- The lattice. -/
theorem momentumR_ok (hp : 1 ≤ p) (hp' : p ≤ 4) (hN : 0 < N) (hN' : N ≤ 1024) :
    momentumR binary64 p N = .val (Chain.momentumF double p N) ∧ OnGrid (Chain.momentumF double p N).dx := by
  have hNr : (1 : ℝ) ≤ N := by exact_mod_cast hN
  have hNr' : (N : ℝ) ≤ 1024 := by exact_mod_cast hN'
  have h0 : 0 < 2 * p / (N : ℝ) := by positivity
  have h3 : 1 / 2 ^ 10 ≤ 2 * p / (N : ℝ) := by
    rw [div_le_div_iff₀ (by norm_num) (by linarith)]
    linarith
  have h4 : 2 * p / (N : ℝ) ≤ 2 ^ 3 := by
    rw [div_le_iff₀ (by linarith)]
    nlinarith
  obtain ⟨r1, r2, -⟩ := regular_ok (x := 2 * p / (N : ℝ)) (k := 3) (.inr (by rw [abs_of_pos h0]; exact (tiny_le (by norm_num)).trans h3)) (by norm_num)
    (by rw [abs_of_pos h0]; exact h4)
  refine ⟨?_, r2⟩
  unfold momentumR divR
  rw [binary64_exact (isBinary64_nat (by omega)), Res.bind_val, if_neg (by positivity), r1]
  rfl

theorem posF_abs (hp : 1 ≤ p) (hp' : p ≤ 4) (hN : 0 < N) (hN' : N ≤ 1024) {i : ℕ} (hi : i < N) :
    |(Chain.momentumF double p N).posF double i| ≤ 5 := by
  have hNr' : (N : ℝ) ≤ 1024 := by exact_mod_cast hN'
  have := Chain.posF_bound (u := 1 / 2 ^ 53) double_rounding (by linarith : 0 < p) hN (by norm_num; linarith) hi
  linarith

/-- The momenta. -/
theorem coordinateR_ok (hp : 1 ≤ p) (hp' : p ≤ 4) (hg : OnGrid p) (hN : 0 < N) (hN' : N ≤ 1024) {i : ℕ} (hi : i < N) :
    coordinateR binary64 (Chain.momentumF double p N).xMin (Chain.momentumF double p N).dx i = .val ((Chain.momentumF double p N).posF double i) ∧
      OnGrid ((Chain.momentumF double p N).posF double i) := by
  obtain ⟨d1, d2⟩ := dx_bounds hp hp' hN hN'
  unfold Chain.posF
  set dx := (Chain.momentumF double p N).dx with hdx
  have hir' : (i : ℝ) ≤ 1024 := by exact_mod_cast (by omega : i ≤ 1024)
  have hd0 : 0 < dx := lt_of_lt_of_le (by norm_num) d1
  obtain ⟨r1, r2, r3⟩ := regular_ok (x := (i : ℝ) * dx) (k := 14) (by
      rcases Nat.eq_zero_or_pos i with h | h
      · left; rw [h]; simp
      · right
        have hir : (1 : ℝ) ≤ i := by exact_mod_cast h
        rw [abs_of_pos (by positivity)]
        refine (tiny_le (k := 10) (by norm_num)).trans ?_
        nlinarith) (by norm_num) (by
      rw [abs_of_nonneg (by positivity)]
      nlinarith)
  have e : (Chain.momentumF double p N).xMin = -p := rfl
  rw [e]
  obtain ⟨s1, s2, -⟩ := sum_ok (x := -p + double (i * dx)) (hg.neg.add r2) (k := 15) (by norm_num) (by
    have := abs_add_le (-p) (double (i * dx))
    rw [abs_neg, abs_of_pos (by linarith : 0 < p)] at this
    norm_num at r3 ⊢; linarith)
  refine ⟨?_, s2⟩
  unfold coordinateR
  rw [binary64_exact (isBinary64_nat (by omega)), Res.bind_val, r1, Res.bind_val, s1]

/-- Finding a site. -/
theorem lookupR_ok (hp : 1 ≤ p) (hp' : p ≤ 4) (hg : OnGrid p) (hN : 0 < N) (hN' : N ≤ 1024) {v : ℝ} (hv : OnGrid v) (hv' : |v| ≤ 2 ^ 20) :
    lookupR binary64 (Chain.momentumF double p N) v = (Chain.momentumF double p N).lookupF double v := by
  obtain ⟨d1, d2⟩ := dx_bounds hp hp' hN hN'
  unfold lookupR Chain.lookupF
  have e1 : (Chain.momentumF double p N).xMin = -p := rfl
  have e2 : (Chain.momentumF double p N).xMax = p := rfl
  have e3 : (Chain.momentumF double p N).xLength = 2 * p := rfl
  rw [e1, e2, e3]
  set dx := (Chain.momentumF double p N).dx with hdx
  have hd0 : 0 < dx := lt_of_lt_of_le (by norm_num) d1
  have hg2 : OnGrid (2 * p) := by rw [two_mul]; exact hg.add hg
  congr 1
  unfold coordIndexR coordIndexF
  obtain ⟨l1, l1'⟩ := loopR_link (cond := fun v => v < -p) (body := fun v => binary64 (v + 2 * p)) (bodyF := fun v => double (v + 2 * p))
    (fun v => OnGrid v ∧ |v| ≤ 2 ^ 20) (fun x hx hc => by
      obtain ⟨h1, h2, h3⟩ := sum_ok (x := x + 2 * p) (hx.1.add hg2) (k := 20) (by norm_num) (by
        have := hx.2
        rw [abs_le] at this ⊢
        norm_num at this ⊢
        constructor <;> linarith)
      exact ⟨h1, h2, h3⟩) ⟨hv, hv'⟩
  rw [l1]
  cases hw : whileLoop (fun v => v < -p) (fun v => double (v + 2 * p)) v with
  | ub => rfl
  | diverges => rfl
  | val w =>
    obtain ⟨w1, w2⟩ := l1' w hw
    rw [Res.bind_val, Res.bind_val]
    obtain ⟨l2, l2'⟩ := loopR_link (cond := fun v => v > p) (body := fun v => binary64 (v - 2 * p)) (bodyF := fun v => double (v - 2 * p))
      (fun v => OnGrid v ∧ |v| ≤ 2 ^ 20) (fun x hx hc => by
        obtain ⟨h1, h2, h3⟩ := sum_ok (x := x - 2 * p) (hx.1.sub hg2) (k := 20) (by norm_num) (by
          have := hx.2
          rw [abs_le] at this ⊢
          norm_num at this ⊢
          constructor <;> linarith)
        exact ⟨h1, h2, h3⟩) ⟨w1, w2⟩
    rw [l2]
    cases hx : whileLoop (fun v => v > p) (fun v => double (v - 2 * p)) w with
    | ub => rfl
    | diverges => rfl
    | val x =>
      obtain ⟨x1, x2⟩ := l2' x hx
      rw [Res.bind_val, Res.bind_val]
      obtain ⟨h1, h2, h3⟩ := sum_ok (x := x - -p) (x1.sub hg.neg) (k := 21) (by norm_num) (by
        rw [abs_le] at x2 ⊢
        norm_num at x2 ⊢
        constructor <;> linarith)
      rw [h1, Res.bind_val]
      unfold divR
      rw [if_neg hd0.ne', binary64_value (by
        refine le_trans ?_ (pow_le_huge (k := 31) (by norm_num))
        rw [abs_div, abs_of_pos hd0, div_le_iff₀ hd0]
        norm_num at h3 d1 ⊢; linarith), Res.bind_val, cround_value]

theorem thirdR_ok (hp : 1 ≤ p) (hp' : p ≤ 4) (hg : OnGrid p) (hN : 0 < N) (hN' : N ≤ 1024) {q i j : ℕ} (hq : q < N) (hi : i < N) (hj : j < N) :
    thirdR binary64 (Chain.momentumF double p N) q i j = (Chain.momentumF double p N).lookupF double
      (double (double ((Chain.momentumF double p N).posF double i + (Chain.momentumF double p N).posF double j) - (Chain.momentumF double p N).posF double q)) := by
  obtain ⟨a1, a2⟩ := coordinateR_ok hp hp' hg hN hN' hi
  obtain ⟨b1, b2⟩ := coordinateR_ok hp hp' hg hN hN' hj
  obtain ⟨c1, c2⟩ := coordinateR_ok hp hp' hg hN hN' hq
  have a3 := posF_abs hp hp' hN hN' hi
  have b3 := posF_abs hp hp' hN hN' hj
  have c3 := posF_abs hp hp' hN hN' hq
  unfold thirdR
  rw [a1, Res.bind_val, b1, Res.bind_val, c1, Res.bind_val]
  set x := (Chain.momentumF double p N).posF double i
  set y := (Chain.momentumF double p N).posF double j
  set z := (Chain.momentumF double p N).posF double q
  obtain ⟨s1, s2, s3⟩ := sum_ok (x := x + y) (a2.add b2) (k := 4) (by norm_num) (by have := abs_add_le x y; norm_num; linarith)
  obtain ⟨t1, t2, t3⟩ := sum_ok (x := double (x + y) - z) (s2.sub c2) (k := 5) (by norm_num) (by have := abs_sub (double (x + y)) z; norm_num at s3 ⊢; linarith)
  rw [s1, Res.bind_val, t1, Res.bind_val]
  exact lookupR_ok hp hp' hg hN hN' t2 (t3.trans (by norm_num))

/-- The basis. -/
theorem momentumBasis3R_ok (hp : 1 ≤ p) (hp' : p ≤ 4) (hg : OnGrid p) (hN : 0 < N) (hN' : N ≤ 1024) {q : ℕ} (hq : q < N) :
    momentumBasis3R binary64 q (Chain.momentumF double p N) = .val (Spec.entries N q) := by
  have hp0 : 0 < p := by linarith
  rw [← momentumBasis_eq p hp0 N hN q, ← momentumBasisF_double hp0 hN (by omega) hq]
  unfold momentumBasis3R basis3F
  congr 2
  refine List.flatMap_congr fun i hi => List.map_congr_left fun j hj => ?_
  rw [thirdR_ok hp hp' hg hN hN' hq (List.mem_range.1 hi) (List.mem_range.1 hj)]

theorem doublePi_setup : 1 ≤ double Real.pi ∧ double Real.pi ≤ 4 ∧ OnGrid (double Real.pi) := by
  have h1 := Hubbard.doublePi_lt
  have h2 := Hubbard.doublePi_close
  have h3 := Real.pi_gt_three
  have h4 := Real.pi_lt_four
  rw [Hubbard.doublePi_eq]
  refine ⟨?_, by linarith, ?_⟩
  · norm_num at h2; linarith
  · unfold doublePi
    have := onGrid_digits (m := 7074237752028440) (e := -51) (by norm_num)
    simpa using this

end Ieompp.IEEE
