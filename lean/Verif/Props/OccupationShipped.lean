import Verif.Props.ProgramDouble
import Verif.Props.Occupation
import Verif.Props.JumpDouble

/-! # C109: the occupation programs with the parameters they are shipped with

A bound on the row sums of the expectation values of the basis operators makes the error bound of C109 a number. -/

set_option autoImplicit false
set_option linter.unusedSectionVars false

namespace Ieompp.Program

open Ieompp.Spec RealSpace ODE

theorem sum_basis3 {M : Type*} [AddCommMonoid M] (N : ℕ) (f : ℕ → M) :
    ∑ p ∈ Finset.range (N + N * N * N), f p = ∑ i ∈ Finset.range N, f i +
      ∑ a ∈ Finset.range N, ∑ b ∈ Finset.range N, ∑ c ∈ Finset.range N, f (RealSpace.get3opIndex N a b c) := by
  rw [Finset.sum_range_add]
  congr 1
  rw [mul_assoc, sum_range_mul N (N * N)]
  refine Finset.sum_congr rfl fun i _ => ?_
  rw [sum_range_mul N N]
  refine Finset.sum_congr rfl fun j _ => Finset.sum_congr rfl fun k _ => ?_
  unfold RealSpace.get3opIndex
  rw [show N + (N * N * i + (N * j + k)) = N + N * N * i + N * j + k by ring]

theorem sum3_mul (N : ℕ) (f : ℕ → ℝ) (g : ℕ → ℕ → ℝ) :
    ∑ a ∈ Finset.range N, ∑ b ∈ Finset.range N, ∑ c ∈ Finset.range N, f a * g b c =
      (∑ a ∈ Finset.range N, f a) * ∑ b ∈ Finset.range N, ∑ c ∈ Finset.range N, g b c := by
  rw [Finset.sum_mul]
  refine Finset.sum_congr rfl fun a _ => ?_
  rw [Finset.mul_sum]
  exact Finset.sum_congr rfl fun b _ => by rw [Finset.mul_sum]

/-- The row sums of the expectation values of the pairs of basis operators. -/
theorem weight_rows {N : ℕ} {ev : ℕ → ℕ → ℝ} {s T s' : ℝ} (hsym : ∀ a < N, ∀ b < N, ev a b = ev b a)
    (hs : ∀ a < N, ∑ b ∈ Finset.range N, |ev a b| ≤ s) (h1 : ∀ a < N, ∀ b < N, |2 * ev a b - if a = b then 1 else 0| ≤ 1)
    (hT : ∀ a < N, ∑ b ∈ Finset.range N, |2 * ev a b - if a = b then 1 else 0| ≤ T)
    (hs' : ∀ a < N, ∑ b ∈ Finset.range N, |(if a = b then 1 else 0) - ev a b| ≤ s') {p : ℕ} (hp : p < N + N * N * N) :
    ∑ q ∈ Finset.range (N + N * N * N), |weight ev (basis3 N) p q| ≤ s * (1 + N * T + 4 * (s * s')) := by
  have hN : 0 < N := by
    rcases Nat.eq_zero_or_pos N with h | h
    · subst h; simp at hp
    · exact h
  have s0 : 0 ≤ s := (Finset.sum_nonneg fun _ _ => abs_nonneg _).trans (hs 0 hN)
  have s0' : 0 ≤ s' := (Finset.sum_nonneg fun _ _ => abs_nonneg _).trans (hs' 0 hN)
  have hTT : ∑ b ∈ Finset.range N, ∑ c ∈ Finset.range N, |2 * ev b c - if b = c then 1 else 0| ≤ N * T := by
    refine (Finset.sum_le_sum fun b hb => hT b (Finset.mem_range.1 hb)).trans (le_of_eq ?_)
    simp
  have hTT0 : 0 ≤ ∑ b ∈ Finset.range N, ∑ c ∈ Finset.range N, |2 * ev b c - if b = c then 1 else 0| :=
    Finset.sum_nonneg fun _ _ => Finset.sum_nonneg fun _ _ => abs_nonneg _
  have hss : 0 ≤ s * s' := mul_nonneg s0 s0'
  rw [sum_basis3]
  rcases basis3_cases hp with ⟨i, -, hi, h⟩ | ⟨a, b, c, -, ha, hb, hc, h⟩
  · have e1 : ∑ j ∈ Finset.range N, |weight ev (basis3 N) p j| = ∑ j ∈ Finset.range N, |ev i j| :=
      Finset.sum_congr rfl fun j hj => by
        rw [weight, h, ((realBasis_getElem N).1 j (Finset.mem_range.1 hj)).2]; rfl
    have e2 : ∑ a ∈ Finset.range N, ∑ b ∈ Finset.range N, ∑ c ∈ Finset.range N, |weight ev (basis3 N) p (RealSpace.get3opIndex N a b c)| =
        (∑ a ∈ Finset.range N, |ev i a|) * ∑ b ∈ Finset.range N, ∑ c ∈ Finset.range N, |2 * ev b c - if b = c then 1 else 0| := by
      rw [← sum3_mul]
      refine Finset.sum_congr rfl fun a ha => Finset.sum_congr rfl fun b hb => Finset.sum_congr rfl fun c hc => ?_
      rw [Finset.mem_range] at ha hb hc
      rw [weight, h, (realBasis_getElem N).2 a b c ha hb hc]
      simp only [Spec.one, Spec.three]
      rw [abs_mul, mul_comm, hsym c hc b hb]
    rw [e1, e2]
    have h2 : (∑ a ∈ Finset.range N, |ev i a|) * ∑ b ∈ Finset.range N, ∑ c ∈ Finset.range N, |2 * ev b c - if b = c then 1 else 0| ≤ s * (N * T) :=
      mul_le_mul (hs i hi) hTT hTT0 s0
    have h3 := hs i hi
    have h4 : 0 ≤ s * (4 * (s * s')) := by positivity
    nlinarith
  · have e1 : ∑ j ∈ Finset.range N, |weight ev (basis3 N) p j| ≤ s := by
      refine le_trans (Finset.sum_le_sum (g := fun j => |ev a j|) fun j hj => ?_) (hs a ha)
      rw [weight, h, ((realBasis_getElem N).1 j (Finset.mem_range.1 hj)).2]
      simp only [Spec.one, Spec.three]
      rw [abs_mul]
      exact mul_le_of_le_one_left (abs_nonneg _) (h1 b hb c hc)
    have e2 : ∑ a' ∈ Finset.range N, ∑ b' ∈ Finset.range N, ∑ c' ∈ Finset.range N, |weight ev (basis3 N) p (RealSpace.get3opIndex N a' b' c')| ≤
        (∑ a' ∈ Finset.range N, |ev a a'|) * ∑ b' ∈ Finset.range N, ∑ c' ∈ Finset.range N,
          (|2 * ev b' c' - if b' = c' then 1 else 0| + 4 * (|ev b b'| * |(if c = c' then 1 else 0) - ev c c'|)) := by
      rw [← sum3_mul]
      refine Finset.sum_le_sum fun a' ha' => Finset.sum_le_sum fun b' hb' => Finset.sum_le_sum fun c' hc' => ?_
      rw [Finset.mem_range] at ha' hb' hc'
      have : weight ev (basis3 N) p (RealSpace.get3opIndex N a' b' c') = ev a a' * ((2 * ev b c - if b = c then 1 else 0) * (2 * ev b' c' - if b' = c' then 1 else 0) +
          4 * (ev b b' * ((if c = c' then 1 else 0) - ev c c'))) := by
        rw [weight, h, (realBasis_getElem N).2 a' b' c' ha' hb' hc']
        simp only [Spec.three]
        rw [hsym c' hc' b' hb', hsym c' hc' c hc]
        split_ifs <;> ring
      rw [this, abs_mul]
      refine mul_le_mul_of_nonneg_left ((abs_add_le _ _).trans (add_le_add ?_ (le_of_eq ?_))) (abs_nonneg _)
      · rw [abs_mul]
        exact mul_le_of_le_one_left (abs_nonneg _) (h1 b hb c hc)
      · rw [abs_mul, abs_mul, abs_of_nonneg (by norm_num : (0 : ℝ) ≤ 4)]
    have e3 : ∑ b' ∈ Finset.range N, ∑ c' ∈ Finset.range N,
          (|2 * ev b' c' - if b' = c' then 1 else 0| + 4 * (|ev b b'| * |(if c = c' then 1 else 0) - ev c c'|)) ≤ N * T + 4 * (s * s') := by
      simp only [Finset.sum_add_distrib, ← Finset.mul_sum]
      refine add_le_add hTT ?_
      rw [← Finset.sum_mul]
      have := mul_le_mul (hs b hb) (hs' c hc) (Finset.sum_nonneg fun _ _ => abs_nonneg _) s0
      linarith
    have e4 : 0 ≤ ∑ b' ∈ Finset.range N, ∑ c' ∈ Finset.range N,
          (|2 * ev b' c' - if b' = c' then 1 else 0| + 4 * (|ev b b'| * |(if c = c' then 1 else 0) - ev c c'|)) :=
      Finset.sum_nonneg fun _ _ => Finset.sum_nonneg fun _ _ => by positivity
    have e5 := e2.trans (mul_le_mul (hs a ha) e3 e4 s0)
    linarith

/-- A bound on the correlations at half filling. -/
def halfBound (d : ℕ) : ℚ := if d = 0 then 1 / 2 else if d % 2 = 0 then 0 else 50 / (157 * d)

theorem half_correlation (N a b : ℕ) :
    (ringDistance N a b = 0 → ringCorrelation (1 / 2) N a b = 1 / 2) ∧ |ringCorrelation (1 / 2) N a b| ≤ halfBound (ringDistance N a b) := by
  unfold ringCorrelation
  generalize ringDistance N a b = d
  have h0 : chainCorrelation (1 / 2 * Real.pi) ((0 : ℕ) : ℝ) = 1 / 2 := by rw [Nat.cast_zero, chainCorrelation_zero]
  refine ⟨fun h => by rw [h, h0], ?_⟩
  unfold halfBound
  split_ifs with h h'
  · rw [h, h0, abs_of_pos] <;> norm_num
  · obtain ⟨e, rfl⟩ : ∃ e, d = 2 * (e + 1) := ⟨d / 2 - 1, by omega⟩
    rw [(half_filling_values e).2]; simp
  · obtain ⟨e, rfl⟩ : ∃ e, d = 2 * e + 1 := ⟨d / 2, by omega⟩
    rw [(half_filling_values e).1, abs_mul, abs_of_pos (by positivity : (0 : ℝ) < 1 / Real.pi), abs_div, abs_pow, abs_neg, abs_one, one_pow,
      abs_of_pos (by positivity : (0 : ℝ) < 2 * (e : ℝ) + 1)]
    push_cast
    have hpi : 1 / Real.pi ≤ 50 / 157 := by
      rw [div_le_div_iff₀ Real.pi_pos (by norm_num)]
      have := Real.pi_gt_d2
      linarith
    calc 1 / Real.pi * (1 / (2 * (e : ℝ) + 1)) ≤ 50 / 157 * (1 / (2 * (e : ℝ) + 1)) := by gcongr
      _ = 50 / (157 * (2 * e + 1)) := by field_simp

theorem half_rows16 : ∀ a < 16, ∑ b ∈ Finset.range 16, halfBound (ringDistance 16 a b) ≤ 1568 / 1000 := by decide +kernel

theorem ringDistance_zero16 : ∀ a < 16, ∀ b < 16, ringDistance 16 a b = 0 ↔ a = b := by decide

theorem halfBound_le (d : ℕ) : halfBound d ≤ 1 / 2 := by
  unfold halfBound
  split_ifs with h h'
  · norm_num
  · norm_num
  · have : (1 : ℚ) ≤ d := by exact_mod_cast (by omega : 1 ≤ d)
    rw [div_le_div_iff₀ (by positivity) (by norm_num)]
    linarith

/-- The row sums for 16 sites at half filling. -/
theorem half_rows {a : ℕ} (ha : a < 16) : ∑ b ∈ Finset.range 16, |ringCorrelation (1 / 2) 16 a b| ≤ 1568 / 1000 := by
  have h1 : ∑ b ∈ Finset.range 16, |ringCorrelation (1 / 2) 16 a b| ≤ ∑ b ∈ Finset.range 16, (halfBound (ringDistance 16 a b) : ℝ) :=
    Finset.sum_le_sum fun b _ => (half_correlation 16 a b).2
  have h2 : ((∑ b ∈ Finset.range 16, halfBound (ringDistance 16 a b) : ℚ) : ℝ) ≤ ((1568 / 1000 : ℚ) : ℝ) := by
    exact_mod_cast half_rows16 a ha
  push_cast at h2
  exact h1.trans h2

theorem half_twice {a b : ℕ} (ha : a < 16) (hb : b < 16) :
    |2 * ringCorrelation (1 / 2) 16 a b - if a = b then 1 else 0| = 2 * |ringCorrelation (1 / 2) 16 a b| - if a = b then 1 else 0 := by
  split_ifs with h
  · rw [(half_correlation 16 a b).1 ((ringDistance_zero16 a ha b hb).2 h)]; norm_num
  · rw [sub_zero, sub_zero, abs_mul, abs_of_pos (by norm_num : (0 : ℝ) < 2)]

theorem half_rest {a b : ℕ} (ha : a < 16) (hb : b < 16) :
    |(if a = b then 1 else 0) - ringCorrelation (1 / 2) 16 a b| = |ringCorrelation (1 / 2) 16 a b| := by
  split_ifs with h
  · rw [(half_correlation 16 a b).1 ((ringDistance_zero16 a ha b hb).2 h)]; norm_num
  · rw [zero_sub, abs_neg]

/-- The row sums of the expectation values of the pairs of basis operators, for 16 sites at half filling: at most 71. -/
theorem half_weights {p : ℕ} (hp : p < 16 + 16 * 16 * 16) :
    ∑ q ∈ Finset.range (16 + 16 * 16 * 16), |weight (ringCorrelation (1 / 2) 16) (basis3 16) p q| ≤ 71 := by
  refine (weight_rows (N := 16) (ev := ringCorrelation (1 / 2) 16) (s := 1568 / 1000) (T := 2136 / 1000) (s' := 1568 / 1000)
    (fun a _ b _ => ringCorrelation_symm _ _ a b) (fun a ha => half_rows ha) (fun a ha b hb => ?_) (fun a ha => ?_) (fun a ha => ?_) hp).trans (by norm_num)
  · rw [half_twice ha hb]
    have h1 := (half_correlation 16 a b).2
    have h2 : ((halfBound (ringDistance 16 a b) : ℚ) : ℝ) ≤ ((1 / 2 : ℚ) : ℝ) := by exact_mod_cast halfBound_le _
    push_cast at h2
    split_ifs <;> linarith
  · rw [Finset.sum_congr rfl fun b hb => half_twice ha (Finset.mem_range.1 hb), Finset.sum_sub_distrib, ← Finset.mul_sum, Finset.sum_ite_eq,
      if_pos (Finset.mem_range.2 ha)]
    have := half_rows ha
    linarith
  · rw [Finset.sum_congr rfl fun b hb => half_rest ha (Finset.mem_range.1 hb)]
    exact half_rows ha

/-! ### The shipped parameters -/

theorem double_hundredth : |double (1 / 100) - 1 / 100| ≤ 1 / 10 ^ 15 := by
  refine (double_err _).trans ?_
  rw [abs_of_pos (by norm_num)]
  norm_num

/-- With the shipped step width and end time there are 1000 or 1001 steps. -/
theorem shipped_steps {dt : ℝ} (h : |dt - 1 / 100| ≤ 1 / 10 ^ 15) {k : ℕ} (h1 : ⌈(10 - dt / 16) / dt⌉₊ ≤ k) (h2 : k ≤ ⌈(10 + dt / 16) / dt⌉₊) :
    k / max 100 1 + 1 = 11 := by
  obtain ⟨ha, hb⟩ := abs_le.1 h
  have hdt : 0 < dt := by norm_num at ha; linarith
  have l1 : 1000 ≤ k := by
    refine le_trans ?_ h1
    have : (999 : ℝ) < (10 - dt / 16) / dt := by rw [lt_div_iff₀ hdt]; norm_num at hb; linarith
    exact Nat.lt_ceil.2 (by exact_mod_cast this)
  have l2 : k ≤ 1001 := by
    refine h2.trans (Nat.ceil_le.2 ?_)
    rw [div_le_iff₀ hdt]; norm_num at ha ⊢; linarith
  rw [show max 100 1 = 100 from rfl]
  omega

theorem shipped_vector {x : ℝ} (h0 : 0 ≤ x) (h : x ≤ 7001 / 100000) {k : ℕ} (hk : k ≤ 1000) : vectorErrorDouble x k ≤ 1510 / 10 ^ 8 := by
  have h1 : Real.exp x ≤ 1.0726 := by
    refine (Real.exp_le_exp.2 h).trans ?_
    have := Real.exp_bound' (x := 7001 / 100000) (by norm_num) (by norm_num) (n := 3) (by norm_num)
    refine this.trans ?_
    norm_num [Finset.sum_range_succ, Nat.factorial]
  have h2 : x ^ 5 ≤ (7001 / 100000) ^ 5 := by gcongr
  have h3 : x ^ 5 / 120 * Real.exp x ≤ (7001 / 100000) ^ 5 / 120 * 1.0726 := by gcongr
  have hk' : (k : ℝ) ≤ 1000 := by exact_mod_cast hk
  unfold vectorErrorDouble
  calc (k : ℝ) * (1 / 2 ^ 41 + x ^ 5 / 120 * Real.exp x) ≤ 1000 * (1 / 2 ^ 41 + (7001 / 100000) ^ 5 / 120 * 1.0726) := by gcongr
    _ ≤ _ := by norm_num

theorem shipped_vector_kinetic {x : ℝ} (h0 : 0 ≤ x) (h : x ≤ 2001 / 100000) {k : ℕ} (hk : k ≤ 1000) : vectorErrorDouble x k ≤ 3 / 10 ^ 8 := by
  have h1 : Real.exp x ≤ 1.03 := by
    refine (Real.exp_le_exp.2 h).trans ?_
    have := Real.exp_bound' (x := 2001 / 100000) (by norm_num) (by norm_num) (n := 3) (by norm_num)
    refine this.trans ?_
    norm_num [Finset.sum_range_succ, Nat.factorial]
  have h2 : x ^ 5 ≤ (2001 / 100000) ^ 5 := by gcongr
  have h3 : x ^ 5 / 120 * Real.exp x ≤ (2001 / 100000) ^ 5 / 120 * 1.03 := by gcongr
  have hk' : (k : ℝ) ≤ 1000 := by exact_mod_cast hk
  unfold vectorErrorDouble
  calc (k : ℝ) * (1 / 2 ^ 41 + x ^ 5 / 120 * Real.exp x) ≤ 1000 * (1 / 2 ^ 41 + (2001 / 100000) ^ 5 / 120 * 1.03) := by gcongr
    _ ≤ _ := by norm_num

theorem shipped_time {dt t : ℝ} (h : |dt - 1 / 100| ≤ 1 / 10 ^ 15) {j : ℕ} (hj : j < 11) (ht : |t - ((j * max 100 1 : ℕ) : ℝ) * dt| ≤ dt / 16) :
    |t - (j : ℝ)| ≤ 1 / 1000 := by
  obtain ⟨ha, hb⟩ := abs_le.1 h
  obtain ⟨hc, hd⟩ := abs_le.1 ht
  have hj' : (j : ℝ) ≤ 10 := by exact_mod_cast (by omega : j ≤ 10)
  have hj0 : (0 : ℝ) ≤ j := Nat.cast_nonneg j
  norm_num at ha hb hc hd
  rw [abs_le]
  constructor <;> nlinarith

variable {sort : List (Triplet ℝ) → List (Triplet ℝ)} {sinF : ℝ → ℝ}

theorem shipped_double : double 1 = 1 := by
  have := double_fix (m := 1) (e := 0) (by norm_num)
  simpa using this

/-- **C109 for `hubbard_real_1d_rk4` as it is shipped** (16 sites, `J = U = 1`, `dt = 0.01`, end time 10, measurements every 100 steps, half filling), in `double`
arithmetic, on up to `2^16` threads: the program writes eleven rows; their times are `0, 1, …, 10` to within 0.001, and the numbers are within 0.0025 of the
exact expectation value. -/
theorem real1dRk4_shipped (hs : IsSort sort) (hsin : ∀ x, |sinF x - Real.sin x| ≤ 1 / 2 ^ 53) {e : Execution} (he : e.Valid 16)
    (hthreads : ∀ k, e.threads k ≤ 2 ^ 16) (w : Work ℂ) :
    ∃ m s, initMatrix sort 16 2 (Chain.real (K := ℝ) 16 1).neighbors 1 1 = .val m ∧
      real1dRk4F double sinF sort e w 16 1 1 (double (1 / 100)) 10 100 (1 / 2) = .val s ∧ s.out.length = 11 ∧
      ∀ {R : Type} [Ring R] [Algebra ℂ R] (C : CAROn 16 R) (ω : R →ₗ[ℂ] ℂ), QuasiFree C ω (ringCorrelation (1 / 2) 16) →
      ∀ v, IsFlow (16 + 16 * 16 * 16) (fun i j => m.get i j) v →
      ∀ j : ℕ, j < 11 → ∃ t x : ℝ, s.out[j]? = some (t, x) ∧ |t - (j : ℝ)| ≤ 1 / 1000 ∧
        |x - (ω (C.superpose (basis3 16) (16 + 16 * 16 * 16) (v ((j * 100 : ℕ) * double (1 / 100))) *
            C.superposeAdj (basis3 16) (16 + 16 * 16 * 16) (v ((j * 100 : ℕ) * double (1 / 100))))).re| ≤ 1 / 400 := by
  have hdt := double_hundredth
  generalize double (1 / 100) = dt at hdt
  obtain ⟨ha, hb⟩ := abs_le.1 hdt
  have hdt0 : 0 < dt := by norm_num at ha; linarith
  have hx7 : dt * (6 * |1| + |1|) ≤ 7001 / 100000 := by norm_num at hb ⊢; linarith
  have hx0 : 0 ≤ dt * (6 * |1| + |1|) := by positivity
  obtain ⟨m, s, k, h1, h2, h3, h4, h5, h6⟩ := real1dRk4_double (N := 16) (J := 1) (U := 1) (filling := 1 / 2) (dt := dt) (tEnd := 10) (by norm_num) hs
    shipped_double shipped_double (by norm_num) (by norm_num) hsin hdt0 (by
      calc (dt * (6 * |1| + |1|)) ^ 2 ≤ (7001 / 100000) ^ 2 := by gcongr
        _ ≤ 8 := by norm_num) (by norm_num at ha hb ⊢; linarith) 100 he w
  rw [shipped_steps hdt h3 h4] at h5
  refine ⟨m, s, h1, h2, h5, fun {R} _ _ C ω Q v hv j hj => ?_⟩
  have hthr := hthreads (j * max 100 1)
  obtain ⟨t, x, hx, ht, hxe⟩ := h6 C ω Q v hv 71 (fun p hp => by
    refine le_of_eq_of_le (Finset.sum_congr rfl fun q hq => ?_) (half_weights hp)
    rw [weight_state Q hp (Finset.mem_range.1 hq), Complex.norm_real, Real.norm_eq_abs]) j (by omega) (by norm_num at hthr ⊢; omega)
  refine ⟨t, x, hx, shipped_time hdt hj ht, hxe.trans ?_⟩
  have hv0 : 0 ≤ vectorErrorDouble (dt * (6 * |1| + |1|)) (j * max 100 1) := by unfold vectorErrorDouble; positivity
  have hv1 := shipped_vector hx0 hx7 (k := j * max 100 1) (by rw [show max 100 1 = 100 from rfl]; omega)
  generalize vectorErrorDouble (dt * (6 * |1| + |1|)) (j * max 100 1) = ε at hv0 hv1
  have hr : (((16 + 16 * 16 * 16) * (16 + 16 * 16 * 16 + 1) / 2 + e.threads (j * max 100 1) + 72 : ℕ) : ℝ) ≤ 8522000 := by
    exact_mod_cast (by norm_num at hthr ⊢; omega)
  calc _ ≤ 71 * (1510 / 10 ^ 8 * (2 + 1510 / 10 ^ 8)) + 8522000 / 2 ^ 52 * (17 * ((16 + 16 * 16 * 16 : ℕ) : ℝ) * (1 + 1510 / 10 ^ 8) ^ 2) := by gcongr
    _ ≤ 1 / 400 := by norm_num

/-- **C109 for `hubbard_real_1d_kinetic_rk4` as it is shipped**: eleven rows, the numbers are within `10^-7` of 1/2. -/
theorem real1dKineticRk4_shipped (hs : IsSort sort) (hsin : ∀ x, |sinF x - Real.sin x| ≤ 1 / 2 ^ 53) {e : Execution} (he : e.ValidKinetic 16)
    (hthreads : ∀ k, e.threads k ≤ 2 ^ 16) (w : Work ℂ) :
    ∃ s, real1dKineticRk4F double sinF sort e w 16 1 (double (1 / 100)) 10 100 (1 / 2) = .val s ∧ s.out.length = 11 ∧
      ∀ j : ℕ, j < 11 → ∃ t x : ℝ, s.out[j]? = some (t, x) ∧ |t - (j : ℝ)| ≤ 1 / 1000 ∧ |x - 1 / 2| ≤ 1 / 10 ^ 7 := by
  have hdt := double_hundredth
  generalize double (1 / 100) = dt at hdt
  obtain ⟨ha, hb⟩ := abs_le.1 hdt
  have hdt0 : 0 < dt := by norm_num at ha; linarith
  have hx7 : dt * (2 * |1|) ≤ 2001 / 100000 := by norm_num at hb ⊢; linarith
  have hx0 : 0 ≤ dt * (2 * |1|) := by positivity
  obtain ⟨s, k, h2, h3, h4, h5, h6⟩ := real1dKineticRk4_double (N := 16) (J := 1) (filling := 1 / 2) (dt := dt) (tEnd := 10) (by norm_num) hs
    shipped_double (by norm_num) (by norm_num) hsin hdt0 (by
      calc (dt * (2 * |1|)) ^ 2 ≤ (2001 / 100000) ^ 2 := by gcongr
        _ ≤ 8 := by norm_num) (by norm_num at ha hb ⊢; linarith) 100 he w
  rw [shipped_steps hdt h3 h4] at h5
  refine ⟨s, h2, h5, fun j hj => ?_⟩
  have hthr := hthreads (j * max 100 1)
  obtain ⟨t, x, hx, ht, hxe⟩ := h6 (1568 / 1000) (fun a ha => half_rows ha) j (by omega) (by norm_num at hthr ⊢; omega)
  refine ⟨t, x, hx, shipped_time hdt hj ht, hxe.trans ?_⟩
  have hv0 : 0 ≤ vectorErrorDouble (dt * (2 * |1|)) (j * max 100 1) := by unfold vectorErrorDouble; positivity
  have hv1 := shipped_vector_kinetic hx0 hx7 (k := j * max 100 1) (by rw [show max 100 1 = 100 from rfl]; omega)
  generalize vectorErrorDouble (dt * (2 * |1|)) (j * max 100 1) = ε at hv0 hv1
  have hr : ((16 * 16 + e.threads (j * max 100 1) + 72 : ℕ) : ℝ) ≤ 65864 := by
    exact_mod_cast (by norm_num at hthr ⊢; omega)
  calc _ ≤ 1568 / 1000 * (3 / 10 ^ 8 * (2 + 3 / 10 ^ 8)) + 65864 / 2 ^ 52 * (2 * ((16 : ℕ) : ℝ) * (1 + 3 / 10 ^ 8) ^ 2) := by gcongr
    _ ≤ 1 / 10 ^ 7 := by norm_num

/-- A bound on the squares `(2 ⟨c†_j c_k⟩ - δ_jk)²` at half filling. -/
def halfSquare (d : ℕ) : ℚ := if d = 0 then 0 else (2 * halfBound d) ^ 2

theorem half_squares16 : ∑ a ∈ Finset.range 16, ∑ b ∈ Finset.range 16, halfSquare (ringDistance 16 a b) ≤ 1524 / 100 := by decide +kernel

/-- How strongly the jump reacts to errors of the coefficients, for 16 sites at half filling. -/
theorem half_jumpWeight : jumpWeight (ringCorrelation (1 / 2) 16) 16 ≤ 260 := by
  have h : ∑ a ∈ Finset.range 16, ∑ b ∈ Finset.range 16, (2 * ringCorrelation (1 / 2) 16 a b - if a = b then 1 else 0) ^ 2 ≤
      ∑ a ∈ Finset.range 16, ∑ b ∈ Finset.range 16, (halfSquare (ringDistance 16 a b) : ℝ) := by
    refine Finset.sum_le_sum fun a ha => Finset.sum_le_sum fun b hb => ?_
    rw [Finset.mem_range] at ha hb
    have h1 := (half_correlation 16 a b).2
    rw [← sq_abs, half_twice ha hb]
    unfold halfSquare
    by_cases hab : a = b
    · rw [if_pos ((ringDistance_zero16 a ha b hb).2 hab), if_pos hab, (half_correlation 16 a b).1 ((ringDistance_zero16 a ha b hb).2 hab)]
      norm_num
    · rw [if_neg (fun h => hab ((ringDistance_zero16 a ha b hb).1 h)), if_neg hab, sub_zero]
      push_cast
      gcongr
  have h2 : ((∑ a ∈ Finset.range 16, ∑ b ∈ Finset.range 16, halfSquare (ringDistance 16 a b) : ℚ) : ℝ) ≤ ((1524 / 100 : ℚ) : ℝ) := by
    exact_mod_cast half_squares16
  push_cast at h2
  unfold jumpWeight
  have h3 := h.trans h2
  calc ((16 : ℕ) : ℝ) * (1 + ∑ a ∈ Finset.range 16, ∑ b ∈ Finset.range 16, (2 * ringCorrelation (1 / 2) 16 a b - if a = b then 1 else 0) ^ 2)
      ≤ ((16 : ℕ) : ℝ) * (1 + 1524 / 100) := by gcongr
    _ ≤ 260 := by norm_num

/-- **C110 for `hubbard_real_1d_rk4_jump` as it is shipped** (16 sites, `J = U = 1`, `dt = 0.01`, end time 10, measurements every 100 steps, half filling), in `double`
arithmetic, on up to `2^16` threads: the program writes eleven rows; their times are `0, 1, …, 10` to within 0.001, and the numbers are not negative and within
0.008 of the Fermi jump of the exact solution. -/
theorem real1dRk4Jump_shipped {cosF : ℝ → ℝ} (hs : IsSort sort) (hsin : ∀ x, |sinF x - Real.sin x| ≤ 1 / 2 ^ 53)
    (hcos : ∀ x, |cosF x - Real.cos x| ≤ 1 / 2 ^ 53) {e : JumpExecution} (he : e.Valid 16) (het : e.table.Perm (List.range' 1 8))
    (hthreads : ∀ k, e.threads k ≤ 2 ^ 16) (w : Work ℂ) :
    ∃ m s, initMatrix sort 16 2 (Chain.real (K := ℝ) 16 1).neighbors 1 1 = .val m ∧
      real1dRk4JumpF double sinF cosF sort e w 16 1 1 (double (1 / 100)) 10 100 (1 / 2) = .val s ∧ s.out.length = 11 ∧
      ∀ v, IsFlow (16 + 16 * 16 * 16) (fun i j => m.get i j) v →
      ∀ j : ℕ, j < 11 → ∃ t x : ℝ, s.out[j]? = some (t, x) ∧ |t - (j : ℝ)| ≤ 1 / 1000 ∧ 0 ≤ x ∧
        |x - fermiJump (ringCorrelation (1 / 2) 16) 16 (fun i => 1 / 2 * Real.pi * i) (v ((j * 100 : ℕ) * double (1 / 100)))| ≤ 1 / 125 := by
  have hdt := double_hundredth
  generalize double (1 / 100) = dt at hdt
  obtain ⟨ha, hb⟩ := abs_le.1 hdt
  have hdt0 : 0 < dt := by norm_num at ha; linarith
  have hx7 : dt * (6 * |1| + |1|) ≤ 7001 / 100000 := by norm_num at hb ⊢; linarith
  have hx0 : 0 ≤ dt * (6 * |1| + |1|) := by positivity
  obtain ⟨m, s, k, h1, h2, h3, h4, h5, h6⟩ := real1dRk4Jump_double (N := 16) (J := 1) (U := 1) (filling := 1 / 2) (dt := dt) (tEnd := 10) (by norm_num) hs
    shipped_double shipped_double (by norm_num) (by norm_num) hsin hcos hdt0 (by
      calc (dt * (6 * |1| + |1|)) ^ 2 ≤ (7001 / 100000) ^ 2 := by gcongr
        _ ≤ 8 := by norm_num) (by norm_num at ha hb ⊢; linarith) 100 he het w
  rw [shipped_steps hdt h3 h4] at h5
  refine ⟨m, s, h1, h2, h5, fun v hv j hj => ?_⟩
  have hthr := hthreads (j * max 100 1)
  obtain ⟨t, x, hx, ht, hxp, hxe⟩ := h6 v hv j (by omega) (by norm_num at hthr ⊢; omega)
  refine ⟨t, x, hx, shipped_time hdt hj ht, hxp, hxe.trans ?_⟩
  have hv0 : 0 ≤ vectorErrorDouble (dt * (6 * |1| + |1|)) (j * max 100 1) := by unfold vectorErrorDouble; positivity
  have hv1 := shipped_vector hx0 hx7 (k := j * max 100 1) (by rw [show max 100 1 = 100 from rfl]; omega)
  generalize vectorErrorDouble (dt * (6 * |1| + |1|)) (j * max 100 1) = ε at hv0 hv1
  have hr : ((2 * (16 * 16 + 67 * 16 + 28 + e.threads (j * max 100 1)) : ℕ) : ℝ) ≤ 133784 := by
    exact_mod_cast (by norm_num at hthr ⊢; omega)
  have hw := half_jumpWeight
  calc _ ≤ 260 * (1510 / 10 ^ 8 * (2 + 1510 / 10 ^ 8)) + 133784 / 2 ^ 52 * (9 * ((16 + 16 * 16 * 16 : ℕ) : ℝ) * (1 + 1510 / 10 ^ 8) ^ 2) := by gcongr
    _ ≤ 1 / 125 := by norm_num

end Ieompp.Program
