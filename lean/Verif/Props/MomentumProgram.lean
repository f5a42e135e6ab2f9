import Verif.Model.MomentumProgram
import Verif.Spec.MomentumProgram
import Verif.Props.Program
import Verif.Props.JumpProgram
import Verif.Props.ParticleReal
import Verif.Props.MomentumMatrix
import Verif.Props.Dispersion
import Mathlib.Analysis.Complex.Trigonometric

/-! # C63: the program `hubbard_momentum_1d_rk4` -/

set_option autoImplicit false
set_option linter.unusedSectionVars false

namespace Ieompp.Program

open Ieompp.Spec MomentumSpace ODE ComplexConjugate

theorem mem_fermiSea {N : ℕ} {J : ℝ} {k : ℕ} (hk : k < N) (σ : Bool) :
    toLex (k, σ) ∈ fermiSea N J ↔ bandEnergy N J k < 0 := by
  unfold fermiSea
  simp only [Finset.mem_biUnion, Finset.mem_filter, Finset.mem_range, Finset.mem_insert, Finset.mem_singleton,
    EmbeddingLike.apply_eq_iff_eq, Prod.mk.injEq]
  constructor
  · rintro ⟨k', ⟨_, h⟩, h' | h'⟩ <;> rw [h'.1] <;> exact h
  · intro h
    refine ⟨k, ⟨hk, h⟩, ?_⟩
    cases σ <;> simp

/-- The quadratic form of the table is a matrix element in the Fermi sea. -/
theorem form_sea {N q : ℕ} (hq : q < N) (FS : Finset Mode) (s : ℝ) (hs : s = 1 ∨ s = -1) (v : ℕ → ℂ) :
    form (N * N + 1) (fun i j => seaValue s FS (Spec.entries N q) i j) v =
      seaNumber (s : ℂ) FS (Spec.entries N q) v := by
  unfold form seaNumber
  rw [entries_length]
  unfold braket
  rw [Finset.sum_mul_sum]
  simp only [LinearMap.sum_apply, Finset.sum_apply, smul_mul_assoc, mul_smul_comm, LinearMap.smul_apply, Pi.smul_apply,
    smul_smul, smul_eq_mul]
  refine Finset.sum_congr rfl fun i hi => Finset.sum_congr rfl fun j hj => ?_
  rw [← seaValue_cast FS hq (Finset.mem_range.1 hi) (Finset.mem_range.1 hj), mul_comm (conj (v j))]
  rfl

theorem ev_abs_le (FS : Finset Mode) {x y : HMonomial} (hx : IsWord x) (hy : IsWord y) :
    |ev ℝ FS (x ++ Monomial.conjugate y)| ≤ 1 := by
  rcases ev_word (K := ℝ) FS hx hy with h | h <;> rw [h] <;> simp

/-- The entries of the table are at most 9. -/
theorem seaValue_abs_le {N q : ℕ} (hq : q < N) (FS : Finset Mode) {i j : ℕ} (hi : i < N * N + 1) (hj : j < N * N + 1) :
    |seaValue (1 : ℝ) FS (Spec.entries N q) i j| ≤ 9 := by
  have hd : ∀ b c : ℕ, |(if b = c then (1 : ℝ) else 0)| ≤ 1 := by intro b c; split_ifs <;> simp
  by_cases h0 : i = 0 <;> by_cases h0' : j = 0
  · subst h0; subst h0'
    rw [sea_00]
    exact (ev_abs_le FS (isWord_one q) (isWord_one q)).trans (by norm_num)
  · subst h0
    obtain ⟨a, b, ha, hb, rfl⟩ := index_surj N h0' hj
    rw [sea_0I 1 (entries_getElem N q ha hb)]
    have h1 := ev_abs_le FS (isWord_one q) (isWord_three a b (third N q a b))
    have h2 := ev_abs_le FS (isWord_one q) (isWord_one a)
    refine (abs_add_le _ _).trans ?_
    rw [abs_mul, abs_mul, abs_two]
    nlinarith [hd b (third N q a b), abs_nonneg (ev ℝ FS (RealSpace.Spec.one q ++ Monomial.conjugate (RealSpace.Spec.one a)))]
  · subst h0'
    obtain ⟨a, b, ha, hb, rfl⟩ := index_surj N h0 hi
    rw [sea_I0 1 (entries_getElem N q ha hb)]
    have h1 := ev_abs_le FS (isWord_three a b (third N q a b)) (isWord_one q)
    have h2 := ev_abs_le FS (isWord_one a) (isWord_one q)
    refine (abs_add_le _ _).trans ?_
    rw [abs_mul, abs_mul, abs_two]
    nlinarith [hd b (third N q a b), abs_nonneg (ev ℝ FS (RealSpace.Spec.one a ++ Monomial.conjugate (RealSpace.Spec.one q)))]
  · obtain ⟨a, b, ha, hb, rfl⟩ := index_surj N h0 hi
    obtain ⟨a', b', ha', hb', rfl⟩ := index_surj N h0' hj
    rw [sea_IJ 1 (entries_getElem N q ha hb) (entries_getElem N q ha' hb')]
    have h1 := ev_abs_le FS (isWord_three a b (third N q a b)) (isWord_three a' b' (third N q a' b'))
    have h2 := ev_abs_le FS (isWord_one a) (isWord_three a' b' (third N q a' b'))
    have h3 := ev_abs_le FS (isWord_three a b (third N q a b)) (isWord_one a')
    have h4 := ev_abs_le FS (isWord_one a) (isWord_one a')
    revert h1 h2 h3 h4
    generalize ev ℝ FS _ = e1
    generalize ev ℝ FS _ = e2
    generalize ev ℝ FS _ = e3
    generalize ev ℝ FS _ = e4
    intro h1 h2 h3 h4
    rw [abs_le] at *
    split_ifs <;> constructor <;> linarith [h1.1, h1.2, h2.1, h2.2, h3.1, h3.2, h4.1, h4.2]

section
variable {N q : ℕ} (eps : ℕ → ℝ) (U : ℝ) {m : Sparse ℝ}

/-- Absolute row sums of the matrix. -/
theorem momentum_row_sum (hN : 0 < N) (hq : q < N) (e : ℝ) (he : ∀ k < N, |eps k| ≤ e)
    (hm : initMatrix (Spec.entries N q) N eps U N = .val m) {i : ℕ} (hi : i < N * N + 1) :
    ∑ j ∈ Finset.range (N * N + 1), |m.get i j| ≤ 3 * e + (N + 1) / 2 * |U| := by
  obtain ⟨m', h1, _, _, _, _, _, _, h2, _⟩ := momentumMatrix_ok hN q eps U
  rw [hm] at h1
  cases h1
  rw [Finset.sum_congr rfl fun j _ => by rw [h2 i hi j]]
  refine (RealSpace.sum_abs_columnSum _ _).trans ?_
  have hNr : (1 : ℝ) ≤ N := by exact_mod_cast hN
  have hU := abs_nonneg U
  have e0 : 0 ≤ e := (abs_nonneg _).trans (he q hq)
  have hUh : |U / 2| = |U| / 2 := by rw [abs_div, abs_two]
  have hUN : |U / (2 * (N : ℝ))| = |U| / (2 * N) := by rw [abs_div, abs_of_pos (by linarith : (0 : ℝ) < 2 * N)]
  by_cases h0 : i = 0
  · subst h0
    unfold rowList
    rw [rowTriplets_zero, Option.getD_some, List.map_cons, List.sum_cons, List.map_map,
      List.map_congr_left (g := fun _ => |U| / (2 * N)) (fun x _ => by simp only [Function.comp_apply]; exact hUN)]
    simp only [List.map_const', List.length_range', List.sum_replicate, nsmul_eq_mul]
    have : ((N * N : ℕ) : ℝ) * (|U| / (2 * N)) = N / 2 * |U| := by push_cast; field_simp
    rw [this]
    have := abs_add_le (eps q) (U / 2)
    rw [hUh] at this
    linarith [he q hq]
  · obtain ⟨a, b, ha, hb, rfl⟩ := index_surj N h0 hi
    unfold rowList
    rw [rowTriplets_three N q eps U ha hb, Option.getD_some]
    simp only [List.map_cons, List.map_nil, List.sum_cons, List.sum_nil, add_zero, hUN]
    have h3 := he _ (third_lt hN q a b)
    have h4 := abs_add_le (eps a + eps b - eps (third N q a b)) (U / 2)
    have h5 := abs_sub (eps a + eps b) (eps (third N q a b))
    have h6 := abs_add_le (eps a) (eps b)
    rw [hUh] at h4
    have h7 : |U| / (2 * N) ≤ N / 2 * |U| := by
      rw [div_le_iff₀ (by linarith)]
      nlinarith [mul_nonneg hU (by nlinarith : (0 : ℝ) ≤ (N : ℝ) * N - 1)]
    linarith [he a ha, he b hb]

end

/-- The particle number on a vector of the size of the basis. -/
theorem particleNumber_form {N q : ℕ} {disp : ℕ → ℝ} {eF : ℝ} {FS : Finset Mode}
    (hFS : ∀ k < N, ∀ σ, toLex (k, σ) ∈ FS ↔ disp k < eF) (hq : q < N) : ∃ l : List (Contribution ℝ),
      nonVanishing (Spec.entries N q) (conjBasis (Spec.entries N q)) disp eF = .val l ∧
      ∀ vec : List ℂ, vec.length = N * N + 1 → particleNumber vec l =
        .val (form (N * N + 1) (fun i j => seaValue (1 : ℝ) FS (Spec.entries N q) i j) fun i => vec.getD i 0).re ∧
        0 ≤ (form (N * N + 1) (fun i j => seaValue (1 : ℝ) FS (Spec.entries N q) i j) fun i => vec.getD i 0).re := by
  refine ⟨_, nonVanishing_eq (K := ℝ) hFS hq, fun vec hlen => ?_⟩
  obtain ⟨l, z, e1, e2, e3, e4, e5, e6⟩ := particleNumber_real hFS hq vec (by rw [hlen, entries_length])
  have hl : l = (pairs (N * N + 1)).flatMap (want ℝ FS N q) := by
    have := (nonVanishing_eq (K := ℝ) hFS hq).symm.trans e1
    exact (Res.val.inj this).symm
  have hz : form (N * N + 1) (fun i j => seaValue (1 : ℝ) FS (Spec.entries N q) i j) (fun i => vec.getD i 0) = z := by
    rw [form_sea hq FS 1 (Or.inl rfl), e6]
    unfold seaNumber
    rw [entries_length, hlen, Complex.ofReal_one]
  rw [← hl, e4, hz]
  exact ⟨rfl, e5⟩

/-- The energies. -/
theorem dispersion_ok (N : ℕ) (J : ℝ) {energies : List ℕ} (hs : energies.Perm (List.range N)) :
    ∃ values, Hubbard.dispersion (fun a b => a * b) N (Chain.momentum Real.pi N).pos
        (Hubbard.chainVectors (Chain.real N 1)) J energies = .val values ∧
      ∀ i < N, dispersionFunction values i = bandEnergy N J i := by
  obtain ⟨values, e1, _, e3⟩ := Hubbard.dispersion_values (fun a b : ℝ => a * b) N (Chain.momentum Real.pi N).pos
    (Hubbard.chainVectors (Chain.real N 1)) J hs
  refine ⟨values, e1, fun i hi => ?_⟩
  unfold dispersionFunction
  rw [e3 i hi]
  simp [Spec.tightBinding, Hubbard.chainVectors, Chain.real, bandEnergy, latticeMomentum, Hubbard.momentum_pos]

theorem initMatrix_congr {N q : ℕ} (hN : 0 < N) (hq : q < N) {e1 e2 : ℕ → ℝ} (h : ∀ i < N, e1 i = e2 i) (U : ℝ) :
    initMatrix (Spec.entries N q) N e1 U N = initMatrix (Spec.entries N q) N e2 U N := by
  unfold initMatrix
  have : ∀ row < N * N + 1, rowTriplets (Spec.entries N q) e1 U N row = rowTriplets (Spec.entries N q) e2 U N row := by
    intro row hr
    by_cases h0 : row = 0
    · subst h0
      rw [rowTriplets_zero, rowTriplets_zero, h q hq]
    · obtain ⟨a, b, ha, hb, rfl⟩ := index_surj N h0 hr
      rw [rowTriplets_three N q e1 U ha hb, rowTriplets_three N q e2 U ha hb, h a ha, h b hb, h _ (third_lt hN q a b)]
  rw [entries_length]
  generalize Sparse.init (S := ℝ) (N * N + 1) (numberOfMatrixElements N) = sp
  have : ∀ (l : List ℕ) (sp : Sparse ℝ), (∀ r ∈ l, r < N * N + 1) →
      Sparse.fillRows (rowTriplets (Spec.entries N q) e1 U N) l sp =
      Sparse.fillRows (rowTriplets (Spec.entries N q) e2 U N) l sp := by
    intro l
    induction l with
    | nil => intro sp _; rfl
    | cons r t ih =>
      intro sp hl
      unfold Sparse.fillRows
      rw [this r (hl r (by simp))]
      simp only [ih _ fun r hr => hl r (by simp [hr])]
  exact this _ _ (by simp)

theorem bandEnergy_abs_le (N : ℕ) (J : ℝ) (i : ℕ) : |bandEnergy N J i| ≤ 2 * |J| := by
  unfold bandEnergy
  rw [abs_mul, abs_mul, abs_neg, abs_two]
  nlinarith [Real.abs_cos_le_one (latticeMomentum N i), abs_nonneg J]

/-- What the program prints: the quadratic form of the table in the coefficients after eight Runge–Kutta steps. -/
theorem momentum1dRk4_value (N : ℕ) (hN : 0 < N) (J U dt : ℝ) (w : Work ℂ) {conjugation energies : List ℕ}
    (hc : conjugation.Perm (List.range (N * N + 1))) (he : energies.Perm (List.range N)) :
    ∃ second m, momentum1dRk4 conjugation energies w N J U dt = .val ((if bandEnergy N J (N / 2) < 0 then 1 else 0), second) ∧ 0 ≤ second ∧
      initMatrix (Spec.entries N (N / 2)) N (bandEnergy N J) U N = .val m ∧
      (∀ i < N * N + 1, ∀ j < N * N + 1, m.get i j = m.get j i) ∧
      second = (form (N * N + 1) (fun i j => seaValue (1 : ℝ) (fermiSea N J) (Spec.entries N (N / 2)) i j) fun i =>
        (List.ofFn ((exp4 (dt : ℂ) (mat (N * N + 1) (timesI m)) ^ 8).mulVec fun p : Fin (N * N + 1) => if (p : ℕ) = 0 then 1 else 0)).getD i 0).re := by
  have hq : N / 2 < N := Nat.div_lt_self hN (by norm_num)
  set q := N / 2 with hqd
  set n := N * N + 1 with hn
  obtain ⟨values, d1, d2⟩ := dispersion_ok N J he
  obtain ⟨m, m1, m2, m3, -⟩ := momentumMatrix_ok hN q (bandEnergy N J) U
  obtain ⟨m', s1, hsym⟩ := momentumMatrix_symm hN q (bandEnergy N J) U
  rw [m1] at s1
  cases s1
  rw [m2, m3] at hsym
  obtain ⟨l, l1, l2⟩ := particleNumber_form (N := N) (q := q) (disp := dispersionFunction values) (eF := 0)
    (FS := fermiSea N J) (fun k hk σ => by rw [mem_fermiSea hk, d2 k hk]) hq
  set u : Fin n → ℂ := fun p : Fin n => if (p : ℕ) = 0 then 1 else 0 with hu
  obtain ⟨w', hw⟩ := integrate_correct (n := n) (dt : ℂ) (timesI m) 8 w u
  set y := (exp4 (dt : ℂ) (mat n (timesI m)) ^ 8).mulVec u with hy
  set E : ℕ → ℕ → ℝ := fun i j => seaValue (1 : ℝ) (fermiSea N J) (Spec.entries N q) i j with hE
  have hfirst : (form n E fun i => (List.ofFn u).getD i 0).re = if bandEnergy N J q < 0 then 1 else 0 := by
    have h0 : form n E (fun i => (List.ofFn u).getD i 0) = (E 0 0 : ℂ) := by
      unfold form
      rw [Finset.sum_eq_single_of_mem 0 (by simp [hn]), Finset.sum_eq_single_of_mem 0 (by simp [hn])]
      · beta_reduce
        rw [show (List.ofFn u).getD 0 0 = 1 from by simp [List.getD_eq_getElem?_getD, List.getElem?_ofFn, hn, hu]]
        simp
      · intro j hj hj0
        beta_reduce
        rw [show (List.ofFn u).getD j 0 = 0 from by
          have := ofFn_getD u ⟨j, Finset.mem_range.1 hj⟩
          simp only at this
          rw [this, hu]; simp [hj0]]
        simp
      · intro j hj hj0
        beta_reduce
        rw [show (List.ofFn u).getD j 0 = 0 from by
          have := ofFn_getD u ⟨j, Finset.mem_range.1 hj⟩
          simp only at this
          rw [this, hu]; simp [hj0]]
        simp
    rw [h0, Complex.ofReal_re, hE]
    simp only
    rw [sea_00, ev_append, adjVec_one]
    by_cases hb : bandEnergy N J q < 0
    · have huq : up q ∈ fermiSea N J := (mem_fermiSea hq true).2 hb
      rw [if_pos huq, if_pos hb, map_smul, Pi.smul_apply, fockMono_ket_adj, adjVec_one, if_pos huq,
        Pi.smul_apply, ket, if_pos rfl, smul_eq_mul, smul_eq_mul, mul_one, ← Int.cast_mul, jwSign_sq, Int.cast_one]
    · have huq : up q ∉ fermiSea N J := fun h => hb ((mem_fermiSea hq true).1 h)
      rw [if_neg huq, if_neg hb, map_zero]; rfl
  refine ⟨_, m, ?_, (l2 (List.ofFn y) (by simp [hn])).2, m1, hsym, rfl⟩
  rw [← hfirst]
  · unfold momentum1dRk4
    simp only
    rw [momentumBasis_eq Real.pi Real.pi_pos N hN (N / 2), ← hqd, Res.bind_val]
    have hsz : (Chain.momentum Real.pi N).size = N := rfl
    have hsz' : (Chain.real (K := ℝ) N 1).size = N := rfl
    rw [hsz, hsz', d1, Res.bind_val, initMatrix_congr hN hq d2 U, m1, Res.bind_val, entries_length,
      initVector_ofFn (by omega), Res.bind_val,
      show RealSpace.getConjugate conjugation (Spec.entries N q) = conjBasis (Spec.entries N q) from
        parallelModify_eq_map _ _ _ (by rw [entries_length]; exact hc), l1, Res.bind_val,
      (l2 (List.ofFn u) (by simp [hn])).1, Res.bind_val, hw, Res.bind_val, (l2 (List.ofFn y) (by simp [hn])).1, Res.map_val]

/-- C63 (what holds): for every number of points, hopping, interaction and step width and however the parallel loops are
executed, the program terminates without undefined behaviour and prints two numbers which are not negative. The first is the
occupation of the momentum `N/2` in the Fermi sea. With the matrix of the Liouvillian (C30), the second number differs from
`⟨FS| A A† |FS⟩` for the exact flow at the time `8 dt` by no more than the stated error of fourth order.
Missing: the operators `A` belong to `s = 1` while those of the matrix have `s = -1`, see `momentum1dRk4_wrong`. -/
theorem momentum1dRk4_partial (N : ℕ) (hN : 0 < N) (J U : ℝ) {dt : ℝ} (hdt : 0 ≤ dt) (w : Work ℂ) {conjugation energies : List ℕ}
    (hc : conjugation.Perm (List.range (N * N + 1))) (he : energies.Perm (List.range N)) :
    ∃ first second m, momentum1dRk4 conjugation energies w N J U dt = .val (first, second) ∧
      first = (if bandEnergy N J (N / 2) < 0 then 1 else 0) ∧ 0 ≤ second ∧
      initMatrix (Spec.entries N (N / 2)) N (bandEnergy N J) U N = .val m ∧
      ∀ v, IsFlow (N * N + 1) (fun i j => m.get i j) v →
        |second - (seaNumber 1 (fermiSea N J) (Spec.entries N (N / 2)) (v (8 * dt))).re| ≤
          9 * (N * N + 1 : ℕ) ^ 2 * (rk4Error (6 * |J| + (N + 1) / 2 * |U|) dt 8 *
            (2 + rk4Error (6 * |J| + (N + 1) / 2 * |U|) dt 8)) := by
  have hq : N / 2 < N := Nat.div_lt_self hN (by norm_num)
  obtain ⟨second, m, e1, e2, m1, hsym, e3⟩ := momentum1dRk4_value N hN J U dt w hc he
  refine ⟨_, second, m, e1, rfl, e2, m1, fun v hv => ?_⟩
  rw [e3]
  set q := N / 2 with hqd
  set n := N * N + 1 with hn
  set u : Fin n → ℂ := fun p : Fin n => if (p : ℕ) = 0 then 1 else 0 with hu
  set y := (exp4 (dt : ℂ) (mat n (timesI m)) ^ 8).mulVec u with hy
  set E : ℕ → ℕ → ℝ := fun i j => seaValue (1 : ℝ) (fermiSea N J) (Spec.entries N q) i j with hE
  · have hB : 0 ≤ 6 * |J| + ((N : ℝ) + 1) / 2 * |U| := by positivity
    have hrow : ∀ i < n, ∑ j ∈ Finset.range n, |m.get i j| ≤ 6 * |J| + ((N : ℝ) + 1) / 2 * |U| := by
      intro i hi
      have := momentum_row_sum (bandEnergy N J) U hN hq (2 * |J|) (fun k _ => bandEnergy_abs_le N J k) m1 hi
      linarith
    have hform := form_sea hq (fermiSea N J) 1 (Or.inl rfl) (v (8 * dt))
    rw [Complex.ofReal_one] at hform
    rw [← hform, ← Complex.sub_re]
    refine (Complex.abs_re_le_norm _).trans ((form_error n E _ _ (rk4Error (6 * |J| + ((N : ℝ) + 1) / 2 * |U|) dt 8)
      ?_ ?_).trans ?_)
    · intro i hi
      have := steps_error (fun i j => m.get i j) _ dt hB hdt hsym hrow hv 8 ⟨i, hi⟩
      rw [show (List.ofFn y).getD i 0 = y ⟨i, hi⟩ from ofFn_getD _ ⟨i, hi⟩]
      rw [Nat.cast_ofNat] at this
      exact this
    · intro i hi
      exact flow_le_one _ hsym hv _ hi
    · have hε : 0 ≤ rk4Error (6 * |J| + ((N : ℝ) + 1) / 2 * |U|) dt 8 := rk4Error_nonneg hB hdt 8
      refine mul_le_mul_of_nonneg_right ?_ (by positivity)
      calc ∑ i ∈ Finset.range n, ∑ j ∈ Finset.range n, |E i j|
          ≤ ∑ i ∈ Finset.range n, ∑ j ∈ Finset.range n, (9 : ℝ) :=
            Finset.sum_le_sum fun i hi => Finset.sum_le_sum fun j hj =>
              seaValue_abs_le hq _ (Finset.mem_range.1 hi) (Finset.mem_range.1 hj)
        _ = 9 * (n : ℕ) ^ 2 := by simp; ring

/-! ## One momentum: the exact solution, and what the program prints -/

theorem flow_one (m : Sparse ℝ) (a b : ℝ) (h00 : m.get 0 0 = a) (h01 : m.get 0 1 = b) (h10 : m.get 1 0 = b)
    (h11 : m.get 1 1 = a) : IsFlow 2 (fun i j => m.get i j) fun t p =>
      if p = 0 then Complex.exp (t * a * Complex.I) * Complex.cos (t * b)
      else Complex.exp (t * a * Complex.I) * (Complex.I * Complex.sin (t * b)) := by
  have hlin : ∀ (c t : ℝ), HasDerivAt (fun t : ℝ => ((t : ℂ) * (c : ℂ))) (c : ℂ) t := by
    intro c t
    have := (Complex.ofRealCLM.hasDerivAt (x := t)).mul_const (c : ℂ)
    simpa using this
  have hexp : ∀ t : ℝ, HasDerivAt (fun t : ℝ => Complex.exp (t * a * Complex.I))
      (Complex.exp (t * a * Complex.I) * (a * Complex.I)) t := fun t => ((hlin a t).mul_const Complex.I).cexp
  have hcos : ∀ t : ℝ, HasDerivAt (fun t : ℝ => Complex.cos (t * b)) (-Complex.sin (t * b) * b) t := fun t =>
    (Complex.hasDerivAt_cos _).comp t (hlin b t)
  have hsin : ∀ t : ℝ, HasDerivAt (fun t : ℝ => Complex.sin (t * b)) (Complex.cos (t * b) * b) t := fun t =>
    (Complex.hasDerivAt_sin _).comp t (hlin b t)
  constructor
  · intro p hp
    interval_cases p <;> simp
  · intro t p hp
    rw [Finset.sum_range_succ, Finset.sum_range_one]
    interval_cases p
    · simp only [if_true, one_ne_zero, if_false, h00, h01]
      refine ((hexp t).mul (hcos t)).congr_deriv ?_
      linear_combination (-(Complex.exp (t * a * Complex.I) * Complex.sin (t * b) * b)) * Complex.I_sq
    · simp only [if_true, one_ne_zero, if_false, h10, h11]
      refine ((hexp t).mul ((hsin t).const_mul Complex.I)).congr_deriv ?_
      ring

theorem bandEnergy_one (J : ℝ) : bandEnergy 1 J 0 = 2 * J := by
  unfold bandEnergy latticeMomentum
  simp

theorem sea_one (s : ℝ) {J : ℝ} (hJ : J < 0) :
    seaValue s (fermiSea 1 J) (Spec.entries 1 0) 0 0 = 1 ∧
    seaValue s (fermiSea 1 J) (Spec.entries 1 0) 0 1 = 2 + s ∧
    seaValue s (fermiSea 1 J) (Spec.entries 1 0) 1 0 = 2 + s ∧
    seaValue s (fermiSea 1 J) (Spec.entries 1 0) 1 1 = (2 + s) ^ 2 := by
  set FS := fermiSea 1 J
  have hup : up 0 ∈ FS := (mem_fermiSea (by norm_num) true).2 (by rw [bandEnergy_one]; linarith)
  have hdn : dn 0 ∈ FS := (mem_fermiSea (by norm_num) false).2 (by rw [bandEnergy_one]; linarith)
  have hd : adjVec ℝ FS (RealSpace.Spec.three 0 0 0) = adjVec ℝ FS (RealSpace.Spec.one 0) := by
    rw [adjVec_diag, if_pos hdn]
  have e1 : ev ℝ FS (RealSpace.Spec.one 0 ++ Monomial.conjugate (RealSpace.Spec.one 0)) = 1 := by
    rw [ev_append, adjVec_one, if_pos hup, map_smul, Pi.smul_apply, fockMono_ket_adj, adjVec_one, if_pos hup,
      Pi.smul_apply, ket, if_pos rfl, smul_eq_mul, smul_eq_mul, mul_one, ← Int.cast_mul, jwSign_sq, Int.cast_one]
  have e2 : ev ℝ FS (RealSpace.Spec.one 0 ++ Monomial.conjugate (RealSpace.Spec.three 0 0 0)) = 1 := by
    rw [ev_append, hd, ← ev_append, e1]
  have key : ∀ x : HMonomial, IsWord x → ev ℝ FS (RealSpace.Spec.three 0 0 0 ++ Monomial.conjugate (RealSpace.Spec.one 0)) = 1 := by
    intro _ _
    rw [ev_append, adjVec_one, if_pos hup, map_smul, Pi.smul_apply, fockMono_ket_adj, hd, adjVec_one, if_pos hup,
      Pi.smul_apply, ket, if_pos rfl, smul_eq_mul, smul_eq_mul, mul_one, ← Int.cast_mul, jwSign_sq, Int.cast_one]
  have e3 := key _ (isWord_one 0)
  have e4 : ev ℝ FS (RealSpace.Spec.three 0 0 0 ++ Monomial.conjugate (RealSpace.Spec.three 0 0 0)) = 1 := by
    rw [ev_append, hd, ← ev_append, e3]
  have g : (Spec.entries 1 0)[1]? = some (RealSpace.Spec.three 0 0 0) := by decide
  refine ⟨?_, ?_, ?_, ?_⟩
  · rw [sea_00, e1]
  · rw [sea_0I s g, e1, e2, if_pos rfl]; ring
  · rw [sea_I0 s g, e1, e3, if_pos rfl]; ring
  · rw [sea_IJ s g g, e1, e2, e3, e4, if_pos rfl]; ring

/-- The matrix element for the exact solution with one momentum: `1 + ((2 + s)² - 1) sin²(U t / 2)`. -/
theorem seaNumber_one (s : ℝ) (hs : s = 1 ∨ s = -1) {J : ℝ} (hJ : J < 0) (a : ℝ) (x : ℝ) (v : ℕ → ℂ)
    (h0 : v 0 = Complex.exp (a * Complex.I) * Complex.cos x)
    (h1 : v 1 = Complex.exp (a * Complex.I) * (Complex.I * Complex.sin x)) :
    seaNumber (s : ℂ) (fermiSea 1 J) (Spec.entries 1 0) v = ((1 + ((2 + s) ^ 2 - 1) * Real.sin x ^ 2 : ℝ) : ℂ) := by
  rw [← form_sea (by norm_num : 0 < 1) (fermiSea 1 J) s hs v]
  obtain ⟨e1, e2, e3, e4⟩ := sea_one s hJ
  unfold form
  rw [show 1 * 1 + 1 = 2 from rfl]
  simp only [Finset.sum_range_succ, Finset.sum_range_zero, zero_add, e1, e2, e3, e4]
  have hc : conj (Complex.exp (a * Complex.I)) = Complex.exp (-(a * Complex.I)) := by
    rw [← Complex.exp_conj, map_mul, Complex.conj_I, Complex.conj_ofReal, mul_neg]
  have hcc : conj (Complex.cos x) = Complex.cos x := by rw [← Complex.cos_conj, Complex.conj_ofReal]
  have hss : conj (Complex.sin x) = Complex.sin x := by rw [← Complex.sin_conj, Complex.conj_ofReal]
  have hee : Complex.exp (a * Complex.I) * Complex.exp (-(a * Complex.I)) = 1 := by
    rw [← Complex.exp_add, add_neg_cancel, Complex.exp_zero]
  rw [h0, h1]
  simp only [map_mul, hc, hcc, hss, Complex.conj_I]
  push_cast
  have hp := Complex.sin_sq_add_cos_sq (x : ℂ)
  set P := Complex.exp (a * Complex.I) with hP
  set Q := Complex.exp (-(a * Complex.I)) with hQ
  set c := Complex.cos x
  set d := Complex.sin x
  have : P * c * (Q * c) * 1 + P * c * (Q * (-Complex.I * d)) * (2 + (s : ℂ)) +
      (P * (Complex.I * d) * (Q * c) * (2 + (s : ℂ)) + P * (Complex.I * d) * (Q * (-Complex.I * d)) * (2 + (s : ℂ)) ^ 2) =
      (P * Q) * (c ^ 2 - Complex.I ^ 2 * d ^ 2 * (2 + (s : ℂ)) ^ 2) := by ring
  rw [this, hee, Complex.I_sq]
  linear_combination hp

/-- C63 is false as it stands: with one momentum, for the Fermi sea of `J < 0`, the particle number is conserved, it is 1 at
all times and for all interactions (`s = -1`); the matrix element which the program approximates is `5 - 4 cos (U t)`; and
with `J = -1/100`, `U = 1`, `dt = 1/10` the second number printed is greater than 2. -/
theorem momentum1dRk4_wrong :
    (∀ J U : ℝ, J < 0 → ∃ m, initMatrix (Spec.entries 1 0) 1 (bandEnergy 1 J) U 1 = .val m ∧
      ∃ v, IsFlow 2 (fun i j => m.get i j) v ∧ ∀ t,
        seaNumber (-1) (fermiSea 1 J) (Spec.entries 1 0) (v t) = 1 ∧
        seaNumber 1 (fermiSea 1 J) (Spec.entries 1 0) (v t) = ((5 - 4 * Real.cos (U * t) : ℝ) : ℂ)) ∧
    ∃ first second, momentum1dRk4 [0, 1] [0] ⟨[], [], [], []⟩ 1 (-1 / 100) 1 (1 / 10) = .val (first, second) ∧ first = 1 ∧
      2 < second := by
  have part : ∀ J U : ℝ, J < 0 → ∃ m, initMatrix (Spec.entries 1 0) 1 (bandEnergy 1 J) U 1 = .val m ∧
      ∃ v, IsFlow 2 (fun i j => m.get i j) v ∧ ∀ t,
        seaNumber (-1) (fermiSea 1 J) (Spec.entries 1 0) (v t) = 1 ∧
        seaNumber 1 (fermiSea 1 J) (Spec.entries 1 0) (v t) = ((5 - 4 * Real.cos (U * t) : ℝ) : ℂ) := by
    intro J U hJ
    obtain ⟨m, m1, -, -, -, -, -, -, -, g1, g2, g3, g4⟩ := momentumMatrix_ok (N := 1) (by norm_num) 0 (bandEnergy 1 J) U
    have i1 : get3opIndex 1 0 0 = 1 := rfl
    have a2 := g2 0 (by norm_num) 0 (by norm_num)
    have a3 := g3 0 (by norm_num) 0 (by norm_num)
    have a4 := g4 0 (by norm_num) 0 (by norm_num) 0 (by norm_num) 0 (by norm_num)
    rw [i1] at a2 a3 a4
    simp only [Nat.cast_one, mul_one] at a2 a3
    rw [if_pos ⟨rfl, rfl⟩, show siteMod ((0 : ℕ) + (0 : ℕ) - (0 : ℕ)) 1 = 0 from rfl] at a4
    refine ⟨m, m1, _, flow_one m (bandEnergy 1 J 0 + U / 2) (U / 2) g1 a2 a3 (by rw [a4]; ring), fun t => ?_⟩
    have h := fun s hs => seaNumber_one s hs hJ (t * (bandEnergy 1 J 0 + U / 2)) (t * (U / 2))
      (fun p => if p = 0 then Complex.exp (t * (bandEnergy 1 J 0 + U / 2 : ℝ) * Complex.I) * Complex.cos (t * (U / 2 : ℝ))
        else Complex.exp (t * (bandEnergy 1 J 0 + U / 2 : ℝ) * Complex.I) * (Complex.I * Complex.sin (t * (U / 2 : ℝ))))
      (by push_cast; simp) (by push_cast; simp)
    constructor
    · have := h (-1) (Or.inr rfl)
      rw [show (((-1 : ℝ) : ℂ)) = -1 by push_cast; rfl] at this
      rw [this]; push_cast; ring
    · have := h 1 (Or.inl rfl)
      rw [Complex.ofReal_one] at this
      rw [this]
      congr 1
      have := Real.cos_sq (t * (U / 2))
      have h2 := Real.sin_sq_add_cos_sq (t * (U / 2))
      rw [show 2 * (t * (U / 2)) = U * t by ring] at this
      nlinarith
  refine ⟨part, ?_⟩
  obtain ⟨f, s, m, h1, h2, -, h3, h4⟩ := momentum1dRk4_partial 1 (by norm_num) (-1 / 100) 1 (dt := 1 / 10) (by norm_num)
    ⟨[], [], [], []⟩ (conjugation := [0, 1]) (energies := [0]) (by decide) (by decide)
  obtain ⟨m', k1, v, k2, k3⟩ := part (-1 / 100) 1 (by norm_num)
  rw [show (1 : ℕ) / 2 = 0 from rfl] at h2 h3 h4
  rw [h3] at k1
  cases k1
  refine ⟨f, s, h1, by rw [h2, if_pos (by rw [bandEnergy_one]; norm_num)], ?_⟩
  have h5 := h4 v k2
  rw [(k3 _).2, Complex.ofReal_re] at h5
  have hcos := (abs_le.1 (Real.cos_bound (x := 1 * (8 * (1 / 10))) (by norm_num [abs_of_pos]))).2
  rw [abs_of_pos (by norm_num : (0 : ℝ) < 1 * (8 * (1 / 10)))] at hcos
  have herr : rk4Error (6 * |(-1 / 100 : ℝ)| + (((1 : ℕ) : ℝ) + 1) / 2 * |1|) (1 / 10) 8 ≤ 1 / 10000 := by
    unfold rk4Error
    have : (6 * |(-1 / 100 : ℝ)| + (((1 : ℕ) : ℝ) + 1) / 2 * |1|) = 106 / 100 := by norm_num [abs_of_neg, abs_of_pos]
    rw [this, if_pos (by norm_num)]
    norm_num
  have herr0 : 0 ≤ rk4Error (6 * |(-1 / 100 : ℝ)| + (((1 : ℕ) : ℝ) + 1) / 2 * |1|) (1 / 10) 8 :=
    rk4Error_nonneg (by positivity) (by norm_num) 8
  have h6 := (abs_le.1 h5).1
  norm_num at hcos h6 herr herr0
  nlinarith

/-- Non-vacuity: for every number of points the flow exists. -/
example (N : ℕ) (m : Sparse ℝ) : ∃ v, IsFlow (N * N + 1) (fun i j => m.get i j) v := flow_exists _ _

end Ieompp.Program

namespace Ieompp.MomentumSpace

open ODE Ieompp.Spec

/-- C55 in momentum space: with `dt (3 e + (N+1)/2 |U|) ≤ √8`, `e` a bound for the energies, no number of Runge–Kutta steps
increases the norm of the coefficient vector. -/
theorem momentumMatrix_rk4_stable {N q : ℕ} (hN : 0 < N) (hq : q < N) (eps : ℕ → ℝ) (U e dt : ℝ) (he : ∀ k < N, |eps k| ≤ e)
    (hdt : 0 ≤ dt) (hst : (dt * (3 * e + (N + 1) / 2 * |U|)) ^ 2 ≤ 8) :
    ∃ m, initMatrix (Spec.entries N q) N eps U N = .val m ∧ m.rows = N * N + 1 ∧
      ∀ (w : Work ℂ) (u : Fin m.rows → ℂ) (k : ℕ), ∃ (w' : Work ℂ) (y : Fin m.rows → ℂ),
        integrate m.rows (dt : ℂ) (fun i j => Complex.I * (m.get i j : ℂ)) k w (List.ofFn u) = .val (w', List.ofFn y) ∧
        ∑ i, ‖y i‖ ^ 2 ≤ ∑ i, ‖u i‖ ^ 2 := by
  obtain ⟨m, h1, h2, h3, _⟩ := momentumMatrix_ok hN q eps U
  obtain ⟨m', h1', h4⟩ := momentumMatrix_symm hN q eps U
  rw [h1] at h1'
  cases h1'
  rw [h3, ← h2] at h4
  have e0 : 0 ≤ e := (abs_nonneg _).trans (he q hq)
  refine ⟨m, h1, h2, fun w u k => ?_⟩
  refine rk4_stable (fun i j => m.get i j) h4 (3 * e + (N + 1) / 2 * |U|) dt (by positivity) hdt (fun i hi => ?_) hst w u k
  rw [h2] at hi ⊢
  exact Program.momentum_row_sum eps U hN hq e he h1 hi

/-- The default parameters (`N = 16`, `J = U = 1`, `dt = 0.01`) meet the hypotheses. -/
example : ((1 / 100 : ℝ) * (3 * 2 + ((16 : ℕ) + 1) / 2 * |1|)) ^ 2 ≤ 8 ∧ ∀ k < 16, |bandEnergy 16 1 k| ≤ 2 := by
  refine ⟨by norm_num, fun k _ => by simpa using Program.bandEnergy_abs_le 16 1 k⟩

end Ieompp.MomentumSpace
