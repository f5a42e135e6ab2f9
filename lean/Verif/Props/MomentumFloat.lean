import Verif.Model.MomentumProgramFloat
import Verif.Props.MomentumProgram
import Verif.Props.FlowPerturbation
import Verif.Props.TrivialFloat
import Verif.Props.DispersionFloat

/-! # The matrix and the particle number of the momentum space program in floating point arithmetic -/

set_option autoImplicit false
set_option linter.unusedSectionVars false

namespace Ieompp.MomentumSpace

open Ieompp.Spec ODE RealSpace ComplexConjugate
open Program (unit0 form)

/-! ### Matrices with one full row, one full column and a diagonal -/

/-- What such a matrix looks like after the loop over the rows. -/
theorem arrow_fill (K cap : ℕ) (o : ℝ) (D : ℕ → ℝ) (f : ℕ → Option (List (Triplet ℝ)))
    (h0 : f 0 = some (⟨0, 0, D 0⟩ :: (List.range' 1 K).map fun i => ⟨0, i, o⟩))
    (h1 : ∀ r, 1 ≤ r → r ≤ K → f r = some [⟨r, 0, o⟩, ⟨r, r, D r⟩]) (hcap : 3 * K + 1 ≤ cap) :
    ∃ m, Sparse.fillRows f (List.range (K + 1)) (Sparse.init (K + 1) cap) = .val m ∧
      (∀ i ≤ K, ∀ j ≤ K, m.get i j = if i = j then D i else if i = 0 ∨ j = 0 then o else 0) ∧
      (1 ≤ K → Stored (K + 1) (fun i j => Complex.I * (m.get i j : ℂ)) (storedColumns m) (K + 1)) ∧
      ∀ i, ∀ e ∈ m.done.getD i [], e.2 = o ∨ ∃ r ≤ K, e.2 = D r := by
  set L : ℕ → List (Triplet ℝ) := fun r =>
    if r = 0 then ⟨0, 0, D 0⟩ :: (List.range' 1 K).map fun i => ⟨0, i, o⟩ else [⟨r, 0, o⟩, ⟨r, r, D r⟩] with hL
  have hf : ∀ r ≤ K, f r = some (L r) := by
    intro r hr
    by_cases hr0 : r = 0
    · subst hr0; rw [h0, hL]; simp
    · rw [h1 r (by omega) hr, hL]; simp [hr0]
  have hcols : ∀ r, (L r).map Triplet.column = if r = 0 then List.range' 0 (K + 1) else [0, r] := by
    intro r
    by_cases hr0 : r = 0
    · subst hr0
      rw [hL]
      simp [List.range'_succ, Function.comp_def]
    · rw [hL]; simp [hr0]
  have hstrict : ∀ r, StrictColumns (L r) := by
    intro r
    have : ((L r).map Triplet.column).Pairwise (· < ·) := by
      rw [hcols]
      split_ifs with h
      · exact List.pairwise_lt_range'
      · simp; omega
    rw [List.pairwise_map] at this
    exact this
  have hlt : ∀ r ≤ K, ∀ t ∈ L r, t.column < K + 1 := by
    intro r hr t ht
    have : t.column ∈ (L r).map Triplet.column := List.mem_map_of_mem ht
    rw [hcols] at this
    split_ifs at this
    · rw [List.mem_range'_1] at this; omega
    · simp at this; omega
  have hlen : ∀ r, (L r).length = if r = 0 then K + 1 else 2 := by
    intro r
    rw [← List.length_map (f := Triplet.column), hcols]
    split_ifs <;> simp
  have hsum : ((List.range' 0 (K + 1)).map fun r => (L r).length).sum = 3 * K + 1 := by
    rw [List.map_congr_left fun r _ => hlen r, sum_first (b := 2) K (fun r hr => by rw [if_neg hr])]
    simp only [if_true]; omega
  have fill : Sparse.fillRows f (List.range (K + 1)) (Sparse.init (K + 1) cap) =
      .val ⟨K + 1, K + 1, cap, [] ++ (List.range' 0 (K + 1)).map (fun r => Sparse.stored (L r)), []⟩ := by
    rw [List.range_eq_range']
    refine Sparse.fillRows_val _ L (K + 1) (Sparse.init (K + 1) cap) rfl (by simp [Sparse.init]) ?_ ?_
    · intro row _ hr
      have hr : row < K + 1 := by simpa [Sparse.init] using hr
      exact ⟨hf row (by omega), hstrict row, hlt row (by omega)⟩
    · have : (Sparse.init (S := ℝ) (K + 1) cap).nonZeros = 0 := by simp [Sparse.init, Sparse.nonZeros]
      rw [this, zero_add]
      show ((List.range' 0 (K + 1)).map fun r => (L r).length).sum ≤ cap
      rw [hsum]; exact hcap
  refine ⟨_, fill, ?_, fun hK => ?_, ?_⟩
  · intro i hi j hj
    rw [RealSpace.get_of_done (L := L) (n := K + 1) rfl (by omega) (hstrict i)]
    by_cases hi0 : i = 0
    · subst hi0
      have e : L 0 = ⟨0, 0, D 0⟩ :: (List.range' 1 K).map fun i => ⟨0, (fun n => n) i, o⟩ := by rw [hL]; simp
      rw [e, columnSum_cons, columnSum_map 0 (List.range' 1 K) (fun n => n) _ _ (by simpa using List.nodup_range')]
      simp only [List.map_id', List.mem_range'_1]
      by_cases hj0 : j = 0
      · subst hj0; simp
      · rw [if_neg (Ne.symm hj0), if_neg (Ne.symm hj0), if_pos (by omega), if_pos (Or.inl trivial), zero_add]
    · have e : L i = [⟨i, 0, o⟩, ⟨i, i, D i⟩] := by rw [hL]; simp [hi0]
      rw [e, columnSum_cons, columnSum_cons, columnSum_nil, add_zero]
      by_cases hj0 : j = 0
      · subst hj0; simp [hi0]
      · by_cases hij : i = j
        · subst hij; simp [Ne.symm hj0]
        · simp [hij, hi0, hj0, Ne.symm hj0]
  · have hst : ∀ i < K + 1, storedColumns (⟨K + 1, K + 1, cap, [] ++ (List.range' 0 (K + 1)).map (fun r => Sparse.stored (L r)), []⟩ : Sparse ℝ) i =
        if i = 0 then List.range' 0 (K + 1) else [0, i] := by
      intro i hi
      rw [← hcols]
      unfold storedColumns
      simp [List.getD_eq_getElem?_getD, hi, Sparse.stored, Function.comp_def]
    refine ⟨fun i hi => ?_, fun i hi j hj => ?_, fun i hi j hj hne => ?_, fun i hi => ?_⟩
    · rw [hst i hi]; split_ifs
      · exact List.nodup_range'
      · simp; omega
    · rw [hst i hi] at hj; split_ifs at hj
      · rw [List.mem_range'_1] at hj; omega
      · simp at hj; omega
    · have hg : (⟨K + 1, K + 1, cap, [] ++ (List.range' 0 (K + 1)).map (fun r => Sparse.stored (L r)), []⟩ : Sparse ℝ).get i j ≠ 0 :=
        fun h0 => hne (by simp only [h0]; simp)
      rcases Sparse.get_mem _ i j with h | ⟨e, he, h⟩
      · exact absurd h hg
      · unfold Sparse.get at hg
        unfold storedColumns
        cases hfd : (List.getD ([] ++ (List.range' 0 (K + 1)).map (fun r => Sparse.stored (L r))) i []).find? (fun e => e.1 = j) with
        | none => simp only at hg; rw [hfd] at hg; simp at hg
        | some e =>
          have h2 := List.find?_some hfd
          simp only [decide_eq_true_eq] at h2
          exact List.mem_map.2 ⟨e, List.mem_of_find?_eq_some hfd, h2⟩
    · rw [hst i hi]; split_ifs <;> simp; omega
  · intro i e he
    simp only [List.nil_append] at he
    by_cases hi : i < K + 1
    · rw [List.getD_eq_getElem?_getD, List.getElem?_map, List.getElem?_range' (by simpa using hi)] at he
      simp only [Sparse.stored, zero_add, one_mul, Option.map_some, Option.getD_some, List.mem_map] at he
      obtain ⟨t, ht, rfl⟩ := he
      simp only [hL] at ht
      split_ifs at ht with h
      · rcases List.mem_cons.1 ht with rfl | ht
        · exact Or.inr ⟨0, by omega, rfl⟩
        · obtain ⟨_, _, rfl⟩ := List.mem_map.1 ht; exact Or.inl rfl
      · simp at ht
        rcases ht with rfl | rfl
        · exact Or.inl rfl
        · exact Or.inr ⟨i, by omega, rfl⟩
    · rw [List.getD_eq_getElem?_getD, List.getElem?_eq_none (by simp; omega)] at he
      simp at he

/-- The diagonal of the matrix of the equations of motion. -/
noncomputable def diagonal (N q : ℕ) (eps : ℕ → ℝ) (U : ℝ) (r : ℕ) : ℝ :=
  if r = 0 then eps q + U / 2 else eps ((r - 1) / N) + eps ((r - 1) % N) - eps (third N q ((r - 1) / N) ((r - 1) % N)) + U / 2

/-- The computed diagonal. -/
noncomputable def diagonalF (fl : ℝ → ℝ) (N q : ℕ) (eps : ℕ → ℝ) (U : ℝ) (r : ℕ) : ℝ :=
  if r = 0 then fl (eps q + fl (U / 2))
  else fl (fl (fl (eps ((r - 1) / N) + eps ((r - 1) % N)) - eps (third N q ((r - 1) / N) ((r - 1) % N))) + fl (U / 2))

theorem index_div {N a b : ℕ} (hb : b < N) : (get3opIndex N a b - 1) / N = a ∧ (get3opIndex N a b - 1) % N = b := by
  have e : get3opIndex N a b - 1 = b + N * a := by unfold get3opIndex; rw [mul_comm]; omega
  rw [e]
  constructor
  · rw [Nat.add_mul_div_left _ _ (by omega), Nat.div_eq_of_lt hb, zero_add]
  · rw [Nat.add_mul_mod_self_left, Nat.mod_eq_of_lt hb]

theorem capacity_le (N : ℕ) : 3 * (N * N) + 1 ≤ numberOfMatrixElements N ∨ N = 0 := by
  unfold numberOfMatrixElements
  have : N * (1 + 3 * N) = N + 3 * (N * N) := by ring
  omega

theorem rowTripletsF_arrow (fl : ℝ → ℝ) {N q : ℕ} (eps : ℕ → ℝ) (U : ℝ) :
    rowTripletsF fl (Spec.entries N q) eps U N 0 = some (⟨0, 0, diagonalF fl N q eps U 0⟩ :: (List.range' 1 (N * N)).map fun i =>
      ⟨0, i, fl (U / fl (2 * (N : ℝ)))⟩) ∧
    ∀ r, 1 ≤ r → r ≤ N * N → rowTripletsF fl (Spec.entries N q) eps U N r =
      some [⟨r, 0, fl (U / fl (2 * (N : ℝ)))⟩, ⟨r, r, diagonalF fl N q eps U r⟩] := by
  constructor
  · unfold rowTripletsF diagonalF
    rw [if_pos rfl, if_pos rfl, entries_length, Nat.add_sub_cancel]
    rfl
  · intro r h1 h2
    obtain ⟨a, b, ha, hb, rfl⟩ := index_surj N (by omega : r ≠ 0) (by omega)
    have hne : get3opIndex N a b ≠ 0 := by omega
    unfold rowTripletsF diagonalF
    rw [if_neg hne, if_neg hne, (index_div hb).1, (index_div hb).2]
    unfold RealSpace.basisSites
    rw [entries_getElem N q ha hb]
    rfl

theorem rowTriplets_arrow {N q : ℕ} (eps : ℕ → ℝ) (U : ℝ) :
    rowTriplets (Spec.entries N q) eps U N 0 = some (⟨0, 0, diagonal N q eps U 0⟩ :: (List.range' 1 (N * N)).map fun i =>
      ⟨0, i, U / (2 * (N : ℝ))⟩) ∧
    ∀ r, 1 ≤ r → r ≤ N * N → rowTriplets (Spec.entries N q) eps U N r =
      some [⟨r, 0, U / (2 * (N : ℝ))⟩, ⟨r, r, diagonal N q eps U r⟩] := by
  constructor
  · rw [rowTriplets_zero]; rfl
  · intro r h1 h2
    obtain ⟨a, b, ha, hb, rfl⟩ := index_surj N (by omega : r ≠ 0) (by omega)
    have hne : get3opIndex N a b ≠ 0 := by omega
    rw [rowTriplets_three N q eps U ha hb]
    unfold diagonal
    rw [if_neg hne, (index_div hb).1, (index_div hb).2]

/-- The computed matrix and the exact matrix, element by element. -/
theorem initMatrixF_elements (fl : ℝ → ℝ) {N : ℕ} (hN : 0 < N) (q : ℕ) (eps eps' : ℕ → ℝ) (U : ℝ) :
    ∃ m m', initMatrix (Spec.entries N q) N eps U N = .val m ∧ initMatrixF fl (Spec.entries N q) N eps' U N = .val m' ∧
      (∀ i ≤ N * N, ∀ j ≤ N * N, m.get i j = if i = j then diagonal N q eps U i else if i = 0 ∨ j = 0 then U / (2 * (N : ℝ)) else 0) ∧
      (∀ i ≤ N * N, ∀ j ≤ N * N, m'.get i j =
        if i = j then diagonalF fl N q eps' U i else if i = 0 ∨ j = 0 then fl (U / fl (2 * (N : ℝ))) else 0) ∧
      Stored (N * N + 1) (fun i j => Complex.I * (m'.get i j : ℂ)) (storedColumns m') (N * N + 1) ∧
      ∀ i, ∀ e ∈ m'.done.getD i [], e.2 = fl (U / fl (2 * (N : ℝ))) ∨ ∃ r ≤ N * N, e.2 = diagonalF fl N q eps' U r := by
  have hcap : 3 * (N * N) + 1 ≤ numberOfMatrixElements N := by
    rcases capacity_le N with h | h
    · exact h
    · omega
  have hK : 1 ≤ N * N := Nat.mul_pos hN hN
  obtain ⟨a0, a1⟩ := rowTriplets_arrow (N := N) (q := q) eps U
  obtain ⟨b0, b1⟩ := rowTripletsF_arrow fl (N := N) (q := q) eps' U
  obtain ⟨m, c1, c2, -, -⟩ := arrow_fill (N * N) (numberOfMatrixElements N) _ _ _ a0 a1 hcap
  obtain ⟨m', d1, d2, d3, d4⟩ := arrow_fill (N * N) (numberOfMatrixElements N) _ _ _ b0 b1 hcap
  refine ⟨m, m', ?_, ?_, c2, d2, d3 hK, d4⟩
  · unfold initMatrix; rw [entries_length]; exact c1
  · unfold initMatrixF; rw [entries_length]; exact d1

/-- Row sums of such a matrix. -/
theorem arrow_row_sum {K : ℕ} {g : ℕ → ℕ → ℝ} {D : ℕ → ℝ} {o d w : ℝ} (hg : ∀ i ≤ K, ∀ j ≤ K, g i j = if i = j then D i else if i = 0 ∨ j = 0 then o else 0)
    (hK : 1 ≤ K) (hd : ∀ r ≤ K, |D r| ≤ d) (hw : K * |o| ≤ w) {i : ℕ} (hi : i < K + 1) : ∑ j ∈ Finset.range (K + 1), |g i j| ≤ d + w := by
  have hKr : (1 : ℝ) ≤ K := by exact_mod_cast hK
  have ho := abs_nonneg o
  have h1 : ∑ j ∈ Finset.range (K + 1), |g i j| = |D i| + ∑ j ∈ (Finset.range (K + 1)).erase i, |if i = 0 ∨ j = 0 then o else 0| := by
    rw [← Finset.add_sum_erase _ _ (Finset.mem_range.2 hi), hg i (by omega) i (by omega), if_pos rfl]
    congr 1
    refine Finset.sum_congr rfl fun j hj => ?_
    obtain ⟨h1, h2⟩ := Finset.mem_erase.1 hj
    rw [hg i (by omega) j (by have := Finset.mem_range.1 h2; omega), if_neg (Ne.symm h1)]
  rw [h1]
  refine add_le_add (hd i (by omega)) (le_trans ?_ hw)
  by_cases hi0 : i = 0
  · subst hi0
    rw [Finset.sum_congr rfl fun j _ => by rw [if_pos (Or.inl rfl)], Finset.sum_const, Finset.card_erase_of_mem (Finset.mem_range.2 hi),
      Finset.card_range, Nat.add_sub_cancel, nsmul_eq_mul]
  · rw [Finset.sum_eq_single_of_mem 0 (by simp; omega)]
    · rw [if_pos (Or.inr rfl)]; nlinarith
    · intro j _ hj
      rw [if_neg (by omega), abs_zero]

/-! ### The particle number -/

variable {fl : ℝ → ℝ} {u : ℝ}

theorem multiplyWithConjugateF_close (hfl : Rounding fl u) (a b : ℂ) :
    ApproxC u 2 (multiplyWithConjugateF fl a b) (a * conj b) (2 * (‖a‖ * ‖b‖)) := by
  have hu := hfl.nonneg
  have r := ApproxR.add hfl (approx_product hfl a.re b.re) (approx_product hfl a.im b.im)
  have s := ApproxR.add hfl (approx_product hfl (-a.re) b.im) (approx_product hfl b.re a.im)
  have c1 := abs_components_le a b
  have c2 : |a.re| * |b.im| + |b.re| * |a.im| ≤ ‖a‖ * ‖b‖ := by
    have := abs_components_le a (⟨b.im, b.re⟩ : ℂ)
    have e : ‖(⟨b.im, b.re⟩ : ℂ)‖ = ‖b‖ := by
      rw [Complex.norm_def, Complex.norm_def, Complex.normSq_apply, Complex.normSq_apply]; congr 1; simp; ring
    rw [e] at this
    simp only at this
    linarith [mul_comm |b.re| |a.im|]
  have r' := r.mono hu le_rfl (show _ ≤ ‖a‖ * ‖b‖ from c1)
  have s' := s.mono hu le_rfl (show _ ≤ ‖a‖ * ‖b‖ by rw [abs_neg]; exact c2)
  have hex : a * conj b = ⟨a.re * b.re + a.im * b.im, -a.re * b.im + b.re * a.im⟩ := by
    apply Complex.ext
    · simp
    · simp; ring
  constructor
  · rw [hex]
    refine (Complex.norm_le_abs_re_add_abs_im _).trans ((add_le_add r'.1 s'.1).trans (le_of_eq ?_))
    ring
  · rw [hex]
    refine (Complex.norm_le_abs_re_add_abs_im _).trans ((add_le_add r'.2 s'.2).trans (le_of_eq ?_))
    ring

theorem particleStepF_close (hfl : Rounding fl u) {vec : List ℂ} {y : ℕ → ℂ} (hy : ∀ i < vec.length, vec[i]? = some (y i)) {c : Contribution ℝ}
    (hc : c.left < vec.length ∧ c.right < vec.length) {k : ℕ} (hk : 3 ≤ k) {a' a : ℂ} {A : ℝ} (ha : ApproxC u k a' a A) :
    ∃ x, particleStepF fl vec a' c = .val x ∧
      ApproxC u (k + 1) x (a + y c.left * conj (y c.right) * (c.value : ℂ)) (A + 2 * |c.value| * (‖y c.left‖ * ‖y c.right‖)) := by
  have hu := hfl.nonneg
  have v1 : vecAt vec c.left = .val (y c.left) := by unfold vecAt; rw [hy _ hc.1]
  have v2 : vecAt vec c.right = .val (y c.right) := by unfold vecAt; rw [hy _ hc.2]
  have hv := abs_nonneg c.value
  unfold particleStepF
  rw [v1, v2]
  split_ifs with h
  · refine ⟨_, rfl, ?_⟩
    rw [← h]
    have n := ApproxR.mul hfl (approx_norm hfl (y c.left)) (ApproxR.exact (u := u) c.value)
    have e : y c.left * conj (y c.left) * (c.value : ℂ) = ((Complex.normSq (y c.left) * c.value : ℝ) : ℂ) := by
      rw [Complex.mul_conj]; push_cast; rfl
    rw [e]
    refine Program.addRealF_close hfl ha (n.mono hu (by omega) ?_)
    nlinarith [mul_nonneg (norm_nonneg (y c.left)) (norm_nonneg (y c.left))]
  · refine ⟨_, rfl, ?_⟩
    have n := approxC_scaleR hfl (ApproxR.exact (u := u) c.value) (multiplyWithConjugateF_close hfl (y c.left) (y c.right))
    rw [mul_comm _ (c.value : ℂ)]
    refine ha.add hfl ((approxC_bound hu n ?_).mono hu (by omega))
    exact le_of_eq (by ring)

theorem particleFoldF_close (hfl : Rounding fl u) {vec : List ℂ} {y : ℕ → ℂ} (hy : ∀ i < vec.length, vec[i]? = some (y i)) :
    ∀ (l : List (Contribution ℝ)), (∀ c ∈ l, c.left < vec.length ∧ c.right < vec.length) → ∀ {k : ℕ}, 3 ≤ k → ∀ {a' a : ℂ} {A : ℝ}, ApproxC u k a' a A →
    ∃ x, l.foldl (fun (acc : Res ℂ) c => acc.bind fun r => particleStepF fl vec r c) (.val a') = .val x ∧
      ApproxC u (k + l.length) x (a + (l.map fun c => y c.left * conj (y c.right) * (c.value : ℂ)).sum)
        (A + (l.map fun c => 2 * |c.value| * (‖y c.left‖ * ‖y c.right‖)).sum)
  | [], _, k, _, a', a, A, ha => ⟨a', rfl, by simpa using ha⟩
  | c :: l, hp, k, hk, a', a, A, ha => by
    obtain ⟨x, h1, h2⟩ := particleStepF_close hfl hy (hp c (by simp)) hk ha
    obtain ⟨z, h3, h4⟩ := particleFoldF_close hfl hy l (fun q hq => hp q (by simp [hq])) (by omega : 3 ≤ k + 1) h2
    refine ⟨z, by rw [List.foldl_cons, Res.bind_val, h1]; exact h3, ?_⟩
    rw [List.length_cons, show k + (l.length + 1) = k + 1 + l.length by ring, List.map_cons, List.map_cons, List.sum_cons, List.sum_cons,
      ← add_assoc, ← add_assoc]
    exact h4

/-- With a computation that is exact on the values that occur the fold keeps the value: for the first unit vector only the entry (0, 0) counts. -/
theorem particleFoldF_unit (hfl : Rounding fl u) (h1 : fl 1 = 1) {vec : List ℂ} (hy : ∀ i < vec.length, vec[i]? = some (if i = 0 then 1 else 0)) :
    ∀ (l : List (Contribution ℝ)), (∀ c ∈ l, c.left < vec.length ∧ c.right < vec.length ∧ (c.left ≠ 0 ∨ c.right ≠ 0)) → ∀ {a : ℂ}, fl a.re = a.re →
      fl a.im = a.im → l.foldl (fun (acc : Res ℂ) c => acc.bind fun r => particleStepF fl vec r c) (.val a) = .val a
  | [], _, a, _, _ => rfl
  | c :: l, hp, a, ha, hb => by
    have hz := fl_zero hfl
    obtain ⟨c1, c2, c3⟩ := hp c (by simp)
    have v1 : vecAt vec c.left = .val (if c.left = 0 then 1 else 0) := by unfold vecAt; rw [hy _ c1]
    have v2 : vecAt vec c.right = .val (if c.right = 0 then 1 else 0) := by unfold vecAt; rw [hy _ c2]
    have key : particleStepF fl vec a c = .val a := by
      unfold particleStepF
      rw [v1, v2]
      split_ifs with h e1 e1 e2 e2 <;> try omega
      · simp only [Res.bind_val, Program.addRealF, normF]
        congr 1
        apply Complex.ext <;> simp [hz, ha]
      all_goals
        simp only [Res.bind_val, addC, scaleC, multiplyWithConjugateF]
        congr 1
        apply Complex.ext <;> simp [hz, ha, hb]
    rw [List.foldl_cons, Res.bind_val, key]
    exact particleFoldF_unit hfl h1 hy l (fun d hd => hp d (by simp [hd])) ha hb

/-! ### The table -/

variable {N q : ℕ} {FS : Finset Mode}

theorem table_mem {n : ℕ} (hn : 0 < n) {c : Contribution ℝ} (hc : c ∈ (pairs n).flatMap (want ℝ FS N q)) :
    c.left < n ∧ c.right < n ∧ c.value = seaValue (1 : ℝ) FS (Spec.entries N q) c.left c.right := by
  obtain ⟨p, hp, hc⟩ := List.mem_flatMap.1 hc
  rw [mem_pairs hn] at hp
  unfold want at hc
  split at hc
  · rw [List.mem_singleton] at hc
    subst hc
    exact ⟨hp.1, hp.2, rfl⟩
  · simp at hc

theorem table_length {n : ℕ} (hn : 0 < n) : ((pairs n).flatMap (want ℝ FS N q)).length ≤ n ^ 2 := by
  have h1 : (pairs n).length = n ^ 2 := by
    have := pairs_sum (M := ℕ) n hn fun _ => 1
    simpa [sq] using this
  have h2 : ∀ l : List (ℕ × ℕ), (l.flatMap (want ℝ FS N q)).length ≤ l.length := by
    intro l
    induction l with
    | nil => simp
    | cons p l ih =>
      rw [List.flatMap_cons, List.length_append, List.length_cons]
      have : (want ℝ FS N q p).length ≤ 1 := by unfold want; split <;> simp
      omega
  rw [← h1]; exact h2 _

theorem table_weight {n : ℕ} (hn : n = N * N + 1) (hq : q < N) (y : ℕ → ℂ) :
    (((pairs n).flatMap (want ℝ FS N q)).map fun c => 2 * |c.value| * (‖y c.left‖ * ‖y c.right‖)).sum ≤
      18 * n * ∑ i ∈ Finset.range n, ‖y i‖ ^ 2 := by
  have hn0 : 0 < n := by omega
  have h1 : ∀ l : List (ℕ × ℕ), (∀ p ∈ l, p.1 < n ∧ p.2 < n) → ((l.flatMap (want ℝ FS N q)).map fun c => 2 * |c.value| * (‖y c.left‖ * ‖y c.right‖)).sum ≤
      (l.map fun p => 18 * (‖y p.1‖ * ‖y p.2‖)).sum := by
    intro l
    induction l with
    | nil => simp
    | cons p l ih =>
      intro hp
      rw [List.flatMap_cons, List.map_append, List.sum_append, List.map_cons, List.sum_cons]
      refine add_le_add ?_ (ih fun p hp' => hp p (by simp [hp']))
      have h9 := Program.seaValue_abs_le hq FS (i := p.1) (j := p.2) (by have := (hp p (by simp)).1; omega) (by have := (hp p (by simp)).2; omega)
      have h0 : 0 ≤ ‖y p.1‖ * ‖y p.2‖ := by positivity
      unfold want
      split
      · simp only [List.map_cons, List.map_nil, List.sum_cons, List.sum_nil, add_zero]
        nlinarith
      · simp; positivity
  refine (h1 _ fun p hp => (mem_pairs hn0 p).1 hp).trans ?_
  rw [pairs_sum n hn0]
  have h2 : ∑ i ∈ Finset.range n, ∑ j ∈ Finset.range n, 18 * (‖y i‖ * ‖y j‖) = 18 * (∑ i ∈ Finset.range n, ‖y i‖) ^ 2 := by
    rw [sq, Finset.sum_mul_sum, Finset.mul_sum]
    exact Finset.sum_congr rfl fun i _ => by rw [Finset.mul_sum]
  rw [h2, mul_assoc]
  have h3 := sq_sum_le_card_mul_sum_sq (s := Finset.range n) (f := fun i => ‖y i‖)
  rw [Finset.card_range] at h3
  linarith

/-- The number computed for a vector, and the exact matrix element for the same vector. -/
theorem particleNumberF_close (hfl : Rounding fl u) {n : ℕ} (hn : n = N * N + 1) (hq : q < N) (y : Fin n → ℂ) :
    ∃ x, particleNumberF fl (List.ofFn y) ((pairs n).flatMap (want ℝ FS N q)) = .val x ∧
      |x - (form n (fun i j => seaValue (1 : ℝ) FS (Spec.entries N q) i j) fun i => (List.ofFn y).getD i 0).re| ≤
        ((1 + u) ^ (3 + n ^ 2) - 1) * (18 * n * ∑ i ∈ Finset.range n, ‖(List.ofFn y).getD i 0‖ ^ 2) := by
  have hu := hfl.nonneg
  have hn0 : 0 < n := by omega
  set Y : ℕ → ℂ := fun i => (List.ofFn y).getD i 0 with hY
  have hget : ∀ i < (List.ofFn y).length, (List.ofFn y)[i]? = some (Y i) := by
    intro i hi
    rw [hY]
    simp only [List.getD_eq_getElem?_getD]
    rw [List.getElem?_eq_getElem hi]; rfl
  obtain ⟨x, h1, h2⟩ := particleFoldF_close hfl hget ((pairs n).flatMap (want ℝ FS N q)) (fun c hc => by
    obtain ⟨h1, h2, -⟩ := table_mem hn0 hc
    simpa using ⟨h1, h2⟩) (le_refl 3) ((approxC_exact (u := u) (0 : ℂ)).mono hu (by omega))
  refine ⟨x.re, by unfold particleNumberF; rw [h1, Res.map_val], ?_⟩
  rw [norm_zero, zero_add, zero_add] at h2
  have h3 := ((approxC_bound hu h2 (table_weight hn hq Y)).mono hu (Nat.add_le_add_left (table_length hn0) 3)).1
  rw [want_sum Y n hn0] at h3
  have h4 := (Complex.abs_re_le_norm _).trans h3
  rw [Complex.sub_re] at h4
  exact h4

/-- The number for the start vector: exact. -/
theorem particleNumberF_unit (hfl : Rounding fl u) (h1 : fl 1 = 1) {n : ℕ} (hn : n = N * N + 1) (hq : q < N) :
    particleNumberF fl (List.ofFn (unit0 n)) ((pairs n).flatMap (want ℝ FS N q)) = .val (if up q ∈ FS then 1 else 0) := by
  have hn0 : 0 < n := by omega
  have hz := fl_zero hfl
  have hget : ∀ i < (List.ofFn (unit0 n)).length, (List.ofFn (unit0 n))[i]? = some (if i = 0 then 1 else 0) := by
    intro i hi
    have hi' : i < n := by simpa using hi
    rw [List.getElem?_ofFn, dif_pos hi']; rfl
  have hE : seaValue (1 : ℝ) FS (Spec.entries N q) 0 0 = if up q ∈ FS then 1 else 0 := by
    rw [sea_00, ev_append, adjVec_one]
    by_cases huq : up q ∈ FS
    · rw [if_pos huq, if_pos huq, map_smul, Pi.smul_apply, fockMono_ket_adj, adjVec_one, if_pos huq,
        Pi.smul_apply, ket, if_pos rfl, smul_eq_mul, smul_eq_mul, mul_one, ← Int.cast_mul, jwSign_sq, Int.cast_one]
    · rw [if_neg huq, if_neg huq, map_zero]; rfl
  have hp : pairs n = (0, 0) :: (pairs n).tail := rfl
  have hrest : ∀ c ∈ (pairs n).tail.flatMap (want ℝ FS N q), c.left < (List.ofFn (unit0 n)).length ∧ c.right < (List.ofFn (unit0 n)).length ∧
      (c.left ≠ 0 ∨ c.right ≠ 0) := by
    intro c hc
    obtain ⟨p, hp', hc⟩ := List.mem_flatMap.1 hc
    have hm : p ∈ pairs n := List.mem_of_mem_tail hp'
    have hne : p ≠ (0, 0) := by
      have := pairs_nodup n
      rw [hp, List.nodup_cons] at this
      exact fun h => this.1 (h ▸ hp')
    rw [mem_pairs hn0] at hm
    unfold want at hc
    split at hc
    · rw [List.mem_singleton] at hc
      subst hc
      refine ⟨by simpa using hm.1, by simpa using hm.2, ?_⟩
      by_contra hcon
      push Not at hcon
      exact hne (Prod.ext hcon.1 hcon.2)
    · simp at hc
  unfold particleNumberF
  rw [hp, List.flatMap_cons, List.foldl_append]
  have hfirst : (want ℝ FS N q (0, 0)).foldl (fun (acc : Res ℂ) c => acc.bind fun r => particleStepF fl (List.ofFn (unit0 n)) r c) (.val 0) =
      .val (if up q ∈ FS then 1 else 0) := by
    unfold want
    simp only
    rw [hE]
    have v0 : vecAt (List.ofFn (unit0 n)) 0 = .val 1 := by unfold vecAt; rw [hget 0 (by simpa using hn0)]; rfl
    by_cases huq : up q ∈ FS
    · rw [if_pos huq, if_pos huq, if_pos one_ne_zero]
      simp only [List.foldl_cons, List.foldl_nil, Res.bind_val]
      unfold particleStepF
      rw [if_pos rfl]
      simp only
      rw [v0, Res.bind_val]
      congr 1
      apply Complex.ext <;> simp [Program.addRealF, normF, hz, h1]
    · rw [if_neg huq, if_neg huq, if_neg (by simp)]
      rfl
  rw [hfirst, particleFoldF_unit hfl h1 hget _ hrest (by split_ifs <;> simp [h1, hz]) (by split_ifs <;> simp [hz]), Res.map_val]
  split_ifs <;> simp

end Ieompp.MomentumSpace
