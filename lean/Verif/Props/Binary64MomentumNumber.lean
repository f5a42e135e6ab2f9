import Verif.Props.Binary64MomentumMatrix
import Verif.Props.Binary64Measured

/-! # C122, fourth part: the particle number with underflow and overflow -/

set_option autoImplicit false
set_option linter.unusedSectionVars false

namespace Ieompp.IEEE

open Ieompp.Spec ODE RealSpace Program
open MomentumSpace (vecAt Contribution table_mem table_length want_sum)
open ComplexConjugate

variable {rnd : ℝ → Res ℝ} {fl : ℝ → ℝ} {u tiny huge : ℝ} {K : ℕ}

/-- `result += x` for a real number. -/
theorem addRealR_ok (M : Machine rnd fl u tiny huge K) {k : ℕ} {a' a : ℂ} {x' x A B : ℝ} (ha : ApproxC u k a' a A) (hx : ApproxR u k x' x B) (hk : k ≤ K)
    (hfit : 3 * (A + B) ≤ huge) :
    ∃ z, addRealR rnd a' x' = .val z ∧ ApproxC u (k + 1) z (a + (x : ℂ)) (A + B + 2 * tiny) := by
  have hu := M.nonneg
  have ht := M.tiny_nonneg
  have h1 : |a'.re| ≤ ‖a'‖ := Complex.abs_re_le_norm a'
  have h2 := RealSpace.approxC_le ha
  have h3 := hx.le
  have hA : 0 ≤ A := (norm_nonneg _).trans ha.2
  have hB := hx.nonneg
  have hp : 1 ≤ (1 + u) ^ k := one_le_pow₀ (by linarith)
  have h4 : |a'.re + x'| ≤ (1 + u) ^ k * (A + B) := by
    have := abs_add_le a'.re x'
    have e : (1 + u) ^ k * (A + B) = (1 + u) ^ k * A + (1 + u) ^ k * B := by ring
    linarith
  have h5 : rnd (a'.re + x') = .val (fl (a'.re + x')) := M.agrees _ (h4.trans (by
    have := mul_le_mul_of_nonneg_right (M.pow_le hk) (add_nonneg hA hB)
    linarith))
  refine ⟨⟨fl (a'.re + x'), a'.im⟩, by unfold addRealR; rw [h5, Res.bind_val], ?_, ?_⟩
  · have e : (⟨fl (a'.re + x'), a'.im⟩ : ℂ) - (a + (x : ℂ)) = ((fl (a'.re + x') - (a'.re + x') : ℝ) : ℂ) + (a' - a) + ((x' - x : ℝ) : ℂ) := by
      apply Complex.ext
      · simp; ring
      · simp
    rw [e]
    refine (norm_add₃_le).trans ?_
    rw [Complex.norm_real, Complex.norm_real, Real.norm_eq_abs, Real.norm_eq_abs]
    have e1 := M.gradual.err' (a'.re + x')
    have e2 := mul_le_mul_of_nonneg_left h4 hu
    have e3 := ha.1
    have e4 := hx.1
    have e6 : u * tiny ≤ ((1 + u) ^ (k + 1) - 1) * (2 * tiny) := by
      have : u ≤ (1 + u) ^ (k + 1) - 1 := by rw [pow_succ]; nlinarith
      nlinarith
    have : ((1 + u) ^ (k + 1) - 1) * (A + B + 2 * tiny) = u * ((1 + u) ^ k * (A + B)) + ((1 + u) ^ k - 1) * A + ((1 + u) ^ k - 1) * B +
        ((1 + u) ^ (k + 1) - 1) * (2 * tiny) := by
      rw [pow_succ]; ring
    rw [mul_add] at e1
    linarith
  · refine (norm_add_le _ _).trans ?_
    rw [Complex.norm_real, Real.norm_eq_abs]
    have := ha.2
    have := hx.2
    linarith

/-- The contribution of a pair of operators, bounded. -/
noncomputable def pairWeight (tiny : ℝ) (y : ℕ → ℂ) (c : Contribution ℝ) : ℝ := 18 * (‖y c.left‖ * ‖y c.right‖ + 2 * tiny)

theorem particleStepR_close (M : Machine rnd fl u tiny huge K) {vec : List ℂ} {y : ℕ → ℂ} (hy : ∀ i < vec.length, vec[i]? = some (y i)) {c : Contribution ℝ}
    (hc : c.left < vec.length ∧ c.right < vec.length) (hv : |c.value| ≤ 9) {k : ℕ} (hk : 3 ≤ k) (hkK : k ≤ K) {a' a : ℂ} {A : ℝ} (ha : ApproxC u k a' a A)
    (hfit : 3 * (A + pairWeight tiny y c) ≤ huge) :
    ∃ x, particleStepR rnd vec a' c = .val x ∧
      ApproxC u (k + 1) x (a + y c.left * conj (y c.right) * (c.value : ℂ)) (A + pairWeight tiny y c + 2 * tiny) := by
  have hu := M.nonneg
  have ht := M.tiny_nonneg
  have v1 : vecAt vec c.left = .val (y c.left) := by unfold vecAt; rw [hy _ hc.1]
  have v2 : vecAt vec c.right = .val (y c.right) := by unfold vecAt; rw [hy _ hc.2]
  have hA : 0 ≤ A := (norm_nonneg _).trans ha.2
  set s := y c.left with hs
  set r := y c.right with hr
  have hn : 0 ≤ ‖s‖ * ‖r‖ := by positivity
  have hw : pairWeight tiny y c = 18 * (‖s‖ * ‖r‖ + 2 * tiny) := rfl
  rw [hw] at hfit ⊢
  have hval := (ApproxR.exact (u := u) c.value).mono hu le_rfl hv
  have hF : Fits tiny huge (9 * (‖s‖ * ‖r‖ + 2 * tiny)) := ⟨by linarith, by linarith⟩
  obtain ⟨o1, o2, o3, p1⟩ := products_ok M (by omega) (abs_components_le s r) (by linarith)
  unfold particleStepR
  split_ifs with h
  · have hsr : s = r := by rw [hs, hr, h]
    rw [← hsr] at o1 o2 o3 p1 hF ⊢
    rw [← hsr] at hfit
    obtain ⟨o4, p2⟩ := M.mul p1 hval (by omega) (by rw [mul_comm]; exact hF)
    obtain ⟨z, z1, z2⟩ := addRealR_ok M ha (p2.mono hu (by omega : _ ≤ k) (show _ ≤ 18 * (‖s‖ * ‖s‖ + 2 * tiny) by
      have : 0 ≤ ‖s‖ * ‖s‖ := by positivity
      linarith)) hkK hfit
    refine ⟨z, ?_, ?_⟩
    · rw [v1]
      unfold normR
      simp only [Res.bind_val, o1, o2, o3, o4, z1]
    · have e : s * conj s * (c.value : ℂ) = (((s.re * s.re + s.im * s.im) * c.value : ℝ) : ℂ) := by
        rw [Complex.mul_conj, Complex.normSq_apply]; push_cast; rfl
      rw [e]
      exact z2
  · have c2 : |-s.re| * |r.im| + |r.re| * |s.im| ≤ ‖s‖ * ‖r‖ := by
      have := abs_components_le s (⟨r.im, r.re⟩ : ℂ)
      have e : ‖(⟨r.im, r.re⟩ : ℂ)‖ = ‖r‖ := by
        rw [Complex.norm_def, Complex.norm_def, Complex.normSq_apply, Complex.normSq_apply]; congr 1; simp; ring
      rw [e] at this
      simp only at this
      rw [abs_neg]
      linarith [mul_comm |r.re| |s.im|]
    obtain ⟨o1', o2', o3', p1'⟩ := products_ok M (by omega) c2 (by linarith)
    obtain ⟨o4, p2⟩ := M.mul hval p1 (by omega) hF
    obtain ⟨o4', p2'⟩ := M.mul hval p1' (by omega) hF
    generalize hX : fl (c.value * fl (fl (s.re * r.re) + fl (s.im * r.im))) = X at o4 p2
    generalize hY : fl (c.value * fl (fl (-s.re * r.im) + fl (r.re * s.im))) = Y at o4' p2'
    have hz : ApproxC u 3 ⟨X, Y⟩ (s * conj r * (c.value : ℂ)) (18 * (‖s‖ * ‖r‖ + 2 * tiny)) := by
      have hex : s * conj r * (c.value : ℂ) = ⟨c.value * (s.re * r.re + s.im * r.im), c.value * (-s.re * r.im + r.re * s.im)⟩ := by
        apply Complex.ext
        · simp; ring
        · simp; ring
      rw [hex]
      constructor
      · refine (Complex.norm_le_abs_re_add_abs_im _).trans ((add_le_add p2.1 p2'.1).trans (le_of_eq ?_))
        ring
      · refine (Complex.norm_le_abs_re_add_abs_im _).trans ((add_le_add p2.2 p2'.2).trans (le_of_eq ?_))
        ring
    obtain ⟨q1, q2⟩ := addR_ok M ha (hz.mono hu hk) hkK hfit
    refine ⟨_, ?_, q2⟩
    rw [v1, v2]
    unfold multiplyWithConjugateR scaleR
    simp only [Res.bind_val, o1, o2, o3, o1', o2', o3', o4, o4', q1]

theorem pairWeight_nonneg (ht : 0 ≤ tiny) (y : ℕ → ℂ) (c : Contribution ℝ) : 0 ≤ pairWeight tiny y c := by unfold pairWeight; positivity

theorem particleFoldR_close (M : Machine rnd fl u tiny huge K) {vec : List ℂ} {y : ℕ → ℂ} (hy : ∀ i < vec.length, vec[i]? = some (y i)) :
    ∀ (l : List (Contribution ℝ)), (∀ c ∈ l, c.left < vec.length ∧ c.right < vec.length ∧ |c.value| ≤ 9) → ∀ {k : ℕ}, 3 ≤ k → k + l.length ≤ K →
    ∀ {a' a : ℂ} {A : ℝ}, ApproxC u k a' a A → 3 * (A + (l.map fun c => pairWeight tiny y c + 2 * tiny).sum) ≤ huge →
    ∃ x, l.foldl (fun (acc : Res ℂ) c => acc.bind fun r => particleStepR rnd vec r c) (.val a') = .val x ∧
      ApproxC u (k + l.length) x (a + (l.map fun c => y c.left * conj (y c.right) * (c.value : ℂ)).sum)
        (A + (l.map fun c => pairWeight tiny y c + 2 * tiny).sum)
  | [], _, k, _, _, a', a, A, ha, _ => ⟨a', rfl, by simpa using ha⟩
  | c :: l, hp, k, hk, hkK, a', a, A, ha, hfit => by
    have ht := M.tiny_nonneg
    rw [List.length_cons] at hkK
    rw [List.map_cons, List.sum_cons] at hfit
    obtain ⟨c1, c2, c3⟩ := hp c (by simp)
    have h0 : 0 ≤ (l.map fun c => pairWeight tiny y c + 2 * tiny).sum := by
      refine List.sum_nonneg fun z hz => ?_
      obtain ⟨c', -, rfl⟩ := List.mem_map.1 hz
      have := pairWeight_nonneg ht y c'
      linarith
    obtain ⟨x, h1, h2⟩ := particleStepR_close M hy ⟨c1, c2⟩ c3 hk (by omega) ha (by linarith)
    obtain ⟨z, h3, h4⟩ := particleFoldR_close M hy l (fun q hq => hp q (by simp [hq])) (by omega : 3 ≤ k + 1) (by omega) h2 (by linarith)
    refine ⟨z, by rw [List.foldl_cons, Res.bind_val, h1]; exact h3, ?_⟩
    rw [List.length_cons, show k + (l.length + 1) = k + 1 + l.length by ring, List.map_cons, List.map_cons, List.sum_cons, List.sum_cons,
      ← add_assoc, ← add_assoc, ← add_assoc]
    exact h4

theorem particleFoldR_unit (h0 : rnd 0 = .val 0) (h1 : rnd 1 = .val 1) {vec : List ℂ} (hy : ∀ i < vec.length, vec[i]? = some (if i = 0 then 1 else 0)) :
    ∀ (l : List (Contribution ℝ)), (∀ c ∈ l, c.left < vec.length ∧ c.right < vec.length ∧ (c.left ≠ 0 ∨ c.right ≠ 0)) → ∀ {a : ℂ}, rnd a.re = .val a.re →
      rnd a.im = .val a.im → l.foldl (fun (acc : Res ℂ) c => acc.bind fun r => particleStepR rnd vec r c) (.val a) = .val a
  | [], _, a, _, _ => rfl
  | c :: l, hp, a, ha, hb => by
    obtain ⟨c1, c2, c3⟩ := hp c (by simp)
    have v1 : vecAt vec c.left = .val (if c.left = 0 then 1 else 0) := by unfold vecAt; rw [hy _ c1]
    have v2 : vecAt vec c.right = .val (if c.right = 0 then 1 else 0) := by unfold vecAt; rw [hy _ c2]
    have key : particleStepR rnd vec a c = .val a := by
      unfold particleStepR
      rw [v1, v2]
      split_ifs with h e1 e1 e2 e2 <;> try omega
      · simp [addRealR, normR, h0, ha]
      all_goals
        simp [addR, scaleR, multiplyWithConjugateR, h0, ha, hb]
    rw [List.foldl_cons, Res.bind_val, key]
    exact particleFoldR_unit h0 h1 hy l (fun d hd => hp d (by simp [hd])) ha hb

/-! ### The table -/

open MomentumSpace in
/-- The sum of the bounds over the table. -/
theorem table_weightR {N q n : ℕ} {FS : Finset Mode} (ht : 0 ≤ tiny) (hn : n = N * N + 1) (y : ℕ → ℂ) :
    (((pairs n).flatMap (want ℝ FS N q)).map fun c => pairWeight tiny y c + 2 * tiny).sum ≤
      18 * n * ∑ i ∈ Finset.range n, ‖y i‖ ^ 2 + 38 * tiny * (n * n : ℕ) := by
  have hn0 : 0 < n := by omega
  have h1 : ∀ l : List (ℕ × ℕ), ((l.flatMap (want ℝ FS N q)).map fun c => pairWeight tiny y c + 2 * tiny).sum ≤
      (l.map fun p => 18 * (‖y p.1‖ * ‖y p.2‖) + 38 * tiny).sum := by
    intro l
    induction l with
    | nil => simp
    | cons p l ih =>
      rw [List.flatMap_cons, List.map_append, List.sum_append, List.map_cons, List.sum_cons]
      refine add_le_add ?_ ih
      unfold want
      split
      · simp only [List.map_cons, List.map_nil, List.sum_cons, List.sum_nil, add_zero, pairWeight]
        linarith
      · simp only [List.map_nil, List.sum_nil]
        positivity
  refine (h1 _).trans ?_
  rw [pairs_sum n hn0]
  have h2 : ∑ i ∈ Finset.range n, ∑ j ∈ Finset.range n, (18 * (‖y i‖ * ‖y j‖) + 38 * tiny) = 18 * (∑ i ∈ Finset.range n, ‖y i‖) ^ 2 + 38 * tiny * (n * n : ℕ) := by
    rw [sq, Finset.sum_mul_sum, Finset.mul_sum]
    simp only [Finset.sum_add_distrib, Finset.sum_const, Finset.card_range, nsmul_eq_mul, Finset.mul_sum]
    push_cast
    ring
  rw [h2, mul_assoc 18]
  have h3 := sq_sum_le_card_mul_sum_sq (s := Finset.range n) (f := fun i => ‖y i‖)
  rw [Finset.card_range] at h3
  linarith

open MomentumSpace in
/-- The number computed for a vector, and the exact matrix element for the same vector. -/
theorem particleNumberR_close (M : Machine rnd fl u tiny huge K) {N q n : ℕ} {FS : Finset Mode} (hn : n = N * N + 1) (hq : q < N) (y : Fin n → ℂ)
    (hK : 3 + n ^ 2 ≤ K) {T : ℝ} (hT : 38 * tiny * (n * n : ℕ) ≤ T) (hfit : 3 * (18 * n * norm2 y ^ 2 + T) ≤ huge) :
    ∃ x, particleNumberR rnd (List.ofFn y) ((pairs n).flatMap (want ℝ FS N q)) = .val x ∧
      |x - (form n (fun i j => seaValue (1 : ℝ) FS (Spec.entries N q) i j) fun i => (List.ofFn y).getD i 0).re| ≤
        ((1 + u) ^ (3 + n ^ 2) - 1) * (18 * n * norm2 y ^ 2 + T) := by
  have hu := M.nonneg
  have ht := M.tiny_nonneg
  have hn0 : 0 < n := by omega
  set Y : ℕ → ℂ := fun i => (List.ofFn y).getD i 0 with hY
  have hget : ∀ i < (List.ofFn y).length, (List.ofFn y)[i]? = some (Y i) := by
    intro i hi
    rw [hY]
    simp only [List.getD_eq_getElem?_getD]
    rw [List.getElem?_eq_getElem hi]; rfl
  have hlen := table_length (FS := FS) (N := N) (q := q) hn0
  have hweight := (table_weightR (FS := FS) (q := q) ht hn Y).trans (show _ ≤ 18 * n * norm2 y ^ 2 + T by rw [sum_ofFn_sq]; linarith)
  obtain ⟨x, h1, h2⟩ := particleFoldR_close M hget ((pairs n).flatMap (want ℝ FS N q)) (fun c hc => by
    obtain ⟨h1, h2, h3⟩ := table_mem hn0 hc
    refine ⟨by simpa using h1, by simpa using h2, ?_⟩
    rw [h3]
    exact Program.seaValue_abs_le hq FS (by omega) (by omega)) (le_refl 3) (by omega) ((approxC_exact (u := u) (0 : ℂ)).mono hu (by omega))
    (by rw [norm_zero]; linarith)
  refine ⟨x.re, by unfold particleNumberR; rw [h1, Res.map_val], ?_⟩
  rw [norm_zero, zero_add, zero_add] at h2
  have h3 := ((approxC_weaken hu h2 hweight).mono hu (Nat.add_le_add_left hlen 3)).1
  rw [want_sum Y n hn0] at h3
  have h4 := (Complex.abs_re_le_norm _).trans h3
  rw [Complex.sub_re] at h4
  exact h4

open MomentumSpace in
/-- The number for the start vector: exact. -/
theorem particleNumberR_unit (h0 : rnd 0 = .val 0) (h1 : rnd 1 = .val 1) {N q n : ℕ} {FS : Finset Mode} (hn : n = N * N + 1) :
    particleNumberR rnd (List.ofFn (unit0 n)) ((pairs n).flatMap (want ℝ FS N q)) = .val (if up q ∈ FS then 1 else 0) := by
  have hn0 : 0 < n := by omega
  have hget : ∀ i < (List.ofFn (unit0 n)).length, (List.ofFn (unit0 n))[i]? = some (if i = 0 then 1 else 0) := by
    intro i hi
    have hi' : i < n := by simpa using hi
    rw [List.getElem?_ofFn, dif_pos hi']; rfl
  have hE : seaValue (1 : ℝ) FS (Spec.entries N q) 0 0 = if up q ∈ FS then 1 else 0 := by
    rw [sea_00, ev_append, adjVec_one]
    by_cases huq : up q ∈ FS
    · rw [if_pos huq, if_pos huq, map_smul, Pi.smul_apply, fockMono_ket_adj, adjVec_one, if_pos huq,
        Pi.smul_apply, ket, if_pos rfl, smul_eq_mul, smul_eq_mul, mul_one, ← Int.cast_mul, jwSign_sq, Int.cast_one]
    · rw [if_neg huq, if_neg huq, map_zero]; rfl
  have hp : pairs n = (0, 0) :: (pairs n).tail := rfl
  have hrest : ∀ c ∈ (pairs n).tail.flatMap (want ℝ FS N q), c.left < (List.ofFn (unit0 n)).length ∧ c.right < (List.ofFn (unit0 n)).length ∧
      (c.left ≠ 0 ∨ c.right ≠ 0) := by
    intro c hc
    obtain ⟨p, hp', hc⟩ := List.mem_flatMap.1 hc
    have hm : p ∈ pairs n := List.mem_of_mem_tail hp'
    have hne : p ≠ (0, 0) := by
      have := pairs_nodup n
      rw [hp, List.nodup_cons] at this
      exact fun h => this.1 (h ▸ hp')
    rw [mem_pairs hn0] at hm
    unfold want at hc
    split at hc
    · rw [List.mem_singleton] at hc
      subst hc
      refine ⟨by simpa using hm.1, by simpa using hm.2, ?_⟩
      by_contra hcon
      push Not at hcon
      exact hne (Prod.ext hcon.1 hcon.2)
    · simp at hc
  unfold particleNumberR
  rw [hp, List.flatMap_cons, List.foldl_append]
  have hfirst : (want ℝ FS N q (0, 0)).foldl (fun (acc : Res ℂ) c => acc.bind fun r => particleStepR rnd (List.ofFn (unit0 n)) r c) (.val 0) =
      .val (if up q ∈ FS then 1 else 0) := by
    unfold want
    simp only
    rw [hE]
    have v0 : vecAt (List.ofFn (unit0 n)) 0 = .val 1 := by unfold vecAt; rw [hget 0 (by simpa using hn0)]; rfl
    by_cases huq : up q ∈ FS
    · rw [if_pos huq, if_pos huq, if_pos one_ne_zero]
      simp only [List.foldl_cons, List.foldl_nil, Res.bind_val]
      unfold particleStepR
      rw [if_pos rfl]
      simp only
      rw [v0, Res.bind_val]
      simp only [normR, addRealR, Complex.one_re, Complex.one_im, Complex.zero_re, Complex.zero_im, mul_one, mul_zero, add_zero, zero_add, h0, h1, Res.bind_val]
      rfl
    · rw [if_neg huq, if_neg huq, if_neg (by simp)]
      rfl
  rw [hfirst, particleFoldR_unit h0 h1 hget _ hrest (by split_ifs <;> simp [h1, h0]) (by split_ifs <;> simp [h0]), Res.map_val]
  split_ifs <;> simp

end Ieompp.IEEE
