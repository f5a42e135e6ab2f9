import Verif.Model.Binary64Small
import Verif.Props.Binary64Complex
import Verif.Props.TrivialFloat

/-! # C126: `hubbard_trivial` in binary64 arithmetic -/

set_option autoImplicit false
set_option linter.unusedSectionVars false

namespace Ieompp.IEEE

open Ieompp.Spec ODE RealSpace Program
open MomentumSpace (vecAt)

variable {rnd : ℝ → Res ℝ} {fl : ℝ → ℝ} {u tiny huge : ℝ} {K : ℕ}

/-! ### The particle number -/

/-- The constant `pi_inv`. -/
theorem piInv_ok (M : Machine rnd fl u tiny huge K) (hK : 2 ≤ K) :
    rnd Real.pi = .val (fl Real.pi) ∧ divR rnd 1 (fl Real.pi) = .val (fl (1 / fl Real.pi)) ∧ ApproxR u 3 (fl (1 / fl Real.pi)) (1 / Real.pi) (1 / 2) := by
  have hu := M.nonneg
  have hu1 := M.small
  have hpi := Real.pi_gt_three
  have hpi4 := Real.pi_le_four
  obtain ⟨e1, p1⟩ := M.exact_fits (x := Real.pi) (by rw [abs_of_pos Real.pi_pos]; exact M.fits (by linarith) (by linarith))
  have h1 := p1.1
  rw [abs_of_pos Real.pi_pos, pow_one] at h1
  set q := fl Real.pi with hq
  have hq1 : 5 / 2 ≤ q := by
    have := (abs_le.1 h1).1
    nlinarith
  have hap : ApproxR u 2 (1 / q) (1 / Real.pi) (1 / 2) := by
    constructor
    · have e : 1 / q - 1 / Real.pi = (Real.pi - q) / (q * Real.pi) := by field_simp
      rw [e, abs_div, abs_of_pos (by positivity : 0 < q * Real.pi), div_le_iff₀ (by positivity), abs_sub_comm]
      refine h1.trans ?_
      have : u * Real.pi ≤ u * (q * Real.pi) := mul_le_mul_of_nonneg_left (by nlinarith) hu
      have : 0 ≤ u ^ 2 * (q * Real.pi) := by positivity
      nlinarith
    · rw [abs_of_pos (by positivity)]
      exact one_div_le_one_div_of_le (by norm_num) (by linarith)
  obtain ⟨e2, p2⟩ := M.round hap hK (M.fits (by norm_num) (by norm_num))
  refine ⟨e1, ?_, p2⟩
  rw [divR, if_neg (by linarith), e2]

/-- A bound of the size of a term. -/
noncomputable def trivialWeight (tiny : ℝ) (y : ℕ → ℂ) (i j : ℕ) : ℝ := ‖y i‖ * ‖y j‖ + 6 * tiny

theorem trivialTermR_close (M : Machine rnd fl u tiny huge K) {h : List ℂ} {y : ℕ → ℂ} (hy : ∀ i < 4, h[i]? = some (y i)) {i j : ℕ} (hi : i < 4) (hj : j < 4)
    {k : ℕ} (hk : 12 ≤ k) (hkK : k ≤ K) {a' a : ℂ} {A : ℝ} (ha : ApproxC u k a' a A) (hfit : 12 * (A + trivialWeight tiny y i j) ≤ huge) :
    ∃ x, trivialTermR rnd h a' i j = .val x ∧ ApproxC u (k + 1) x (a + trivialExact y i j) (A + trivialWeight tiny y i j + 2 * tiny) := by
  have hu := M.nonneg
  have ht := M.tiny_nonneg
  have hA : 0 ≤ A := (norm_nonneg _).trans ha.2
  have v1 : vecAt h i = .val (y i) := by unfold vecAt; rw [hy i hi]
  have v2 : vecAt h j = .val (y j) := by unfold vecAt; rw [hy j hj]
  obtain ⟨q1, q2, q3⟩ := piInv_ok M (by omega)
  have hn : 0 ≤ ‖y i‖ * ‖y j‖ := by positivity
  unfold trivialWeight at hfit ⊢
  unfold trivialTermR trivialExact
  rw [q1, Res.bind_val, q2, Res.bind_val, v1, Res.bind_val, v2, Res.bind_val]
  by_cases hij : i = j
  · rw [if_pos hij, if_pos hij]
    rw [← hij] at hfit hn ⊢
    obtain ⟨o1, o2, o3, p1⟩ := products_ok M (by omega) (abs_components_le (y i) (y i)) (by linarith)
    have key : ∀ c : ℝ, 0 ≤ c → c ≤ 1 / 2 → 1 / 4 ≤ c → ∃ x, ((normR rnd (y i)).bind fun p => (rnd (p * c)).bind fun x => addRealR rnd a' x) = .val x ∧
        ApproxC u (k + 1) x (a + ((Complex.normSq (y i) * c : ℝ) : ℂ)) (A + (‖y i‖ * ‖y i‖ + 6 * tiny) + 2 * tiny) := by
      intro c hc0 hc hc1
      have hval := (ApproxR.exact (u := u) c).mono hu le_rfl (show |c| ≤ 1 by rw [abs_of_nonneg hc0]; linarith)
      obtain ⟨o4, p2⟩ := M.mul p1 hval (by omega) ⟨by linarith, by linarith⟩
      obtain ⟨z, z1, z2⟩ := addRealR_ok M ha (p2.mono hu (by omega : _ ≤ k) (show _ ≤ ‖y i‖ * ‖y i‖ + 6 * tiny by linarith)) hkK (by linarith)
      refine ⟨z, ?_, ?_⟩
      · unfold normR
        simp only [Res.bind_val, o1, o2, o3, o4, z1]
      · rw [Complex.normSq_apply]; exact z2
    split_ifs
    · exact key 0.5 (by norm_num) (by norm_num) (by norm_num)
    · exact key 0.25 (by norm_num) (by norm_num) (by norm_num)
  · rw [if_neg hij, if_neg hij]
    obtain ⟨m1, m2⟩ := mulR_ok M (approxC_exact (u := u) (y i)) (approxC_exact (u := u) (y j)) (by omega) (by linarith)
    rw [m1, Res.bind_val, Res.bind_val, Res.bind_val]
    have fin : ∀ {l : ℕ} {b' b : ℂ} {B : ℝ}, ApproxC u l b' b B → l ≤ 12 → B ≤ ‖y i‖ * ‖y j‖ + 6 * tiny →
        ∃ x, addR rnd a' b' = .val x ∧ ApproxC u (k + 1) x (a + b) (A + (‖y i‖ * ‖y j‖ + 6 * tiny) + 2 * tiny) := by
      intro l b' b B h1 h2 h3
      obtain ⟨r1, r2⟩ := addR_ok M ha ((approxC_weaken hu h1 h3).mono hu (by omega : l ≤ k)) hkK (by linarith)
      exact ⟨_, r1, r2⟩
    have hb : ∀ c : ℝ, |c| ≤ 1 / 2 → ApproxR u 0 c c (1 / 2) := fun c hc => (ApproxR.exact (u := u) c).mono hu le_rfl hc
    split_ifs
    · obtain ⟨s1, s2⟩ := scaleR_okC M q3 m2 (by omega) (by linarith)
      rw [s1, Res.bind_val]
      exact fin s2 (by omega) (by linarith)
    · obtain ⟨s1, s2⟩ := scaleR_okC M (hb 0.25 (by norm_num [abs_le])) m2 (by omega) (by linarith)
      rw [s1, Res.bind_val]
      exact fin s2 (by omega) (by linarith)
    · obtain ⟨s1, s2⟩ := scaleR_okC M (hb 0.5 (by norm_num [abs_le])) m2 (by omega) (by linarith)
      rw [s1, Res.bind_val]
      obtain ⟨s3, s4⟩ := scaleR_okC M q3 s2 (by omega) (by linarith)
      rw [s3, Res.bind_val]
      have e1 : (((1 / Real.pi * 0.5 : ℝ)) : ℂ) * (y i * y j) = ((1 / Real.pi : ℝ) : ℂ) * (((0.5 : ℝ) : ℂ) * (y i * y j)) := by push_cast; ring
      rw [e1]
      exact fin s4 (by omega) (by linarith)

theorem trivialFoldR_close (M : Machine rnd fl u tiny huge K) {h : List ℂ} {y : ℕ → ℂ} (hy : ∀ i < 4, h[i]? = some (y i)) :
    ∀ (l : List (ℕ × ℕ)), (∀ p ∈ l, p.1 < 4 ∧ p.2 < 4) → ∀ {k : ℕ}, 12 ≤ k → k + l.length ≤ K → ∀ {a' a : ℂ} {A : ℝ}, ApproxC u k a' a A →
    12 * (A + (l.map fun p => trivialWeight tiny y p.1 p.2 + 2 * tiny).sum) ≤ huge →
    ∃ x, l.foldl (fun (acc : Res ℂ) p => acc.bind fun ev => trivialTermR rnd h ev p.1 p.2) (.val a') = .val x ∧
      ApproxC u (k + l.length) x (a + (l.map fun p => trivialExact y p.1 p.2).sum) (A + (l.map fun p => trivialWeight tiny y p.1 p.2 + 2 * tiny).sum)
  | [], _, k, _, _, a', a, A, ha, _ => ⟨a', rfl, by simpa using ha⟩
  | p :: l, hp, k, hk, hkK, a', a, A, ha, hfit => by
    have ht := M.tiny_nonneg
    rw [List.length_cons] at hkK
    rw [List.map_cons, List.sum_cons] at hfit
    have h0 : 0 ≤ (l.map fun p => trivialWeight tiny y p.1 p.2 + 2 * tiny).sum := by
      refine List.sum_nonneg fun z hz => ?_
      obtain ⟨c', -, rfl⟩ := List.mem_map.1 hz
      unfold trivialWeight
      positivity
    obtain ⟨x, h1, h2⟩ := trivialTermR_close M hy (hp p (by simp)).1 (hp p (by simp)).2 hk (by omega) ha (by linarith)
    obtain ⟨z, h3, h4⟩ := trivialFoldR_close M hy l (fun q hq => hp q (by simp [hq])) (by omega : 12 ≤ k + 1) (by omega) h2 (by linarith)
    refine ⟨z, by rw [List.foldl_cons, Res.bind_val, h1]; exact h3, ?_⟩
    rw [List.length_cons, show k + (l.length + 1) = k + 1 + l.length by ring, List.map_cons, List.map_cons, List.sum_cons, List.sum_cons,
      ← add_assoc, ← add_assoc, ← add_assoc]
    exact h4

/-- The computed number and the number of the specification. -/
theorem trivialParticleNumberR_close (M : Machine rnd fl u tiny huge K) (hK : 28 ≤ K) (y : Fin 4 → ℂ) (hfit : 12 * ((∑ p, ‖y p‖) ^ 2 + 128 * tiny) ≤ huge) :
    ∃ z, trivialParticleNumberR rnd (List.ofFn y) = .val z ∧ ‖z - trivialWritten y‖ ≤ ((1 + u) ^ 28 - 1) * ((∑ p, ‖y p‖) ^ 2 + 128 * tiny) := by
  set Y : ℕ → ℂ := fun i => if h : i < 4 then y ⟨i, h⟩ else 0 with hY
  have e0 : Y 0 = y 0 := rfl
  have e1 : Y 1 = y 1 := rfl
  have e2 : Y 2 = y 2 := rfl
  have e3 : Y 3 = y 3 := rfl
  have hA : ‖(0 : ℂ)‖ + (((List.range 4).flatMap fun i => (List.range 4).map fun j => (i, j)).map fun p => trivialWeight tiny Y p.1 p.2 + 2 * tiny).sum =
      (∑ p, ‖y p‖) ^ 2 + 128 * tiny := by
    simp only [trivialWeight, List.range_succ, List.range_zero, List.nil_append, List.flatMap_append, List.flatMap_cons, List.flatMap_nil, List.map_append,
      List.map_cons, List.map_nil, List.append_nil, List.cons_append, List.sum_cons, List.sum_nil, e0, e1, e2, e3, Fin.sum_univ_four, norm_zero]
    ring
  have hlen : ((List.range 4).flatMap fun i => (List.range 4).map fun j => (i, j)).length = 16 := by decide
  obtain ⟨z, h1, h2⟩ := trivialFoldR_close M (h := List.ofFn y) (y := Y) (fun i hi => by
    rw [List.getElem?_ofFn, dif_pos hi, hY]; simp [hi]) ((List.range 4).flatMap fun i => (List.range 4).map fun j => (i, j)) (by
    intro p hp
    simp only [List.mem_flatMap, List.mem_map, List.mem_range] at hp
    obtain ⟨i, hi, j, hj, rfl⟩ := hp
    exact ⟨hi, hj⟩) (le_refl 12) (by rw [hlen]; omega) ((approxC_exact (u := u) (0 : ℂ)).mono M.nonneg (by omega)) (by rw [hA]; exact hfit)
  refine ⟨z, h1, ?_⟩
  have hsum : (0 : ℂ) + (((List.range 4).flatMap fun i => (List.range 4).map fun j => (i, j)).map fun p => trivialExact Y p.1 p.2).sum =
      trivialWritten y := by
    simp only [List.range_succ, List.range_zero, List.nil_append, List.flatMap_append, List.flatMap_cons, List.flatMap_nil, List.map_append,
      List.map_cons, List.map_nil, List.append_nil, List.cons_append, List.sum_cons, List.sum_nil, trivialExact, e0, e1, e2, e3]
    norm_num [trivialWritten]
    ring
  have := h2.1
  rw [hsum, hA, hlen] at this
  exact this

theorem trivialRowR_close (M : Machine rnd fl u tiny huge K) (hK : 28 ≤ K) (t : ℝ) (y : Fin 4 → ℂ) (hfit : 12 * ((∑ p, ‖y p‖) ^ 2 + 128 * tiny) ≤ huge) :
    ∃ z, trivialRowR rnd t (List.ofFn y) = .val
      [t, (y 0).re, (y 0).im, (y 1).re, (y 1).im, (y 2).re, (y 2).im, (y 3).re, (y 3).im, z.re, z.im] ∧
    ‖z - trivialWritten y‖ ≤ ((1 + u) ^ 28 - 1) * ((∑ p, ‖y p‖) ^ 2 + 128 * tiny) := by
  obtain ⟨z, h1, h2⟩ := trivialParticleNumberR_close M hK y hfit
  refine ⟨z, ?_, h2⟩
  have e : List.ofFn y = [y 0, y 1, y 2, y 3] := by simp [List.ofFn_succ]
  unfold trivialRowR
  rw [h1, e]
  rfl

end Ieompp.IEEE
