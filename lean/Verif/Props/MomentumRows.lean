import Verif.Props.MomentumExact

/-! # C63, C114: the row sums of the table of expectation values -/

set_option autoImplicit false
set_option linter.unusedSectionVars false

namespace Ieompp.Program

open Ieompp.Spec MomentumSpace ODE ComplexConjugate

section
variable (FS : Finset Mode) {N q : ℕ}

/-- Different off-diagonal words are orthogonal, to each other and to the diagonal ones. -/
theorem ev_three_three (hq : q < N) {a b a' b' : ℕ} (ha : a < N) (hb : b < N) (ha' : a' < N) (hb' : b' < N) (hoff : a ≠ q) (hne : ¬ (a = a' ∧ b = b')) :
    ev ℝ FS (RealSpace.Spec.three a b (third N q a b) ++ Monomial.conjugate (RealSpace.Spec.three a' b' (third N q a' b'))) = 0 := by
  rw [ev_append]
  by_cases hd : a' = q
  · rw [hd, (third_eq_second hq hq hb').2 rfl, adjVec_diag]
    split_ifs
    · rw [← ev_append, ev_three_one FS hq ha hb, if_neg fun h => hoff h.1]
    · rw [map_zero, Pi.zero_apply]
  · have hbc : b ≠ third N q a b := fun h => hoff ((third_eq_second hq ha hb).1 h.symm)
    have hbc' : b' ≠ third N q a' b' := fun h => hd ((third_eq_second hq ha' hb').1 h.symm)
    rcases adjVec_off (K := ℝ) FS a' b' _ hbc' with h | ⟨u1, d1, c1, e1, -, h1⟩
    · rw [h, map_zero, Pi.zero_apply]
    rw [h1, map_smul, Pi.smul_apply, fockMono_ket_adj]
    rcases adjVec_off (K := ℝ) FS a b _ hbc with h | ⟨u2, d2, c2, e2, -, h2⟩
    · rw [h, Pi.zero_apply, smul_zero]
    rw [h2, Pi.smul_apply, ket, if_neg, smul_zero, smul_zero]
    intro heq
    have memUp : ∀ x a b c : ℕ, up x ∈ toggle (dn c) (toggle (dn b) (toggle (up a) FS)) ↔ (if x = a then up x ∉ FS else up x ∈ FS) := by
      intro x a b c
      have ne : ∀ d, ¬ up x = dn d := fun d => up_ne_dn x d
      rw [mem_toggle, if_neg (ne c), mem_toggle, if_neg (ne b), mem_toggle]
      by_cases hx : x = a
      · rw [if_pos hx, if_pos (by rw [hx])]
      · rw [if_neg hx, if_neg fun h => hx (by simpa [up] using h)]
    have memDn : ∀ x a b c : ℕ, x ≠ c → (dn x ∈ toggle (dn c) (toggle (dn b) (toggle (up a) FS)) ↔ (if x = b then dn x ∉ FS else dn x ∈ FS)) := by
      intro x a b c hc
      rw [mem_toggle, if_neg fun h => hc (by simpa [dn] using h), mem_toggle]
      by_cases hx : x = b
      · rw [if_pos hx, if_pos (by rw [hx]), dn_mem_toggle_up]
      · rw [if_neg hx, if_neg fun h => hx (by simpa [dn] using h), dn_mem_toggle_up]
    have haa : a = a' := by
      by_contra hna
      have h3 : up a ∉ toggle (dn (third N q a b)) (toggle (dn b) (toggle (up a) FS)) := by rw [memUp, if_pos rfl]; exact fun h => h u2
      rw [← heq, memUp, if_neg hna] at h3
      exact h3 u2
    refine hne ⟨haa, ?_⟩
    by_contra hnb
    have h3 : dn b ∉ toggle (dn (third N q a b)) (toggle (dn b) (toggle (up a) FS)) := by rw [memDn _ _ _ _ hbc, if_pos rfl]; exact fun h => h d2
    have hbc3 : b ≠ third N q a' b' := fun h => c1 (h ▸ d2)
    rw [← heq, memDn _ _ _ _ hbc3, if_neg hnb] at h3
    exact h3 d2

/-- Every row of the table has an absolute sum of at most `9 N + 3`. -/
theorem seaValue_rows (hq : q < N) {i : ℕ} (hi : i < N * N + 1) :
    ∑ j ∈ Finset.range (N * N + 1), |seaValue (1 : ℝ) FS (Spec.entries N q) i j| ≤ 9 * N + 3 := by
  have hN1 : (1 : ℝ) ≤ N := by exact_mod_cast (by omega : 1 ≤ N)
  have hlt : ∀ i1 < N, ∀ i2 < N, get3opIndex N i1 i2 < N * N + 1 := by
    intro i1 h1 i2 h2
    unfold get3opIndex
    have : i1 * N + N ≤ N * N := by rw [← Nat.succ_mul]; exact Nat.mul_le_mul_right N h1
    omega
  rw [sum_basis]
  have e11 : |ev ℝ FS (RealSpace.Spec.one q ++ Monomial.conjugate (RealSpace.Spec.one q))| ≤ 1 := ev_abs_le FS (isWord_one q) (isWord_one q)
  -- the entry in the first column
  have hcol : ∀ a < N, ∀ b < N, seaValue (1 : ℝ) FS (Spec.entries N q) (get3opIndex N a b) 0 = if a = q then 2 * (if up q ∈ FS ∧ dn b ∈ FS then 1 else 0) + (if up q ∈ FS then 1 else 0) else 0 := by
    intro a ha b hb
    rw [sea_I0 1 (entries_getElem N q ha hb), ev_three_one FS hq ha hb, ev_one_one]
    by_cases haq : a = q
    · rw [if_pos haq, if_pos (show b = third N q a b from ((third_eq_second hq ha hb).2 haq).symm)]
      simp [haq]
    · rw [if_neg haq, if_neg (show ¬ b = third N q a b from fun h => haq ((third_eq_second hq ha hb).1 h.symm)), if_neg fun h => haq h.1]
      simp
  have hcol3 : ∀ a < N, ∀ b < N, |seaValue (1 : ℝ) FS (Spec.entries N q) (get3opIndex N a b) 0| ≤ if a = q then 3 else 0 := by
    intro a ha b hb
    rw [hcol a ha b hb]
    split_ifs <;> norm_num
  by_cases h0 : i = 0
  · subst h0
    have h1 : |seaValue (1 : ℝ) FS (Spec.entries N q) 0 0| ≤ 1 := by rw [sea_00]; exact e11
    have h2 : ∑ a ∈ Finset.range N, ∑ b ∈ Finset.range N, |seaValue (1 : ℝ) FS (Spec.entries N q) 0 (get3opIndex N a b)| ≤
        ∑ a ∈ Finset.range N, ∑ b ∈ Finset.range N, if a = q then 3 else 0 := by
      refine Finset.sum_le_sum fun a ha => Finset.sum_le_sum fun b hb => ?_
      rw [seaValue_symm 1 hq (by omega) (hlt a (Finset.mem_range.1 ha) b (Finset.mem_range.1 hb))]
      exact hcol3 a (Finset.mem_range.1 ha) b (Finset.mem_range.1 hb)
    have h3 : ∑ a ∈ Finset.range N, ∑ b ∈ Finset.range N, (if a = q then (3 : ℝ) else 0) = 3 * N := by
      simp only [Finset.sum_const, Finset.card_range, nsmul_eq_mul, mul_ite, mul_zero]
      rw [Finset.sum_ite_eq' (Finset.range N) q, if_pos (Finset.mem_range.2 hq)]
      ring
    rw [h3] at h2
    linarith
  · obtain ⟨a, b, ha, hb, rfl⟩ := index_surj N h0 hi
    have h1 := hcol3 a ha b hb
    by_cases haq : a = q
    · rw [if_pos haq] at h1
      have h2 : ∑ a' ∈ Finset.range N, ∑ b' ∈ Finset.range N, |seaValue (1 : ℝ) FS (Spec.entries N q) (get3opIndex N a b) (get3opIndex N a' b')| ≤
          ∑ a' ∈ Finset.range N, ∑ b' ∈ Finset.range N, if a' = q then 9 else 0 := by
        refine Finset.sum_le_sum fun a' ha' => Finset.sum_le_sum fun b' hb' => ?_
        rw [Finset.mem_range] at ha' hb'
        split_ifs with haq'
        · exact seaValue_abs_le hq FS hi (hlt a' ha' b' hb')
        · refine le_of_eq (abs_eq_zero.2 ?_)
          rw [seaValue_symm 1 hq hi (hlt a' ha' b' hb'), sea_IJ 1 (entries_getElem N q ha' hb') (entries_getElem N q ha hb),
            ev_three_three FS hq ha' hb' ha hb haq' fun h => haq' (h.1.trans haq),
            if_neg (show ¬ b' = third N q a' b' from fun h => haq' ((third_eq_second hq ha' hb').1 h.symm)),
            if_pos (show b = third N q a b from ((third_eq_second hq ha hb).2 haq).symm), haq, ev_three_one FS hq ha' hb', if_neg fun h => haq' h.1]
          ring
      have h3 : ∑ a' ∈ Finset.range N, ∑ b' ∈ Finset.range N, (if a' = q then (9 : ℝ) else 0) = 9 * N := by
        simp only [Finset.sum_const, Finset.card_range, nsmul_eq_mul, mul_ite, mul_zero]
        rw [Finset.sum_ite_eq' (Finset.range N) q, if_pos (Finset.mem_range.2 hq)]
        ring
      rw [h3] at h2
      linarith
    · rw [if_neg haq] at h1
      have h2 : ∑ a' ∈ Finset.range N, ∑ b' ∈ Finset.range N, |seaValue (1 : ℝ) FS (Spec.entries N q) (get3opIndex N a b) (get3opIndex N a' b')| ≤
          ∑ a' ∈ Finset.range N, ∑ b' ∈ Finset.range N, if a' = a then (if b' = b then 9 else 0) else 0 := by
        refine Finset.sum_le_sum fun a' ha' => Finset.sum_le_sum fun b' hb' => ?_
        rw [Finset.mem_range] at ha' hb'
        by_cases hsame : a = a' ∧ b = b'
        · rw [if_pos hsame.1.symm, if_pos hsame.2.symm]
          exact seaValue_abs_le hq FS hi (hlt a' ha' b' hb')
        · have hz : seaValue (1 : ℝ) FS (Spec.entries N q) (get3opIndex N a b) (get3opIndex N a' b') = 0 := by
            rw [sea_IJ 1 (entries_getElem N q ha hb) (entries_getElem N q ha' hb'), ev_three_three FS hq ha hb ha' hb' haq hsame,
              if_neg (show ¬ b = third N q a b from fun h => haq ((third_eq_second hq ha hb).1 h.symm))]
            by_cases haq' : a' = q
            · have hz3 := ev_three_one FS hq ha hb
              rw [if_neg fun h => haq h.1] at hz3
              rw [haq', hz3]; ring
            · rw [if_neg (show ¬ b' = third N q a' b' from fun h => haq' ((third_eq_second hq ha' hb').1 h.symm))]; ring
          rw [hz, abs_zero]
          split_ifs <;> norm_num
      have h3 : ∑ a' ∈ Finset.range N, ∑ b' ∈ Finset.range N, (if a' = a then (if b' = b then (9 : ℝ) else 0) else 0) = 9 := by
        rw [Finset.sum_eq_single_of_mem a (Finset.mem_range.2 ha)]
        · simp only [if_true]
          rw [Finset.sum_ite_eq' (Finset.range N) b, if_pos (Finset.mem_range.2 hb)]
        · intro x _ hx
          exact Finset.sum_eq_zero fun y _ => if_neg hx
      rw [h3] at h2
      linarith

end

end Ieompp.Program
