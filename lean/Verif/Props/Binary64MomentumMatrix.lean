import Verif.Props.Binary64MomentumEnergies

/-! # C122: the matrix and the time evolution -/

set_option autoImplicit false
set_option linter.unusedSectionVars false

namespace Ieompp.IEEE

open Ieompp.Spec MomentumSpace Program ODE
open RealSpace (storedColumns)

variable {N q : ℕ}

theorem fillRows_congr {S : Type*} [Zero S] {f g : ℕ → Option (List (Triplet S))} : ∀ (rows : List ℕ), (∀ r ∈ rows, f r = g r) → ∀ m : Sparse S,
    Sparse.fillRows f rows m = Sparse.fillRows g rows m
  | [], _, _ => rfl
  | r :: rows, h, m => by
    unfold Sparse.fillRows
    rw [h r (by simp)]
    cases g r with
    | none => rfl
    | some l =>
      simp only
      congr 1
      funext m
      congr 1
      funext m
      exact fillRows_congr rows (fun r hr => h r (by simp [hr])) m

theorem pow_double {k : ℕ} {x y : ℝ} (hx : |x| ≤ 2 ^ k) (hy : |y| ≤ 2 ^ k) : |x + y| ≤ 2 ^ (k + 1) ∧ |x - y| ≤ 2 ^ (k + 1) := by
  have h1 := abs_add_le x y
  have h2 := abs_sub x y
  rw [pow_succ]
  generalize (2 : ℝ) ^ k = X at *
  constructor <;> linarith

theorem pow_le_succ (k l : ℕ) : (2 : ℝ) ^ k ≤ 2 ^ (k + l) := pow_le_pow_right₀ one_le_two (by omega)

/-- The diagonal elements. -/
theorem diagonalR_ok (hq : q < N) {eps : ℕ → ℝ} {w : ℝ} (he : ∀ k < N, OnGrid (eps k) ∧ |eps k| ≤ 2 ^ 1002) (hw : OnGrid w) (hw' : |w| ≤ 2 ^ 1002) :
    (binary64 (eps q + w) = .val (double (eps q + w)) ∧ OnGrid (double (eps q + w))) ∧
    ∀ a < N, ∀ b < N, ∀ c < N, ((binary64 (eps a + eps b)).bind fun x => (binary64 (x - eps c)).bind fun x => binary64 (x + w)) =
      .val (double (double (double (eps a + eps b) - eps c) + w)) ∧ OnGrid (double (double (double (eps a + eps b) - eps c) + w)) := by
  refine ⟨?_, fun a ha b hb c hc => ?_⟩
  · obtain ⟨h1, h2, -⟩ := sum_ok ((he q hq).1.add hw) (k := 1003) (by norm_num) (pow_double (he q hq).2 hw').1
    exact ⟨h1, h2⟩
  · obtain ⟨a1, a2⟩ := he a ha
    obtain ⟨b1, b2⟩ := he b hb
    obtain ⟨c1, c2⟩ := he c hc
    obtain ⟨x1, x2, x3⟩ := sum_ok (a1.add b1) (k := 1003) (by norm_num) (pow_double a2 b2).1
    obtain ⟨y1, y2, y3⟩ := sum_ok (x2.sub c1) (k := 1004) (by norm_num) (pow_double x3 (c2.trans (pow_le_succ 1002 1))).2
    obtain ⟨z1, z2, -⟩ := sum_ok (y2.add hw) (k := 1005) (by norm_num) (pow_double y3 (hw'.trans (pow_le_succ 1002 2))).1
    rw [x1, Res.bind_val, y1, Res.bind_val, z1]
    exact ⟨rfl, z2⟩

/-- The interaction constants. -/
theorem interaction_ok (hN : 0 < N) (hN' : N ≤ 1024) {U : ℝ} (hU : U = 0 ∨ 1 / 2 ^ 1000 ≤ |U|) (hU' : |U| ≤ 2 ^ 1000) :
    (binary64 (U / 2) = .val (double (U / 2)) ∧ OnGrid (double (U / 2)) ∧ |double (U / 2)| ≤ 2 ^ 1000) ∧
    ((binary64 N).bind fun n => (binary64 (2 * n)).bind fun n2 => divR binary64 U n2) = .val (double (U / double (2 * (N : ℝ)))) ∧
      OnGrid (double (U / double (2 * (N : ℝ)))) := by
  have hNr : (1 : ℝ) ≤ N := by exact_mod_cast hN
  have hNr' : (N : ℝ) ≤ 1024 := by exact_mod_cast hN'
  have h2N : double (2 * (N : ℝ)) = 2 * N := by
    have := double_fix (m := 2 * N) (e := 0) (by rw [abs_of_nonneg (by positivity)]; norm_num; omega)
    simpa using this
  have key : ∀ c : ℝ, 1 ≤ c → c ≤ 2 ^ 11 → (U / c = 0 ∨ 1 / 2 ^ 1022 ≤ |U / c|) ∧ |U / c| ≤ 2 ^ 1000 := by
    intro c h1 h2
    have hc : 0 < c := by linarith
    constructor
    · rcases hU with h | h
      · left; rw [h, zero_div]
      · right
        have e : (1 : ℝ) / 2 ^ 1022 = 1 / 2 ^ 1000 / 2 ^ 22 := by rw [div_div, ← pow_add]
        rw [abs_div, abs_of_pos hc, e]
        refine div_le_div₀ (abs_nonneg U) h hc (h2.trans (by norm_num))
    · rw [abs_div, abs_of_pos hc]
      exact (div_le_self (abs_nonneg U) h1).trans hU'
  obtain ⟨k1, k2⟩ := key 2 (by norm_num) (by norm_num)
  obtain ⟨l1, l2⟩ := key (2 * N) (by linarith) (by norm_num; linarith)
  refine ⟨regular_ok k1 (by norm_num) k2, ?_⟩
  obtain ⟨m1, m2, -⟩ := regular_ok l1 (by norm_num) l2
  obtain ⟨n1, -, -⟩ := regular_ok (x := 2 * (N : ℝ)) (k := 11) (.inr (by
    rw [abs_of_pos (by positivity)]
    exact tiny_le_quarter.trans (by linarith))) (by norm_num) (by rw [abs_of_pos (by positivity)]; norm_num; linarith)
  unfold divR
  rw [binary64_exact (isBinary64_nat (by omega)), Res.bind_val, n1, Res.bind_val, h2N, if_neg (by positivity), m1]
  exact ⟨rfl, m2⟩

/-- The matrix is that of the arithmetic without bounds on the exponent, and its elements are numbers of the format. -/
theorem momentumMatrixR_ok (hN : 0 < N) (hN' : N ≤ 1024) (hq : q < N) {eps : ℕ → ℝ} (he : ∀ k < N, OnGrid (eps k) ∧ |eps k| ≤ 2 ^ 1002) {U : ℝ}
    (hU : U = 0 ∨ 1 / 2 ^ 1000 ≤ |U|) (hU' : |U| ≤ 2 ^ 1000) :
    momentumMatrixR binary64 (Spec.entries N q) N eps U N = initMatrixF double (Spec.entries N q) N eps U N ∧
      OnGrid (double (U / double (2 * (N : ℝ)))) ∧ ∀ r ≤ N * N, OnGrid (diagonalF double N q eps U r) := by
  obtain ⟨⟨u1, u2, u3⟩, v1, v2⟩ := interaction_ok hN hN' hU hU'
  obtain ⟨d0, d1⟩ := diagonalR_ok hq he u2 (u3.trans (pow_le_succ 1000 2))
  obtain ⟨f0, f1⟩ := rowTripletsF_arrow double (N := N) (q := q) eps U
  set o := double (U / double (2 * (N : ℝ))) with ho
  have hrow : ∀ r ≤ N * N, ∃ L, rowTripletsR binary64 (Spec.entries N q) eps (double (U / 2)) o r = .val L ∧
      rowTripletsF double (Spec.entries N q) eps U N r = some L := by
    intro r hr
    rcases Nat.eq_zero_or_pos r with rfl | h
    · refine ⟨_, ?_, f0⟩
      unfold rowTripletsR diagonalF
      rw [if_pos rfl, if_pos rfl, entries_length, Nat.add_sub_cancel]
      change (binary64 (eps q + double (U / 2))).bind _ = _
      rw [d0.1, Res.bind_val]
    · refine ⟨_, ?_, f1 r h hr⟩
      obtain ⟨a, b, ha, hb, rfl⟩ := index_surj N (by omega : r ≠ 0) (by omega)
      have hne : get3opIndex N a b ≠ 0 := by omega
      have hs : RealSpace.basisSites (Spec.entries N q) (get3opIndex N a b) = some (a, b, third N q a b) := by
        unfold RealSpace.basisSites
        rw [entries_getElem N q ha hb]
        rfl
      have := (d1 a ha b hb (third N q a b) (third_lt hN q a b)).1
      unfold rowTripletsR diagonalF
      rw [if_neg hne, if_neg hne, (index_div hb).1, (index_div hb).2, hs]
      simp only
      cases h1 : binary64 (eps a + eps b) with
      | ub => rw [h1] at this; cases this
      | diverges => rw [h1] at this; cases this
      | val x =>
        rw [h1, Res.bind_val] at this
        rw [Res.bind_val]
        cases h2 : binary64 (x - eps (third N q a b)) with
        | ub => rw [h2] at this; cases this
        | diverges => rw [h2] at this; cases this
        | val y =>
          rw [h2, Res.bind_val] at this
          rw [Res.bind_val, this, Res.bind_val]
  refine ⟨?_, v2, fun r hr => ?_⟩
  · choose! L L1 L2 using hrow
    have hmap := mapR_val (f := rowTripletsR binary64 (Spec.entries N q) eps (double (U / 2)) o) (g := L) (l := List.range (N * N + 1))
      (fun r hr => L1 r (by rw [List.mem_range] at hr; omega))
    have hv : ∀ g : ℝ → Res (Sparse ℝ), ((binary64 N).bind fun n => (binary64 (2 * n)).bind fun n2 => (divR binary64 U n2).bind g) = g o := by
      intro g
      cases h1 : binary64 (N : ℝ) with
      | ub => rw [h1] at v1; cases v1
      | diverges => rw [h1] at v1; cases v1
      | val x =>
        rw [h1, Res.bind_val] at v1
        rw [Res.bind_val]
        cases h2 : binary64 (2 * x) with
        | ub => rw [h2] at v1; cases v1
        | diverges => rw [h2] at v1; cases v1
        | val y =>
          rw [h2, Res.bind_val] at v1
          rw [Res.bind_val, v1, Res.bind_val]
    unfold momentumMatrixR initMatrixF
    rw [u1, Res.bind_val, hv, entries_length, hmap, Res.bind_val]
    refine fillRows_congr _ (fun r hr => ?_) _
    rw [List.mem_range] at hr
    rw [L2 r (by omega), List.getElem?_map, List.getElem?_range hr]
    rfl
  · unfold diagonalF
    split_ifs with h
    · exact d0.2
    · exact (d1 _ (Nat.div_lt_of_lt_mul (by omega)) _ (Nat.mod_lt _ hN) _ (third_lt hN q _ _)).2

/-! ### The time evolution -/

theorem momentum_scales {n : ℕ} (hn : n ≤ 2 ^ 21) : (2 : ℝ) ^ 900 * (1 / 2 ^ 1022 * Real.sqrt n) ≤ 1 / 2 ^ 60 := by
  have hs : Real.sqrt n ≤ 2 ^ 11 := by
    rw [Real.sqrt_le_left (by positivity)]
    have : (n : ℝ) ≤ 2 ^ 21 := by exact_mod_cast hn
    exact this.trans (by norm_num)
  have e : (2 : ℝ) ^ 1022 = 2 ^ 900 * 2 ^ 122 := by rw [← pow_add]
  rw [e, ← mul_assoc, one_div, mul_inv, ← mul_assoc, mul_inv_cancel₀ (pow_pos two_pos _).ne', one_mul]
  clear e
  have h2 : ((2 : ℝ) ^ 122)⁻¹ * Real.sqrt n ≤ (2 ^ 122)⁻¹ * 2 ^ 11 := mul_le_mul_of_nonneg_left hs (by positivity)
  exact h2.trans (by norm_num)

theorem momentumSlack_small {n z : ℕ} (hz : z ≤ 2 ^ 21) {dt tiny Q : ℝ} (ht0 : 0 ≤ tiny) (hdt : 0 < dt) (hQ1 : 1 ≤ Q) (hQ : dt ≤ Q)
    (ht : Q * (tiny * Real.sqrt n) ≤ 1 / 2 ^ 60) :
    0 ≤ stepSlack dt (rowSlack z tiny * Real.sqrt n) (slack n tiny) ∧ stepSlack dt (rowSlack z tiny * Real.sqrt n) (slack n tiny) ≤ 1 / 10 ∧
      rowSlack z tiny * Real.sqrt n + slack n tiny ≤ 1 / 12 := by
  have hs : 0 ≤ tiny * Real.sqrt n := by positivity
  have hz' : (z : ℝ) ≤ 2 ^ 21 := by exact_mod_cast hz
  have e1 : rowSlack z tiny * Real.sqrt n = 5 * z * (tiny * Real.sqrt n) := by unfold rowSlack; ring
  have e2 : slack n tiny = 2 * (tiny * Real.sqrt n) := by unfold slack; ring
  rw [e1, e2]
  set s := tiny * Real.sqrt n
  have h1 : s ≤ 1 / 2 ^ 60 := le_trans (by nlinarith) ht
  have h2 : 5 * z * s ≤ 5 * 2 ^ 21 * s := mul_le_mul_of_nonneg_right (by linarith) hs
  have h3 : 0 ≤ 5 * z * s := by positivity
  have h4 : dt * s ≤ 1 / 2 ^ 60 := le_trans (mul_le_mul_of_nonneg_right hQ hs) ht
  have h5 : dt * (5 * z * s + 2 * s) ≤ dt * ((5 * 2 ^ 21 + 2) * s) := mul_le_mul_of_nonneg_left (by linarith) hdt.le
  have h6 : dt * ((5 * 2 ^ 21 + 2) * s) = (5 * 2 ^ 21 + 2) * (dt * s) := by ring
  unfold stepSlack
  rw [abs_of_pos hdt]
  refine ⟨by positivity, ?_, ?_⟩
  · rw [h6] at h5
    norm_num at h1 h4 h5 ⊢; linarith
  · norm_num at h1 h2 ⊢; linarith

theorem momentumRange_small {z : ℕ} (hz : z ≤ 2 ^ 21) {dt B tiny huge P Q : ℝ} {n : ℕ} (ht0 : 0 ≤ tiny) (hdt : 0 < dt) (hB : 0 ≤ B) (hst : (dt * B) ^ 2 ≤ 8)
    (hP1 : 1 ≤ P) (hP : 1 ≤ P * dt) (hPh : 8192 * P ≤ huge) (hQ1 : 1 ≤ Q) (hQ : dt ≤ Q) (ht : Q * (tiny * Real.sqrt n) ≤ 1 / 2 ^ 60) :
    stepRange z B (rowSlack z tiny * Real.sqrt n) (slack n tiny) (expPoly (dt * B) * ((1 + stepError (1 / 2 ^ 53) z (dt * B)) ^ 8 *
      (1 + stepSlack dt (rowSlack z tiny * Real.sqrt n) (slack n tiny)))) (1 / 2 ^ 53) ≤ huge := by
  obtain ⟨s0, s1, s2⟩ := momentumSlack_small (n := n) hz ht0 hdt hQ1 hQ ht
  have hx : 0 ≤ dt * B := by positivity
  have e15 : expPoly (dt * B) ≤ 15 := expPoly_le hx hst
  have e0 : 0 ≤ expPoly (dt * B) := by unfold expPoly; positivity
  have hz' : ((4 * z + 24 : ℕ) : ℝ) ≤ 2 ^ 24 := by
    have : 4 * z + 24 ≤ 2 ^ 24 := by omega
    exact_mod_cast this
  obtain ⟨h0, h1'⟩ := stepError_double z (by omega) hx
  have h1 : stepError (1 / 2 ^ 53) z (dt * B) ≤ 1 / 2 ^ 20 := by
    refine h1'.trans ?_
    calc ((4 * z + 24 : ℕ) : ℝ) / 2 ^ 52 * expPoly (dt * B) ≤ 2 ^ 24 / 2 ^ 52 * 15 := by gcongr
      _ ≤ _ := by norm_num
  have hp : (1 + stepError (1 / 2 ^ 53) z (dt * B)) ^ 8 ≤ 2 := by
    have := RealSpace.pow_sub_one_le (n := 8) h0 (by norm_num at h1 ⊢; linarith)
    norm_num at this h1 ⊢
    linarith
  have hp0 : 0 ≤ (1 + stepError (1 / 2 ^ 53) z (dt * B)) ^ 8 := by positivity
  have hT : ((1 : ℝ) + 1 / 2 ^ 53) ^ (4 * z + 24) ≤ 2 := by
    have h2 : ((4 * z + 24 : ℕ) : ℝ) * (1 / 2 ^ 53) ≤ 1 / 2 := by
      refine (mul_le_mul_of_nonneg_right hz' (by positivity)).trans ?_
      norm_num
    have := RealSpace.pow_sub_one_le (n := 4 * z + 24) (u := (1 : ℝ) / 2 ^ 53) (by positivity) (h2.trans (by norm_num))
    linarith
  have hT0 : 0 ≤ ((1 : ℝ) + 1 / 2 ^ 53) ^ (4 * z + 24) := by positivity
  clear h1' hz'
  generalize (1 + stepError (1 / 2 ^ 53) z (dt * B)) ^ 8 = D at hp hp0 ⊢
  generalize stepSlack dt (rowSlack z tiny * Real.sqrt n) (slack n tiny) = τ at s0 s1 ⊢
  generalize rowSlack z tiny * Real.sqrt n = q at s2 ⊢
  generalize slack n tiny = σ at s2 ⊢
  generalize expPoly (dt * B) = E at e15 e0 ⊢
  have hY : E * (D * (1 + τ)) ≤ 34 := by
    have : E * (D * (1 + τ)) ≤ 15 * (2 * (9 / 8)) :=
      mul_le_mul e15 (mul_le_mul hp (by linarith) (by linarith) (by norm_num)) (by positivity) (by norm_num)
    linarith
  have hY0 : 0 ≤ E * (D * (1 + τ)) := by positivity
  generalize E * (D * (1 + τ)) = Y at hY hY0 ⊢
  have hB3 : B ≤ 3 * P := by
    have h3 : dt * B ≤ 3 := by nlinarith
    have : dt * B * P ≤ 3 * P := mul_le_mul_of_nonneg_right h3 (by linarith)
    have : B ≤ P * dt * B := by nlinarith
    linarith
  unfold stepRange
  generalize ((1 : ℝ) + 1 / 2 ^ 53) ^ (4 * z + 24) = T at hT hT0 ⊢
  have h4 : (2 + 12 * B) * Y + 6 * q + 6 * σ ≤ 1300 * P := by nlinarith
  have h5 : T * ((2 + 12 * B) * Y + 6 * q + 6 * σ) ≤ T * (1300 * P) := mul_le_mul_of_nonneg_left h4 hT0
  nlinarith

/-- What the time loop needs. -/
theorem momentumSettingR {n z : ℕ} {m : Sparse ℝ} {B dt : ℝ} (S : Setting double n m z B dt) (hz : z ≤ 2 ^ 21) (hn : n ≤ 2 ^ 21) (hdt1 : 1 / 2 ^ 1000 ≤ dt)
    (hdt2 : dt ≤ 2 ^ 900) :
    SettingR (1 / 2 ^ 53) (1 / 2 ^ 1022) (2 ^ 1023) n m (timesI m) z B dt 8 (rowSlack z (1 / 2 ^ 1022) * Real.sqrt n) (slack n (1 / 2 ^ 1022)) := by
  obtain ⟨c1, c2, c3, c4, c5, -, c7, c8, c9, c10⟩ := binary64_scales (n := n) (by omega) hdt1 hdt2
  refine ⟨S.pos, timesI_get m, timesI_columns m, S.symm, S.bound, S.nonneg, S.stored, S.step, S.stable, c7, c8, by norm_num, by norm_num, ?_, ?_, rfl, rfl,
    momentumRange_small hz (by positivity) S.step S.nonneg S.stable c2 c3 c4 c5 hdt2 (momentum_scales hn)⟩
  · refine le_trans (mul_le_mul_of_nonneg_right ?_ c1.le) c9
    norm_num
  · refine le_trans ?_ c10
    norm_num

/-- Several steps. -/
theorem stepsR_chain {rnd : ℝ → Res ℝ} {n : ℕ} {dt : ℝ} {m : Sparse ℂ} {X : ℕ → Vars} {K : ℕ} (h : ∀ k < K, stepVarsR rnd n dt m (X k) = .val (X (k + 1))) :
    ∀ j i, i + j ≤ K → stepsR rnd n dt m j (X i) = .val (X (i + j))
  | 0, i, _ => rfl
  | j + 1, i, hij => by
    unfold stepsR
    rw [h i (by omega), Res.bind_val, stepsR_chain h j (i + 1) (by omega)]
    congr 2
    omega

end Ieompp.IEEE
