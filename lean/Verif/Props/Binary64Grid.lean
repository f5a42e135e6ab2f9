import Verif.Model.Binary64Momentum
import Verif.Props.Binary64Program
import Verif.Props.Binary64Nearest
import Verif.Props.MomentumDouble

/-! # C122, first part: where binary64 arithmetic does not underflow -/

set_option autoImplicit false
set_option linter.unusedSectionVars false

namespace Ieompp.IEEE

open Ieompp.Spec

/-- Multiples of the smallest positive number. -/
def OnGrid (x : ℝ) : Prop := ∃ k : ℤ, x = k * 2 ^ (-1074 : ℤ)

theorem OnGrid.add {x y : ℝ} (hx : OnGrid x) (hy : OnGrid y) : OnGrid (x + y) := by
  obtain ⟨a, rfl⟩ := hx
  obtain ⟨b, rfl⟩ := hy
  exact ⟨a + b, by rw [Int.cast_add, add_mul]⟩

theorem OnGrid.neg {x : ℝ} (hx : OnGrid x) : OnGrid (-x) := by
  obtain ⟨a, rfl⟩ := hx
  exact ⟨-a, by rw [Int.cast_neg, neg_mul]⟩

theorem OnGrid.sub {x y : ℝ} (hx : OnGrid x) (hy : OnGrid y) : OnGrid (x - y) := by
  rw [sub_eq_add_neg]; exact hx.add hy.neg

theorem onGrid_digits {m e : ℤ} (he : -1074 ≤ e) : OnGrid (m * 2 ^ e) := by
  obtain ⟨k, hk⟩ : ∃ k : ℕ, e + 1074 = k := ⟨(e + 1074).toNat, by omega⟩
  refine ⟨m * 2 ^ k, ?_⟩
  rw [Int.cast_mul, Int.cast_pow, Int.cast_ofNat, mul_assoc, ← zpow_natCast, ← zpow_add₀ two_ne_zero, ← hk]
  congr 2
  omega

theorem IsBinary64.grid {x : ℝ} (hx : IsBinary64 x) : OnGrid x := by
  obtain ⟨m, e, rfl, -, he, -⟩ := hx
  exact onGrid_digits he

theorem binary64Value_grid (x : ℝ) : OnGrid (binary64Value x) := by
  obtain ⟨m, e, h, -, he, -⟩ := binary64Value_digits x
  rw [h]; exact onGrid_digits he

/-- Sums and differences do not underflow. -/
theorem OnGrid.value {x : ℝ} (hx : OnGrid x) : binary64Value x = double x := by
  unfold binary64Value
  split_ifs with h
  · obtain ⟨k, rfl⟩ := hx
    have e1 : (k : ℝ) * 2 ^ (-1074 : ℤ) * 2 ^ 1074 = k := by
      rw [mul_assoc, ← zpow_natCast, ← zpow_add₀ two_ne_zero]; simp
    have hk : |k| ≤ 2 ^ 53 := by
      have h2 : |(k : ℝ) * 2 ^ (-1074 : ℤ)| * 2 ^ 1074 < 1 / 2 ^ 1022 * 2 ^ 1074 := mul_lt_mul_of_pos_right h (pow_pos two_pos _)
      have e2 : (1 : ℝ) / 2 ^ 1022 * 2 ^ 1074 = 2 ^ 52 := by
        rw [show (2 : ℝ) ^ 1074 = 2 ^ 52 * 2 ^ 1022 by rw [← pow_add], ← mul_assoc, mul_comm (1 / (2 : ℝ) ^ 1022), mul_assoc, one_div_mul_cancel (pow_pos two_pos _).ne', mul_one]
      rw [e2, abs_mul, abs_of_pos (show (0 : ℝ) < 2 ^ (-1074 : ℤ) from zpow_pos two_pos _), mul_assoc, ← zpow_natCast (2 : ℝ) 1074,
        ← zpow_add₀ two_ne_zero] at h2
      simp only [Nat.cast_ofNat, neg_add_cancel, zpow_zero, mul_one] at h2
      have h3 : |k| < 2 ^ 52 := by exact_mod_cast h2
      omega
    rw [e1, roundEven_intCast, double_fix hk, div_eq_iff (pow_pos two_pos _).ne', e1]
  · rfl

theorem value_normal {x : ℝ} (h : x = 0 ∨ 1 / 2 ^ 1022 ≤ |x|) : binary64Value x = double x := by
  rcases h with rfl | h
  · exact OnGrid.value ⟨0, by rw [Int.cast_zero, zero_mul]⟩
  · unfold binary64Value
    rw [if_neg (not_lt.2 h)]

theorem binary64_value {x : ℝ} (h : |x| ≤ 2 ^ 1023) : binary64 x = .val (binary64Value x) := by
  cases hb : binary64 x with
  | val y =>
    unfold binary64 at hb
    split_ifs at hb with hc
    exact hb.symm
  | ub =>
    rw [binary64_overflow_iff] at hb
    exfalso
    have e : (2 : ℝ) ^ 1024 = 2 ^ 1023 + 2 ^ 1023 := by rw [pow_succ 2 1023]; ring
    have e' : (2 : ℝ) ^ 970 < 2 ^ 1023 := pow_lt_pow_right₀ one_lt_two (by norm_num)
    rw [e] at hb
    have := hb.trans h
    exact absurd e' (not_lt.2 (by
      generalize (2 : ℝ) ^ 1023 = X at *
      generalize (2 : ℝ) ^ 970 = Y at *
      linarith))
  | diverges =>
    unfold binary64 at hb
    split_ifs at hb

/-- Sums and differences of binary64 numbers. -/
theorem binary64_sum {x : ℝ} (hx : OnGrid x) (h : |x| ≤ 2 ^ 1023) : binary64 x = .val (double x) ∧ OnGrid (double x) := by
  rw [binary64_value h, hx.value]
  refine ⟨rfl, ?_⟩
  rw [← hx.value]; exact binary64Value_grid x

/-- Results in the normal range. -/
theorem binary64_regular {x : ℝ} (hx : x = 0 ∨ 1 / 2 ^ 1022 ≤ |x|) (h : |x| ≤ 2 ^ 1023) : binary64 x = .val (double x) ∧ OnGrid (double x) := by
  rw [binary64_value h, value_normal hx]
  refine ⟨rfl, ?_⟩
  rw [← value_normal hx]; exact binary64Value_grid x

theorem cround_small {x : ℝ} (h : |x| < 1 / 2) : cround x = 0 := by
  obtain ⟨h1, h2⟩ := abs_lt.1 h
  unfold cround
  split_ifs with h0
  · rw [Int.floor_eq_zero_iff]; constructor <;> linarith
  · rw [neg_eq_zero, Int.floor_eq_zero_iff]; constructor <;> linarith

theorem tiny_le_quarter : (1 : ℝ) / 2 ^ 1022 ≤ 1 / 4 := by
  refine one_div_le_one_div_of_le (by norm_num) ?_
  calc (4 : ℝ) = 2 ^ 2 := by norm_num
    _ ≤ 2 ^ 1022 := pow_le_pow_right₀ one_le_two (by norm_num)

/-- Underflow does not change a quotient that is rounded to an integer. -/
theorem cround_value (x : ℝ) : cround (binary64Value x) = cround (double x) := by
  by_cases h : |x| < 1 / 2 ^ 1022
  · have hq := tiny_le_quarter
    have h1 := binary64Value_err x
    have h2 := double_err x
    rw [max_eq_right h.le] at h1
    have hx : |x| < 1 / 4 := h.trans_le hq
    have h3 : (1 : ℝ) / 2 ^ 53 * (1 / 2 ^ 1022) ≤ 1 / 8 * (1 / 4) := mul_le_mul (by norm_num) hq (by positivity) (by norm_num)
    have h4 : (1 : ℝ) / 2 ^ 53 * |x| ≤ 1 / 8 * (1 / 4) := mul_le_mul (by norm_num) hx.le (abs_nonneg x) (by norm_num)
    clear h hq
    have b1 : |binary64Value x| < 1 / 2 := by
      have := abs_add_le (binary64Value x - x) x
      rw [sub_add_cancel] at this
      have h5 := h1.trans h3
      linarith
    have b2 : |double x| < 1 / 2 := by
      have := abs_add_le (double x - x) x
      rw [sub_add_cancel] at this
      have h5 := h2.trans h4
      linarith
    rw [cround_small b1, cround_small b2]
  · rw [value_normal (.inr (not_lt.1 h))]

/-- Two loops in step. -/
theorem whileLoop_link {α β : Type*} {cond : α → Prop} {cond' : β → Prop} {body : α → α} {body' : β → β} (g : α → β) (P : α → Prop)
    (hc : ∀ x, P x → (cond' (g x) ↔ cond x)) (hb : ∀ x, P x → cond x → body' (g x) = g (body x) ∧ P (body x)) {x : α} (hx : P x) :
    whileLoop cond' body' (g x) = (whileLoop cond body x).map g ∧ ∀ y, whileLoop cond body x = .val y → P y := by
  have key : ∀ n, (∀ k < n, cond (body^[k] x)) → body'^[n] (g x) = g (body^[n] x) ∧ P (body^[n] x) := by
    intro n
    induction n with
    | zero => intro _; exact ⟨rfl, hx⟩
    | succ n ih =>
      intro h
      obtain ⟨h1, h2⟩ := ih fun k hk => h k (by omega)
      obtain ⟨h3, h4⟩ := hb _ h2 (h n (by omega))
      rw [Function.iterate_succ_apply', Function.iterate_succ_apply', h1]
      exact ⟨h3, h4⟩
  by_cases hd : ∀ n, cond (body^[n] x)
  · rw [whileLoop_diverges cond body x hd]
    refine ⟨?_, fun y hy => by cases hy⟩
    refine whileLoop_diverges _ _ _ fun n => ?_
    obtain ⟨h1, h2⟩ := key n fun k _ => hd k
    rw [h1, hc _ h2]
    exact hd n
  · classical
    push Not at hd
    have hlt : ∀ k < Nat.find hd, cond (body^[k] x) := fun k hk => by
      have := Nat.find_min hd hk
      push Not at this
      exact this
    have hval : whileLoop cond body x = .val (body^[Nat.find hd] x) := (whileLoop_val cond body x _).2 ⟨_, rfl, Nat.find_spec hd, hlt⟩
    rw [hval]
    obtain ⟨h1, h2⟩ := key _ hlt
    refine ⟨?_, fun y hy => by cases hy; exact h2⟩
    rw [Res.map_val, whileLoop_val]
    refine ⟨Nat.find hd, h1.symm, ?_, fun k hk => ?_⟩
    · rw [hc _ h2]; exact Nat.find_spec hd
    · obtain ⟨h3, h4⟩ := key k fun j hj => hlt j (by omega)
      rw [h3, hc _ h4]; exact hlt k hk

/-- A loop whose body does not overflow. -/
theorem loopR_link {cond : ℝ → Prop} {body : ℝ → Res ℝ} {bodyF : ℝ → ℝ} (P : ℝ → Prop) (hb : ∀ x, P x → cond x → body x = .val (bodyF x) ∧ P (bodyF x)) {x : ℝ}
    (hx : P x) : loopR cond body x = whileLoop cond bodyF x ∧ ∀ y, whileLoop cond bodyF x = .val y → P y := by
  obtain ⟨h1, h2⟩ := whileLoop_link (cond := cond) (cond' := runningR cond) (body := bodyF) (body' := fun s => s.bind body) Res.val P (fun _ _ => Iff.rfl)
    (fun x hx hc => ⟨by rw [Res.bind_val, (hb x hx hc).1], (hb x hx hc).2⟩) hx
  refine ⟨?_, h2⟩
  unfold loopR
  rw [h1]
  cases whileLoop cond bodyF x <;> rfl

end Ieompp.IEEE
