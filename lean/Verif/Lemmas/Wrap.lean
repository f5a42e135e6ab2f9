import Verif.Model.Chain
import Verif.Spec.Lattice
import Mathlib.Algebra.Order.Archimedean.Basic
import Mathlib.Tactic.Linarith
import Mathlib.Tactic.FieldSimp
import Mathlib.Tactic.Ring
import Mathlib.Tactic.Push
import Mathlib.Tactic.NormNum

/-! # Helper lemmas: the wrapping loops, rounding, the search loop of `closest` -/

set_option autoImplicit false
set_option linter.unusedSectionVars false

namespace Ieompp

open Spec

variable {K : Type*} [Field K] [LinearOrder K] [IsStrictOrderedRing K] [FloorRing K]

theorem iterate_addL (L : K) (n : ℕ) (v : K) : (fun v => v + L)^[n] v = v + n * L := by
  induction n generalizing v with
  | zero => simp
  | succ n ih => rw [Function.iterate_succ_apply, ih]; push_cast; ring

theorem iterate_subL (L : K) (n : ℕ) (v : K) : (fun v => v - L)^[n] v = v - n * L := by
  induction n generalizing v with
  | zero => simp
  | succ n ih => rw [Function.iterate_succ_apply, ih]; push_cast; ring

/-- The upward loop ends, at the first image of `v` not below `lo`. -/
theorem wrapUp_spec (lo L v : K) (hL : 0 < L) :
    ∃ n : ℕ, whileLoop (fun v => v < lo) (fun v => v + L) v = .val (v + n * L) ∧ lo ≤ v + n * L ∧
      (n = 0 ∨ v + n * L < lo + L) := by
  classical
  have hex : ∃ n : ℕ, lo ≤ v + n * L := by
    obtain ⟨n, hn⟩ := exists_nat_ge ((lo - v) / L)
    refine ⟨n, ?_⟩
    rw [div_le_iff₀ hL] at hn; linarith
  refine ⟨Nat.find hex, ?_, Nat.find_spec hex, ?_⟩
  · rw [whileLoop_val]
    refine ⟨Nat.find hex, (iterate_addL _ _ _).symm, not_lt.2 (Nat.find_spec hex), ?_⟩
    intro k hk
    have := Nat.find_min hex hk
    rw [iterate_addL]; exact not_le.1 this
  · cases h : Nat.find hex with
    | zero => exact Or.inl rfl
    | succ k =>
      right
      have := Nat.find_min hex (m := k) (by omega)
      push Not at this
      push_cast; linarith

/-- The downward loop ends, at the first image of `v` not above `hi`. -/
theorem wrapDown_spec (hi L v : K) (hL : 0 < L) :
    ∃ n : ℕ, whileLoop (fun v => v > hi) (fun v => v - L) v = .val (v - n * L) ∧ v - n * L ≤ hi ∧
      (n = 0 ∨ hi - L < v - n * L) := by
  classical
  have hex : ∃ n : ℕ, v - n * L ≤ hi := by
    obtain ⟨n, hn⟩ := exists_nat_ge ((v - hi) / L)
    refine ⟨n, ?_⟩
    rw [div_le_iff₀ hL] at hn; linarith
  refine ⟨Nat.find hex, ?_, Nat.find_spec hex, ?_⟩
  · rw [whileLoop_val]
    refine ⟨Nat.find hex, (iterate_subL _ _ _).symm, not_lt.2 (Nat.find_spec hex), ?_⟩
    intro k hk
    have := Nat.find_min hex hk
    rw [iterate_subL]; exact not_le.1 this
  · cases h : Nat.find hex with
    | zero => exact Or.inl rfl
    | succ k =>
      right
      have := Nat.find_min hex (m := k) (by omega)
      push Not at this
      push_cast; linarith

theorem cround_nonneg {x : K} (h : 0 ≤ x) : cround x = ⌊x + 1 / 2⌋ := by simp [cround, h]

theorem cround_neg {x : K} (h : x < 0) : cround x = -⌊-x + 1 / 2⌋ := by
  rw [cround, if_neg (not_le.2 h)]

theorem toUnsigned_nonneg {z : ℤ} (h : 0 ≤ z) : toUnsigned z = .val z.toNat := by simp [toUnsigned, h]

/-- The wrapping and rounding on a closed cell of length `N dx` (momentum space): the image of `t` that is
rounded, with the side from which it was reached. -/
theorem coordIndex_closed (a dx v : K) (N : ℕ) (hN : 0 < N) (hdx : 0 < dx) :
    ∃ m : ℤ, 0 ≤ (v - a) / dx + m * N ∧ (v - a) / dx + m * N ≤ N ∧
      (0 < m → (v - a) / dx + m * N < N) ∧ (m < 0 → 0 < (v - a) / dx + m * N) ∧
      coordIndex a (a + N * dx) (N * dx) dx v = .val (⌊(v - a) / dx + m * N + 1 / 2⌋).toNat := by
  have hN' : (0 : K) < N := by exact_mod_cast hN
  have hL : 0 < (N : K) * dx := mul_pos hN' hdx
  obtain ⟨n, h1, h2, h3⟩ := wrapUp_spec a (N * dx) v hL
  obtain ⟨k, g1, g2, g3⟩ := wrapDown_spec (a + N * dx) (N * dx) (v + n * (N * dx)) hL
  have e : (v + n * (N * dx) - k * (N * dx) - a) / dx = (v - a) / dx + ((n : ℤ) - (k : ℤ) : ℤ) * N := by
    push_cast; field_simp; ring
  have lo : a ≤ v + n * (N * dx) - k * (N * dx) := by
    rcases g3 with rfl | g3
    · simpa using h2
    · linarith
  have up := g2
  have hnk : n = 0 ∨ k = 0 := by
    rcases h3 with h3 | h3
    · exact Or.inl h3
    · right
      rcases g3 with g3 | g3
      · exact g3
      · rcases Nat.eq_zero_or_pos k with h | h
        · exact h
        · exfalso
          have : (1 : K) ≤ k := by exact_mod_cast h
          have := mul_le_mul_of_nonneg_right this hL.le
          linarith
  refine ⟨(n : ℤ) - k, ?_, ?_, ?_, ?_, ?_⟩
  · rw [← e]; exact div_nonneg (by linarith) hdx.le
  · rw [← e, div_le_iff₀ hdx]; linarith
  · intro hm
    rw [← e, div_lt_iff₀ hdx]
    have hk : k = 0 := by omega
    have hn : n ≠ 0 := by omega
    subst hk
    rcases h3 with h3 | h3
    · exact absurd h3 hn
    · simp only [Nat.cast_zero, zero_mul, sub_zero]; linarith
  · intro hm
    rw [← e]
    apply div_pos _ hdx
    have hk : k ≠ 0 := by omega
    rcases g3 with g3 | g3
    · exact absurd g3 hk
    · linarith
  · have nn : 0 ≤ (v + n * (N * dx) - k * (N * dx) - a) / dx := div_nonneg (by linarith) hdx.le
    unfold coordIndex
    rw [h1, Res.bind_val, g1, Res.bind_val, cround_nonneg nn, toUnsigned_nonneg, ← e]
    exact Int.floor_nonneg.2 (by linarith)

/-- The wrapping and rounding on the real space cell `[0, (N-1) dx]` of a lattice of length `N dx`. `w` is the
image of `v` in `[0, N dx)`. -/
theorem coordIndex_open (dx v w : K) (N : ℕ) (m : ℤ) (hN : 0 < N) (hdx : 0 < dx)
    (hw : w = v + m * (N * dx)) (h0 : 0 ≤ w) (hlt : w < N * dx) :
    coordIndex 0 (dx * ((N - 1 : ℕ) : K)) (N * dx) dx v =
      if w ≤ dx * (N - 1) then .val (⌊w / dx + 1 / 2⌋).toNat
      else if w ≤ dx * (N - 1 / 2) then .ub else .val 0 := by
  have hN' : (0 : K) < N := by exact_mod_cast hN
  have hL : 0 < (N : K) * dx := mul_pos hN' hdx
  have hcast : ((N - 1 : ℕ) : K) = N - 1 := by rw [Nat.cast_sub (by omega)]; simp
  rw [hcast]
  have hmono : dx * ((N : K) - 1) = N * dx - dx := by ring
  obtain ⟨n, h1, h2, h3⟩ := wrapUp_spec 0 (N * dx) v hL
  obtain ⟨k, g1, g2, g3⟩ := wrapDown_spec (dx * ((N : K) - 1)) (N * dx) (v + n * (N * dx)) hL
  unfold coordIndex
  rw [h1, Res.bind_val, g1, Res.bind_val, sub_zero]
  -- the final image is w or w - L
  have hz : ∃ z : ℤ, v + n * (N * dx) - k * (N * dx) = w + z * (N * dx) := by
    exact ⟨(n : ℤ) - k - m, by rw [hw]; push_cast; ring⟩
  obtain ⟨z, hz⟩ := hz
  rw [hz] at g2 g3 ⊢
  have zle : z ≤ 0 := by
    by_contra hcon
    have : (1 : K) ≤ z := by exact_mod_cast (by omega : (1 : ℤ) ≤ z)
    have := mul_le_mul_of_nonneg_right this hL.le
    linarith
  have lo : -dx < w + z * (N * dx) := by
    rcases g3 with rfl | g3
    · have : v + n * (N * dx) = w + z * (N * dx) := by rw [← hz]; simp
      linarith
    · linarith
  have zge : -1 ≤ z := by
    by_contra hcon
    have : (z : K) ≤ -2 := by exact_mod_cast (by omega : z ≤ -2)
    have := mul_le_mul_of_nonneg_right this hL.le
    have h1' : dx ≤ N * dx := by
      have : (1 : K) ≤ N := by exact_mod_cast hN
      nlinarith
    linarith
  by_cases hle : w ≤ dx * (N - 1)
  · have : z = 0 := by
      by_contra hcon
      have hz1 : z = -1 := by omega
      rw [hz1] at lo; push_cast at lo; linarith
    rw [if_pos hle, this]
    simp only [Int.cast_zero, zero_mul, add_zero]
    have nn : 0 ≤ w / dx := div_nonneg h0 hdx.le
    rw [cround_nonneg nn, toUnsigned_nonneg (Int.floor_nonneg.2 (by linarith))]
  · have hz1 : z = -1 := by
      by_contra hcon
      have : z = 0 := by omega
      rw [this] at g2; simp only [Int.cast_zero, zero_mul, add_zero] at g2; exact hle g2
    rw [if_neg hle, hz1]
    have e : (w + ((-1 : ℤ) : K) * (N * dx)) / dx = w / dx - N := by
      push_cast; field_simp; ring
    have hneg : w / dx - N < 0 := by
      have : w / dx < N := by rw [div_lt_iff₀ hdx]; linarith
      linarith
    rw [e, cround_neg hneg]
    have hx : w / dx ≤ N - 1 / 2 ↔ w ≤ dx * (N - 1 / 2) := by
      rw [div_le_iff₀ hdx, mul_comm]
    have hgt : (N : K) - 1 < w / dx := by
      rw [lt_div_iff₀ hdx]; linarith [not_le.1 hle]
    by_cases h : w ≤ dx * (N - 1 / 2)
    · rw [if_pos h]
      have h' := hx.2 h
      have : ⌊-(w / dx - N) + 1 / 2⌋ = 1 := by
        rw [Int.floor_eq_iff]; constructor <;> push_cast <;> linarith
      rw [this]; rfl
    · rw [if_neg h]
      have h' : (N : K) - 1 / 2 < w / dx := by
        by_contra hcon; exact h (hx.1 (not_lt.1 hcon))
      have : ⌊-(w / dx - N) + 1 / 2⌋ = 0 := by
        rw [Int.floor_eq_iff]; constructor <;> push_cast <;> linarith
      rw [this]; rfl

/-- The search loop finds a minimum. -/
theorem closest_foldl (dist : ℕ → K) (l : List ℕ) (s : ℕ × K) (hs : s.2 = dist s.1) :
    let r := l.foldl (closestStep dist) s
    r.2 = dist r.1 ∧ (r.1 = s.1 ∨ r.1 ∈ l) ∧ r.2 ≤ s.2 ∧ ∀ j ∈ l, r.2 ≤ dist j := by
  induction l generalizing s with
  | nil => simp [hs]
  | cons x l ih =>
    have hs' : (closestStep dist s x).2 = dist (closestStep dist s x).1 := by
      unfold closestStep; split <;> simp [hs]
    have hle : (closestStep dist s x).2 ≤ s.2 ∧ (closestStep dist s x).2 ≤ dist x ∧
        ((closestStep dist s x).1 = s.1 ∨ (closestStep dist s x).1 = x) := by
      unfold closestStep; split
      · rename_i h; exact ⟨h.le, le_refl _, Or.inr rfl⟩
      · rename_i h; exact ⟨le_refl _, not_lt.1 h, Or.inl rfl⟩
    obtain ⟨h1, h2, h3, h4⟩ := ih (closestStep dist s x) hs'
    simp only [List.foldl_cons]
    refine ⟨h1, ?_, h3.trans hle.1, ?_⟩
    · rcases h2 with h2 | h2
      · rcases hle.2.2 with h | h
        · left; rw [h2, h]
        · right; rw [h2, h]; simp
      · right; simp [h2]
    · intro j hj
      simp only [List.mem_cons] at hj
      rcases hj with rfl | hj
      · exact h3.trans hle.2.1
      · exact h4 j hj

/-- An integer within 1/2 of `t` is nearest to `t` among the integers. -/
theorem abs_le_of_half {t : K} {z : ℤ} (h : |t - z| ≤ 1 / 2) (y : ℤ) : |t - z| ≤ |t - y| := by
  by_cases hzy : z = y
  · rw [hzy]
  · have h1 : (1 : K) ≤ |(z : K) - y| := by
      have : (1 : ℤ) ≤ |z - y| := Int.one_le_abs (by omega)
      exact_mod_cast this
    have h2 : |(z : K) - y| ≤ |t - y| + |t - z| := by
      have := abs_sub (t - y) (t - z)
      calc |(z : K) - y| = |(t - y) - (t - z)| := by ring_nf
        _ ≤ _ := this
    linarith

theorem floor_half {t : K} : |t - (⌊t + 1 / 2⌋ : ℤ)| ≤ 1 / 2 := by
  have h1 := Int.floor_le (t + 1 / 2)
  have h2 := Int.lt_floor_add_one (t + 1 / 2)
  rw [abs_le]; constructor <;> linarith

/-- A site whose (real) coordinate is within half a spacing of `v`, modulo the period, is nearest. -/
theorem isNearest_of_half (a dx v : K) (N : ℕ) (hdx : 0 < dx) (r : ℕ) (hr : r < N) (m : ℤ)
    (h : |(v - a) / dx - ((r + m * N : ℤ) : K)| ≤ 1 / 2) :
    IsNearest (fun i => a + i * dx) (N * dx) N v r := by
  refine ⟨hr, m, ?_⟩
  intro j _ k
  have := abs_le_of_half h (j + k * N)
  have e1 : ∀ (i : ℕ) (l : ℤ), v - (a + i * dx + l * (N * dx)) = ((v - a) / dx - ((i + l * N : ℤ) : K)) * dx := by
    intro i l; push_cast; field_simp; ring
  rw [e1, e1, abs_mul, abs_mul]
  exact mul_le_mul_of_nonneg_right this (abs_nonneg _)

end Ieompp
