import Verif.Props.ExpectationValue

/-! # The correlation table on rectangular lattices (C39): exactly which lookups are in range, and that the values are wrong -/

set_option autoImplicit false
set_option linter.unusedSectionVars false

namespace Ieompp

open Real

namespace RealSpace

open MomentumSpace (vecAt)

theorem rect_coord {Nx Ny a : ℕ} (ha : a < Nx * Ny) : a / Nx < Ny ∧ a % Nx < Nx := by
  have hx : 0 < Nx := by
    rcases Nat.eq_zero_or_pos Nx with h | h
    · rw [h, Nat.zero_mul] at ha; omega
    · exact h
  exact ⟨Nat.div_lt_of_lt_mul ha, Nat.mod_lt _ hx⟩

theorem rect_site {Nx Ny x y : ℕ} (hx : x < Ny) (hy : y < Nx) : x * Nx + y < Nx * Ny ∧ (x * Nx + y) / Nx = x ∧ (x * Nx + y) % Nx = y := by
  refine ⟨?_, ?_, ?_⟩
  · have : (x + 1) * Nx ≤ Ny * Nx := Nat.mul_le_mul_right _ hx
    rw [Nat.mul_comm Nx Ny]
    rw [Nat.succ_mul] at this
    omega
  · rw [Nat.mul_comm, Nat.mul_add_div (by omega), Nat.div_eq_of_lt hy, add_zero]
  · rw [Nat.mul_comm, Nat.mul_add_mod, Nat.mod_eq_of_lt hy]

/-- The distance between a site and the first one. -/
theorem rect_distance {s : Square ℝ} {Nx Ny : ℕ} (hs : s.Constructed Nx Ny) {x y : ℕ} (hx : x < Ny) (hy : y < Nx) :
    wrappedDistanceX s 0 (x * Nx + y) = min x (wrapSub Nx x) ∧ wrappedDistanceY s 0 (x * Nx + y) = min y (wrapSub Ny y) := by
  obtain ⟨h1, h2, _⟩ := hs.fields
  obtain ⟨-, e1, e2⟩ := rect_site hx hy
  unfold wrappedDistanceX wrappedDistanceY Square.xIndex Square.yIndex
  simp only [h1, h2, e1, e2, Nat.zero_div, Nat.zero_mod]
  rw [if_neg (by omega), if_neg (by omega), Nat.sub_zero, Nat.sub_zero]
  exact ⟨rfl, rfl⟩

/-- **C39**, rectangular lattices: on every lattice with `Nx ≠ Ny` there are two distinct sites for which the table gives the on-site value 1/2. -/
theorem expectationValue2D_rect_wrong {s : Square ℝ} {Nx Ny : ℕ} (hs : s.Constructed Nx Ny) (h : Nx ≠ Ny)
    {sched : List (ℕ × ℕ)} (hp : sched.Perm (evPairs (Nx / 2) (Ny / 2))) :
    ∃ values, evTable2D s sched = .val values ∧ ∃ b, 0 < b ∧ b < Nx * Ny ∧ evLookup2D s values 0 b = .val (1 / 2) := by
  obtain ⟨values, e1, e2, e3⟩ := evTable2D_ok hs hp
  obtain ⟨h1, h2, _⟩ := hs.fields
  obtain ⟨hNx, hNy⟩ := hs.pos_size
  refine ⟨values, e1, ?_⟩
  have hv : vecAt values 0 = .val (1 / 2) := by
    have := e3 0 0 (by omega) (by omega)
    unfold vecAt
    rw [show (Ny / 2 + 1) * 0 + 0 = 0 by omega] at this
    rw [this]
    simp only [evValue2D]
    norm_num
  rcases Nat.lt_or_gt_of_ne h with hlt | hlt
  · obtain ⟨d1, d2⟩ := rect_distance hs (x := Nx) (y := 0) hlt hNx
    refine ⟨Nx * Nx + 0, by positivity, (rect_site hlt hNx).1, ?_⟩
    unfold evLookup2D
    rw [d1, d2, h2]
    have : min Nx (wrapSub Nx Nx) = 0 := by unfold wrapSub; simp
    rw [this, Nat.zero_min, Nat.mul_zero]
    exact hv
  · obtain ⟨d1, d2⟩ := rect_distance hs (x := 0) (y := Ny) hNy hlt
    refine ⟨0 * Nx + Ny, by omega, (rect_site hNy hlt).1, ?_⟩
    unfold evLookup2D
    rw [d1, d2, h2]
    have : min Ny (wrapSub Ny Ny) = 0 := by unfold wrapSub; simp
    rw [this, Nat.zero_min, Nat.mul_zero]
    exact hv

/-- The largest distances that the lookups of a lattice produce. -/
theorem wrapped_le {N M d : ℕ} (hd : d < M) (h : M ≤ N + 1) : min d (wrapSub N d) ≤ N / 2 := by
  unfold wrapSub
  rw [if_pos (by omega)]
  omega

theorem wrappedX_form (s : Square ℝ) {Nx Ny : ℕ} (hs : s.Constructed Nx Ny) {a b : ℕ} (ha : a < Nx * Ny) (hb : b < Nx * Ny) :
    (∃ d < Ny, wrappedDistanceX s a b = min d (wrapSub Nx d)) ∧ ∃ d < Nx, wrappedDistanceY s a b = min d (wrapSub Ny d) := by
  obtain ⟨h1, h2, _⟩ := hs.fields
  obtain ⟨a1, a2⟩ := rect_coord ha
  obtain ⟨b1, b2⟩ := rect_coord hb
  unfold wrappedDistanceX wrappedDistanceY Square.xIndex Square.yIndex
  simp only [h1, h2]
  generalize a / Nx = ax at *
  generalize b / Nx = bx at *
  generalize a % Nx = ay at *
  generalize b % Nx = by' at *
  exact ⟨⟨_, by split_ifs <;> omega, rfl⟩, _, by split_ifs <;> omega, rfl⟩

/-- **C39**, rectangular lattices: every lookup is inside the table exactly if the side lengths differ by at most one, or the lattice is so flat that the largest index stays
inside. -/
theorem expectationValue2D_range_iff {s : Square ℝ} {Nx Ny : ℕ} (hs : s.Constructed Nx Ny) (hsize : Nx < 2 ^ 63 ∧ Ny < 2 ^ 63)
    {sched : List (ℕ × ℕ)} (hp : sched.Perm (evPairs (Nx / 2) (Ny / 2))) :
    ∃ values, evTable2D s sched = .val values ∧
      ((∀ a < Nx * Ny, ∀ b < Nx * Ny, evLookup2D s values a b ≠ .ub) ↔
        Ny ≤ Nx + 1 ∧ (Nx ≤ Ny + 1 ∨ (Ny / 2 + 1) * min (Nx / 2) (Ny - 1) + (Nx - 1) < (Nx / 2 + 1) * (Ny / 2 + 1))) := by
  obtain ⟨values, e1, e2, -⟩ := evTable2D_ok hs hp
  obtain ⟨h1, h2, _⟩ := hs.fields
  obtain ⟨hNx, hNy⟩ := hs.pos_size
  have hub : ∀ i, vecAt values i ≠ .ub ↔ i < (Nx / 2 + 1) * (Ny / 2 + 1) := by
    intro i
    rw [← e2]
    unfold vecAt
    by_cases hi : i < values.length
    · rw [List.getElem?_eq_getElem hi]; simp [hi]
    · rw [List.getElem?_eq_none (by omega)]; simp [hi]
  have hX : ∀ d < Ny, Ny ≤ Nx + 1 → min d (wrapSub Nx d) ≤ min (Nx / 2) (Ny - 1) := fun d hd h => le_min (wrapped_le hd h) (by omega)
  have hY : ∀ d < Nx, min d (wrapSub Ny d) ≤ max (Ny / 2) (Nx - 1) := fun d hd => by omega
  refine ⟨values, e1, ⟨fun hall => ?_, ?_⟩⟩
  · have hsite : ∀ x < Ny, ∀ y < Nx, (Ny / 2 + 1) * min x (wrapSub Nx x) + min y (wrapSub Ny y) < (Nx / 2 + 1) * (Ny / 2 + 1) := by
      intro x hx y hy
      have := hall 0 (Nat.mul_pos hNx hNy) _ (rect_site hx hy).1
      unfold evLookup2D at this
      rwa [(rect_distance hs hx hy).1, (rect_distance hs hx hy).2, h2, hub] at this
    have hA : Ny ≤ Nx + 1 := by
      by_contra hc
      have := hsite (Ny - 1) (by omega) 0 hNx
      have e : min (Ny - 1) (wrapSub Nx (Ny - 1)) = Ny - 1 := by
        unfold wrapSub
        rw [if_neg (by omega)]
        omega
      rw [e, Nat.zero_min, Nat.add_zero, Nat.mul_comm] at this
      have := Nat.lt_of_mul_lt_mul_right this
      omega
    refine ⟨hA, ?_⟩
    by_contra hc
    push Not at hc
    obtain ⟨hc1, hc2⟩ := hc
    have hx : min (Nx / 2) (Ny - 1) < Ny := by omega
    have := hsite _ hx (Nx - 1) (by omega)
    have e : min (Nx - 1) (wrapSub Ny (Nx - 1)) = Nx - 1 := by
      unfold wrapSub
      rw [if_neg (by omega)]
      omega
    have e' : min (min (Nx / 2) (Ny - 1)) (wrapSub Nx (min (Nx / 2) (Ny - 1))) = min (Nx / 2) (Ny - 1) := by
      unfold wrapSub
      rw [if_pos (by omega)]
      omega
    rw [e, e'] at this
    omega
  · rintro ⟨hA, hB⟩ a ha b hb
    obtain ⟨⟨dx, hdx, ex⟩, dy, hdy, ey⟩ := wrappedX_form s hs ha hb
    unfold evLookup2D
    rw [ex, ey, h2, hub]
    have bx := hX dx hdx hA
    rcases hB with hB | hB
    · exact evIndex_lt (bx.trans (min_le_left _ _)) (wrapped_le hdy hB)
    · have by' := hY dy hdy
      have hm : (Ny / 2 + 1) * min dx (wrapSub Nx dx) ≤ (Ny / 2 + 1) * min (Nx / 2) (Ny - 1) := Nat.mul_le_mul_left _ bx
      rcases Nat.lt_or_ge (Ny / 2) (min dy (wrapSub Ny dy)) with h' | h'
      · have : min dy (wrapSub Ny dy) ≤ Nx - 1 := by omega
        omega
      · exact evIndex_lt (bx.trans (min_le_left _ _)) h'

/-- A lattice of 4 x 2 sites is flat enough for all lookups to be in range, one of 5 x 3 sites is not. -/
example : ((2 : ℕ) ≤ 4 + 1 ∧ (4 ≤ 2 + 1 ∨ (2 / 2 + 1) * min (4 / 2) (2 - 1) + (4 - 1) < (4 / 2 + 1) * (2 / 2 + 1))) ∧
    ¬ ((3 : ℕ) ≤ 5 + 1 ∧ (5 ≤ 3 + 1 ∨ (3 / 2 + 1) * min (5 / 2) (3 - 1) + (5 - 1) < (5 / 2 + 1) * (3 / 2 + 1))) := by decide

end RealSpace
end Ieompp
