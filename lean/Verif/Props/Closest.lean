import Verif.Props.Square
import Mathlib.Tactic.Positivity

/-! # C21 (exact), C98: `closest` on the chain in momentum space and on the square lattice -/

set_option autoImplicit false
set_option linter.unusedSectionVars false

namespace Ieompp

open Spec

variable {K : Type*} [Field K] [LinearOrder K] [IsStrictOrderedRing K] [FloorRing K]

/-! ## One axis -/

/-- If all sites are equivalent modulo the period, every site is nearest. -/
theorem isNearest_of_equiv (pos : ℕ → K) {L : K} (hL : 0 < L) {N : ℕ} (v : K) {r : ℕ} (hr : r < N)
    (h : ∀ j < N, ∃ k : ℤ, pos j = pos r + k * L) : IsNearest pos L N v r := by
  refine ⟨hr, ⌊(v - pos r) / L + 1 / 2⌋, fun j hj k => ?_⟩
  obtain ⟨k', hk⟩ := h j hj
  have key := abs_le_of_half (floor_half (t := (v - pos r) / L)) (k' + k)
  have e : ∀ z : ℤ, |(v - pos r) / L - (z : K)| = |v - (pos r + z * L)| / L := by
    intro z
    rw [← abs_of_pos hL, ← abs_div, abs_of_pos hL]
    congr 1; field_simp; ring
  rw [e, e, div_le_div_iff_of_pos_right hL] at key
  rw [hk]
  have e2 : pos r + ((k' + k : ℤ) : K) * L = pos r + k' * L + k * L := by push_cast; ring
  rw [← e2]; exact key

/-- The image of `v` in which `closest` looks for the nearest site, in momentum space. -/
theorem closestWrap_momentum {N : ℕ} (hN : 0 < N) {pi : K} (hpi : 0 < pi) (v : K) :
    ∃ m : ℤ, closestWrap (-pi) pi (2 * pi) (2 * pi / N) v = .val (v + m * (2 * pi)) ∧
      -pi - 2 * pi / N / 2 ≤ v + m * (2 * pi) ∧ v + m * (2 * pi) ≤ pi + 2 * pi / N / 2 ∧
      (0 < m → v + m * (2 * pi) < pi - 2 * pi / N / 2) ∧
      (∀ m' : ℤ, m' ≤ 0 → pi - 2 * pi / N / 2 < v + m' * (2 * pi) → v + m' * (2 * pi) ≤ pi + 2 * pi / N / 2 → m' = m) := by
  have hN' : (1 : K) ≤ N := by exact_mod_cast hN
  obtain ⟨d, hd⟩ : ∃ d, d = 2 * pi / (N : K) := ⟨_, rfl⟩
  have hd0 : 0 < d := by rw [hd]; positivity
  have hd1 : d ≤ 2 * pi := by
    rw [hd, div_le_iff₀ (by linarith)]; nlinarith
  rw [← hd]
  obtain ⟨n, h1, h2, h3⟩ := wrapUp_spec (-pi - d / 2) (2 * pi) v (by linarith)
  obtain ⟨k, g1, g2, g3⟩ := wrapDown_spec (pi + d / 2) (2 * pi) (v + n * (2 * pi)) (by linarith)
  have e : v + (((n : ℤ) - (k : ℤ) : ℤ) : K) * (2 * pi) = v + n * (2 * pi) - k * (2 * pi) := by push_cast; ring
  have hnk : n = 0 ∨ k = 0 := by
    rcases h3 with h3 | h3
    · exact Or.inl h3
    · right
      rcases Nat.eq_zero_or_pos k with h | h
      · exact h
      · exfalso
        have hk1 : (1 : K) ≤ k := by exact_mod_cast h
        rcases g3 with g3 | g3
        · omega
        · nlinarith
  refine ⟨(n : ℤ) - k, ?_, ?_, ?_, ?_, ?_⟩
  · unfold closestWrap
    rw [h1, Res.bind_val, g1, e]
  · rw [e]
    rcases g3 with g3 | g3
    · rw [g3]; simp only [Nat.cast_zero, zero_mul, sub_zero]; exact h2
    · linarith
  · rw [e]; exact g2
  · intro hm
    have hk : k = 0 := by omega
    rw [e, hk]
    rcases h3 with h3 | h3
    · omega
    · simp only [Nat.cast_zero, zero_mul, sub_zero]; linarith
  · intro m' hm' a1 a2
    have hlow : -pi - d / 2 ≤ v + n * (2 * pi) - k * (2 * pi) := by
      rcases g3 with g3 | g3
      · rw [g3]; simp only [Nat.cast_zero, zero_mul, sub_zero]; exact h2
      · linarith
    rcases Nat.eq_zero_or_pos n with hn | hn
    · -- only the second loop ran
      subst hn
      simp only [Nat.cast_zero, zero_mul, add_zero] at *
      rcases lt_trichotomy m' (((0 : ℕ) : ℤ) - k) with h | h | h
      · -- m' further down: impossible, as one more step leaves the upper cell
        exfalso
        have hh : (m' : K) + k + 1 ≤ 0 := by exact_mod_cast (by omega : m' + k + 1 ≤ 0)
        nlinarith
      · rw [h]; simp
      · exfalso
        have hkpos : 0 < k := by omega
        rcases g3 with g3 | g3
        · omega
        · have hh : (1 : K) ≤ m' + k := by exact_mod_cast (by omega : (1 : ℤ) ≤ m' + k)
          nlinarith
    · exfalso
      rcases h3 with h3 | h3
      · omega
      · have hk : k = 0 := by omega
        have hn1 : (1 : K) ≤ n := by exact_mod_cast hn
        have hm0 : (m' : K) ≤ 0 := by exact_mod_cast hm'
        nlinarith

/-- The positions for which `closest` goes wrong along an axis of `N` momenta: those that are taken to the half cells next to `π` by
subtracting a (possibly vanishing) number of periods, and are then compared with the last momentum `π - 2π/N` instead of `π ≡ -π`. The
upper end of the cell is a tie for `N = 2`. -/
def UpperCell (N : ℕ) (pi v : K) : Prop :=
  2 ≤ N ∧ ∃ n : ℕ, pi - pi / N < v - n * (2 * pi) ∧
    (v - n * (2 * pi) < pi + pi / N ∨ (v - n * (2 * pi) = pi + pi / N ∧ 3 ≤ N))

theorem half_step (N : ℕ) (pi : K) : 2 * pi / (N : K) / 2 = pi / N := by ring

set_option maxHeartbeats 800000 in
/-- One axis of momenta: the site found for the wrapped position is nearest exactly outside the upper cell. -/
theorem axis_momentum_iff {N : ℕ} (hN : 0 < N) {pi : K} (hpi : 0 < pi) (v w : K)
    (hw : closestWrap (-pi) pi (2 * pi) (2 * pi / N) v = .val w) {r : ℕ} (hr : r < N)
    (hmin : ∀ j < N, |w - (-pi + r * (2 * pi / N))| ≤ |w - (-pi + j * (2 * pi / N))|) :
    IsNearest (fun i : ℕ => -pi + i * (2 * pi / N)) (2 * pi) N v r ↔ ¬ UpperCell N pi v := by
  obtain ⟨m, hv, lo, hi, hpos, huniq⟩ := closestWrap_momentum hN hpi v
  rw [hv] at hw
  have hw : v + m * (2 * pi) = w := by injection hw
  rw [hw] at lo hi hpos
  have hN' : (1 : K) ≤ N := by exact_mod_cast hN
  obtain ⟨d, hd⟩ : ∃ d, d = 2 * pi / (N : K) := ⟨_, rfl⟩
  have hd0 : 0 < d := by rw [hd]; positivity
  have hL : 2 * pi = N * d := by rw [hd]; field_simp
  have hpd : pi / (N : K) = d / 2 := by rw [hd]; ring
  have hcast : ((N - 1 : ℕ) : K) = N - 1 := by rw [Nat.cast_sub (by omega)]; simp
  unfold UpperCell
  rw [hpd]
  rw [← hd] at lo hi hpos huniq hmin ⊢
  -- the wrapped position is in the upper cell iff some image from above is
  have hup : (∃ n : ℕ, pi - d / 2 < v - n * (2 * pi) ∧ (v - n * (2 * pi) < pi + d / 2 ∨ (v - n * (2 * pi) = pi + d / 2 ∧ 3 ≤ N))) ↔
      (pi - d / 2 < w ∧ (w < pi + d / 2 ∨ (w = pi + d / 2 ∧ 3 ≤ N))) := by
    constructor
    · rintro ⟨n, a1, a2⟩
      have e : v - n * (2 * pi) = v + ((-(n : ℤ) : ℤ) : K) * (2 * pi) := by push_cast; ring
      rw [e] at a1 a2
      have := huniq (-(n : ℤ)) (by omega) a1 (by rcases a2 with a2 | a2 <;> [exact a2.le; exact a2.1.le])
      rw [this, hw] at a1 a2
      exact ⟨a1, a2⟩
    · rintro ⟨a1, a2⟩
      have hm : m ≤ 0 := by
        by_contra hc
        have := hpos (by omega)
        linarith
      refine ⟨(-m).toNat, ?_⟩
      have hc : (((-m).toNat : ℕ) : K) = -(m : K) := by
        have : (((-m).toNat : ℕ) : ℤ) = -m := Int.toNat_of_nonneg (by omega)
        exact_mod_cast congrArg (Int.cast : ℤ → K) this
      have e : v - (((-m).toNat : ℕ) : K) * (2 * pi) = w := by rw [hc, ← hw]; ring
      rw [e]; exact ⟨a1, a2⟩
  rw [hup]
  have hnear : ∀ z : ℤ, |w - (-pi + r * d) - z * (N * d)| ≤ d / 2 → IsNearest (fun i : ℕ => -pi + i * d) (2 * pi) N v r := by
    intro z hz
    rw [hL]
    refine isNearest_of_half (-pi) d v N hd0 r hr (z - m) ?_
    have e : (v - -pi) / d - ((r + (z - m) * N : ℤ) : K) = (w - (-pi + r * d) - z * (N * d)) / d := by
      rw [← hw, hL]; push_cast; field_simp; ring
    rw [e, abs_div, abs_of_pos hd0, div_le_iff₀ hd0]; linarith
  by_cases hw1 : w ≤ pi - d / 2
  · refine ⟨fun _ h => absurd h.2.1 (not_lt.2 hw1), fun _ => ?_⟩
    refine hnear 0 ?_
    simp only [Int.cast_zero, zero_mul, sub_zero]
    -- some site is within half a spacing
    suffices hex : ∃ j < N, |w - (-pi + j * d)| ≤ d / 2 by
      obtain ⟨j, hj, hjd⟩ := hex
      exact (hmin j hj).trans hjd
    rcases le_or_gt (-pi) w with hw0 | hw0
    · obtain ⟨z, hz⟩ : ∃ z, z = ⌊(w + pi) / d + 1 / 2⌋ := ⟨_, rfl⟩
      have hz1 : (z : K) ≤ (w + pi) / d + 1 / 2 := by rw [hz]; exact Int.floor_le _
      have hz2 : (w + pi) / d + 1 / 2 < z + 1 := by rw [hz]; exact Int.lt_floor_add_one _
      have hwd : (w + pi) / d * d = w + pi := by field_simp
      by_cases hl : w < pi - d
      · have hz0 : 0 ≤ z := by
          rw [hz]; exact Int.floor_nonneg.2 (by have := div_nonneg (by linarith : 0 ≤ w + pi) hd0.le; linarith)
        have hwN : (w + pi) / d < N - 1 := by rw [div_lt_iff₀ hd0]; linarith
        have hzN : z < N := by
          have : (z : K) < N := by linarith
          exact_mod_cast this
        refine ⟨z.toNat, by omega, ?_⟩
        have hc' : ((z.toNat : ℕ) : K) = z := by
          have : ((z.toNat : ℕ) : ℤ) = z := Int.toNat_of_nonneg hz0
          exact_mod_cast congrArg (Int.cast : ℤ → K) this
        rw [hc', abs_le]
        constructor <;> nlinarith
      · refine ⟨N - 1, by omega, ?_⟩
        rw [hcast, abs_le]; constructor <;> nlinarith
    · refine ⟨0, hN, ?_⟩
      rw [abs_le]; constructor <;> simp <;> linarith
  · push Not at hw1
    -- the last site is the one that is found
    have hrN : r = N - 1 := by
      by_contra hne
      have h := hmin (N - 1) (by omega)
      have hr1 : (r : K) + 1 ≤ N - 1 := by
        rw [← hcast]; exact_mod_cast (by omega : r + 1 ≤ N - 1)
      rw [hcast] at h
      have h1 : 0 ≤ w - (-pi + (N - 1) * d) := by nlinarith
      have h2 : 0 ≤ w - (-pi + r * d) := by nlinarith
      rw [abs_of_nonneg h1, abs_of_nonneg h2] at h
      nlinarith
    have hrc : (r : K) = N - 1 := by rw [hrN, hcast]
    rcases Nat.lt_or_ge 1 N with h2 | h2
    · have h2' : (2 : K) ≤ N := by exact_mod_cast h2
      constructor
      · rintro ⟨_, z, hz⟩ ⟨_, _, hbad⟩
        have h0 := hz 0 hN (1 - m)
        have e0 : v - (-pi + ((0 : ℕ) : K) * d + ((1 - m : ℤ) : K) * (2 * pi)) = w - pi := by
          rw [← hw]; push_cast; ring
        have e1 : v - (-pi + (r : K) * d + (z : K) * (2 * pi)) = w - pi + (1 - (z + m) * N) * d := by
          rw [hrc, ← hw, hL]; linear_combination (1 : K) * hL
        simp only at h0
        rw [e0, e1] at h0
        -- the distance of the last site from the position is more than half a cell
        rcases le_or_gt (z + m) 0 with hs | hs
        · have hs' : (z : K) + m ≤ 0 := by exact_mod_cast hs
          have hp : (1 : K) ≤ 1 - (z + m) * N := by
            have := mul_nonpos_of_nonpos_of_nonneg hs' (by linarith : (0 : K) ≤ N)
            linarith
          have h3 : 1 * d ≤ (1 - (z + m) * N) * d := mul_le_mul_of_nonneg_right hp hd0.le
          rw [one_mul] at h3
          have h4 : 0 ≤ w - pi + (1 - (z + m) * N) * d := by linarith
          rw [abs_of_nonneg h4] at h0
          rcases abs_cases (w - pi) with ⟨h5, _⟩ | ⟨h5, _⟩ <;> rw [h5] at h0 <;> linarith
        · have hs' : (1 : K) ≤ z + m := by exact_mod_cast hs
          have hp : 1 - (z + m) * N ≤ 1 - (N : K) := by
            have := mul_le_mul_of_nonneg_right hs' (by linarith : (0 : K) ≤ N)
            linarith
          have h3 : (1 - (z + m) * N) * d ≤ (1 - N) * d := mul_le_mul_of_nonneg_right hp hd0.le
          have hNd : 2 * d ≤ N * d := mul_le_mul_of_nonneg_right h2' hd0.le
          have e2 : (1 - (N : K)) * d = d - N * d := by ring
          rw [e2] at h3
          have h4 : w - pi + (1 - (z + m) * N) * d ≤ 0 := by linarith
          rw [abs_of_nonpos h4] at h0
          rcases hbad with hbad | ⟨hbad, h3N⟩
          · rcases abs_cases (w - pi) with ⟨h5, _⟩ | ⟨h5, _⟩ <;> rw [h5] at h0 <;> linarith
          · have h3N' : (3 : K) ≤ N := by exact_mod_cast h3N
            have h3d : 3 * d ≤ N * d := mul_le_mul_of_nonneg_right h3N' hd0.le
            rw [abs_of_pos (by linarith)] at h0
            linarith
      · intro hgood
        have hwe : w = pi + d / 2 := by
          by_contra hne
          exact hgood ⟨h2, hw1, Or.inl (lt_of_le_of_ne hi hne)⟩
        have hN2 : N = 2 := by
          by_contra hne
          exact hgood ⟨h2, hw1, Or.inr ⟨hwe, by omega⟩⟩
        refine hnear 1 ?_
        have hNc : (N : K) = 2 := by exact_mod_cast hN2
        rw [hrc, hwe, hNc]
        rw [hNc] at hL
        rw [abs_le]; push_cast; constructor <;> linarith
    · have hN1 : N = 1 := by omega
      refine ⟨fun _ h => by omega, fun _ => ?_⟩
      refine isNearest_of_equiv _ (by linarith) v hr ?_
      intro j hj
      refine ⟨0, ?_⟩
      have : j = r := by omega
      simp [this]

/-- **C21**, exact in momentum space: `closest` always returns, and it returns a nearest site exactly for the positions outside the
upper cell (above, `UpperCell`). -/
theorem chain_closest_momentum_iff {N : ℕ} (hN : 0 < N) {pi : K} (hpi : 0 < pi) (v : K) :
    ∃ r, (Chain.momentum pi N).closest v = .val r ∧
      (IsNearest (Chain.momentum pi N).pos (2 * pi) N v r ↔ ¬ UpperCell N pi v) := by
  obtain ⟨m, hv, -⟩ := closestWrap_momentum hN hpi v
  have hc : (Chain.momentum pi N).Constructed N := .momentum pi hN rfl
  obtain ⟨s1, s2⟩ := chain_search hc (v + m * (2 * pi))
  refine ⟨(Chain.momentum pi N).closestSearch (v + m * (2 * pi)), ?_, ?_⟩
  · unfold Chain.closest
    show (closestWrap (-pi) pi (2 * pi) (2 * pi / N) v).map _ = _
    rw [hv, Res.map_val]
  · exact axis_momentum_iff hN hpi v _ hv s1 s2

/-- The image of `v` in which `closest` looks for the nearest site, in real space. -/
theorem closestWrap_real {N : ℕ} (hN : 0 < N) {d : K} (hd : 0 < d) (v : K) :
    ∃ m : ℤ, closestWrap 0 (d * ((N - 1 : ℕ) : K)) (N * d) d v = .val (v + m * (N * d)) ∧
      -(d / 2) ≤ v + m * (N * d) ∧ v + m * (N * d) ≤ d * N - d / 2 := by
  have hN' : (1 : K) ≤ N := by exact_mod_cast hN
  have hcast : ((N - 1 : ℕ) : K) = N - 1 := by rw [Nat.cast_sub (by omega)]; simp
  have hL : 0 < (N : K) * d := mul_pos (by linarith) hd
  rw [hcast]
  obtain ⟨n, h1, h2, h3⟩ := wrapUp_spec (0 - d / 2) (N * d) v hL
  obtain ⟨k, g1, g2, g3⟩ := wrapDown_spec (d * ((N : K) - 1) + d / 2) (N * d) (v + n * (N * d)) hL
  have e : v + (((n : ℤ) - (k : ℤ) : ℤ) : K) * (N * d) = v + n * (N * d) - k * (N * d) := by push_cast; ring
  refine ⟨(n : ℤ) - k, ?_, ?_, ?_⟩
  · unfold closestWrap
    rw [h1, Res.bind_val, g1, e]
  · rw [e]
    rcases g3 with g3 | g3
    · rw [g3]; simp only [Nat.cast_zero, zero_mul, sub_zero]; linarith
    · nlinarith
  · rw [e]; nlinarith

/-- One axis of lattice points: the site found for the wrapped position is nearest. -/
theorem axis_real {N : ℕ} (hN : 0 < N) {d : K} (hd : 0 < d) (v w : K)
    (hw : closestWrap 0 (d * ((N - 1 : ℕ) : K)) (N * d) d v = .val w) {r : ℕ} (hr : r < N)
    (hmin : ∀ j < N, |w - (0 + r * d)| ≤ |w - (0 + j * d)|) :
    IsNearest (fun i : ℕ => 0 + i * d) (N * d) N v r := by
  obtain ⟨m, hv, lo, hi⟩ := closestWrap_real hN hd v
  rw [hv] at hw
  have hw : v + m * (N * d) = w := by injection hw
  rw [hw] at lo hi
  have hN' : (1 : K) ≤ N := by exact_mod_cast hN
  have hwd : w / d * d = w := by field_simp
  obtain ⟨z, hz⟩ : ∃ z, z = ⌊w / d + 1 / 2⌋ := ⟨_, rfl⟩
  have hz1 : (z : K) ≤ w / d + 1 / 2 := by rw [hz]; exact Int.floor_le _
  have hz2 : w / d + 1 / 2 < z + 1 := by rw [hz]; exact Int.lt_floor_add_one _
  have hlo : -(1 / 2) ≤ w / d := by rw [le_div_iff₀ hd]; linarith
  have hhi : w / d ≤ N - 1 / 2 := by rw [div_le_iff₀ hd]; linarith
  have hz0 : 0 ≤ z := by rw [hz]; exact Int.floor_nonneg.2 (by linarith)
  have hzN : z ≤ N := by
    have : (z : K) ≤ N := by linarith
    exact_mod_cast this
  have hex : ∃ j < N, |w - (0 + j * d)| ≤ d / 2 := by
    rcases lt_or_eq_of_le hzN with h | h
    · refine ⟨z.toNat, by omega, ?_⟩
      have hc' : ((z.toNat : ℕ) : K) = z := by
        have : ((z.toNat : ℕ) : ℤ) = z := Int.toNat_of_nonneg hz0
        exact_mod_cast congrArg (Int.cast : ℤ → K) this
      rw [hc', abs_le]
      constructor <;> nlinarith
    · refine ⟨N - 1, by omega, ?_⟩
      have hcast : ((N - 1 : ℕ) : K) = N - 1 := by rw [Nat.cast_sub (by omega)]; simp
      have hzc : (z : K) = N := by exact_mod_cast congrArg (Int.cast : ℤ → K) h
      rw [hzc] at hz1
      rw [hcast, abs_le]
      constructor <;> nlinarith
  obtain ⟨j, hj, hjd⟩ := hex
  have hrd := (hmin j hj).trans hjd
  refine isNearest_of_half 0 d v N hd r hr (-m) ?_
  have e : (v - 0) / d - ((r + (-m) * N : ℤ) : K) = (w - (0 + r * d)) / d := by
    rw [← hw]; push_cast; field_simp; ring
  rw [e, abs_div, abs_of_pos hd, div_le_iff₀ hd]; linarith

/-- An axis on which there are `M` sites but the period is that of `P` sites: the site found for the position `t` spacings below the
end of the period is not nearest. -/
theorem axis_wrong {M P : ℕ} (hM : 2 ≤ M) {a d t : K} (hd : 0 < d) (ht0 : 0 ≤ t) (ht1 : t < 1)
    (hMP : M < P ∨ (M = P ∧ t < 1 / 2)) {r : ℕ} (hr : r < M)
    (hmin : ∀ j < M, |a + (P - t) * d - (a + r * d)| ≤ |a + (P - t) * d - (a + j * d)|) :
    ¬ IsNearest (fun i : ℕ => a + i * d) (P * d) M (a + (P - t) * d) r := by
  have hMP' : M ≤ P := by rcases hMP with h | h <;> omega
  have hPM : (M : K) ≤ P := by exact_mod_cast hMP'
  have hcast : ((M - 1 : ℕ) : K) = M - 1 := by rw [Nat.cast_sub (by omega)]; simp
  have hrM : r = M - 1 := by
    by_contra hne
    have h := hmin (M - 1) (by omega)
    have hr1 : (r : K) + 1 ≤ M - 1 := by rw [← hcast]; exact_mod_cast (by omega : r + 1 ≤ M - 1)
    rw [hcast] at h
    have e1 : a + (P - t) * d - (a + (M - 1) * d) = (P - t - (M - 1)) * d := by ring
    have e2 : a + (P - t) * d - (a + r * d) = (P - t - r) * d := by ring
    rw [e1, e2, abs_of_nonneg (mul_nonneg (by linarith) hd.le), abs_of_nonneg (mul_nonneg (by linarith) hd.le)] at h
    have := le_of_mul_le_mul_right h hd
    linarith
  rintro ⟨_, m, hm⟩
  have h0 := hm 0 (by omega) 1
  simp only at h0
  obtain ⟨k, hk⟩ : ∃ k : ℤ, k = P * (1 - m) - M := ⟨_, rfl⟩
  have hkK : (k : K) = P * (1 - m) - M := by rw [hk]; push_cast; ring
  have e1 : a + (P - t) * d - (a + ((0 : ℕ) : K) * d + ((1 : ℤ) : K) * (P * d)) = -t * d := by push_cast; ring
  have e2 : a + (P - t) * d - (a + (r : K) * d + (m : K) * (P * d)) = (k + 1 - t) * d := by
    rw [hrM, hcast, hkK]; ring
  rw [e1, e2, abs_mul, abs_mul, abs_neg, abs_of_nonneg ht0] at h0
  have h1 := le_of_mul_le_mul_right h0 (abs_pos.2 hd.ne')
  have hPz : (0 : ℤ) < P := by omega
  rcases le_or_gt m 0 with hs | hs
  · have h2 : (P : ℤ) - M ≤ k := by
      rw [hk]; nlinarith
    have h3 : (P : K) - M ≤ k := by exact_mod_cast h2
    rw [abs_of_nonneg (by linarith)] at h1
    rcases hMP with h | ⟨h, ht⟩
    · have : (M : K) + 1 ≤ P := by exact_mod_cast h
      linarith
    · have : (M : K) = P := by rw [h]
      linarith
  · have h2 : k ≤ -2 := by
      rw [hk]
      have : (P : ℤ) * (1 - m) ≤ 0 := by nlinarith
      have : (2 : ℤ) ≤ M := by exact_mod_cast hM
      omega
    have h3 : (k : K) ≤ -2 := by exact_mod_cast h2
    rw [abs_of_nonpos (by linarith)] at h1
    linarith

/-! ## The square lattice -/

/-- What the search over all sites gives for a wrapped position: the two coordinates are minimised separately. The sites of the lattice
have their coordinates in `[0, Ny) × [0, Nx)`. -/
theorem square_search {s : Square K} {Nx Ny : ℕ} (hs : s.Constructed Nx Ny) (w : K × K) :
    s.closestSearch w < Nx * Ny ∧ s.closestSearch w / Nx < Ny ∧ s.closestSearch w % Nx < Nx ∧
    (∀ i < Ny, |w.1 - (s.xMin + (s.closestSearch w / Nx : ℕ) * s.dx)| ≤ |w.1 - (s.xMin + i * s.dx)|) ∧
    (∀ j < Nx, |w.2 - (s.yMin + (s.closestSearch w % Nx : ℕ) * s.dy)| ≤ |w.2 - (s.yMin + j * s.dy)|) := by
  obtain ⟨f1, f2, f3, f4, f5⟩ := hs.fields
  obtain ⟨px, py⟩ := hs.pos_size
  have hpos : 0 < Nx * Ny := Nat.mul_pos px py
  obtain ⟨g1, g2, g3, g4⟩ := closest_foldl
    (fun i => (w.1 - (s.pos i).1) * (w.1 - (s.pos i).1) + (w.2 - (s.pos i).2) * (w.2 - (s.pos i).2))
    (List.range' s.first (s.last + 1 - s.first))
    (0, (w.1 - (s.pos 0).1) * (w.1 - (s.pos 0).1) + (w.2 - (s.pos 0).2) * (w.2 - (s.pos 0).2)) rfl
  have hmem : ∀ j, j ∈ List.range' s.first (s.last + 1 - s.first) ↔ j < Nx * Ny := by
    intro j; rw [f4, f5, List.mem_range'_1]; omega
  obtain ⟨r, hr⟩ : ∃ r, r = s.closestSearch w := ⟨_, rfl⟩
  rw [← hr]
  have hr' : ((List.range' s.first (s.last + 1 - s.first)).foldl (closestStep
    (fun i => (w.1 - (s.pos i).1) * (w.1 - (s.pos i).1) + (w.2 - (s.pos i).2) * (w.2 - (s.pos i).2)))
    (0, (w.1 - (s.pos 0).1) * (w.1 - (s.pos 0).1) + (w.2 - (s.pos 0).2) * (w.2 - (s.pos 0).2))).1 = r := by
    rw [hr]; rfl
  have hlt : r < Nx * Ny := by
    rw [← hr']
    rcases g2 with g2 | g2
    · rw [g2]; exact hpos
    · exact (hmem _).1 g2
  have hx : r / Nx < Ny := Nat.div_lt_of_lt_mul hlt
  have hy : r % Nx < Nx := Nat.mod_lt _ px
  have hmin : ∀ i < Ny, ∀ j < Nx,
      (w.1 - (s.xMin + (r / Nx : ℕ) * s.dx)) ^ 2 + (w.2 - (s.yMin + (r % Nx : ℕ) * s.dy)) ^ 2 ≤
      (w.1 - (s.xMin + i * s.dx)) ^ 2 + (w.2 - (s.yMin + j * s.dy)) ^ 2 := by
    intro i hi j hj
    have hsite : i * Nx + j < Nx * Ny := by
      have : (i + 1) * Nx ≤ Ny * Nx := Nat.mul_le_mul_right _ hi
      have e : (i + 1) * Nx = i * Nx + Nx := by ring
      have e' : Ny * Nx = Nx * Ny := Nat.mul_comm _ _
      omega
    have h := g4 (i * Nx + j) ((hmem _).2 hsite)
    rw [g1, hr'] at h
    obtain ⟨c1, c2⟩ := square_coord (x := i) hj
    simp only [Square.pos, f1, c1, c2] at h
    rw [pow_two, pow_two, pow_two, pow_two]; exact h
  refine ⟨hlt, hx, hy, fun i hi => ?_, fun j hj => ?_⟩
  · have := hmin i hi _ hy
    exact sq_le_sq.1 (by linarith)
  · have := hmin _ hx j hj
    exact sq_le_sq.1 (by linarith)

/-- Being nearest on the plane is being nearest along both axes. -/
theorem isNearest2_iff {s : Square K} {Nx Ny : ℕ} (hs : s.Constructed Nx Ny) (Lx Ly : K) (v : K × K) {r : ℕ} (hr : r < Nx * Ny) :
    IsNearest2 s.pos Lx Ly (Nx * Ny) v r ↔
      IsNearest (fun i : ℕ => s.xMin + i * s.dx) Lx Ny v.1 (r / Nx) ∧ IsNearest (fun j : ℕ => s.yMin + j * s.dy) Ly Nx v.2 (r % Nx) := by
  obtain ⟨f1, f2, f3, f4, f5⟩ := hs.fields
  obtain ⟨px, py⟩ := hs.pos_size
  have hx : r / Nx < Ny := Nat.div_lt_of_lt_mul hr
  have hy : r % Nx < Nx := Nat.mod_lt _ px
  have hsite : ∀ i < Ny, ∀ j < Nx, i * Nx + j < Nx * Ny := by
    intro i hi j hj
    have : (i + 1) * Nx ≤ Ny * Nx := Nat.mul_le_mul_right _ hi
    have e : (i + 1) * Nx = i * Nx + Nx := by ring
    have e' : Ny * Nx = Nx * Ny := Nat.mul_comm _ _
    omega
  constructor
  · rintro ⟨_, mx, my, h⟩
    refine ⟨⟨hx, mx, fun i hi k => ?_⟩, ⟨hy, my, fun j hj k => ?_⟩⟩
    · have := h (i * Nx + r % Nx) (hsite i hi _ hy) k my
      obtain ⟨c1, c2⟩ := square_coord (x := i) hy
      simp only [Square.pos, f1, c1, c2] at this
      exact sq_le_sq.1 (by linarith)
    · have := h (r / Nx * Nx + j) (hsite _ hx j hj) mx k
      obtain ⟨c1, c2⟩ := square_coord (x := r / Nx) hj
      simp only [Square.pos, f1, c1, c2] at this
      exact sq_le_sq.1 (by linarith)
  · rintro ⟨⟨_, mx, h1⟩, ⟨_, my, h2⟩⟩
    refine ⟨hr, mx, my, fun j hj kx ky => ?_⟩
    have a1 := sq_le_sq.2 (h1 (j / Nx) (Nat.div_lt_of_lt_mul hj) kx)
    have a2 := sq_le_sq.2 (h2 (j % Nx) (Nat.mod_lt _ px) ky)
    simp only [Square.pos, f1]
    exact add_le_add a1 a2

/-- **C98**: `closest` on a momentum-space lattice of `N × N` sites always returns a site, and it is nearest exactly if neither
coordinate lies in the upper cell. -/
theorem square_closest_momentum_exact {N : ℕ} (hN : 0 < N) {pi : K} (hpi : 0 < pi) (v : K × K) :
    ∃ r, (Square.momentum pi N N).closest v = .val r ∧
      (IsNearest2 (Square.momentum pi N N).pos (2 * pi) (2 * pi) (N * N) v r ↔ ¬ UpperCell N pi v.1 ∧ ¬ UpperCell N pi v.2) := by
  have hs : (Square.momentum pi N N).Constructed N N := .momentum pi hN hN rfl
  obtain ⟨m1, h1, -⟩ := closestWrap_momentum hN hpi v.1
  obtain ⟨m2, h2, -⟩ := closestWrap_momentum hN hpi v.2
  obtain ⟨a1, a2, a3, a4, a5⟩ := square_search hs (v.1 + m1 * (2 * pi), v.2 + m2 * (2 * pi))
  refine ⟨(Square.momentum pi N N).closestSearch (v.1 + m1 * (2 * pi), v.2 + m2 * (2 * pi)), ?_, ?_⟩
  · unfold Square.closest
    show ((closestWrap (-pi) pi (2 * pi) (2 * pi / N) v.1).bind fun v0 =>
      (closestWrap (-pi) pi (2 * pi) (2 * pi / N) v.2).map fun v1 => _) = _
    rw [h1, h2, Res.bind_val, Res.map_val]
  · rw [isNearest2_iff hs _ _ _ a1]
    exact and_congr (axis_momentum_iff hN hpi v.1 _ h1 a2 a4) (axis_momentum_iff hN hpi v.2 _ h2 a3 a5)

/-- **C98** for the momentum-space constructor: `closest` is right for every position only on lattices that have a side of length 1. -/
theorem square_closest_momentum_iff {Nx Ny : ℕ} (hx : 0 < Nx) (hy : 0 < Ny) {pi : K} (hpi : 0 < pi) :
    (∀ v : K × K, ∃ r, (Square.momentum pi Nx Ny).closest v = .val r ∧
      IsNearest2 (Square.momentum pi Nx Ny).pos (2 * pi) (2 * pi) (Nx * Ny) v r) ↔ Nx = 1 ∨ Ny = 1 := by
  have hs : (Square.momentum pi Nx Ny).Constructed Nx Ny := .momentum pi hx hy rfl
  have hx' : (0 : K) < Nx := by exact_mod_cast hx
  have hy' : (0 : K) < Ny := by exact_mod_cast hy
  have val : ∀ v : K × K, ∃ m1 m2 : ℤ, (Square.momentum pi Nx Ny).closest v =
      .val ((Square.momentum pi Nx Ny).closestSearch (v.1 + m1 * (2 * pi), v.2 + m2 * (2 * pi))) ∧
      closestWrap (-pi) pi (2 * pi) (2 * pi / Nx) v.1 = .val (v.1 + m1 * (2 * pi)) ∧
      closestWrap (-pi) pi (2 * pi) (2 * pi / Ny) v.2 = .val (v.2 + m2 * (2 * pi)) := by
    intro v
    obtain ⟨m1, h1, -⟩ := closestWrap_momentum hx hpi v.1
    obtain ⟨m2, h2, -⟩ := closestWrap_momentum hy hpi v.2
    refine ⟨m1, m2, ?_, h1, h2⟩
    unfold Square.closest
    show ((closestWrap (-pi) pi (2 * pi) (2 * pi / Nx) v.1).bind fun v0 =>
      (closestWrap (-pi) pi (2 * pi) (2 * pi / Ny) v.2).map fun v1 => _) = _
    rw [h1, h2, Res.bind_val, Res.map_val]
  constructor
  · intro h
    by_contra hne
    push Not at hne
    obtain ⟨r, hr, hn⟩ := h (pi, pi)
    obtain ⟨m1, m2, e0, e1, e2⟩ := val (pi, pi)
    -- the position (π, π) is not moved
    have hid : ∀ N : ℕ, 0 < N → closestWrap (-pi) pi (2 * pi) (2 * pi / N) pi = .val pi := by
      intro N hN
      have : (0 : K) < N := by exact_mod_cast hN
      have hd : 0 < 2 * pi / (N : K) := by positivity
      unfold closestWrap
      rw [(whileLoop_eq _ _ _).2 (by linarith), Res.bind_val, (whileLoop_eq _ _ _).2 (by linarith)]
    rw [hid Nx hx] at e1
    rw [hid Ny hy] at e2
    have e1 : pi = pi + m1 * (2 * pi) := by injection e1
    have e2 : pi = pi + m2 * (2 * pi) := by injection e2
    simp only [← e1, ← e2] at e0
    rw [e0] at hr
    have hr : (Square.momentum pi Nx Ny).closestSearch (pi, pi) = r := by injection hr
    obtain ⟨a1, a2, a3, a4, a5⟩ := square_search hs (pi, pi)
    rw [hr] at a1 a2 a3 a4 a5
    rw [isNearest2_iff hs _ _ _ a1] at hn
    have hp : ∀ N : ℕ, 0 < N → pi = -pi + ((N : K) - 0) * (2 * pi / N) := by
      intro N hN
      have : (N : K) ≠ 0 := by exact_mod_cast hN.ne'
      field_simp; ring
    have hq : ∀ N : ℕ, 0 < N → 2 * pi = (N : K) * (2 * pi / N) := by
      intro N hN
      have : (N : K) ≠ 0 := by exact_mod_cast hN.ne'
      field_simp
    rcases Nat.lt_or_ge Nx Ny with hlt | hge
    · refine axis_wrong (M := Nx) (P := Ny) (a := -pi) (d := 2 * pi / Ny) (t := 0) (by omega) (by positivity) le_rfl one_pos
        (Or.inl hlt) a3 ?_ ?_
      · rw [← hp Ny hy]; exact a5
      · rw [← hp Ny hy, ← hq Ny hy]; exact hn.2
    · refine axis_wrong (M := Ny) (P := Nx) (a := -pi) (d := 2 * pi / Nx) (t := 0) (by omega) (by positivity) le_rfl one_pos
        ?_ a2 ?_ ?_
      · rcases Nat.lt_or_ge Ny Nx with h' | h'
        · exact Or.inl h'
        · exact Or.inr ⟨by omega, by norm_num⟩
      · rw [← hp Nx hx]; exact a4
      · rw [← hp Nx hx, ← hq Nx hx]; exact hn.1
  · intro h v
    obtain ⟨m1, m2, e0, -, -⟩ := val v
    obtain ⟨a1, a2, a3, a4, a5⟩ := square_search hs (v.1 + m1 * (2 * pi), v.2 + m2 * (2 * pi))
    refine ⟨_, e0, ?_⟩
    rw [isNearest2_iff hs _ _ _ a1]
    constructor
    · refine isNearest_of_equiv _ (by linarith) _ a2 ?_
      intro j hj
      rcases h with h | h
      · refine ⟨(j : ℤ) - ((Square.momentum pi Nx Ny).closestSearch (v.1 + m1 * (2 * pi), v.2 + m2 * (2 * pi)) / Nx : ℕ), ?_⟩
        show -pi + _ * (2 * pi / (Nx : K)) = -pi + _ * (2 * pi / (Nx : K)) + _
        rw [h]; simp only [Int.cast_sub, Int.cast_natCast, Nat.cast_one]; ring
      · refine ⟨0, ?_⟩
        have : j = (Square.momentum pi Nx Ny).closestSearch (v.1 + m1 * (2 * pi), v.2 + m2 * (2 * pi)) / Nx := by
          have := a2; generalize (Square.momentum pi Nx Ny).closestSearch (v.1 + m1 * (2 * pi), v.2 + m2 * (2 * pi)) / Nx = q at *; omega
        rw [← this]; simp
    · refine isNearest_of_equiv _ (by linarith) _ a3 ?_
      intro j hj
      rcases h with h | h
      · refine ⟨0, ?_⟩
        have : j = (Square.momentum pi Nx Ny).closestSearch (v.1 + m1 * (2 * pi), v.2 + m2 * (2 * pi)) % Nx := by omega
        rw [← this]; simp
      · refine ⟨(j : ℤ) - ((Square.momentum pi Nx Ny).closestSearch (v.1 + m1 * (2 * pi), v.2 + m2 * (2 * pi)) % Nx : ℕ), ?_⟩
        show -pi + _ * (2 * pi / (Ny : K)) = -pi + _ * (2 * pi / (Ny : K)) + _
        rw [h]; simp only [Int.cast_sub, Int.cast_natCast, Nat.cast_one]; ring

/-- **C98** for the real-space constructor: `closest` is right for every position exactly on lattices of `N × N` sites (and on those
that have a side of length 1). -/
theorem square_closest_real_iff {Nx Ny : ℕ} (hx : 0 < Nx) (hy : 0 < Ny) {dx dy : K} (hdx : 0 < dx) (hdy : 0 < dy) :
    (∀ v : K × K, ∃ r, (Square.real Nx Ny dx dy).closest v = .val r ∧
      IsNearest2 (Square.real Nx Ny dx dy).pos (Nx * dx) (Ny * dy) (Nx * Ny) v r) ↔ Nx = Ny ∨ Nx = 1 ∨ Ny = 1 := by
  have hs : (Square.real Nx Ny dx dy).Constructed Nx Ny := .real dx dy hx hy rfl
  have hx' : (1 : K) ≤ Nx := by exact_mod_cast hx
  have hy' : (1 : K) ≤ Ny := by exact_mod_cast hy
  have hLx : 0 < (Nx : K) * dx := mul_pos (by linarith) hdx
  have hLy : 0 < (Ny : K) * dy := mul_pos (by linarith) hdy
  have val : ∀ v : K × K, ∃ m1 m2 : ℤ, (Square.real Nx Ny dx dy).closest v =
      .val ((Square.real Nx Ny dx dy).closestSearch (v.1 + m1 * (Nx * dx), v.2 + m2 * (Ny * dy))) ∧
      closestWrap 0 (dx * ((Nx - 1 : ℕ) : K)) (Nx * dx) dx v.1 = .val (v.1 + m1 * (Nx * dx)) ∧
      closestWrap 0 (dy * ((Ny - 1 : ℕ) : K)) (Ny * dy) dy v.2 = .val (v.2 + m2 * (Ny * dy)) := by
    intro v
    obtain ⟨m1, h1, -⟩ := closestWrap_real hx hdx v.1
    obtain ⟨m2, h2, -⟩ := closestWrap_real hy hdy v.2
    refine ⟨m1, m2, ?_, h1, h2⟩
    unfold Square.closest
    show ((closestWrap 0 (dx * ((Nx - 1 : ℕ) : K)) (Nx * dx) dx v.1).bind fun v0 =>
      (closestWrap 0 (dy * ((Ny - 1 : ℕ) : K)) (Ny * dy) dy v.2).map fun v1 => _) = _
    rw [h1, h2, Res.bind_val, Res.map_val]
  constructor
  · intro h
    by_contra hne
    push Not at hne
    obtain ⟨v, hv⟩ : ∃ v : K × K, v = (0 + ((Nx : K) - 3 / 5) * dx, 0 + ((Ny : K) - 3 / 5) * dy) := ⟨_, rfl⟩
    obtain ⟨r, hr, hn⟩ := h v
    obtain ⟨m1, m2, e0, e1, e2⟩ := val v
    have hid : ∀ (N : ℕ) (d : K), 0 < N → 0 < d → closestWrap 0 (d * ((N - 1 : ℕ) : K)) (N * d) d (0 + ((N : K) - 3 / 5) * d) =
        .val (0 + ((N : K) - 3 / 5) * d) := by
      intro N d hN hd
      have : (1 : K) ≤ N := by exact_mod_cast hN
      have hcast : ((N - 1 : ℕ) : K) = N - 1 := by rw [Nat.cast_sub (by omega)]; simp
      unfold closestWrap
      rw [hcast, (whileLoop_eq _ _ _).2 (by nlinarith), Res.bind_val, (whileLoop_eq _ _ _).2 (by nlinarith)]
    have ev1 : v.1 = 0 + ((Nx : K) - 3 / 5) * dx := by rw [hv]
    have ev2 : v.2 = 0 + ((Ny : K) - 3 / 5) * dy := by rw [hv]
    rw [ev1, hid Nx dx hx hdx] at e1
    rw [ev2, hid Ny dy hy hdy] at e2
    have e1 : 0 + ((Nx : K) - 3 / 5) * dx = 0 + ((Nx : K) - 3 / 5) * dx + m1 * (Nx * dx) := by injection e1
    have e2 : 0 + ((Ny : K) - 3 / 5) * dy = 0 + ((Ny : K) - 3 / 5) * dy + m2 * (Ny * dy) := by injection e2
    rw [ev1, ev2, ← e1, ← e2] at e0
    rw [e0] at hr
    have hr : (Square.real Nx Ny dx dy).closestSearch (0 + ((Nx : K) - 3 / 5) * dx, 0 + ((Ny : K) - 3 / 5) * dy) = r := by injection hr
    obtain ⟨a1, a2, a3, a4, a5⟩ := square_search hs (0 + ((Nx : K) - 3 / 5) * dx, 0 + ((Ny : K) - 3 / 5) * dy)
    rw [hr] at a1 a2 a3 a4 a5
    rw [isNearest2_iff hs _ _ _ a1, ev1, ev2] at hn
    rcases Nat.lt_or_ge Nx Ny with hlt | hge
    · exact axis_wrong (M := Nx) (P := Ny) (a := 0) (d := dy) (t := 3 / 5) (by omega) hdy (by norm_num) (by norm_num)
        (Or.inl hlt) a3 a5 hn.2
    · exact axis_wrong (M := Ny) (P := Nx) (a := 0) (d := dx) (t := 3 / 5) (by omega) hdx (by norm_num) (by norm_num)
        (Or.inl (by omega)) a2 a4 hn.1
  · intro h v
    obtain ⟨m1, m2, e0, e1, e2⟩ := val v
    obtain ⟨a1, a2, a3, a4, a5⟩ := square_search hs (v.1 + m1 * (Nx * dx), v.2 + m2 * (Ny * dy))
    refine ⟨_, e0, ?_⟩
    rw [isNearest2_iff hs _ _ _ a1]
    rcases h with h | h | h
    · subst h
      exact ⟨axis_real hx hdx _ _ e1 a2 a4, axis_real hx hdy _ _ e2 a3 a5⟩
    · constructor
      · refine isNearest_of_equiv _ hLx _ a2 ?_
        intro j hj
        refine ⟨(j : ℤ) - ((Square.real Nx Ny dx dy).closestSearch (v.1 + m1 * (Nx * dx), v.2 + m2 * (Ny * dy)) / Nx : ℕ), ?_⟩
        show 0 + _ * dx = 0 + _ * dx + _
        rw [h]; simp only [Int.cast_sub, Int.cast_natCast, Nat.cast_one]; ring
      · refine isNearest_of_equiv _ hLy _ a3 ?_
        intro j hj
        refine ⟨0, ?_⟩
        have : j = (Square.real Nx Ny dx dy).closestSearch (v.1 + m1 * (Nx * dx), v.2 + m2 * (Ny * dy)) % Nx := by omega
        rw [← this]; simp
    · constructor
      · refine isNearest_of_equiv _ hLx _ a2 ?_
        intro j hj
        refine ⟨0, ?_⟩
        have : j = (Square.real Nx Ny dx dy).closestSearch (v.1 + m1 * (Nx * dx), v.2 + m2 * (Ny * dy)) / Nx := by
          have := a2; generalize (Square.real Nx Ny dx dy).closestSearch (v.1 + m1 * (Nx * dx), v.2 + m2 * (Ny * dy)) / Nx = q at *; omega
        rw [← this]; simp
      · refine isNearest_of_equiv _ hLy _ a3 ?_
        intro j hj
        refine ⟨(j : ℤ) - ((Square.real Nx Ny dx dy).closestSearch (v.1 + m1 * (Nx * dx), v.2 + m2 * (Ny * dy)) % Nx : ℕ), ?_⟩
        show 0 + _ * dy = 0 + _ * dy + _
        rw [h]; simp only [Int.cast_sub, Int.cast_natCast, Nat.cast_one]; ring

/-! ## The round trip `closest(lattice[i]) = i` -/

/-- A coordinate inside the cell is not moved. -/
theorem closestWrap_id {lo hi L d v : K} (h1 : lo - d / 2 ≤ v) (h2 : v ≤ hi + d / 2) : closestWrap lo hi L d v = .val v := by
  unfold closestWrap
  rw [(whileLoop_eq _ _ _).2 (by simpa using h1), Res.bind_val, (whileLoop_eq _ _ _).2 (by simpa using h2)]

/-- A coordinate one period above the lower part of the cell is moved down by one period. -/
theorem closestWrap_down {lo hi L d v : K} (h0 : lo - d / 2 ≤ v) (h1 : hi + d / 2 < v) (h2 : v - L ≤ hi + d / 2) :
    closestWrap lo hi L d v = .val (v - L) := by
  unfold closestWrap
  rw [(whileLoop_eq _ _ _).2 (by simpa using h0), Res.bind_val, (whileLoop_eq _ _ _).1 (by simpa using h1),
    (whileLoop_eq _ _ _).2 (by simpa using h2)]

theorem mul_left_inj_cast {d : K} (hd : 0 < d) {a : K} {i j : ℕ} (h : |a + (i : K) * d - (a + (j : K) * d)| ≤ 0) : j = i := by
  have h1 := abs_nonpos_iff.1 h
  have h2 : ((i : K) - j) * d = 0 := by linear_combination h1
  rcases mul_eq_zero.1 h2 with h3 | h3
  · have : (i : K) = j := by linarith
    exact_mod_cast this.symm
  · exact absurd h3 hd.ne'

/-- If the wrapped position is that of the site with the coordinates `(x, y)`, this site is found. -/
theorem square_closest_of_wrap {s : Square K} {Nx Ny : ℕ} (hs : s.Constructed Nx Ny) (hdx : 0 < s.dx) (hdy : 0 < s.dy) {x y : ℕ}
    (hx : x < Ny) (hy : y < Nx) {v : K × K} (h1 : closestWrap s.xMin s.xMax s.xLength s.dx v.1 = .val (s.xMin + x * s.dx))
    (h2 : closestWrap s.yMin s.yMax s.yLength s.dy v.2 = .val (s.yMin + y * s.dy)) : s.closest v = .val (x * Nx + y) := by
  unfold Square.closest
  rw [h1, h2, Res.bind_val, Res.map_val]
  obtain ⟨a1, a2, a3, a4, a5⟩ := square_search hs (s.xMin + x * s.dx, s.yMin + y * s.dy)
  congr 1
  have b4 := a4 x hx
  have b5 := a5 y hy
  simp only [sub_self, abs_zero] at b4 b5
  have c4 := mul_left_inj_cast hdx b4
  have c5 := mul_left_inj_cast hdy b5
  generalize s.closestSearch (s.xMin + x * s.dx, s.yMin + y * s.dy) = r at c4 c5 ⊢
  rw [← c4, ← c5, Nat.mul_comm]
  exact (Nat.div_add_mod _ _).symm

/-- **C98**, round trip in real space: `closest(lattice[i])` is `i` for every site exactly if the lattice has `N × N` sites. -/
theorem square_closest_pos_real_iff {Nx Ny : ℕ} (hx : 0 < Nx) (hy : 0 < Ny) {dx dy : K} (hdx : 0 < dx) (hdy : 0 < dy) :
    (∀ i < Nx * Ny, (Square.real Nx Ny dx dy).closest ((Square.real Nx Ny dx dy).pos i) = .val i) ↔ Nx = Ny := by
  have hs : (Square.real Nx Ny dx dy).Constructed Nx Ny := .real dx dy hx hy rfl
  have hx' : (1 : K) ≤ Nx := by exact_mod_cast hx
  have hy' : (1 : K) ≤ Ny := by exact_mod_cast hy
  have hcast : ∀ N : ℕ, 0 < N → ((N - 1 : ℕ) : K) = N - 1 := by
    intro N hN; rw [Nat.cast_sub (by omega)]; simp
  have inside : ∀ (N : ℕ) (d : K), 0 < N → 0 < d → ∀ q < N,
      closestWrap 0 (d * ((N - 1 : ℕ) : K)) (N * d) d (0 + (q : K) * d) = .val (0 + q * d) := by
    intro N d hN hd q hq
    have hq' : (q : K) + 1 ≤ N := by exact_mod_cast hq
    have hq0 : (0 : K) ≤ q := Nat.cast_nonneg _
    apply closestWrap_id
    · nlinarith
    · rw [hcast N hN]; nlinarith
  have above : ∀ (N : ℕ) (d : K), 0 < N → 0 < d →
      closestWrap 0 (d * ((N - 1 : ℕ) : K)) (N * d) d (0 + (N : K) * d) = .val (0 + ((0 : ℕ) : K) * d) := by
    intro N d hN hd
    have h1 : (1 : K) ≤ N := by exact_mod_cast hN
    have e : 0 + ((0 : ℕ) : K) * d = 0 + (N : K) * d - N * d := by push_cast; ring
    rw [e]
    apply closestWrap_down
    · nlinarith
    · rw [hcast N hN]; nlinarith
    · rw [hcast N hN]; nlinarith
  constructor
  · intro h
    by_contra hne
    rcases Nat.lt_or_ge Nx Ny with hlt | hge
    · have hsite : Nx * Nx + 0 < Nx * Ny := by rw [add_zero]; exact Nat.mul_lt_mul_of_pos_left hlt hx
      obtain ⟨c1, c2⟩ := square_coord (N := Nx) (x := Nx) (y := 0) hx
      have hv := h _ hsite
      have hp : (Square.real Nx Ny dx dy).pos (Nx * Nx + 0) = (0 + (Nx : K) * dx, 0 + ((0 : ℕ) : K) * dy) := by
        simp only [Square.pos, Square.real, c1, c2]
      rw [hp, square_closest_of_wrap hs hdx hdy (x := 0) (y := 0) hy hx (v := (0 + (Nx : K) * dx, 0 + ((0 : ℕ) : K) * dy)) (above Nx dx hx hdx) (inside Ny dy hy hdy 0 hy)] at hv
      have hv : 0 * Nx + 0 = Nx * Nx + 0 := by injection hv
      have : 0 < Nx * Nx := Nat.mul_pos hx hx
      omega
    · have hlt : Ny < Nx := by omega
      have hsite : 0 * Nx + Ny < Nx * Ny := by
        rw [zero_mul, zero_add]
        calc Ny < Nx := hlt
          _ ≤ Nx * Ny := Nat.le_mul_of_pos_right _ hy
      obtain ⟨c1, c2⟩ := square_coord (N := Nx) (x := 0) (y := Ny) hlt
      have hv := h _ hsite
      have hp : (Square.real Nx Ny dx dy).pos (0 * Nx + Ny) = (0 + ((0 : ℕ) : K) * dx, 0 + (Ny : K) * dy) := by
        simp only [Square.pos, Square.real, c1, c2]
      rw [hp, square_closest_of_wrap hs hdx hdy (x := 0) (y := 0) hy hx (v := (0 + ((0 : ℕ) : K) * dx, 0 + (Ny : K) * dy)) (inside Nx dx hx hdx 0 hx) (above Ny dy hy hdy)] at hv
      have hv : 0 * Nx + 0 = 0 * Nx + Ny := by injection hv
      omega
  · intro h i hi
    subst h
    have h1 : i / Nx < Nx := Nat.div_lt_of_lt_mul hi
    have h2 : i % Nx < Nx := Nat.mod_lt _ hx
    have := square_closest_of_wrap hs hdx hdy (x := i / Nx) (y := i % Nx) h1 h2 (v := (Square.real Nx Nx dx dy).pos i)
      (inside Nx dx hx hdx _ h1) (inside Nx dy hx hdy _ h2)
    rw [this, Nat.mul_comm, Nat.div_add_mod]

/-- **C98**, round trip in momentum space: `closest(lattice[i])` is `i` for every site exactly if the side lengths differ by at most
one. -/
theorem square_closest_pos_momentum_iff {Nx Ny : ℕ} (hx : 0 < Nx) (hy : 0 < Ny) {pi : K} (hpi : 0 < pi) :
    (∀ i < Nx * Ny, (Square.momentum pi Nx Ny).closest ((Square.momentum pi Nx Ny).pos i) = .val i) ↔ Nx ≤ Ny + 1 ∧ Ny ≤ Nx + 1 := by
  have hs : (Square.momentum pi Nx Ny).Constructed Nx Ny := .momentum pi hx hy rfl
  have hx' : (1 : K) ≤ Nx := by exact_mod_cast hx
  have hy' : (1 : K) ≤ Ny := by exact_mod_cast hy
  have hdx : 0 < (Square.momentum pi Nx Ny).dx := by
    show 0 < 2 * pi / (Nx : K); positivity
  have hdy : 0 < (Square.momentum pi Nx Ny).dy := by
    show 0 < 2 * pi / (Ny : K); positivity
  have inside : ∀ N : ℕ, 0 < N → ∀ q ≤ N,
      closestWrap (-pi) pi (2 * pi) (2 * pi / (N : K)) (-pi + (q : K) * (2 * pi / N)) = .val (-pi + q * (2 * pi / N)) := by
    intro N hN q hq
    have h1 : (1 : K) ≤ N := by exact_mod_cast hN
    have hd : 0 < 2 * pi / (N : K) := by positivity
    have hL : 2 * pi = (N : K) * (2 * pi / N) := by field_simp
    have hq' : (q : K) ≤ N := by exact_mod_cast hq
    have hq0 : (0 : K) ≤ q := Nat.cast_nonneg _
    have ha := mul_nonneg hq0 hd.le
    have hb := mul_le_mul_of_nonneg_right hq' hd.le
    apply closestWrap_id <;> linarith
  have above : ∀ N : ℕ, 0 < N →
      closestWrap (-pi) pi (2 * pi) (2 * pi / (N : K)) (-pi + ((N + 1 : ℕ) : K) * (2 * pi / N)) = .val (-pi + ((1 : ℕ) : K) * (2 * pi / N)) := by
    intro N hN
    have h1 : (1 : K) ≤ N := by exact_mod_cast hN
    have hd : 0 < 2 * pi / (N : K) := by positivity
    have hL : (N : K) * (2 * pi / N) = 2 * pi := by field_simp
    have hd1 : 2 * pi / (N : K) ≤ 2 * pi := by rw [div_le_iff₀ (by linarith)]; nlinarith
    have e1 : -pi + ((N + 1 : ℕ) : K) * (2 * pi / N) = pi + 2 * pi / N := by
      push_cast; linear_combination hL
    have e : -pi + ((1 : ℕ) : K) * (2 * pi / N) = -pi + ((N + 1 : ℕ) : K) * (2 * pi / N) - 2 * pi := by
      rw [e1]; push_cast; ring
    rw [e]
    apply closestWrap_down <;> rw [e1] <;> linarith
  constructor
  · intro h
    by_contra hne
    rcases Nat.lt_or_ge (Nx + 1) Ny with hlt | hge
    · have hsite : (Nx + 1) * Nx + 0 < Nx * Ny := by
        rw [add_zero, Nat.mul_comm]; exact Nat.mul_lt_mul_of_pos_left hlt hx
      obtain ⟨c1, c2⟩ := square_coord (N := Nx) (x := Nx + 1) (y := 0) hx
      have hv := h _ hsite
      have hp : (Square.momentum pi Nx Ny).pos ((Nx + 1) * Nx + 0) =
          (-pi + ((Nx + 1 : ℕ) : K) * (2 * pi / Nx), -pi + ((0 : ℕ) : K) * (2 * pi / Ny)) := by
        simp only [Square.pos, Square.momentum, c1, c2]
      rw [hp, square_closest_of_wrap hs hdx hdy (x := 1) (y := 0) (by omega) hx
          (v := (-pi + ((Nx + 1 : ℕ) : K) * (2 * pi / Nx), -pi + ((0 : ℕ) : K) * (2 * pi / Ny))) (above Nx hx) (inside Ny hy 0 (by omega))] at hv
      have hv : 1 * Nx + 0 = (Nx + 1) * Nx + 0 := by injection hv
      have : 0 < Nx * Nx := Nat.mul_pos hx hx
      have e : (Nx + 1) * Nx = Nx * Nx + Nx := by ring
      omega
    · have hlt : Ny + 1 < Nx := by
        by_contra hc
        exact hne ⟨by omega, hge⟩
      have hsite : 0 * Nx + (Ny + 1) < Nx * Ny := by
        rw [zero_mul, zero_add]
        calc Ny + 1 < Nx := hlt
          _ ≤ Nx * Ny := Nat.le_mul_of_pos_right _ hy
      obtain ⟨c1, c2⟩ := square_coord (N := Nx) (x := 0) (y := Ny + 1) hlt
      have hv := h _ hsite
      have hp : (Square.momentum pi Nx Ny).pos (0 * Nx + (Ny + 1)) =
          (-pi + ((0 : ℕ) : K) * (2 * pi / Nx), -pi + ((Ny + 1 : ℕ) : K) * (2 * pi / Ny)) := by
        simp only [Square.pos, Square.momentum, c1, c2]
      rw [hp, square_closest_of_wrap hs hdx hdy (x := 0) (y := 1) hy (by omega)
          (v := (-pi + ((0 : ℕ) : K) * (2 * pi / Nx), -pi + ((Ny + 1 : ℕ) : K) * (2 * pi / Ny))) (inside Nx hx 0 (by omega)) (above Ny hy)] at hv
      have hv : 0 * Nx + 1 = 0 * Nx + (Ny + 1) := by injection hv
      omega
  · rintro ⟨h1, h2⟩ i hi
    have g1 : i / Nx < Ny := Nat.div_lt_of_lt_mul hi
    have g2 : i % Nx < Nx := Nat.mod_lt _ hx
    have := square_closest_of_wrap hs hdx hdy (x := i / Nx) (y := i % Nx) g1 g2 (v := (Square.momentum pi Nx Ny).pos i)
      (inside Nx hx (i / Nx) (by omega)) (inside Ny hy (i % Nx) (by omega))
    rw [this, Nat.mul_comm, Nat.div_add_mod]

/-! ## Concrete cases -/

/-- The upper cell is met: `π` on every chain of at least two momenta; it is not everything: `0` on the chain of four momenta. -/
example : UpperCell 4 (1 : ℚ) 1 := ⟨by omega, 0, by norm_num, Or.inl (by norm_num)⟩
example : ¬ UpperCell 4 (1 : ℚ) 0 := by
  rintro ⟨_, n, h, _⟩
  have : (0 : ℚ) ≤ n := Nat.cast_nonneg n
  norm_num at h; linarith
example : (Square.real 3 3 (1 : ℚ) 1).closest ((Square.real 3 3 (1 : ℚ) 1).pos 7) = .val 7 :=
  (square_closest_pos_real_iff (by omega) (by omega) one_pos one_pos).2 rfl 7 (by omega)

end Ieompp
