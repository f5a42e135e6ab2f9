import Verif.Model.ChainFloat
import Verif.Spec.Rounding
import Verif.Props.Chain
import Verif.Props.Basis
import Mathlib.Tactic.Positivity
import Mathlib.Tactic.FieldSimp

/-!
# C77: rounding errors do not change the site found for a sum of momenta

`fl` is any rounding function with relative error at most `u` (`u = 2⁻⁵³` for `double`). The exact versions are C20 and C25.
-/

set_option autoImplicit false
set_option linter.unusedSectionVars false

namespace Ieompp

open Spec

theorem fl_near {fl : ℝ → ℝ} {u : ℝ} (hfl : Rounding fl u) {x B L : ℝ} (h : |x| ≤ B * L) :
    x - B * (u * L) ≤ fl x ∧ fl x ≤ x + B * (u * L) := by
  have h1 := hfl.err x
  have h2 : u * |x| ≤ B * (u * L) := by
    have := mul_le_mul_of_nonneg_left h hfl.nonneg
    linarith
  have := abs_le.1 (h1.trans h2)
  constructor <;> linarith

/-- The first loop: from `v ∈ [-1.7 L, 1.7 L]` to a value that is at least `-p`. -/
theorem wrapUpF {fl : ℝ → ℝ} {u p : ℝ} (hfl : Rounding fl u) (hp : 0 < p) (hu : 100 * u ≤ 1) {v : ℝ}
    (h1 : -(17 / 10) * (2 * p) ≤ v) (h2 : v ≤ 17 / 10 * (2 * p)) :
    ∃ (w : ℝ) (k : ℤ), whileLoop (fun v => v < -p) (fun v => fl (v + 2 * p)) v = .val w ∧ -p ≤ w ∧ w ≤ 17 / 10 * (2 * p) ∧
      |w - (v + k * (2 * p))| ≤ 2 * (u * (2 * p)) := by
  have hU : 0 ≤ u * (2 * p) := mul_nonneg hfl.nonneg (by linarith)
  have hU' : u * (2 * p) ≤ 1 / 100 * (2 * p) := by
    apply mul_le_mul_of_nonneg_right _ (by linarith); linarith
  have W := whileLoop_eq (fun v : ℝ => v < -p) (fun v => fl (v + 2 * p))
  by_cases c1 : v < -p
  · have e1 := fl_near hfl (x := v + 2 * p) (B := 1) (L := 2 * p) (by rw [abs_le]; constructor <;> linarith)
    rw [(W v).1 c1]
    by_cases c2 : fl (v + 2 * p) < -p
    · rw [(W _).1 c2]
      have e2 := fl_near hfl (x := fl (v + 2 * p) + 2 * p) (B := 1) (L := 2 * p) (by rw [abs_le]; constructor <;> linarith)
      have c3 : ¬ fl (fl (v + 2 * p) + 2 * p) < -p := by rw [not_lt]; linarith
      rw [(W _).2 c3]
      refine ⟨_, 2, rfl, not_lt.1 c3, by linarith, ?_⟩
      rw [abs_le]; push_cast; constructor <;> linarith
    · rw [(W _).2 c2]
      refine ⟨_, 1, rfl, not_lt.1 c2, by linarith, ?_⟩
      rw [abs_le]; push_cast; constructor <;> linarith
  · rw [(W v).2 c1]
    refine ⟨_, 0, rfl, not_lt.1 c1, h2, ?_⟩
    rw [abs_le]; push_cast; constructor <;> linarith

/-- The second loop. -/
theorem wrapDownF {fl : ℝ → ℝ} {u p : ℝ} (hfl : Rounding fl u) (hp : 0 < p) (hu : 100 * u ≤ 1) {v : ℝ}
    (h1 : -p ≤ v) (h2 : v ≤ 17 / 10 * (2 * p)) :
    ∃ (w : ℝ) (k : ℤ), whileLoop (fun v => v > p) (fun v => fl (v - 2 * p)) v = .val w ∧ -p - u * (2 * p) ≤ w ∧ w ≤ p ∧
      |w - (v + k * (2 * p))| ≤ 2 * (u * (2 * p)) := by
  have hU : 0 ≤ u * (2 * p) := mul_nonneg hfl.nonneg (by linarith)
  have hU' : u * (2 * p) ≤ 1 / 100 * (2 * p) := by
    apply mul_le_mul_of_nonneg_right _ (by linarith); linarith
  have W := whileLoop_eq (fun v : ℝ => v > p) (fun v => fl (v - 2 * p))
  by_cases c1 : v > p
  · have e1 := fl_near hfl (x := v - 2 * p) (B := 1) (L := 2 * p) (by rw [abs_le]; constructor <;> linarith)
    rw [(W v).1 c1]
    by_cases c2 : fl (v - 2 * p) > p
    · rw [(W _).1 c2]
      have e2 := fl_near hfl (x := fl (v - 2 * p) - 2 * p) (B := 1) (L := 2 * p) (by rw [abs_le]; constructor <;> linarith)
      have c3 : ¬ fl (fl (v - 2 * p) - 2 * p) > p := by rw [gt_iff_lt, not_lt]; linarith
      rw [(W _).2 c3]
      refine ⟨_, -2, rfl, by linarith, not_lt.1 c3, ?_⟩
      rw [abs_le]; push_cast; constructor <;> linarith
    · rw [(W _).2 c2]
      refine ⟨_, -1, rfl, by linarith, not_lt.1 c2, ?_⟩
      rw [abs_le]; push_cast; constructor <;> linarith
  · rw [(W v).2 c1]
    refine ⟨_, 0, rfl, by linarith, not_lt.1 c1, ?_⟩
    rw [abs_le]; push_cast; constructor <;> linarith

/-- `cround` is `std::round`: the nearest integer, and of two nearest integers the one further away from zero. -/
theorem cround_round (x : ℝ) : |x - cround x| ≤ 1 / 2 ∧ (|x - cround x| = 1 / 2 → |x| ≤ |(cround x : ℝ)|) := by
  unfold cround
  split_ifs with h
  · have h1 := Int.floor_le (x + 1 / 2)
    have h2 := Int.lt_floor_add_one (x + 1 / 2)
    refine ⟨abs_le.2 ⟨by linarith, by linarith⟩, fun e => ?_⟩
    rw [abs_of_nonneg h]
    refine le_trans ?_ (le_abs_self _)
    by_contra hc
    rw [abs_of_pos (by linarith)] at e
    linarith
  · have h1 := Int.floor_le (-x + 1 / 2)
    have h2 := Int.lt_floor_add_one (-x + 1 / 2)
    push_cast
    refine ⟨abs_le.2 ⟨by linarith, by linarith⟩, fun e => ?_⟩
    rw [abs_of_neg (not_le.1 h)]
    rw [abs_neg]
    refine le_trans ?_ (le_abs_self _)
    by_contra hc
    rw [abs_of_neg (by linarith)] at e
    linarith

theorem cround_near {x : ℝ} {m : ℕ} (h : |x - m| ≤ 1 / 4) : cround x = m := by
  have h1 := abs_le.1 h
  unfold cround
  have hm : (0 : ℝ) ≤ m := Nat.cast_nonneg m
  split_ifs with h0
  · rw [Int.floor_eq_iff]; constructor <;> push_cast <;> linarith
  · have : m = 0 := by
      by_contra h2
      have : (1 : ℝ) ≤ m := by exact_mod_cast Nat.one_le_iff_ne_zero.2 h2
      linarith
    subst this
    rw [neg_eq_iff_eq_neg, Int.floor_eq_iff]; push_cast at h1 ⊢; constructor <;> linarith

namespace Chain

variable {fl : ℝ → ℝ} {u p : ℝ} {N : ℕ}

theorem momentumF_dx (hfl : Rounding fl u) (hp : 0 < p) (hN : 0 < N) :
    2 * p / N * (1 - u) ≤ (momentumF fl p N).dx ∧ (momentumF fl p N).dx ≤ 2 * p / N * (1 + u) := by
  have hN' : (0 : ℝ) < N := by exact_mod_cast hN
  have := fl_near hfl (x := 2 * p / N) (B := 1) (L := 2 * p / N) (by rw [one_mul, abs_of_pos (by positivity)])
  show _ ≤ fl _ ∧ fl _ ≤ _
  constructor <;> linarith

/-- The arithmetic after the two loops. -/
theorem quotient_close (hfl : Rounding fl u) (hp : 0 < p) (hN : 0 < N) (hu : 100 * (N * u) ≤ 1) {dx w : ℝ} {m : ℕ}
    (d1 : 2 * p / N * (1 - u) ≤ dx) (d2 : dx ≤ 2 * p / N * (1 + u)) (hmN : (m : ℝ) ≤ N)
    (q1 : -16 * (u * (2 * p)) ≤ w + p - m * (2 * p / N)) (q2 : w + p - m * (2 * p / N) ≤ 16 * (u * (2 * p)))
    (w1 : -p - u * (2 * p) ≤ w) (w2 : w ≤ p) : |fl (fl (w + p) / dx) - m| ≤ 1 / 4 := by
  have hN' : (1 : ℝ) ≤ N := by exact_mod_cast hN
  have hu0 := hfl.nonneg
  have hu1 : 100 * u ≤ 1 := by nlinarith
  have hL : 2 * p = N * (2 * p / N) := by field_simp
  have hd0 : 0 < 2 * p / (N : ℝ) := by positivity
  have hU0 : 0 ≤ u * (2 * p) := by positivity
  have hU : 100 * (u * (2 * p)) ≤ 2 * p / N := by
    have := mul_le_mul_of_nonneg_right hu hd0.le
    calc 100 * (u * (2 * p)) = 100 * (u * (N * (2 * p / N))) := by rw [← hL]
      _ = 100 * (N * u) * (2 * p / N) := by ring
      _ ≤ 1 * (2 * p / N) := this
      _ = _ := one_mul _
  have hUL : 100 * (u * (2 * p)) ≤ 2 * p := by nlinarith
  have hm0 : (0 : ℝ) ≤ m := Nat.cast_nonneg m
  have huN : u * N ≤ 1 / 100 := by linarith
  have hm1' : (m : ℝ) * u ≤ 1 / 100 := by nlinarith
  obtain ⟨hy1, hy2⟩ := fl_near hfl (x := w + p) (B := 2) (L := 2 * p) (by rw [abs_le]; constructor <;> linarith)
  generalize fl (w + p) = y at *
  generalize hd : 2 * p / (N : ℝ) = d at *
  generalize u * (2 * p) = U at *
  have hdx0 : 99 / 100 * d ≤ dx := by
    have : d * u ≤ d * (1 / 100) := by apply mul_le_mul_of_nonneg_left _ hd0.le; linarith
    linarith
  have hdxp : 0 < dx := by linarith
  have hm1 : (m : ℝ) * u * d ≤ 1 / 100 * d := mul_le_mul_of_nonneg_right hm1' hd0.le
  have a1 := mul_le_mul_of_nonneg_left d1 hm0
  have a2 := mul_le_mul_of_nonneg_left d2 hm0
  have hq : |y / dx - m| ≤ 2 / 10 := by
    have e : y / dx - m = (y - m * dx) / dx := by field_simp
    rw [e, abs_div, abs_of_pos hdxp, div_le_iff₀ hdxp, abs_le]
    constructor <;> linarith
  obtain ⟨hq1, hq2⟩ := abs_le.1 hq
  obtain ⟨hf1, hf2⟩ := fl_near hfl (x := y / dx) (B := 2) (L := N) (by rw [abs_le]; constructor <;> linarith)
  rw [abs_le]; constructor <;> linarith

/-- The index before the reduction modulo `N`: between 0 and `N`, and equal to the index of the point modulo `N`. -/
theorem coordIndexF_close (hfl : Rounding fl u) (hp : 0 < p) (hN : 0 < N) (hu : 100 * (N * u) ≤ 1) {v : ℝ} {z : ℤ}
    (hv : |v| ≤ 17 / 10 * (2 * p)) (hz : |v - (-p + z * (2 * p / N))| ≤ 12 * (u * (2 * p))) :
    ∃ m : ℕ, coordIndexF fl (-p) p (2 * p) (momentumF fl p N).dx v = .val m ∧ m ≤ N ∧ siteMod m N = siteMod z N := by
  have hN' : (1 : ℝ) ≤ N := by exact_mod_cast hN
  have hu0 := hfl.nonneg
  have hu1 : 100 * u ≤ 1 := by nlinarith
  obtain ⟨hv1, hv2⟩ := abs_le.1 hv
  obtain ⟨w, k, e1, w1, w2, w3⟩ := wrapUpF hfl hp hu1 (by linarith) hv2
  obtain ⟨w', k', e2, w1', w2', w3'⟩ := wrapDownF hfl hp hu1 w1 w2
  unfold coordIndexF
  rw [e1, Res.bind_val, e2, Res.bind_val]
  obtain ⟨d1, d2⟩ := momentumF_dx hfl hp hN
  set dx := (momentumF fl p N).dx
  set d := 2 * p / (N : ℝ) with hd
  have hd0 : 0 < d := by positivity
  have hL : 2 * p = N * d := by rw [hd]; field_simp
  set U := u * (2 * p) with hUdef
  have hU0 : 0 ≤ U := by positivity
  have hU : 100 * U ≤ d := by
    rw [hUdef, hL]
    have := mul_le_mul_of_nonneg_right hu hd0.le
    linarith
  have hUL : 100 * U ≤ 2 * p := by rw [hL]; nlinarith
  obtain ⟨hz1, hz2⟩ := abs_le.1 hz
  obtain ⟨w3a, w3b⟩ := abs_le.1 w3
  obtain ⟨w3a', w3b'⟩ := abs_le.1 w3'
  set z' : ℤ := z + (k + k') * N with hz'
  have hz'c : (z' : ℝ) * d = z * d + (k + k') * (2 * p) := by rw [hz', hL]; push_cast; ring
  have q1 : -16 * U ≤ w' + p - z' * d := by rw [hz'c]; linarith
  have q2 : w' + p - z' * d ≤ 16 * U := by rw [hz'c]; linarith
  have hz0 : 0 ≤ z' := by
    by_contra hc
    have : (z' : ℝ) ≤ -1 := by exact_mod_cast (by omega : z' ≤ -1)
    have : (z' : ℝ) * d ≤ -1 * d := mul_le_mul_of_nonneg_right this hd0.le
    linarith
  have hzN : z' ≤ N := by
    by_contra hc
    have : (N : ℝ) + 1 ≤ z' := by exact_mod_cast (by omega : (N : ℤ) + 1 ≤ z')
    have := mul_le_mul_of_nonneg_right this hd0.le
    linarith
  obtain ⟨m, hm⟩ := Int.eq_ofNat_of_zero_le hz0
  have hmN : (m : ℝ) ≤ N := by
    have : (m : ℤ) ≤ N := by rw [← hm]; exact hzN
    exact_mod_cast this
  have hm0 : (0 : ℝ) ≤ m := Nat.cast_nonneg m
  rw [hm] at q1 q2
  rw [sub_neg_eq_add]
  push_cast at q1 q2
  rw [cround_near (m := m) (quotient_close hfl hp hN hu d1 d2 hmN q1 q2 w1' w2')]
  refine ⟨m, ?_, by exact_mod_cast hmN, ?_⟩
  · rw [toUnsigned_nonneg (Int.natCast_nonneg m), Int.toNat_natCast]
  · rw [show ((m : ℕ) : ℤ) = z' from hm.symm, hz', siteMod_add_mul]

/-- **C77**: a position within `12 u 2π` of a point of the (infinitely repeated) lattice of momenta, at most `1.7 · 2π` away from zero, is
found at that site. -/
theorem lookupF_close (hfl : Rounding fl u) (hp : 0 < p) (hN : 0 < N) (hu : 100 * (N * u) ≤ 1) {v : ℝ} {z : ℤ}
    (hv : |v| ≤ 17 / 10 * (2 * p)) (hz : |v - (-p + z * (2 * p / N))| ≤ 12 * (u * (2 * p))) :
    (momentumF fl p N).lookupF fl v = .val (siteMod z N) := by
  obtain ⟨m, h1, -, h2⟩ := coordIndexF_close hfl hp hN hu hv hz
  have h3 : lookupF fl (momentumF fl p N) v = (coordIndexF fl (-p) p (2 * p) (momentumF fl p N).dx v).map (fun i => i % N) := rfl
  rw [h3, h1, Res.map_val, ← h2]
  have := toNat_mod_eq_siteMod (N := N) (Int.natCast_nonneg m)
  rw [Int.toNat_natCast] at this
  rw [this]

/-- **C77**: the positions `lattice[i]` are within `3 u 2π` of the exact momenta. -/
theorem posF_close (hfl : Rounding fl u) (hp : 0 < p) (hN : 0 < N) (hu : 100 * (N * u) ≤ 1) {i : ℕ} (hi : i < N) :
    |(momentumF fl p N).posF fl i - (-p + i * (2 * p / N))| ≤ 3 * (u * (2 * p)) := by
  have hN' : (1 : ℝ) ≤ N := by exact_mod_cast hN
  have hu0 := hfl.nonneg
  have hu1 : 100 * u ≤ 1 := by nlinarith
  obtain ⟨d1, d2⟩ := momentumF_dx hfl hp hN
  unfold posF
  show |fl (-p + fl (i * (momentumF fl p N).dx)) - _| ≤ _
  set dx := (momentumF fl p N).dx
  set d := 2 * p / (N : ℝ) with hd
  have hd0 : 0 < d := by positivity
  have hL : 2 * p = N * d := by rw [hd]; field_simp
  set U := u * (2 * p) with hUdef
  have hU0 : 0 ≤ U := by positivity
  have hUL : 100 * U ≤ 2 * p := by nlinarith
  have hi0 : (0 : ℝ) ≤ i := Nat.cast_nonneg i
  have hiN : (i : ℝ) ≤ N := by exact_mod_cast hi.le
  have hid : (i : ℝ) * d ≤ 2 * p := by rw [hL]; gcongr
  have hid0 : 0 ≤ (i : ℝ) * d := by positivity
  have hiu : (i : ℝ) * d * u ≤ U := by rw [hUdef, mul_comm u]; gcongr
  have a1 := mul_le_mul_of_nonneg_left d1 hi0
  have a2 := mul_le_mul_of_nonneg_left d2 hi0
  have f1 := fl_near hfl (x := i * dx) (B := 11 / 10) (L := 2 * p) (by rw [abs_le]; constructor <;> linarith)
  rw [← hUdef] at f1
  obtain ⟨f1a, f1b⟩ := f1
  have f2 := fl_near hfl (x := -p + fl (i * dx)) (B := 6 / 10) (L := 2 * p) (by rw [abs_le]; constructor <;> linarith)
  rw [← hUdef] at f2
  obtain ⟨f2a, f2b⟩ := f2
  rw [abs_le]; constructor <;> linarith

theorem posF_bound (hfl : Rounding fl u) (hp : 0 < p) (hN : 0 < N) (hu : 100 * (N * u) ≤ 1) {i : ℕ} (hi : i < N) :
    |(momentumF fl p N).posF fl i| ≤ 53 / 100 * (2 * p) := by
  have hN' : (1 : ℝ) ≤ N := by exact_mod_cast hN
  have hu0 := hfl.nonneg
  have hu1 : 100 * u ≤ 1 := by nlinarith
  obtain ⟨h1, h2⟩ := abs_le.1 (posF_close hfl hp hN hu hi)
  have hL : 2 * p = N * (2 * p / N) := by field_simp
  have hd0 : 0 < 2 * p / (N : ℝ) := by positivity
  have hi0 : (0 : ℝ) ≤ i := Nat.cast_nonneg i
  have hiN : (i : ℝ) ≤ N := by exact_mod_cast hi.le
  have hid : (i : ℝ) * (2 * p / N) ≤ 2 * p := by
    calc (i : ℝ) * (2 * p / N) ≤ N * (2 * p / N) := by gcongr
      _ = 2 * p := hL.symm
  have hid0 : 0 ≤ (i : ℝ) * (2 * p / N) := by positivity
  have hUL : 100 * (u * (2 * p)) ≤ 2 * p := by nlinarith
  rw [abs_le]; constructor <;> linarith

/-- **C77**: the site found at the rounded momentum of a site is that site. -/
theorem lookupF_posF (hfl : Rounding fl u) (hp : 0 < p) (hN : 0 < N) (hu : 100 * (N * u) ≤ 1) {i : ℕ} (hi : i < N) :
    (momentumF fl p N).lookupF fl ((momentumF fl p N).posF fl i) = .val i := by
  have h := posF_close hfl hp hN hu hi
  have hU0 : 0 ≤ u * (2 * p) := mul_nonneg hfl.nonneg (by linarith)
  rw [lookupF_close hfl hp hN hu (z := i) ((posF_bound hfl hp hN hu hi).trans (by linarith))
    (by push_cast; linarith), siteMod_nat hi]

/-- **C77**: the site found at the rounded value of `k_i + k_j - k_q` is the site `(i + j - q) mod N`. -/
theorem lookupF_sum (hfl : Rounding fl u) (hp : 0 < p) (hN : 0 < N) (hu : 100 * (N * u) ≤ 1) {i j q : ℕ} (hi : i < N)
    (hj : j < N) (hq : q < N) :
    (momentumF fl p N).lookupF fl (fl (fl ((momentumF fl p N).posF fl i + (momentumF fl p N).posF fl j)
      - (momentumF fl p N).posF fl q)) = .val (siteMod (i + j - q) N) := by
  have hN' : (1 : ℝ) ≤ N := by exact_mod_cast hN
  have hu0 := hfl.nonneg
  have hu1 : 100 * u ≤ 1 := by nlinarith
  obtain ⟨a1, a2⟩ := abs_le.1 (posF_close hfl hp hN hu hi)
  obtain ⟨b1, b2⟩ := abs_le.1 (posF_close hfl hp hN hu hj)
  obtain ⟨c1, c2⟩ := abs_le.1 (posF_close hfl hp hN hu hq)
  obtain ⟨a3, a4⟩ := abs_le.1 (posF_bound hfl hp hN hu hi)
  obtain ⟨b3, b4⟩ := abs_le.1 (posF_bound hfl hp hN hu hj)
  obtain ⟨c3, c4⟩ := abs_le.1 (posF_bound hfl hp hN hu hq)
  have hUL : 100 * (u * (2 * p)) ≤ 2 * p := by nlinarith
  have hU0 : 0 ≤ u * (2 * p) := by positivity
  set a := (momentumF fl p N).posF fl i
  set b := (momentumF fl p N).posF fl j
  set c := (momentumF fl p N).posF fl q
  have f1 := fl_near hfl (x := a + b) (B := 11 / 10) (L := 2 * p) (by rw [abs_le]; constructor <;> linarith)
  obtain ⟨f1a, f1b⟩ := f1
  have f2 := fl_near hfl (x := fl (a + b) - c) (B := 17 / 10) (L := 2 * p) (by rw [abs_le]; constructor <;> linarith)
  obtain ⟨f2a, f2b⟩ := f2
  refine lookupF_close hfl hp hN hu (by rw [abs_le]; constructor <;> linarith) ?_
  push_cast
  rw [abs_le]; constructor <;> linarith

/-- The index before the reduction modulo `N`. -/
theorem realF_coordIndexF (hfl : Rounding fl u) (hmono : Monotone fl) (hidem : ∀ x, fl (fl x) = fl x) {dx : ℝ} (hdx : 0 < dx)
    (hu : 8 * (N * u) ≤ 1) (hu1 : u ≤ 1) {i : ℕ} (hi : i < N) :
    coordIndexF fl 0 (fl (dx * ((N - 1 : ℕ) : ℝ))) (fl (N * dx)) dx (fl (0 + fl (i * dx))) = .val i := by
  have hu0 := hfl.nonneg
  have hi0 : (0 : ℝ) ≤ i := Nat.cast_nonneg i
  have hid : 0 ≤ (i : ℝ) * dx := by positivity
  rw [zero_add, hidem]
  obtain ⟨a1, a2⟩ := fl_near hfl (x := i * dx) (B := 1) (L := i * dx) (by rw [abs_of_nonneg hid]; linarith)
  have hv0 : 0 ≤ fl (i * dx) := by nlinarith
  have hvm : fl (i * dx) ≤ fl (dx * ((N - 1 : ℕ) : ℝ)) := by
    apply hmono
    rw [mul_comm dx]
    have : (i : ℝ) ≤ ((N - 1 : ℕ) : ℝ) := by exact_mod_cast (by omega : i ≤ N - 1)
    gcongr
  unfold coordIndexF
  rw [(whileLoop_eq (fun v : ℝ => v < 0) (fun v => fl (v + fl (N * dx))) (fl (i * dx))).2 (not_lt.2 hv0), Res.bind_val,
    (whileLoop_eq (fun v : ℝ => v > fl (dx * ((N - 1 : ℕ) : ℝ))) (fun v => fl (v - fl (N * dx))) (fl (i * dx))).2
    (not_lt.2 hvm), Res.bind_val]
  rw [sub_zero, hidem]
  have hiN : (i : ℝ) ≤ N := by exact_mod_cast hi.le
  have hiu : (i : ℝ) * u ≤ 1 / 8 := by nlinarith
  have q : |fl (i * dx) / dx - i| ≤ i * u := by
    have e : fl (i * dx) / dx - i = (fl (i * dx) - i * dx) / dx := by field_simp
    rw [e, abs_div, abs_of_pos hdx, div_le_iff₀ hdx, abs_le]
    constructor <;> linarith
  obtain ⟨q1, q2⟩ := abs_le.1 q
  have hq := hfl.err (fl (i * dx) / dx)
  have hq' : |fl (i * dx) / dx| ≤ i * (1 + u) := by rw [abs_of_nonneg (by positivity)]; linarith
  have hq'' : |fl (fl (i * dx) / dx) - i| ≤ 1 / 4 + 1 / 8 := by
    have h3 : u * |fl (i * dx) / dx| ≤ u * (i * (1 + u)) := by gcongr
    have h4 : u * (i * (1 + u)) ≤ 2 * (1 / 8) := by nlinarith [mul_nonneg hi0 hu0]
    have h5 := abs_le.1 hq
    rw [abs_le]; constructor <;> linarith
  have hr : cround (fl (fl (i * dx) / dx)) = (i : ℤ) := by
    have h1 := abs_le.1 hq''
    unfold cround
    split_ifs with h0
    · rw [Int.floor_eq_iff]; constructor <;> push_cast <;> linarith
    · have : i = 0 := by
        by_contra h2
        have : (1 : ℝ) ≤ i := by exact_mod_cast Nat.one_le_iff_ne_zero.2 h2
        linarith
      subst this
      rw [neg_eq_iff_eq_neg, Int.floor_eq_iff]; push_cast at h1 ⊢; constructor <;> linarith
  rw [hr, toUnsigned_nonneg (Int.natCast_nonneg i), Int.toNat_natCast]

/-- **C77**, real space: the site found at the rounded position of a site is that site, for every monotone and idempotent rounding. -/
theorem realF_lookupF_posF (hfl : Rounding fl u) (hmono : Monotone fl) (hidem : ∀ x, fl (fl x) = fl x) {dx : ℝ} (hdx : 0 < dx)
    (hu : 8 * (N * u) ≤ 1) (hu1 : u ≤ 1) {i : ℕ} (hi : i < N) : (realF fl N dx).lookupF fl ((realF fl N dx).posF fl i) = .val i := by
  have h : lookupF fl (realF fl N dx) ((realF fl N dx).posF fl i)
    = (coordIndexF fl 0 (fl (dx * ((N - 1 : ℕ) : ℝ))) (fl (N * dx)) dx (fl (0 + fl (i * dx)))).map (fun i => i % N) := rfl
  rw [h, realF_coordIndexF hfl hmono hidem hdx hu hu1 hi, Res.map_val, Nat.mod_eq_of_lt hi]

/-- For `double`: up to 10¹⁵ sites. -/
theorem realF_lookupF_posF_double {dx : ℝ} (hdx : 0 < dx) (hN : N ≤ 10 ^ 15) {i : ℕ} (hi : i < N) :
    (realF double N dx).lookupF double ((realF double N dx).posF double i) = .val i := by
  refine realF_lookupF_posF double_rounding double_monotone double_idem hdx ?_ (by norm_num) hi
  have : (N : ℝ) ≤ 10 ^ 15 := by exact_mod_cast hN
  linarith

/-- **C77**, real space (refutation): on the chain of 7 sites with the distance 0.3 (the `double` nearest to it), the rounded sum of the
positions of the sites 5 and 1 is a little greater than the position of the last site, and the lookup converts -1 to an unsigned number
(undefined behaviour). In exact arithmetic it returns the site 6 (C20). -/
theorem realF_lookupF_sum_ub : ∃ dx : ℝ, |dx - 3 / 10| ≤ 1 / 2 ^ 53 ∧ double dx = dx ∧
    (realF double 7 dx).lookupF double (double ((realF double 7 dx).posF double 5 + (realF double 7 dx).posF double 1)) = .ub := by
  have p54 : (2 : ℝ) ^ (-54 : ℤ) = 1 / 18014398509481984 := by norm_num
  have p52 : (2 : ℝ) ^ (-52 : ℤ) = 1 / 4503599627370496 := by norm_num
  have p51 : (2 : ℝ) ^ (-51 : ℤ) = 1 / 2251799813685248 := by norm_num
  have d0 : double (5404319552844595 / 18014398509481984) = 5404319552844595 / 18014398509481984 := by
    have := double_fix (m := 5404319552844595) (e := -54) (by norm_num)
    rw [p54] at this; push_cast at this; rw [mul_one_div] at this; exact this
  refine ⟨5404319552844595 / 18014398509481984, by norm_num [abs_le], d0, ?_⟩
  have h5 : double (5 * (5404319552844595 / 18014398509481984)) = 6755399441055744 / 4503599627370496 := by
    have := double_eq (x := 5 * (5404319552844595 / 18014398509481984)) (r := 27021597764222975 / 4) (e := -52) (m := 6755399441055744)
      (by norm_num) (by norm_num) (by rw [p52]; ring) (by norm_num [abs_lt, abs_le, Int.even_iff, abs_of_pos])
    rw [p52] at this; rw [this]; norm_num
  have h5' : double (6755399441055744 / 4503599627370496) = 6755399441055744 / 4503599627370496 := by
    rw [← h5, double_idem]
  have hs : double (6755399441055744 / 4503599627370496 + 5404319552844595 / 18014398509481984)
      = 8106479329266893 / 4503599627370496 := by
    have := double_eq (x := 6755399441055744 / 4503599627370496 + 5404319552844595 / 18014398509481984) (r := 32425917317067571 / 4) (e := -52)
      (m := 8106479329266893) (by norm_num) (by norm_num) (by rw [p52]; ring) (by norm_num [abs_lt, abs_le, Int.even_iff, abs_of_pos])
    rw [p52] at this; rw [this]; norm_num
  have h6 : double (5404319552844595 / 18014398509481984 * 6) = 8106479329266892 / 4503599627370496 := by
    have := double_eq (x := 5404319552844595 / 18014398509481984 * 6) (r := 32425917317067570 / 4) (e := -52) (m := 8106479329266892)
      (by norm_num) (by norm_num) (by rw [p52]; ring) (by norm_num [abs_lt, abs_le, Int.even_iff, abs_of_pos])
    rw [p52] at this; rw [this]; norm_num
  have h7 : double (7 * (5404319552844595 / 18014398509481984)) = 4728779608739021 / 2251799813685248 := by
    have := double_eq (x := 7 * (5404319552844595 / 18014398509481984)) (r := 37830236869912165 / 8) (e := -51) (m := 4728779608739021)
      (by norm_num) (by norm_num) (by rw [p51]; ring) (by norm_num [abs_lt, abs_le, Int.even_iff, abs_of_pos])
    rw [p51] at this; rw [this]; norm_num
  have hw : double (8106479329266893 / 4503599627370496 - 4728779608739021 / 2251799813685248)
      = -5404319552844596 / 18014398509481984 := by
    have := double_fix (m := -5404319552844596) (e := -54) (by norm_num)
    rw [p54] at this; push_cast at this; rw [mul_one_div] at this
    rw [← this]; congr 1; norm_num
  have hw' : double (-5404319552844596 / 18014398509481984) = -5404319552844596 / 18014398509481984 := by
    rw [← hw, double_idem]
  unfold lookupF coordIndexF posF realF
  simp only [zero_add, Nat.cast_ofNat, Nat.cast_one, one_mul, d0, h5, h5', hs, h7, Nat.reduceSub, h6, sub_zero]
  rw [(whileLoop_eq (fun v : ℝ => v < 0) (fun v => double (v + 4728779608739021 / 2251799813685248)) _).2 (by norm_num),
    Res.bind_val,
    (whileLoop_eq (fun v : ℝ => v > 8106479329266892 / 4503599627370496)
      (fun v => double (v - 4728779608739021 / 2251799813685248)) (8106479329266893 / 4503599627370496)).1 (by norm_num)]
  simp only [hw]
  rw [(whileLoop_eq (fun v : ℝ => v > 8106479329266892 / 4503599627370496)
      (fun v => double (v - 4728779608739021 / 2251799813685248)) _).2 (by norm_num), Res.bind_val, hw']
  have hq := double_err (-5404319552844596 / 18014398509481984 / (5404319552844595 / 18014398509481984))
  obtain ⟨q1, q2⟩ := abs_le.1 hq
  have hb : |(-5404319552844596 / 18014398509481984 / (5404319552844595 / 18014398509481984) : ℝ)| ≤ 2 := by
    norm_num [abs_le]
  have hc : cround (double (-5404319552844596 / 18014398509481984 / (5404319552844595 / 18014398509481984))) = -1 := by
    unfold cround
    rw [if_neg (by norm_num at q2 hb ⊢; linarith), neg_inj, Int.floor_eq_iff]
    norm_num at q1 q2 hb ⊢
    constructor <;> linarith
  rw [hc]; rfl

end Chain

namespace MomentumSpace

/-- **C77**: the momentum-space basis constructed with rounded arithmetic is the one constructed with exact arithmetic (C25). -/
theorem momentumBasisF_eq {fl : ℝ → ℝ} {u p : ℝ} {N : ℕ} (hfl : Rounding fl u) (hp : 0 < p) (hN : 0 < N)
    (hu : 100 * (N * u) ≤ 1) {q : ℕ} (hq : q < N) :
    basis3F fl q (Chain.momentumF fl p N) = basis3 q (Chain.momentum p N) := by
  rw [momentumBasis_eq p hp N hN q]
  unfold basis3F
  have : ((List.range N).flatMap fun i1 => (List.range N).map fun i2 =>
      ((Chain.momentumF fl p N).lookupF fl (fl (fl ((Chain.momentumF fl p N).posF fl i1 + (Chain.momentumF fl p N).posF fl i2)
        - (Chain.momentumF fl p N).posF fl q))).map fun i3 =>
        ([⟨true, (i1, true)⟩, ⟨true, (i2, false)⟩, ⟨false, (i3, false)⟩] : HMonomial))
      = ((List.range N).flatMap fun i1 => (List.range N).map fun i2 =>
          RealSpace.Spec.three i1 i2 (siteMod (i1 + i2 - q) N)).map Res.val := by
    rw [List.map_flatMap]
    apply List.flatMap_congr
    intro i1 h1
    rw [List.map_map]
    apply List.map_congr_left
    intro i2 h2
    rw [Chain.lookupF_sum hfl hp hN hu (List.mem_range.1 h1) (List.mem_range.1 h2) hq]; rfl
  exact (congrArg (fun l => Res.map (fun l => [⟨true, (q, true)⟩] :: l) (collect l)) this).trans (by rw [collect_val])

/-- For `double` the bound on the number of sites is about 9 · 10¹³. -/
theorem momentumBasisF_double {p : ℝ} {N : ℕ} (hp : 0 < p) (hN : 0 < N) (hN' : N ≤ 90071992547409) {q : ℕ} (hq : q < N) :
    basis3F double q (Chain.momentumF double p N) = basis3 q (Chain.momentum p N) := by
  refine momentumBasisF_eq double_rounding hp hN ?_ hq
  have : (N : ℝ) ≤ 90071992547409 := by exact_mod_cast hN'
  linarith

end MomentumSpace

/-- **C77**: without rounding, the rounded constructors, positions, lookups and basis are the ones of the exact model. -/
theorem chainFloat_id (pi : ℝ) (N : ℕ) (dx : ℝ) :
    Chain.momentumF id pi N = Chain.momentum pi N ∧ Chain.realF id N dx = Chain.real N dx ∧
      (∀ (c : Chain ℝ) (i : ℕ), c.posF id i = c.pos i) ∧ (∀ (c : Chain ℝ) (v : ℝ), c.lookupF id v = c.lookup v) ∧
      ∀ (c : Chain ℝ) (q : ℕ), MomentumSpace.basis3F id q c = MomentumSpace.basis3 q c := by
  refine ⟨rfl, rfl, fun _ _ => rfl, fun _ _ => rfl, fun _ _ => rfl⟩

end Ieompp
