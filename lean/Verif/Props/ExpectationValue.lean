import Verif.Model.ExpectationValue
import Verif.Spec.FermiGas
import Verif.Props.FermiJump
import Verif.Props.Square
import Mathlib.Analysis.SpecialFunctions.Integrals.Basic

/-! # C39: expectation value tables -/

set_option autoImplicit false
set_option linter.unusedSectionVars false

namespace Ieompp

open Real intervalIntegral

/-- The occupied momenta of the half-filled square lattice, `cos kx + cos ky > 0` (negative energy, positive `J`), are
those with `|kx| + |ky| < π`. -/
theorem halfFilledSea_iff (kx ky : ℝ) (hx : |kx| ≤ π) (hy : |ky| ≤ π) : 0 < cos kx + cos ky ↔ |kx| + |ky| < π := by
  rw [← cos_abs kx, ← cos_abs ky]
  have h1 : cos |kx| = - cos (π - |kx|) := by rw [cos_pi_sub]; ring
  rw [h1]
  have hA : |ky| ∈ Set.Icc 0 π := ⟨abs_nonneg _, hy⟩
  have hB : π - |kx| ∈ Set.Icc 0 π := ⟨by linarith, by linarith [abs_nonneg kx]⟩
  rw [show (0 < -cos (π - |kx|) + cos |ky|) ↔ (cos (π - |kx|) < cos |ky|) by constructor <;> intro h <;> linarith,
    strictAntiOn_cos.lt_iff_gt hB hA]
  constructor <;> intro h <;> linarith

theorem chainCorrelation_eq (kF x : ℝ) (hx : x ≠ 0) : Spec.chainCorrelation kF x = sin (kF * x) / (π * x) := by
  unfold Spec.chainCorrelation
  rw [integral_comp_mul_right (fun u => cos u) hx, integral_cos, neg_mul, sin_neg, smul_eq_mul]
  have := pi_ne_zero
  field_simp; ring

theorem chainCorrelation_zero (filling : ℝ) : Spec.chainCorrelation (filling * π) 0 = filling := by
  unfold Spec.chainCorrelation
  simp
  have := pi_ne_zero
  field_simp; ring

theorem inner_integral (a L y : ℝ) (hy : y ≠ 0) :
    ∫ u in (-L)..L, cos (a + u * y) = 2 * cos a * sin (L * y) / y := by
  have : ∀ u, a + u * y = a + y * u := fun u => by ring
  simp only [this]
  rw [integral_comp_add_mul (fun u => cos u) hy, integral_cos, smul_eq_mul]
  rw [show a + y * L = a + L * y by ring, show a + y * -L = a - L * y by ring, sin_add, sin_sub]
  field_simp; ring

theorem inner_integral_zero (a L : ℝ) : ∫ u in (-L)..L, cos (a + u * 0) = 2 * L * cos a := by
  simp only [mul_zero, add_zero, integral_const, smul_eq_mul]; ring

theorem integral_even_abs (F : ℝ → ℝ → ℝ) (hF : ∀ k t, F (-k) t = F k t)
    (hi : IntervalIntegrable (fun k => F k |k|) MeasureTheory.volume (-π) π) :
    ∫ k in (-π)..π, F k |k| = 2 * ∫ k in (0)..π, F k k := by
  have h0 : (0 : ℝ) ∈ Set.uIcc (-π) π := by rw [Set.mem_uIcc]; left; constructor <;> linarith [pi_pos]
  have i1 : IntervalIntegrable (fun k => F k |k|) MeasureTheory.volume (-π) 0 :=
    hi.mono_set (by rw [Set.uIcc_of_le (by linarith [pi_pos]), Set.uIcc_of_le (by linarith [pi_pos])]
                    exact Set.Icc_subset_Icc le_rfl pi_pos.le)
  have i2 : IntervalIntegrable (fun k => F k |k|) MeasureTheory.volume 0 π :=
    hi.mono_set (by rw [Set.uIcc_of_le pi_pos.le, Set.uIcc_of_le (by linarith [pi_pos])]
                    exact Set.Icc_subset_Icc (by linarith [pi_pos]) le_rfl)
  rw [← integral_add_adjacent_intervals i1 i2]
  have e1 : ∫ k in (-π)..0, F k |k| = ∫ k in (0)..π, F k |k| := by
    have := integral_comp_neg (a := 0) (b := π) (fun k => F k |k|)
    simp only [abs_neg, neg_zero, hF] at this
    exact this.symm
  have e2 : ∫ k in (0)..π, F k |k| = ∫ k in (0)..π, F k k := by
    apply integral_congr
    intro k hk
    rw [Set.uIcc_of_le pi_pos.le] at hk
    simp only [abs_of_nonneg hk.1]
  rw [e1, e2]; ring

theorem cos_int_half (x y : ℝ) : cos (π * y) - cos (π * x) = 2 * sin (π / 2 * (x + y)) * sin (π / 2 * (x - y)) := by
  rw [cos_sub_cos]
  rw [show (π * y + π * x) / 2 = π / 2 * (x + y) by ring, show (π * y - π * x) / 2 = -(π / 2 * (x - y)) by ring, sin_neg]
  ring

theorem squareCorrelation_eq (x y : ℕ) : Spec.squareCorrelation x y = RealSpace.evValue2D x y := by
  have hpi := pi_ne_zero
  unfold Spec.squareCorrelation
  by_cases hy : y = 0
  · subst hy
    simp only [Nat.cast_zero]
    simp only [inner_integral_zero]
    rw [integral_even_abs (fun k t => 2 * (π - t) * cos (k * x)) (fun k t => by rw [neg_mul, cos_neg])
      (Continuous.intervalIntegrable (by fun_prop) _ _)]
    by_cases hx : x = 0
    · subst hx
      simp only [Nat.cast_zero, mul_zero, cos_zero, mul_one, RealSpace.evValue2D, if_true]
      rw [integral_eq_sub_of_hasDerivAt (f := fun k => 2 * π * k - k ^ 2)
        (fun k _ => by
          have h := ((hasDerivAt_id k).const_mul (2 * π)).sub ((hasDerivAt_id k).pow 2)
          refine h.congr_deriv ?_
          simp; ring) (Continuous.intervalIntegrable (by fun_prop) _ _)]
      field_simp; ring
    · have hx' : (x : ℝ) ≠ 0 := by exact_mod_cast hx
      rw [integral_eq_sub_of_hasDerivAt (f := fun k => 2 * ((π - k) * sin (k * x) / x - cos (k * x) / x ^ 2))
        (fun k _ => by
          have hk : HasDerivAt (fun k : ℝ => k * (x : ℝ)) x k := by simpa using (hasDerivAt_id k).mul_const (x : ℝ)
          have h := (((((hasDerivAt_id k).const_sub π).mul hk.sin).div_const (x : ℝ)).sub
            (hk.cos.div_const ((x : ℝ) ^ 2))).const_mul 2
          refine h.congr_deriv ?_
          field_simp; simp; ring) (Continuous.intervalIntegrable (by fun_prop) _ _)]
      have hc := cos_int_half x 0
      simp only [mul_zero, cos_zero, add_zero, sub_zero] at hc
      have hc' : cos (π * x) = 1 - 2 * sin (π / 2 * x) * sin (π / 2 * x) := by linarith
      simp only [RealSpace.evValue2D, hx, if_false, add_zero, Nat.pos_of_ne_zero hx, if_true, Nat.sub_zero,
        sub_self, zero_mul, cos_zero, zero_div, sub_zero, hc', sin_zero, mul_zero, zero_sub]
      field_simp; ring
  · have hy' : (y : ℝ) ≠ 0 := by exact_mod_cast hy
    simp only [inner_integral _ _ _ hy']
    rw [integral_even_abs (fun k t => 2 * cos (k * x) * sin ((π - t) * y) / y) (fun k t => by rw [neg_mul, cos_neg])
      (Continuous.intervalIntegrable (by fun_prop) _ _)]
    by_cases hxy : x = y
    · subst hxy
      have hs : sin (π * (x : ℝ)) = 0 := by rw [mul_comm]; exact sin_nat_mul_pi x
      rw [integral_eq_sub_of_hasDerivAt (f := fun k => cos (π * x - 2 * x * k) / (2 * x ^ 2))
        (fun k _ => by
          have hk : HasDerivAt (fun k : ℝ => π * x - 2 * x * k) (-(2 * x)) k := by
            simpa using ((hasDerivAt_id k).const_mul (2 * (x : ℝ))).const_sub (π * (x : ℝ))
          have h := hk.cos.div_const (2 * (x : ℝ) ^ 2)
          refine h.congr_deriv ?_
          rw [show (π - k) * (x : ℝ) = π * x - k * x by ring, show π * (x : ℝ) - 2 * x * k = π * x - k * x - k * x by ring,
            sin_sub (π * (x : ℝ)), sin_sub (π * (x : ℝ) - k * x), sin_sub (π * (x : ℝ)), cos_sub (π * (x : ℝ)), hs]
          field_simp; ring) (Continuous.intervalIntegrable (by fun_prop) _ _)]
      have h2 : sin (π / 2 * ((x : ℝ) + x)) = 0 := by rw [show π / 2 * ((x : ℝ) + x) = π * x by ring, hs]
      have h3 : cos (π * x - 2 * x * π) = cos (π * (x : ℝ)) := by
        rw [show π * (x : ℝ) - 2 * x * π = -(π * x) by ring, cos_neg]
      simp [RealSpace.evValue2D, hy, h2, h3]
    · have h1 : (x : ℝ) - y ≠ 0 := by rw [sub_ne_zero]; exact_mod_cast hxy
      have h2 : (x : ℝ) + y ≠ 0 := by have : x + y ≠ 0 := by omega
                                      exact_mod_cast this
      rw [integral_eq_sub_of_hasDerivAt (f := fun k => (-(cos (π * y + (x - y) * k)) / (x - y) +
          cos (π * y - (x + y) * k) / (x + y)) / y)
        (fun k _ => by
          have hk1 : HasDerivAt (fun k : ℝ => π * y + ((x : ℝ) - y) * k) ((x : ℝ) - y) k := by
            simpa using ((hasDerivAt_id k).const_mul ((x : ℝ) - y)).const_add (π * (y : ℝ))
          have hk2 : HasDerivAt (fun k : ℝ => π * y - ((x : ℝ) + y) * k) (-((x : ℝ) + y)) k := by
            simpa using ((hasDerivAt_id k).const_mul ((x : ℝ) + y)).const_sub (π * (y : ℝ))
          have h := (((hk1.cos.neg).div_const ((x : ℝ) - y)).add (hk2.cos.div_const ((x : ℝ) + y))).div_const (y : ℝ)
          refine h.congr_deriv ?_
          rw [show (π - k) * (y : ℝ) = π * y - k * y by ring,
            show π * (y : ℝ) + (x - y) * k = (π * y - k * y) + k * x by ring,
            show π * (y : ℝ) - (x + y) * k = (π * y - k * y) - k * x by ring, sin_add (π * (y : ℝ) - k * y),
            sin_sub (π * (y : ℝ) - k * y)]
          field_simp; ring) (Continuous.intervalIntegrable (by fun_prop) _ _)]
      have e1 : cos (π * y + ((x : ℝ) - y) * π) = cos (π * x) := by congr 1; ring
      have e2 : cos (π * y - ((x : ℝ) + y) * π) = cos (π * x) := by
        rw [show π * y - ((x : ℝ) + y) * π = -(π * x) by ring, cos_neg]
      have hc := cos_int_half x y
      have hc' : cos (π * y) = cos (π * x) + 2 * sin (π / 2 * (x + y)) * sin (π / 2 * (x - y)) := by linarith
      have hd : sin (π / 2 * ((if x > y then x - y else y - x : ℕ) : ℝ)) / ((if x > y then x - y else y - x : ℕ) : ℝ) =
          sin (π / 2 * ((x : ℝ) - y)) / ((x : ℝ) - y) := by
        split_ifs with h
        · rw [Nat.cast_sub h.le]
        · rw [Nat.cast_sub (by omega), show π / 2 * ((y : ℝ) - x) = -(π / 2 * ((x : ℝ) - y)) by ring, sin_neg,
            ← neg_div_neg_eq, neg_neg, neg_sub]
      unfold RealSpace.evValue2D
      simp only [hxy, if_false]
      rw [hd]
      simp only [mul_zero, add_zero, sub_zero, e1, e2, hc', Nat.cast_add]
      field_simp
      ring


namespace RealSpace

open MomentumSpace (vecAt)

/-! ### One dimension -/

theorem evTable1D_ok {c : Chain ℝ} {N : ℕ} (hc : c.Constructed N) (filling kF : ℝ) {sched : List ℕ}
    (hs : sched.Perm (List.range' 1 (N / 2))) :
    ∃ values, evTable1D c filling kF sched = .val values ∧ values.length = N / 2 + 1 ∧
      ∀ d, d ≤ N / 2 → values[d]? = some (if d = 0 then filling else sin (kF * d * c.dx) / (π * d * c.dx)) := by
  obtain ⟨h1, _, _⟩ := hc.fields
  have hm : ∀ d, d ∈ sched ↔ 1 ≤ d ∧ d ≤ N / 2 := by
    intro d; rw [hs.mem_iff, List.mem_range'_1]; omega
  obtain ⟨w, e1, e2, e3⟩ := storeLoop_ok (f := fun d : ℕ => Res.val (sin (kF * d * c.dx) / (π * d * c.dx))) sched
    ((List.replicate (N / 2 + 1) (0 : ℝ)).set 0 filling) (fun i hi => ⟨rfl, by simp; have := (hm i).1 hi; omega⟩)
  refine ⟨w, ?_, by simpa using e2, ?_⟩
  · unfold evTable1D assignAt
    rw [h1, if_pos (by simp), Res.bind_val, e1]
  · intro d hd
    rw [e3 d]
    by_cases h0 : d = 0
    · subst h0
      rw [if_neg (fun h => by have := (hm 0).1 h.1; omega)]
      simp
    · rw [if_pos ⟨(hm d).2 ⟨by omega, hd⟩, by simp; omega⟩, if_neg h0]

/-- C39, one dimension: whatever the schedule of the constructor's parallel loop, no store is out of range, and for every
pair of sites the lookup is inside the table, is symmetric, invariant under translations and inversion, and is the
correlation of the free Fermi gas at the (lattice) distance of the sites. -/
theorem expectationValue1D {c : Chain ℝ} {N : ℕ} (hc : c.Constructed N) (hdx : c.dx ≠ 0) (filling : ℝ) {sched : List ℕ}
    (hs : sched.Perm (List.range' 1 (N / 2))) :
    ∃ values, evTable1D c filling (fermiMomentum1D filling) sched = .val values ∧
      ∀ a b d, a < N → b < N → Spec.IsRingDist N a b d →
        evLookup1D c values a b = .val (Spec.chainCorrelation (filling * π) (d * c.dx)) ∧
        evLookup1D c values b a = .val (Spec.chainCorrelation (filling * π) (d * c.dx)) ∧
        (∀ s, evLookup1D c values ((a + s) % N) ((b + s) % N) =
          .val (Spec.chainCorrelation (filling * π) (d * c.dx))) ∧
        evLookup1D c values ((N - a) % N) ((N - b) % N) = .val (Spec.chainCorrelation (filling * π) (d * c.dx)) := by
  obtain ⟨values, e1, _, e3⟩ := evTable1D_ok hc filling (fermiMomentum1D filling) hs
  refine ⟨values, e1, fun a b d ha hb hd => ?_⟩
  have hN := hc.fields.1
  have hdist : c.latticeDistance a b = d := by
    rw [← ringDist_spec] at hd
    rw [← hd]; unfold ringDist Chain.latticeDistance; rw [hN]; rfl
  obtain ⟨m1, _, _, m4⟩ := chain_distance_metric hc a b b ha hb hb
  have key : ∀ x y, c.latticeDistance x y = d →
      evLookup1D c values x y = .val (Spec.chainCorrelation (filling * π) (d * c.dx)) := by
    intro x y hxy
    unfold evLookup1D vecAt
    rw [hxy, e3 d (by omega)]
    simp only
    by_cases h0 : d = 0
    · subst h0; simp [chainCorrelation_zero]
    · have hd0 : (d : ℝ) ≠ 0 := by exact_mod_cast h0
      rw [if_neg h0, chainCorrelation_eq _ _ (mul_ne_zero hd0 hdx)]
      congr 1; unfold fermiMomentum1D
      rw [mul_assoc (filling * π), mul_assoc π]
  refine ⟨key a b hdist, key b a (by rw [← m1, hdist]), fun s => key _ _ ?_, key _ _ ?_⟩
  · rw [(chain_distance_invariant hc a b s ha hb).1, hdist]
  · rw [(chain_distance_invariant hc a b 0 ha hb).2, hdist]

/-- A chain of six sites, filled by two threads; the nearest neighbour value at half filling is `1/π`. -/
example : (Chain.real (K := ℝ) 6 1).Constructed 6 ∧ [2, 1, 3].Perm (List.range' 1 (6 / 2)) ∧
    Spec.IsRingDist 6 5 0 1 ∧ Spec.chainCorrelation (1 / 2 * π) (1 * 1) = 1 / π := by
  refine ⟨.real 1 (by norm_num) rfl, by decide, by unfold Spec.IsRingDist; omega, ?_⟩
  rw [chainCorrelation_eq _ _ (by norm_num), show 1 / 2 * π * (1 * 1) = π / 2 by ring, sin_pi_div_two]; simp

/-! ### Two dimensions -/

/-- Where nothing wraps around, the model with wrap-around agrees with `Square.latticeDistanceX/Y`. -/
theorem wrappedDistance_eq (s : Square ℝ) (a b d : ℕ) :
    (s.latticeDistanceX a b = some d → wrappedDistanceX s a b = d) ∧
    (s.latticeDistanceY a b = some d → wrappedDistanceY s a b = d) := by
  constructor
  · unfold Square.latticeDistanceX wrappedDistanceX wrapSub
    simp only
    intro h
    split_ifs at h ⊢ <;> simp_all
  · unfold Square.latticeDistanceY wrappedDistanceY wrapSub
    simp only
    intro h
    split_ifs at h ⊢ <;> simp_all

/-- All pairs of distances for which the constructor computes a value. -/
def evPairs (mx my : ℕ) : List (ℕ × ℕ) :=
  (List.range (mx + 1)).flatMap fun x => (List.range (my + 1)).map fun y => (x, y)

theorem mem_evPairs (mx my : ℕ) (d : ℕ × ℕ) : d ∈ evPairs mx my ↔ d.1 ≤ mx ∧ d.2 ≤ my := by
  unfold evPairs
  simp only [List.mem_flatMap, List.mem_range, List.mem_map]
  constructor
  · rintro ⟨x, hx, y, hy, rfl⟩; simp; omega
  · rintro ⟨h1, h2⟩; exact ⟨d.1, by omega, d.2, by omega, rfl⟩

theorem evIndex_lt {mx my x y : ℕ} (hx : x ≤ mx) (hy : y ≤ my) : (my + 1) * x + y < (mx + 1) * (my + 1) := by
  have : (my + 1) * x ≤ (my + 1) * mx := Nat.mul_le_mul_left _ hx
  have e : (mx + 1) * (my + 1) = (my + 1) * mx + (my + 1) := by ring
  omega

theorem evIndex_coord {my x y : ℕ} (hy : y ≤ my) : ((my + 1) * x + y) / (my + 1) = x ∧ ((my + 1) * x + y) % (my + 1) = y := by
  constructor
  · rw [Nat.mul_add_div (by omega), Nat.div_eq_of_lt (by omega), add_zero]
  · rw [Nat.mul_add_mod, Nat.mod_eq_of_lt (by omega)]

theorem evTable2D_ok {s : Square ℝ} {Nx Ny : ℕ} (hs : s.Constructed Nx Ny) {sched : List (ℕ × ℕ)}
    (hp : sched.Perm (evPairs (Nx / 2) (Ny / 2))) :
    ∃ values, evTable2D s sched = .val values ∧ values.length = (Nx / 2 + 1) * (Ny / 2 + 1) ∧
      ∀ x y, x ≤ Nx / 2 → y ≤ Ny / 2 → values[(Ny / 2 + 1) * x + y]? = some (evValue2D x y) := by
  obtain ⟨h1, h2, _⟩ := hs.fields
  set my := Ny / 2 with hmy
  have hm : ∀ d ∈ sched, d.1 ≤ Nx / 2 ∧ d.2 ≤ my := fun d hd => (mem_evPairs _ _ _).1 (hp.mem_iff.1 hd)
  have hstore : evTable2D s sched = storeLoop (fun i => .val (evValue2D (i / (my + 1)) (i % (my + 1))))
      (sched.map fun d => (my + 1) * d.1 + d.2) (List.replicate ((Nx / 2 + 1) * (my + 1)) 0) := by
    unfold evTable2D storeLoop
    rw [List.foldl_map, h1, h2, ← hmy]
    refine List.foldl_ext _ _ _ fun acc d hd => ?_
    obtain ⟨q1, q2⟩ := evIndex_coord (x := d.1) (hm d hd).2
    simp only [q1, q2]; rfl
  obtain ⟨w, e1, e2, e3⟩ := storeLoop_ok (f := fun i => Res.val (evValue2D (i / (my + 1)) (i % (my + 1))))
    (sched.map fun d => (my + 1) * d.1 + d.2) (List.replicate ((Nx / 2 + 1) * (my + 1)) 0) (fun i hi => by
      refine ⟨rfl, ?_⟩
      obtain ⟨d, hd, rfl⟩ := List.mem_map.1 hi
      rw [List.length_replicate]
      exact evIndex_lt (hm d hd).1 (hm d hd).2)
  refine ⟨w, by rw [hstore, e1], by simpa using e2, fun x y hx hy => ?_⟩
  rw [e3, if_pos, (evIndex_coord hy).1, (evIndex_coord hy).2]
  refine ⟨List.mem_map.2 ⟨(x, y), hp.mem_iff.2 ((mem_evPairs _ _ _).2 ⟨hx, hy⟩), rfl⟩, ?_⟩
  rw [List.length_replicate]; exact evIndex_lt hx hy

/-- C39, two dimensions, for `Nx = Ny` (missing: rectangular lattices, for which it is false, see
`expectationValue2D_rect_ub`): the table is filled without out-of-range stores, every lookup is inside the table and
returns the correlation of the half-filled infinite square lattice at the ring distances of the coordinates. -/
theorem expectationValue2D_partial {s : Square ℝ} {N : ℕ} (hs : s.Constructed N N) {sched : List (ℕ × ℕ)}
    (hp : sched.Perm (evPairs (N / 2) (N / 2))) :
    ∃ values, evTable2D s sched = .val values ∧
      ∀ x y x' y' dx dy, x < N → y < N → x' < N → y' < N → Spec.IsRingDist N x x' dx → Spec.IsRingDist N y y' dy →
        evLookup2D s values (s.index x y) (s.index x' y') = .val (Spec.squareCorrelation dx dy) ∧
        evLookup2D s values (s.index x' y') (s.index x y) = .val (Spec.squareCorrelation dx dy) ∧
        (∀ tx ty, evLookup2D s values (s.index ((x + tx) % N) ((y + ty) % N)) (s.index ((x' + tx) % N) ((y' + ty) % N)) =
          .val (Spec.squareCorrelation dx dy)) ∧
        evLookup2D s values (s.index ((N - x) % N) ((N - y) % N)) (s.index ((N - x') % N) ((N - y') % N)) =
          .val (Spec.squareCorrelation dx dy) := by
  obtain ⟨values, e1, _, e3⟩ := evTable2D_ok hs hp
  obtain ⟨h1, h2, _⟩ := hs.fields
  have hc : (Chain.real (K := ℚ) N 1).Constructed N := .real 1 hs.pos_size.1 rfl
  refine ⟨values, e1, fun x y x' y' dx dy hx hy hx' hy' hdx hdy => ?_⟩
  rw [← ringDist_spec] at hdx hdy
  have key : ∀ x y x' y', x < N → y < N → x' < N → y' < N → ringDist N x x' = dx → ringDist N y y' = dy →
      evLookup2D s values (s.index x y) (s.index x' y') = .val (Spec.squareCorrelation dx dy) := by
    intro x y x' y' hx hy hx' hy' hdx hdy
    obtain ⟨d1, d2⟩ := square_distance_eq hs hx hy hx' hy'
    rw [hdx] at d1; rw [hdy] at d2
    have b1 := (chain_distance_metric hc x x' x' hx hx' hx').2.2.2
    have b2 := (chain_distance_metric hc y y' y' hy hy' hy').2.2.2
    change 2 * ringDist N x x' ≤ N at b1
    change 2 * ringDist N y y' ≤ N at b2
    unfold evLookup2D vecAt
    rw [(wrappedDistance_eq s _ _ _).1 d1, (wrappedDistance_eq s _ _ _).2 d2, h2, e3 dx dy (by omega) (by omega),
      squareCorrelation_eq]
  have hsymm : ∀ a b, a < N → b < N → ringDist N b a = ringDist N a b := fun a b ha hb =>
    (chain_distance_metric hc b a a hb ha ha).1
  have hN := hs.pos_size.1
  refine ⟨key _ _ _ _ hx hy hx' hy' hdx hdy, key _ _ _ _ hx' hy' hx hy ?_ ?_, fun tx ty => key _ _ _ _ (Nat.mod_lt _ hN)
    (Nat.mod_lt _ hN) (Nat.mod_lt _ hN) (Nat.mod_lt _ hN) ?_ ?_, key _ _ _ _ (Nat.mod_lt _ hN)
    (Nat.mod_lt _ hN) (Nat.mod_lt _ hN) (Nat.mod_lt _ hN) ?_ ?_⟩
  · rw [hsymm x x' hx hx', hdx]
  · rw [hsymm y y' hy hy', hdy]
  · rw [← hdx]; exact (chain_distance_invariant hc x x' tx hx hx').1
  · rw [← hdy]; exact (chain_distance_invariant hc y y' ty hy hy').1
  · rw [← hdx]; exact (chain_distance_invariant hc x x' 0 hx hx').2
  · rw [← hdy]; exact (chain_distance_invariant hc y y' 0 hy hy').2

/-- Finding: on a rectangular lattice with `Nx + 2 ≤ Ny` (and fewer than 2^63 rows) the lookup for the first and the last
site reads outside the table. -/
theorem expectationValue2D_rect_ub {s : Square ℝ} {Nx Ny : ℕ} (hs : s.Constructed Nx Ny) (h : Nx + 2 ≤ Ny) (hNy : Ny < 2 ^ 63)
    {sched : List (ℕ × ℕ)} (hp : sched.Perm (evPairs (Nx / 2) (Ny / 2))) :
    ∃ values, evTable2D s sched = .val values ∧ evLookup2D s values 0 (Nx * Ny - 1) = .ub := by
  obtain ⟨values, e1, e2, _⟩ := evTable2D_ok hs hp
  obtain ⟨h1, h2, _⟩ := hs.fields
  obtain ⟨hNx, _⟩ := hs.pos_size
  refine ⟨values, e1, ?_⟩
  have hx : (Nx * Ny - 1) / Nx = Ny - 1 := by
    rw [Nat.div_eq_iff (by omega), Nat.sub_mul]
    have : Nx ≤ Ny * Nx := Nat.le_mul_of_pos_left _ (by omega)
    rw [Nat.mul_comm Nx Ny]; omega
  have hd : wrappedDistanceX s 0 (Nx * Ny - 1) = Ny - 1 := by
    unfold wrappedDistanceX wrapSub Square.xIndex
    simp only [h1, hx, Nat.zero_div]
    rw [if_neg (by omega), Nat.sub_zero, if_neg (by omega)]
    omega
  unfold evLookup2D vecAt
  rw [h2, hd, List.getElem?_eq_none]
  rw [e2]
  have : (Nx / 2 + 1) * (Ny / 2 + 1) ≤ (Ny / 2 + 1) * (Ny - 1) := by
    rw [Nat.mul_comm]; exact Nat.mul_le_mul_left _ (by omega)
  omega

/-- A 4 x 4 lattice meets the hypotheses; the nearest neighbour correlation is `2/π²`. -/
example : (Square.real (K := ℝ) 4 4 1 1).Constructed 4 4 ∧ Spec.IsRingDist 4 3 0 1 ∧
    Spec.squareCorrelation (1 : ℕ) (0 : ℕ) = 2 / π ^ 2 := by
  refine ⟨.real 1 1 (by norm_num) (by norm_num) rfl, by unfold Spec.IsRingDist; omega, ?_⟩
  rw [squareCorrelation_eq]; simp [evValue2D]; ring

end RealSpace

end Ieompp
