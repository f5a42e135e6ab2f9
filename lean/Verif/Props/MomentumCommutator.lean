import Verif.Props.MomentumMatrix
import Mathlib.Algebra.BigOperators.Intervals
import Mathlib.Tactic.FieldSimp

/-! # C30: rows of the momentum-space matrix as commutators -/

set_option autoImplicit false
set_option linter.unusedSectionVars false

namespace Ieompp

open Ieompp.Spec

namespace MomentumSpace
variable {N : ℕ} {R : Type*} [Ring R] (C : CAROn N R) {S : Type*} [Field S] [Algebra S R]

theorem comm_sum_left {ι : Type*} (s : Finset ι) (f : ι → R) (w : R) :
    comm (∑ i ∈ s, f i) w = ∑ i ∈ s, comm (f i) w := by
  unfold Spec.comm
  rw [Finset.sum_mul, Finset.mul_sum, ← Finset.sum_sub_distrib]

theorem kinetic_cr (eps : ℕ → S) {k : ℕ} (hk : k < N) (σ : Bool) :
    comm (C.kinetic eps) (C.cr (k, σ)) = eps k • C.cr (k, σ) := by
  unfold CAROn.kinetic
  rw [comm_sum_left, Finset.sum_eq_single k]
  · rw [CAROn.comm_smul, CAROn.comm_add_left]
    unfold CAROn.num
    rw [C.bilinear_cr (x := (k, true)) hk hk hk, C.bilinear_cr (x := (k, false)) hk hk hk]
    cases σ <;> simp
  · intro i hi hik
    have hi := Finset.mem_range.1 hi
    rw [CAROn.comm_smul, CAROn.comm_add_left]
    unfold CAROn.num
    rw [C.bilinear_cr (x := (i, true)) hi hi hk, C.bilinear_cr (x := (i, false)) hi hi hk]
    cases σ <;> simp [hik]
  · intro h; exact absurd (Finset.mem_range.2 hk) h

theorem kinetic_an (eps : ℕ → S) {k : ℕ} (hk : k < N) (σ : Bool) :
    comm (C.kinetic eps) (C.an (k, σ)) = -(eps k • C.an (k, σ)) := by
  unfold CAROn.kinetic
  rw [comm_sum_left, Finset.sum_eq_single k]
  · rw [CAROn.comm_smul, CAROn.comm_add_left]
    unfold CAROn.num
    rw [C.bilinear_an (x := (k, true)) hk hk hk, C.bilinear_an (x := (k, false)) hk hk hk]
    cases σ <;> simp
  · intro i hi hik
    have hi := Finset.mem_range.1 hi
    rw [CAROn.comm_smul, CAROn.comm_add_left]
    unfold CAROn.num
    rw [C.bilinear_an (x := (i, true)) hi hi hk, C.bilinear_an (x := (i, false)) hi hi hk]
    cases σ <;> simp [Ne.symm hik]
  · intro h; exact absurd (Finset.mem_range.2 hk) h

/-- A sum over all momenta may be shifted. -/
theorem sum_shift {M : Type*} [AddCommMonoid M] (hN : 0 < N) (s : ℕ) (f : ℕ → M) :
    ∑ p ∈ Finset.range N, f ((p + s) % N) = ∑ p ∈ Finset.range N, f p := by
  have inj : Set.InjOn (fun p => (p + s) % N) (Finset.range N : Set ℕ) := by
    intro a ha b hb h
    have ha := Finset.mem_range.1 ha
    have hb := Finset.mem_range.1 hb
    have h : (a + s) ≡ (b + s) [MOD N] := h
    have h := Nat.ModEq.add_right_cancel' s h
    rwa [Nat.ModEq, Nat.mod_eq_of_lt ha, Nat.mod_eq_of_lt hb] at h
  have sub : (Finset.range N).image (fun p => (p + s) % N) ⊆ Finset.range N := by
    intro x hx
    rw [Finset.mem_image] at hx
    obtain ⟨p, _, rfl⟩ := hx
    exact Finset.mem_range.2 (Nat.mod_lt _ hN)
  have im : (Finset.range N).image (fun p => (p + s) % N) = Finset.range N :=
    Finset.eq_of_subset_of_card_le sub (by rw [Finset.card_image_of_injOn inj])
  conv_rhs => rw [← im, Finset.sum_image inj]

theorem third_shift (d q k : ℕ) : third N q ((d + q) % N) k = (k + d) % N := by
  unfold third siteMod
  have e : ((((d + q) % N : ℕ) : ℤ) + k - q) % N = ((k : ℤ) + d) % N := by
    have h : ((((d + q) % N : ℕ) : ℤ)) ≡ (d + q : ℤ) [ZMOD N] := by
      push_cast; exact Int.mod_modEq _ _
    have h2 := (h.add_right (k : ℤ)).sub_right (q : ℤ)
    have h3 : (d : ℤ) + q + k - q = k + d := by ring
    rw [h3] at h2
    exact h2
  rw [e]
  have : (((k : ℤ) + d) % N) = ((k + d) % N : ℕ) := by push_cast; rfl
  rw [this]; rfl

theorem third_self {q k : ℕ} (hk : k < N) : third N q q k = k := by
  unfold third siteMod
  rw [show ((q : ℤ) + k - q) = k by ring]
  have : ((k : ℤ) % N) = (k % N : ℕ) := by push_cast; rfl
  rw [this, Nat.mod_eq_of_lt hk]; rfl

theorem third_eq_iff (hN : 0 < N) {q i1 i2 : ℕ} (hq : q < N) (h1 : i1 < N) (h2 : i2 < N) :
    i2 = third N q i1 i2 ↔ i1 = q := by
  constructor
  · intro h
    unfold third siteMod at h
    have h0 := Int.emod_nonneg ((i1 : ℤ) + i2 - q) (show (N : ℤ) ≠ 0 by omega)
    have hd := Int.emod_add_mul_ediv ((i1 : ℤ) + i2 - q) N
    have e : ((i1 : ℤ) + i2 - q) % N = i2 := by omega
    rw [e] at hd
    have hz : (N : ℤ) * (((i1 : ℤ) + i2 - q) / N) = i1 - q := by linarith
    have hzero : ((i1 : ℤ) + i2 - q) / N = 0 := by
      have hp : (0 : ℤ) < N := by omega
      generalize ((i1 : ℤ) + i2 - q) / N = t at hz
      rcases lt_trichotomy t 0 with h | h | h
      · nlinarith
      · exact h
      · nlinarith
    rw [hzero, mul_zero] at hz
    omega
  · rintro rfl; exact (third_self h2).symm

/-- `[H_int, c†_q↑]` in momentum space. -/
theorem momentumInteraction_cr (hN : 0 < N) (U : S) {q : ℕ} (hq : q < N) :
    comm (C.momentumInteraction U) (C.cr (q, true)) = (U / (N : S)) • ∑ i1 ∈ Finset.range N, ∑ i2 ∈ Finset.range N,
      C.cr (i1, true) * (C.cr (i2, false) * C.an (third N q i1 i2, false)) := by
  have hm : ∀ x, x % N < N := fun x => Nat.mod_lt _ hN
  unfold CAROn.momentumInteraction
  rw [comm_sum_left, Finset.sum_eq_single q]
  · rw [comm_sum_left]
    have step : ∀ p ∈ Finset.range N, comm (∑ d ∈ Finset.range N, (U / (N : S)) • (C.cr ((q + d) % N, true) * C.an (q, true) *
        (C.cr ((p + (N - d)) % N, false) * C.an (p, false)))) (C.cr (q, true)) =
        ∑ d ∈ Finset.range N, (U / (N : S)) • (C.cr ((d + q) % N, true) *
          (C.cr ((p + (N - d)) % N, false) * C.an (p, false))) := by
      intro p hp
      have hp := Finset.mem_range.1 hp
      rw [comm_sum_left]
      apply Finset.sum_congr rfl
      intro d _
      have c1 : Commute (C.cr ((p + (N - d)) % N, false) * C.an (p, false)) (C.cr (q, true)) :=
        Anti.mul_left (C.cr_cr (hm _) hq) (C.an_cr_anti hp hq (by simp))
      have b := C.bilinear_cr (x := ((q + d) % N, true)) (y := (q, true)) (w := (q, true)) (hm _) hq hq
      rw [if_pos rfl] at b
      rw [CAROn.comm_smul, add_comm d q]
      congr 1
      have g : ∀ x y w : R, Commute y w → comm (x * y) w = comm x w * y := by
        intro x y w h
        unfold Spec.comm
        rw [mul_assoc, h.eq]
        noncomm_ring
      rw [g _ _ _ c1, b]
    rw [Finset.sum_congr rfl step, Finset.sum_comm]
    rw [Finset.smul_sum]
    have step2 : ∀ d ∈ Finset.range N, ∑ p ∈ Finset.range N, (U / (N : S)) • (C.cr ((d + q) % N, true) *
          (C.cr ((p + (N - d)) % N, false) * C.an (p, false))) = (U / (N : S)) • ∑ i2 ∈ Finset.range N,
          C.cr ((d + q) % N, true) * (C.cr (i2, false) * C.an (third N q ((d + q) % N) i2, false)) := by
      intro d hd
      have hd := Finset.mem_range.1 hd
      rw [← Finset.smul_sum]
      congr 1
      rw [← sum_shift hN (N - d) (fun i2 => C.cr ((d + q) % N, true) *
        (C.cr (i2, false) * C.an (third N q ((d + q) % N) i2, false)))]
      apply Finset.sum_congr rfl
      intro p hp
      have hp := Finset.mem_range.1 hp
      simp only [third_shift]
      have : ((p + (N - d)) % N + d) % N = p := by
        rw [Nat.mod_add_mod, show p + (N - d) + d = p + N by omega, Nat.add_mod_right, Nat.mod_eq_of_lt hp]
      rw [this]
    rw [Finset.sum_congr rfl step2]
    exact sum_shift hN q (fun i1 => (U / (N : S)) • ∑ i2 ∈ Finset.range N,
          C.cr (i1, true) * (C.cr (i2, false) * C.an (third N q i1 i2, false)))
  · intro k hk hkq
    have hk := Finset.mem_range.1 hk
    rw [comm_sum_left]
    apply Finset.sum_eq_zero
    intro p hp
    have hp := Finset.mem_range.1 hp
    rw [comm_sum_left]
    apply Finset.sum_eq_zero
    intro d _
    have c1 : Commute (C.cr ((p + (N - d)) % N, false) * C.an (p, false)) (C.cr (q, true)) :=
      Anti.mul_left (C.cr_cr (hm _) hq) (C.an_cr_anti hp hq (by simp))
    have c2 : Commute (C.cr ((k + d) % N, true) * C.an (k, true)) (C.cr (q, true)) :=
      Anti.mul_left (C.cr_cr (hm _) hq) (C.an_cr_anti hk hq (by simp [hkq]))
    rw [CAROn.comm_smul]
    unfold Spec.comm
    rw [(c2.mul_left c1).eq, sub_self, smul_zero]
  · intro h; exact absurd (Finset.mem_range.2 hq) h

theorem basisOp_zero (q : ℕ) : C.basisOp (Spec.entries N q) 0 = C.cr (q, true) := rfl

theorem basisOp_three (q : ℕ) {i1 i2 : ℕ} (h1 : i1 < N) (h2 : i2 < N) :
    C.basisOp (Spec.entries N q) (get3opIndex N i1 i2) = C.labelOp (.three i1 i2 (third N q i1 i2)) := by
  unfold CAROn.basisOp
  rw [entries_getElem N q h1 h2]
  simp only [RealSpace.Spec.three, CAROn.labelOp, CAROn.cr, CAROn.an]
  rw [mul_sub, mul_ite, mul_one, mul_zero]
  noncomm_ring

/-- A sum over the positions of the basis. -/
theorem sum_positions {M : Type*} [AddCommMonoid M] (f : ℕ → M) :
    ∑ p ∈ Finset.range (N * N + 1), f p = f 0 + ∑ i1 ∈ Finset.range N, ∑ i2 ∈ Finset.range N, f (get3opIndex N i1 i2) := by
  rw [Finset.sum_range_succ', add_comm]
  congr 1
  have : ∀ n, ∑ p ∈ Finset.range (n * N), f (p + 1) = ∑ i1 ∈ Finset.range n, ∑ i2 ∈ Finset.range N, f (get3opIndex N i1 i2) := by
    intro n
    induction n with
    | zero => simp
    | succ n ih =>
      rw [Finset.sum_range_succ, ← ih, add_mul, one_mul, Finset.sum_range_add]
      congr 1
      apply Finset.sum_congr rfl
      intro i2 _
      unfold get3opIndex
      congr 1; ring
  exact this N

/-- C30: the first row of the momentum-space matrix expands `[H, c†_q↑]` exactly, `H` the Hubbard Hamiltonian in
momentum space. -/
theorem momentumMatrix_first_row (hN : 0 < N) {q : ℕ} (hq : q < N) (eps : ℕ → S) (U : S) (h2 : (2 : S) ≠ 0)
    (hNS : (N : S) ≠ 0) : ∃ m, initMatrix (Spec.entries N q) N eps U N = .val m ∧ m.columns = N * N + 1 ∧
      comm (C.kinetic eps + C.momentumInteraction U) (C.basisOp (Spec.entries N q) 0) =
        ∑ p ∈ Finset.range m.columns, m.get 0 p • C.basisOp (Spec.entries N q) p := by
  obtain ⟨m, e1, _, e3, _, _, _, _, _, h00, h0i, _, _⟩ := momentumMatrix_ok hN q eps U
  refine ⟨m, e1, e3, ?_⟩
  rw [e3, sum_positions, h00, basisOp_zero, CAROn.comm_add_left, kinetic_cr C eps hq, momentumInteraction_cr C hN U hq]
  have : ∀ i1 ∈ Finset.range N, ∑ i2 ∈ Finset.range N, m.get 0 (get3opIndex N i1 i2) •
      C.basisOp (Spec.entries N q) (get3opIndex N i1 i2) =
      (U / (N : S)) • (∑ i2 ∈ Finset.range N, C.cr (i1, true) * (C.cr (i2, false) * C.an (third N q i1 i2, false))) -
      if i1 = q then (U / 2) • C.cr (q, true) else 0 := by
    intro i1 h1
    have h1 := Finset.mem_range.1 h1
    have st : ∀ i2 ∈ Finset.range N, m.get 0 (get3opIndex N i1 i2) • C.basisOp (Spec.entries N q) (get3opIndex N i1 i2) =
        (U / (N : S)) • (C.cr (i1, true) * (C.cr (i2, false) * C.an (third N q i1 i2, false))) -
        if i1 = q then (U / (2 * (N : S))) • C.cr (q, true) else 0 := by
      intro i2 hi2
      have hi2 := Finset.mem_range.1 hi2
      rw [h0i i1 h1 i2 hi2, basisOp_three C q h1 hi2]
      simp only [CAROn.labelOp, third_eq_iff hN hq h1 hi2]
      have e : U / (N : S) = U / (2 * (N : S)) * 2 := by field_simp
      rw [e, mul_smul, two_smul, mul_sub, smul_sub, two_mul (C.cr (i2, false) * C.an (third N q i1 i2, false)), mul_add]
      congr 1
      split
      · rename_i h; subst h; rw [mul_one]
      · simp
    rw [Finset.sum_congr rfl st, Finset.sum_sub_distrib, ← Finset.smul_sum]
    congr 1
    split
    · rw [Finset.sum_const, Finset.card_range, ← Nat.cast_smul_eq_nsmul S, smul_smul]
      congr 1; field_simp
    · simp
  rw [Finset.sum_congr rfl this, Finset.sum_sub_distrib, ← Finset.smul_sum, Finset.sum_ite_eq', if_pos (Finset.mem_range.2 hq),
    add_smul]
  abel

/-- C30: without interaction all rows expand `[H, A_r]` exactly. -/
theorem momentumMatrix_kinetic (hN : 0 < N) {q : ℕ} (hq : q < N) (eps : ℕ → S) :
    ∃ m, initMatrix (Spec.entries N q) N eps 0 N = .val m ∧ m.rows = N * N + 1 ∧ m.columns = N * N + 1 ∧
      ∀ row < m.rows, comm (C.kinetic eps) (C.basisOp (Spec.entries N q) row) =
        ∑ p ∈ Finset.range m.columns, m.get row p • C.basisOp (Spec.entries N q) p := by
  obtain ⟨m, e1, e2, e3, _, _, _, _, _, h00, h0i, hi0, hij⟩ := momentumMatrix_ok hN q eps (0 : S)
  refine ⟨m, e1, e2, e3, ?_⟩
  intro row hr
  rw [e2] at hr
  rw [e3, sum_positions]
  rcases Nat.eq_zero_or_pos row with rfl | hp
  · rw [h00, basisOp_zero, kinetic_cr C eps hq, Finset.sum_eq_zero]
    · simp
    · intro i1 h1
      apply Finset.sum_eq_zero
      intro i2 hi2
      rw [h0i i1 (Finset.mem_range.1 h1) i2 (Finset.mem_range.1 hi2)]; simp
  · obtain ⟨i1, i2, h1, h2, rfl⟩ := index_surj N (by omega) hr
    have h3 := third_lt hN q i1 i2
    rw [hi0 i1 h1 i2 h2, zero_div, zero_smul, zero_add, Finset.sum_eq_single i1, Finset.sum_eq_single i2,
      hij i1 h1 i2 h2 i1 h1 i2 h2, if_pos ⟨rfl, rfl⟩, zero_div, add_zero, basisOp_three C q h1 h2]
    · show _ = (eps i1 + eps i2 - eps (third N q i1 i2)) • _
      generalize third N q i1 i2 = i3 at h3
      simp only [CAROn.labelOp]
      rw [CAROn.lie_mul, kinetic_cr C eps h1]
      have k1 := kinetic_cr C eps h2 false
      have k2 := kinetic_an C eps h3 false
      have hx : comm (C.kinetic eps) (2 * (C.cr (i2, false) * C.an (i3, false)) - if i2 = i3 then 1 else 0) =
          (eps i2 - eps i3) • (2 * (C.cr (i2, false) * C.an (i3, false)) - if i2 = i3 then 1 else 0) := by
        have : comm (C.kinetic eps) (2 * (C.cr (i2, false) * C.an (i3, false)) - if i2 = i3 then 1 else 0) =
            2 * (comm (C.kinetic eps) (C.cr (i2, false) * C.an (i3, false))) := by
          unfold Spec.comm
          split <;> noncomm_ring
        rw [this, CAROn.lie_mul, k1, k2]
        by_cases he : i2 = i3
        · subst he
          simp
        · rw [if_neg he, sub_zero, smul_mul_assoc, mul_neg, mul_smul_comm, sub_smul, mul_add, mul_neg, mul_smul_comm,
            mul_smul_comm, sub_eq_add_neg]
      rw [hx, smul_mul_assoc, mul_smul_comm, ← add_smul]
      congr 1; ring
    · intro j hj hne
      rw [hij i1 h1 i2 h2 i1 h1 j (Finset.mem_range.1 hj), if_neg (fun h => hne h.2.symm), zero_smul]
    · intro h; exact absurd (Finset.mem_range.2 h2) h
    · intro j hj hne
      apply Finset.sum_eq_zero
      intro j2 hj2
      rw [hij i1 h1 i2 h2 j (Finset.mem_range.1 hj) j2 (Finset.mem_range.1 hj2), if_neg (fun h => hne h.1.symm), zero_smul]
    · intro h; exact absurd (Finset.mem_range.2 h1) h

/-- The hypotheses hold for the four momenta of a chain, on the Fock space over ℂ. -/
example : ∃ m, initMatrix (Spec.entries 4 1) 4 (fun k => (k : ℂ)) 2 4 = .val m ∧ m.columns = 4 * 4 + 1 ∧
    comm ((fockCAROn ℂ 4).kinetic (fun k => (k : ℂ)) + (fockCAROn ℂ 4).momentumInteraction (2 : ℂ))
      ((fockCAROn ℂ 4).basisOp (Spec.entries 4 1) 0) =
      ∑ p ∈ Finset.range m.columns, m.get 0 p • (fockCAROn ℂ 4).basisOp (Spec.entries 4 1) p :=
  momentumMatrix_first_row (fockCAROn ℂ 4) (by omega) (by omega) _ _ (by norm_num) (by norm_num)

end MomentumSpace

end Ieompp
