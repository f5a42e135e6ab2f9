import Verif.Props.MomentumCommutator
import Mathlib.RingTheory.RootsOfUnity.PrimitiveRoots
import Mathlib.RingTheory.RootsOfUnity.Complex
import Mathlib.Algebra.Field.GeomSum

/-! # C30: the whole momentum-space matrix is the projected Liouvillian

The proof goes through the discrete Fourier transform: in the transformed modes the momentum-space interaction is the
on-site interaction, so that the real-space result applies. -/

set_option autoImplicit false
set_option linter.unusedSectionVars false

namespace Ieompp

open Ieompp.Spec

namespace MomentumSpace
variable {N : ℕ} {R : Type*} [Ring R] (C : CAROn N R) {S : Type*} [Field S] [Algebra S R]
variable (ζ : S)

theorem zeta_dvd {ζ : S} (hζ : IsPrimitiveRoot ζ N) (z : ℤ) : ζ ^ z = 1 ↔ (N : ℤ) ∣ z := hζ.zpow_eq_one_iff_dvd z

theorem zeta_ne {ζ : S} (hN : 0 < N) (hζ : IsPrimitiveRoot ζ N) : ζ ≠ 0 := hζ.ne_zero (by omega)

/-- Orthogonality of plane waves. -/
theorem zeta_sum {ζ : S} (hN : 0 < N) (hζ : IsPrimitiveRoot ζ N) (z : ℤ) :
    ∑ x ∈ Finset.range N, ζ ^ (z * (x : ℤ)) = if (N : ℤ) ∣ z then (N : S) else 0 := by
  have h0 := zeta_ne hN hζ
  have e : ∀ x : ℕ, ζ ^ (z * (x : ℤ)) = (ζ ^ z) ^ x := fun x => by rw [zpow_mul, zpow_natCast]
  simp only [e]
  split
  · rename_i h
    rw [(zeta_dvd hζ z).2 h]; simp
  · rename_i h
    have h1 : ζ ^ z ≠ 1 := fun h' => h ((zeta_dvd hζ z).1 h')
    have h2 : (ζ ^ z) ^ N = 1 := by
      rw [← zpow_natCast, ← zpow_mul, zeta_dvd hζ]; exact dvd_mul_left _ _
    rw [geom_sum_eq h1, h2, sub_self, zero_div]

theorem dvd_sub_iff {a b : ℕ} (ha : a < N) (hb : b < N) : (N : ℤ) ∣ (a : ℤ) - b ↔ a = b := by
  constructor
  · intro h
    obtain ⟨t, ht⟩ := h
    have : t = 0 := by
      have hp : (0 : ℤ) < N := by omega
      rcases lt_trichotomy t 0 with h | h | h
      · nlinarith
      · exact h
      · nlinarith
    subst this; omega
  · rintro rfl; simp

/-- The Fourier transformed modes. -/
noncomputable def dft (hN : 0 < N) (hζ : IsPrimitiveRoot ζ N) (hNS : (N : S) ≠ 0) : CAROn N R where
  c x := if x.creator then ∑ k ∈ Finset.range N, (ζ ^ (-(k : ℤ) * x.index.1)) • C.cr (k, x.index.2)
    else ∑ k ∈ Finset.range N, ((1 / (N : S)) * ζ ^ ((k : ℤ) * x.index.1)) • C.an (k, x.index.2)
  anticomm x y hx hy := by
    have h0 := zeta_ne hN hζ
    obtain ⟨cx, x, σ⟩ := x
    obtain ⟨cy, y, τ⟩ := y
    simp only at hx hy ⊢
    have main : ∀ (x y : ℕ) (σ τ : Bool), x < N → y < N →
        (∑ k ∈ Finset.range N, ((1 / (N : S)) * ζ ^ ((k : ℤ) * x)) • C.an (k, σ)) *
        (∑ k ∈ Finset.range N, (ζ ^ (-(k : ℤ) * y)) • C.cr (k, τ)) +
        (∑ k ∈ Finset.range N, (ζ ^ (-(k : ℤ) * y)) • C.cr (k, τ)) *
        (∑ k ∈ Finset.range N, ((1 / (N : S)) * ζ ^ ((k : ℤ) * x)) • C.an (k, σ)) = if (x, σ) = (y, τ) then 1 else 0 := by
      intro x y σ τ hx hy
      rw [Finset.sum_mul_sum, Finset.sum_mul_sum, Finset.sum_comm (s := Finset.range N) (t := Finset.range N)
        (f := fun i j => (ζ ^ (-(i : ℤ) * y)) • C.cr (i, τ) * ((1 / (N : S)) * ζ ^ ((j : ℤ) * x)) • C.an (j, σ)),
        ← Finset.sum_add_distrib]
      have st : ∀ k ∈ Finset.range N, (∑ l ∈ Finset.range N, ((1 / (N : S)) * ζ ^ ((k : ℤ) * x)) • C.an (k, σ) *
          (ζ ^ (-(l : ℤ) * y)) • C.cr (l, τ)) + (∑ l ∈ Finset.range N, (ζ ^ (-(l : ℤ) * y)) • C.cr (l, τ) *
          ((1 / (N : S)) * ζ ^ ((k : ℤ) * x)) • C.an (k, σ)) =
          if σ = τ then ((1 / (N : S)) * ζ ^ (((x : ℤ) - y) * k)) • (1 : R) else 0 := by
        intro k hk
        have hk := Finset.mem_range.1 hk
        rw [← Finset.sum_add_distrib]
        have st2 : ∀ l ∈ Finset.range N, ((1 / (N : S)) * ζ ^ ((k : ℤ) * x)) • C.an (k, σ) *
          (ζ ^ (-(l : ℤ) * y)) • C.cr (l, τ) + (ζ ^ (-(l : ℤ) * y)) • C.cr (l, τ) *
          ((1 / (N : S)) * ζ ^ ((k : ℤ) * x)) • C.an (k, σ) =
          if k = l then (if σ = τ then ((1 / (N : S)) * ζ ^ (((x : ℤ) - y) * k)) • (1 : R) else 0) else 0 := by
          intro l hl
          have hl := Finset.mem_range.1 hl
          rw [smul_mul_smul_comm, smul_mul_smul_comm, mul_comm (ζ ^ (-(l : ℤ) * y)), ← smul_add,
            C.an_cr (x := (k, σ)) (y := (l, τ)) hk hl, sub_add_cancel]
          by_cases h : k = l
          · subst h
            by_cases h' : σ = τ
            · subst h'
              simp only [if_true]
              rw [mul_assoc, ← zpow_add₀ h0]
              congr 3; ring
            · simp [h']
          · simp [h]
        rw [Finset.sum_congr rfl st2, Finset.sum_ite_eq, if_pos (Finset.mem_range.2 hk)]
      rw [Finset.sum_congr rfl st]
      by_cases h' : σ = τ
      · simp only [if_pos h']
        rw [← Finset.sum_smul, ← Finset.mul_sum, zeta_sum hN hζ]
        simp only [dvd_sub_iff hx hy, h', Prod.mk.injEq, and_true]
        split
        · rw [one_div, inv_mul_cancel₀ hNS, one_smul]
        · simp
      · simp [h']
    have same : ∀ (f g : ℕ → S) (F G : ℕ → R), (∀ k < N, ∀ l < N, F k * G l = -(G l * F k)) →
        (∑ k ∈ Finset.range N, f k • F k) * (∑ l ∈ Finset.range N, g l • G l) +
        (∑ l ∈ Finset.range N, g l • G l) * (∑ k ∈ Finset.range N, f k • F k) = 0 := by
      intro f g F G h
      rw [Finset.sum_mul_sum, Finset.sum_mul_sum, Finset.sum_comm (s := Finset.range N) (t := Finset.range N)
        (f := fun i j => g i • G i * f j • F j), ← Finset.sum_add_distrib]
      apply Finset.sum_eq_zero
      intro k hk
      rw [← Finset.sum_add_distrib]
      apply Finset.sum_eq_zero
      intro l hl
      rw [smul_mul_smul_comm, smul_mul_smul_comm, h k (Finset.mem_range.1 hk) l (Finset.mem_range.1 hl), mul_comm (g l),
        smul_neg, neg_add_cancel]
    cases cx <;> cases cy <;> simp only [Bool.false_eq_true, if_false, if_true, ne_eq, not_true_eq_false, false_and,
      not_false_eq_true, true_and, reduceCtorEq]
    · exact same _ _ _ _ (fun k hk l hl => C.an_an hk hl)
    · rw [main x y σ τ hx hy]
    · rw [add_comm, main y x τ σ hy hx]
      simp only [eq_comm]
    · exact same _ _ _ _ (fun k hk l hl => C.cr_cr hk hl)

section
variable {ζ} (hN : 0 < N) (hζ : IsPrimitiveRoot ζ N) (hNS : (N : S) ≠ 0)

local notation "D" => dft C ζ hN hζ hNS

theorem dft_cr (x : ℕ) (σ : Bool) : (D).cr (x, σ) = ∑ k ∈ Finset.range N, (ζ ^ (-(k : ℤ) * x)) • C.cr (k, σ) := rfl

theorem dft_an (x : ℕ) (σ : Bool) :
    (D).an (x, σ) = ∑ k ∈ Finset.range N, ((1 / (N : S)) * ζ ^ ((k : ℤ) * x)) • C.an (k, σ) := rfl

include hN hζ hNS in
theorem delta_sum {k l : ℕ} (hk : k < N) (hl : l < N) :
    ∑ x ∈ Finset.range N, (1 / (N : S)) * ζ ^ (((k : ℤ) - l) * x) = if k = l then 1 else 0 := by
  rw [← Finset.mul_sum, zeta_sum hN hζ]
  simp only [dvd_sub_iff hk hl]
  split
  · rw [one_div, inv_mul_cancel₀ hNS]
  · simp

theorem cr_inv {k : ℕ} (hk : k < N) (σ : Bool) :
    C.cr (k, σ) = ∑ x ∈ Finset.range N, ((1 / (N : S)) * ζ ^ ((k : ℤ) * x)) • (D).cr (x, σ) := by
  have h0 := zeta_ne hN hζ
  simp only [dft_cr, Finset.smul_sum, smul_smul]
  rw [Finset.sum_comm]
  have : ∀ l ∈ Finset.range N, ∑ x ∈ Finset.range N, ((1 / (N : S)) * ζ ^ ((k : ℤ) * x) * ζ ^ (-(l : ℤ) * x)) • C.cr (l, σ) =
      if k = l then C.cr (l, σ) else 0 := by
    intro l hl
    have hl := Finset.mem_range.1 hl
    rw [← Finset.sum_smul]
    have e : ∀ x ∈ Finset.range N, (1 / (N : S)) * ζ ^ ((k : ℤ) * x) * ζ ^ (-(l : ℤ) * x) =
        (1 / (N : S)) * ζ ^ (((k : ℤ) - l) * x) := by
      intro x _
      rw [mul_assoc, ← zpow_add₀ h0]; congr 2; ring
    rw [Finset.sum_congr rfl e, delta_sum hN hζ hNS hk hl]
    split <;> simp
  rw [Finset.sum_congr rfl this, Finset.sum_ite_eq, if_pos (Finset.mem_range.2 hk)]

theorem an_inv {k : ℕ} (hk : k < N) (σ : Bool) :
    C.an (k, σ) = ∑ x ∈ Finset.range N, (ζ ^ (-(k : ℤ) * x)) • (D).an (x, σ) := by
  have h0 := zeta_ne hN hζ
  simp only [dft_an, Finset.smul_sum, smul_smul]
  rw [Finset.sum_comm]
  have : ∀ l ∈ Finset.range N, ∑ x ∈ Finset.range N, (ζ ^ (-(k : ℤ) * x) * ((1 / (N : S)) * ζ ^ ((l : ℤ) * x))) • C.an (l, σ) =
      if k = l then C.an (l, σ) else 0 := by
    intro l hl
    have hl := Finset.mem_range.1 hl
    rw [← Finset.sum_smul]
    have e : ∀ x ∈ Finset.range N, ζ ^ (-(k : ℤ) * x) * ((1 / (N : S)) * ζ ^ ((l : ℤ) * x)) =
        (1 / (N : S)) * ζ ^ (((l : ℤ) - k) * x) := by
      intro x _
      rw [mul_left_comm, ← zpow_add₀ h0]; congr 2; ring
    rw [Finset.sum_congr rfl e, delta_sum hN hζ hNS hl hk]
    simp only [eq_comm]
    split <;> simp
  rw [Finset.sum_congr rfl this, Finset.sum_ite_eq, if_pos (Finset.mem_range.2 hk)]

/-- All triples of sites. -/
def triples (N : ℕ) : Finset (ℕ × ℕ × ℕ) := Finset.range N ×ˢ Finset.range N ×ˢ Finset.range N

theorem X_inv {k l : ℕ} (hk : k < N) (hl : l < N) : RealSpace.X C k l =
    ∑ b ∈ Finset.range N, ∑ c ∈ Finset.range N, ((1 / (N : S)) * ζ ^ ((k : ℤ) * b - (l : ℤ) * c)) • RealSpace.X (D) b c := by
  have h0 := zeta_ne hN hζ
  unfold RealSpace.X
  have e1 : C.cr (k, false) * C.an (l, false) = ∑ b ∈ Finset.range N, ∑ c ∈ Finset.range N,
      ((1 / (N : S)) * ζ ^ ((k : ℤ) * b - (l : ℤ) * c)) • ((D).cr (b, false) * (D).an (c, false)) := by
    rw [cr_inv C hN hζ hNS hk, an_inv C hN hζ hNS hl, Finset.sum_mul_sum]
    apply Finset.sum_congr rfl
    intro b _
    apply Finset.sum_congr rfl
    intro c _
    rw [smul_mul_smul_comm, mul_assoc, ← zpow_add₀ h0]
    congr 3; ring
  have e2 : (if k = l then (1 : R) else 0) = ∑ b ∈ Finset.range N, ∑ c ∈ Finset.range N,
      ((1 / (N : S)) * ζ ^ ((k : ℤ) * b - (l : ℤ) * c)) • (if b = c then (1 : R) else 0) := by
    have : ∀ b ∈ Finset.range N, ∑ c ∈ Finset.range N,
      ((1 / (N : S)) * ζ ^ ((k : ℤ) * b - (l : ℤ) * c)) • (if b = c then (1 : R) else 0) =
      ((1 / (N : S)) * ζ ^ (((k : ℤ) - l) * b)) • (1 : R) := by
      intro b hb
      simp only [smul_ite, smul_zero]
      rw [Finset.sum_ite_eq, if_pos hb, sub_mul]
    rw [Finset.sum_congr rfl this, ← Finset.sum_smul, delta_sum hN hζ hNS hk hl]
    split <;> simp
  rw [e1, e2, Finset.mul_sum, ← Finset.sum_sub_distrib]
  apply Finset.sum_congr rfl
  intro b _
  rw [Finset.mul_sum, ← Finset.sum_sub_distrib]
  apply Finset.sum_congr rfl
  intro c _
  rw [smul_sub, mul_smul_comm]

theorem labelOp_inv {k1 k2 k3 : ℕ} (h1 : k1 < N) (h2 : k2 < N) (h3 : k3 < N) : C.labelOp (.three k1 k2 k3) =
    ∑ t ∈ triples N, ((1 / (N : S)) * (1 / (N : S)) * ζ ^ ((k1 : ℤ) * t.1 + (k2 : ℤ) * t.2.1 - (k3 : ℤ) * t.2.2)) •
      (D).labelOp (.three t.1 t.2.1 t.2.2) := by
  have h0 := zeta_ne hN hζ
  unfold triples
  simp only [Finset.sum_product, RealSpace.labelOp_three]
  rw [cr_inv C hN hζ hNS h1, X_inv C hN hζ hNS h2 h3, Finset.sum_mul]
  apply Finset.sum_congr rfl
  intro a _
  rw [Finset.mul_sum]
  apply Finset.sum_congr rfl
  intro b _
  rw [Finset.mul_sum]
  apply Finset.sum_congr rfl
  intro c _
  rw [smul_mul_smul_comm, mul_mul_mul_comm, ← zpow_add₀ h0]
  congr 3; ring

theorem labelOpAdj_inv {k1 k2 k3 : ℕ} (h1 : k1 < N) (h2 : k2 < N) (h3 : k3 < N) : C.labelOpAdj (.three k1 k2 k3) =
    ∑ t ∈ triples N, ((1 / (N : S)) * ζ ^ ((k3 : ℤ) * t.2.2 - (k2 : ℤ) * t.2.1 - (k1 : ℤ) * t.1)) •
      (D).labelOpAdj (.three t.1 t.2.1 t.2.2) := by
  have h0 := zeta_ne hN hζ
  unfold triples
  simp only [Finset.sum_product, RealSpace.labelOpAdj_three]
  rw [an_inv C hN hζ hNS h1, X_inv C hN hζ hNS h3 h2, Finset.mul_sum]
  apply Finset.sum_congr rfl
  intro a _
  rw [Finset.sum_comm, Finset.sum_mul]
  apply Finset.sum_congr rfl
  intro b _
  rw [Finset.sum_mul]
  apply Finset.sum_congr rfl
  intro c _
  rw [smul_mul_smul_comm, mul_assoc, ← zpow_add₀ h0]
  congr 3; ring

theorem dvd_unique {s : ℤ} {k3 : ℕ} (h3 : k3 < N) (h : (N : ℤ) ∣ s - k3) {l : ℕ} (hl : l < N) :
    (N : ℤ) ∣ s - l ↔ l = k3 := by
  rw [← dvd_sub_iff hl h3]
  constructor
  · intro h'
    have := dvd_sub h h'
    rwa [show s - k3 - (s - l) = (l : ℤ) - k3 by ring] at this
  · intro h'
    have := dvd_sub h h'
    rwa [show s - k3 - ((l : ℤ) - k3) = s - l by ring] at this

/-- The momentum-space interaction is the on-site interaction of the Fourier transformed modes. -/
theorem momentumInteraction_eq (U : S) : C.momentumInteraction U = (D).interaction U := by
  have h0 := zeta_ne hN hζ
  unfold CAROn.interaction CAROn.num
  have expand : ∀ x ∈ Finset.range N, U • ((D).cr (x, true) * (D).an (x, true) * ((D).cr (x, false) * (D).an (x, false))) =
      ∑ k ∈ Finset.range N, ∑ p ∈ Finset.range N, ∑ i ∈ Finset.range N, ∑ j ∈ Finset.range N,
        (U * (1 / (N : S)) * (1 / (N : S)) * ζ ^ (((k : ℤ) + p - i - j) * x)) •
        (C.cr (i, true) * C.an (k, true) * (C.cr (j, false) * C.an (p, false))) := by
    intro x _
    simp only [dft_cr, dft_an]
    rw [Finset.sum_mul_sum, Finset.sum_mul_sum, Finset.sum_comm, Finset.sum_mul, Finset.smul_sum]
    apply Finset.sum_congr rfl
    intro k _
    rw [Finset.sum_comm (s := Finset.range N) (t := Finset.range N) (f := fun j p => (ζ ^ (-(j : ℤ) * x)) • C.cr (j, false) *
      ((1 / (N : S)) * ζ ^ ((p : ℤ) * x)) • C.an (p, false)), Finset.mul_sum, Finset.smul_sum]
    apply Finset.sum_congr rfl
    intro p _
    rw [Finset.sum_mul_sum, Finset.smul_sum]
    apply Finset.sum_congr rfl
    intro i _
    rw [Finset.smul_sum]
    apply Finset.sum_congr rfl
    intro j _
    simp only [smul_mul_smul_comm, smul_smul]
    congr 1
    have : ζ ^ (((k : ℤ) + p - i - j) * x) = ζ ^ (-(i : ℤ) * x) * ζ ^ ((k : ℤ) * x) * (ζ ^ (-(j : ℤ) * x) * ζ ^ ((p : ℤ) * x)) := by
      rw [← zpow_add₀ h0, ← zpow_add₀ h0, ← zpow_add₀ h0]; congr 1; ring
    rw [this]; ring
  rw [Finset.sum_congr rfl expand]
  unfold CAROn.momentumInteraction
  conv_rhs => rw [Finset.sum_comm]
  apply Finset.sum_congr rfl
  intro k hk
  conv_rhs => rw [Finset.sum_comm]
  apply Finset.sum_congr rfl
  intro p hp
  conv_rhs => rw [Finset.sum_comm]
  have hk := Finset.mem_range.1 hk
  have hp := Finset.mem_range.1 hp
  have inner : ∀ i ∈ Finset.range N, ∑ x ∈ Finset.range N, ∑ j ∈ Finset.range N,
      (U * (1 / (N : S)) * (1 / (N : S)) * ζ ^ (((k : ℤ) + p - i - j) * x)) •
        (C.cr (i, true) * C.an (k, true) * (C.cr (j, false) * C.an (p, false))) =
      ∑ j ∈ Finset.range N, (if (N : ℤ) ∣ (k : ℤ) + p - i - j then U / (N : S) else 0) •
        (C.cr (i, true) * C.an (k, true) * (C.cr (j, false) * C.an (p, false))) := by
    intro i _
    rw [Finset.sum_comm]
    apply Finset.sum_congr rfl
    intro j _
    rw [← Finset.sum_smul, ← Finset.mul_sum, zeta_sum hN hζ]
    congr 1
    split
    · field_simp
    · simp
  rw [Finset.sum_congr rfl inner, ← sum_shift hN k (fun i => ∑ j ∈ Finset.range N,
    (if (N : ℤ) ∣ (k : ℤ) + p - i - j then U / (N : S) else 0) •
        (C.cr (i, true) * C.an (k, true) * (C.cr (j, false) * C.an (p, false))))]
  apply Finset.sum_congr rfl
  intro d hd
  have hd := Finset.mem_range.1 hd
  have hl : (p + (N - d)) % N < N := Nat.mod_lt _ hN
  have hdvd : (N : ℤ) ∣ (k : ℤ) + p - ((d + k) % N : ℕ) - ((p + (N - d)) % N : ℕ) := by
    have a1 := Nat.div_add_mod (d + k) N
    have a2 := Nat.div_add_mod (p + (N - d)) N
    have b1 : (((d + k) % N : ℕ) : ℤ) = d + k - N * ((d + k) / N : ℕ) := by
      have : ((N * ((d + k) / N) + (d + k) % N : ℕ) : ℤ) = ((d + k : ℕ) : ℤ) := by rw [a1]
      push_cast at this ⊢; linarith
    have b2 : (((p + (N - d)) % N : ℕ) : ℤ) = p + (N - d) - N * ((p + (N - d)) / N : ℕ) := by
      have : ((N * ((p + (N - d)) / N) + (p + (N - d)) % N : ℕ) : ℤ) = ((p + (N - d) : ℕ) : ℤ) := by rw [a2]
      rw [Nat.cast_add, Nat.cast_add, Nat.cast_mul, Nat.cast_sub hd.le] at this
      linarith
    rw [b1, b2]
    refine ⟨((d + k) / N : ℕ) + ((p + (N - d)) / N : ℕ) - 1, ?_⟩
    ring
  rw [Finset.sum_eq_single ((p + (N - d)) % N)]
  · rw [if_pos hdvd, add_comm d k]
  · intro j hj hne
    have hj := Finset.mem_range.1 hj
    rw [if_neg, zero_smul]
    rw [dvd_unique hl hdvd hj]; exact hne
  · intro h; exact absurd (Finset.mem_range.2 hl) h

end

/-! ### Matrix elements -/

variable (τ : R →ₗ[S] S) (hτ : ∀ x y, τ (x * y) = τ (y * x)) (h2 : (2 : S) ≠ 0)
include hτ h2

/-- Matrix elements of the on-site interaction between real-space labels, normalised. -/
theorem interaction_element (U : S) {w v : Label} (hw : w.Valid N) (hv : v.Valid N) :
    τ (C.labelOpAdj v * comm (C.interaction U) (C.labelOp w)) =
      element (fun _ => []) 0 U w v * (1 / 2 * τ 1) := by
  have g := fun {x : Label} (hx : x.Valid N) => RealSpace.trace_gram C τ hτ h2 hx hv
  cases w with
  | one i =>
    have hi : i < N := hw
    rw [RealSpace.interaction_one C U h2 hi, mul_add, mul_smul_comm, mul_smul_comm, map_add, map_smul, map_smul,
      g hw, g (x := .three i i i) ⟨hi, hi, hi⟩]
    cases v with
    | one j => simp [element]
    | three a b c => simp only [element, reduceCtorEq, if_false, Label.three.injEq, smul_eq_mul]; split <;> simp
  | three a b c =>
    obtain ⟨ha, hb, hc⟩ := hw
    rw [RealSpace.interaction_three C U h2 ha hb hc, mul_add, mul_add, map_add, map_add, mul_smul_comm, map_smul,
      RealSpace.trace_remainder C τ hτ h2 U ha hb hc hv, add_zero, g (x := .three a b c) ⟨ha, hb, hc⟩]
    have e : τ (C.labelOpAdj v * if a = b ∧ a = c then (U / 2) • C.labelOp (.one a) else 0) =
        if a = b ∧ a = c ∧ v = .one a then (U / 2) * (1 / 2 * τ 1) else 0 := by
      by_cases h : a = b ∧ a = c
      · rw [if_pos h, mul_smul_comm, map_smul, g (x := .one a) ha]
        simp only [h.1.symm, h.2.symm, true_and, eq_comm, smul_eq_mul, mul_ite, mul_zero]
      · rw [if_neg h, mul_zero, map_zero, if_neg (fun h' => h ⟨h'.1, h'.2.1⟩)]
    rw [e]
    cases v with
    | one j =>
      simp only [element, reduceCtorEq, if_false, smul_zero, zero_add, Label.one.injEq]
      have : (a = b ∧ a = c ∧ j = a) ↔ (j = a ∧ j = b ∧ j = c) := by omega
      simp only [this]; split <;> simp
    | three a' b' c' =>
      simp only [element, List.not_mem_nil, false_and, and_false, if_false, zero_add, reduceCtorEq, add_zero,
        Label.three.injEq, smul_eq_mul, eq_comm]
      split <;> simp

omit hτ h2 in
/-- Expansion of a matrix element. -/
theorem bilinear_expand {α β : Type*} (s : Finset α) (t : Finset β) (φ : α → S) (X : α → R) (ψ : β → S) (Y : β → R) (H : R) :
    τ ((∑ v ∈ t, ψ v • Y v) * comm H (∑ w ∈ s, φ w • X w)) =
      ∑ w ∈ s, ∑ v ∈ t, φ w * ψ v * τ (Y v * comm H (X w)) := by
  rw [Finset.sum_comm]
  have e : comm H (∑ w ∈ s, φ w • X w) = ∑ w ∈ s, φ w • comm H (X w) := by
    unfold Spec.comm
    rw [Finset.mul_sum, Finset.sum_mul, ← Finset.sum_sub_distrib]
    apply Finset.sum_congr rfl
    intro w _
    rw [mul_smul_comm, smul_mul_assoc, smul_sub]
  rw [e, Finset.sum_mul_sum, map_sum]
  apply Finset.sum_congr rfl
  intro v _
  rw [map_sum]
  apply Finset.sum_congr rfl
  intro w _
  rw [smul_mul_smul_comm, map_smul, smul_eq_mul, mul_comm (ψ v)]

section
variable {ζ} (hN : 0 < N) (hζ : IsPrimitiveRoot ζ N) (hNS : (N : S) ≠ 0)
omit hτ h2 in
theorem triples_valid {t : ℕ × ℕ × ℕ} (ht : t ∈ triples N) : Label.Valid N (.three t.1 t.2.1 t.2.2) := by
  unfold triples at ht
  simp only [Finset.mem_product, Finset.mem_range] at ht
  exact ht

omit hτ h2 in
theorem diag_mem {i : ℕ} (hi : i ∈ Finset.range N) : (i, i, i) ∈ triples N := by
  unfold triples
  simp only [Finset.mem_product]
  exact ⟨hi, hi, hi⟩

include hN hζ hNS

/-- Interaction element `⟨c†_q, [H_int, c†_q]⟩`. -/
theorem momentum_element_11 (U : S) {q : ℕ} (hq : q < N) :
    τ (C.labelOpAdj (.one q) * comm (C.momentumInteraction U) (C.labelOp (.one q))) = U / 2 * (1 / 2 * τ 1) := by
  have h0 := zeta_ne hN hζ
  rw [momentumInteraction_eq C hN hζ hNS]
  simp only [CAROn.labelOp, CAROn.labelOpAdj]
  rw [cr_inv C hN hζ hNS hq, an_inv C hN hζ hNS hq, bilinear_expand]
  have : ∀ w ∈ Finset.range N, ∑ v ∈ Finset.range N, (1 / (N : S)) * ζ ^ ((q : ℤ) * w) * ζ ^ (-(q : ℤ) * v) *
      τ ((dft C ζ hN hζ hNS).an (v, true) * comm ((dft C ζ hN hζ hNS).interaction U) ((dft C ζ hN hζ hNS).cr (w, true))) =
      (1 / (N : S)) * (U / 2 * (1 / 2 * τ 1)) := by
    intro w hw
    have e : ∀ v ∈ Finset.range N, (1 / (N : S)) * ζ ^ ((q : ℤ) * w) * ζ ^ (-(q : ℤ) * v) *
        τ ((dft C ζ hN hζ hNS).an (v, true) * comm ((dft C ζ hN hζ hNS).interaction U) ((dft C ζ hN hζ hNS).cr (w, true))) =
        if w = v then (1 / (N : S)) * (U / 2 * (1 / 2 * τ 1)) else 0 := by
      intro v hv
      have := interaction_element (dft C ζ hN hζ hNS) τ hτ h2 U (w := .one w) (v := .one v)
        (Finset.mem_range.1 hw) (Finset.mem_range.1 hv)
      simp only [CAROn.labelOp, CAROn.labelOpAdj] at this
      rw [this]
      simp only [element, List.not_mem_nil, if_false, zero_add]
      split
      · rename_i h
        subst h
        rw [mul_assoc (1 / (N : S)), ← zpow_add₀ h0, neg_mul, add_neg_cancel, zpow_zero, mul_one]
      · simp
    rw [Finset.sum_congr rfl e, Finset.sum_ite_eq, if_pos hw]
  rw [Finset.sum_congr rfl this, Finset.sum_const, Finset.card_range, nsmul_eq_mul, ← mul_assoc, mul_one_div_cancel hNS, one_mul]

/-- Interaction element between `c†_q` and a three-operator monomial of the same total momentum. -/
theorem momentum_element_13 (U : S) {q k1 k2 k3 : ℕ} (hq : q < N) (h1 : k1 < N) (hk2 : k2 < N) (h3 : k3 < N)
    (hc : (N : ℤ) ∣ (q : ℤ) + k3 - k2 - k1) :
    τ (C.labelOpAdj (.three k1 k2 k3) * comm (C.momentumInteraction U) (C.labelOp (.one q))) =
      U / (2 * (N : S)) * (1 / 2 * τ 1) := by
  have h0 := zeta_ne hN hζ
  rw [momentumInteraction_eq C hN hζ hNS, show C.labelOp (.one q) = C.cr (q, true) from rfl,
    cr_inv C hN hζ hNS hq, labelOpAdj_inv C hN hζ hNS h1 hk2 h3, bilinear_expand]
  have : ∀ w ∈ Finset.range N, ∑ v ∈ triples N, (1 / (N : S)) * ζ ^ ((q : ℤ) * w) *
      ((1 / (N : S)) * ζ ^ ((k3 : ℤ) * v.2.2 - (k2 : ℤ) * v.2.1 - (k1 : ℤ) * v.1)) *
      τ ((dft C ζ hN hζ hNS).labelOpAdj (.three v.1 v.2.1 v.2.2) *
        comm ((dft C ζ hN hζ hNS).interaction U) ((dft C ζ hN hζ hNS).cr (w, true))) =
      (1 / (N : S)) * (1 / (N : S)) * (U / 2 * (1 / 2 * τ 1)) := by
    intro w hw
    have e : ∀ v ∈ triples N, (1 / (N : S)) * ζ ^ ((q : ℤ) * w) *
        ((1 / (N : S)) * ζ ^ ((k3 : ℤ) * v.2.2 - (k2 : ℤ) * v.2.1 - (k1 : ℤ) * v.1)) *
        τ ((dft C ζ hN hζ hNS).labelOpAdj (.three v.1 v.2.1 v.2.2) *
          comm ((dft C ζ hN hζ hNS).interaction U) ((dft C ζ hN hζ hNS).cr (w, true))) =
        if (w, w, w) = v then (1 / (N : S)) * (1 / (N : S)) * (U / 2 * (1 / 2 * τ 1)) else 0 := by
      intro v hv
      have := interaction_element (dft C ζ hN hζ hNS) τ hτ h2 U (w := .one w)
        (Finset.mem_range.1 hw) (triples_valid hv)
      simp only [CAROn.labelOp] at this
      rw [this]
      obtain ⟨a, b, c⟩ := v
      simp only [element, Prod.mk.injEq]
      split
      · rename_i h
        obtain ⟨rfl, rfl, rfl⟩ := h
        have ez := zpow_add₀ h0 ((q : ℤ) * w) ((k3 : ℤ) * w - (k2 : ℤ) * w - (k1 : ℤ) * w)
        have : (q : ℤ) * w + ((k3 : ℤ) * w - (k2 : ℤ) * w - (k1 : ℤ) * w) = ((q : ℤ) + k3 - k2 - k1) * w := by ring
        rw [this, (zeta_dvd hζ _).2 (dvd_mul_of_dvd_left hc _)] at ez
        linear_combination (-(1 / (N : S) * (1 / (N : S)) * (U / 2 * (1 / 2 * τ 1)))) * ez
      · simp
    rw [Finset.sum_congr rfl e, Finset.sum_ite_eq, if_pos (diag_mem hw)]
  rw [Finset.sum_congr rfl this, Finset.sum_const, Finset.card_range, nsmul_eq_mul]
  field_simp

/-- Interaction element between a three-operator monomial and `c†_q` of the same total momentum. -/
theorem momentum_element_31 (U : S) {q k1 k2 k3 : ℕ} (hq : q < N) (h1 : k1 < N) (hk2 : k2 < N) (h3 : k3 < N)
    (hc : (N : ℤ) ∣ (q : ℤ) + k3 - k2 - k1) :
    τ (C.labelOpAdj (.one q) * comm (C.momentumInteraction U) (C.labelOp (.three k1 k2 k3))) =
      U / (2 * (N : S)) * (1 / 2 * τ 1) := by
  have h0 := zeta_ne hN hζ
  rw [momentumInteraction_eq C hN hζ hNS, show C.labelOpAdj (.one q) = C.an (q, true) from rfl,
    an_inv C hN hζ hNS hq, labelOp_inv C hN hζ hNS h1 hk2 h3, bilinear_expand, Finset.sum_comm]
  have : ∀ v ∈ Finset.range N, ∑ w ∈ triples N,
      (1 / (N : S)) * (1 / (N : S)) * ζ ^ ((k1 : ℤ) * w.1 + (k2 : ℤ) * w.2.1 - (k3 : ℤ) * w.2.2) * ζ ^ (-(q : ℤ) * v) *
      τ ((dft C ζ hN hζ hNS).an (v, true) * comm ((dft C ζ hN hζ hNS).interaction U)
        ((dft C ζ hN hζ hNS).labelOp (.three w.1 w.2.1 w.2.2))) =
      (1 / (N : S)) * (1 / (N : S)) * (U / 2 * (1 / 2 * τ 1)) := by
    intro v hv
    have e : ∀ w ∈ triples N,
        (1 / (N : S)) * (1 / (N : S)) * ζ ^ ((k1 : ℤ) * w.1 + (k2 : ℤ) * w.2.1 - (k3 : ℤ) * w.2.2) * ζ ^ (-(q : ℤ) * v) *
        τ ((dft C ζ hN hζ hNS).an (v, true) * comm ((dft C ζ hN hζ hNS).interaction U)
          ((dft C ζ hN hζ hNS).labelOp (.three w.1 w.2.1 w.2.2))) =
        if (v, v, v) = w then (1 / (N : S)) * (1 / (N : S)) * (U / 2 * (1 / 2 * τ 1)) else 0 := by
      intro w hw
      have := interaction_element (dft C ζ hN hζ hNS) τ hτ h2 U (v := .one v)
        (triples_valid hw) (Finset.mem_range.1 hv)
      rw [show (dft C ζ hN hζ hNS).labelOpAdj (.one v) = (dft C ζ hN hζ hNS).an (v, true) from rfl] at this
      rw [this]
      obtain ⟨a, b, c⟩ := w
      simp only [element, Prod.mk.injEq]
      split
      · rename_i h
        obtain ⟨rfl, rfl, rfl⟩ := h
        rw [mul_assoc ((1 / (N : S)) * (1 / (N : S))), ← zpow_add₀ h0]
        have : (k1 : ℤ) * v + (k2 : ℤ) * v - (k3 : ℤ) * v + -(q : ℤ) * v = ((q : ℤ) + k3 - k2 - k1) * (-v) := by ring
        rw [this, (zeta_dvd hζ _).2 (dvd_mul_of_dvd_left hc _), mul_one]
      · simp
    rw [Finset.sum_congr rfl e, Finset.sum_ite_eq, if_pos (diag_mem hv)]
  rw [Finset.sum_congr rfl this, Finset.sum_const, Finset.card_range, nsmul_eq_mul]
  field_simp

/-- Interaction element between two three-operator monomials. -/
theorem momentum_element_33 (U : S) {k1 k2 k3 l1 l2 l3 : ℕ} (h1 : k1 < N) (hk2 : k2 < N) (h3 : k3 < N)
    (g1 : l1 < N) (g2 : l2 < N) (g3 : l3 < N) :
    τ (C.labelOpAdj (.three l1 l2 l3) * comm (C.momentumInteraction U) (C.labelOp (.three k1 k2 k3))) =
      if k1 = l1 ∧ k2 = l2 ∧ k3 = l3 then U / 2 * (1 / 2 * τ 1) else 0 := by
  have h0 := zeta_ne hN hζ
  rw [momentumInteraction_eq C hN hζ hNS, labelOpAdj_inv C hN hζ hNS g1 g2 g3, labelOp_inv C hN hζ hNS h1 hk2 h3,
    bilinear_expand]
  have : ∀ w ∈ triples N, ∑ v ∈ triples N,
      (1 / (N : S)) * (1 / (N : S)) * ζ ^ ((k1 : ℤ) * w.1 + (k2 : ℤ) * w.2.1 - (k3 : ℤ) * w.2.2) *
      ((1 / (N : S)) * ζ ^ ((l3 : ℤ) * v.2.2 - (l2 : ℤ) * v.2.1 - (l1 : ℤ) * v.1)) *
      τ ((dft C ζ hN hζ hNS).labelOpAdj (.three v.1 v.2.1 v.2.2) * comm ((dft C ζ hN hζ hNS).interaction U)
        ((dft C ζ hN hζ hNS).labelOp (.three w.1 w.2.1 w.2.2))) =
      ((1 / (N : S)) * ζ ^ (((k1 : ℤ) - l1) * w.1)) * (((1 / (N : S)) * ζ ^ (((k2 : ℤ) - l2) * w.2.1)) *
        ((1 / (N : S)) * ζ ^ (((l3 : ℤ) - k3) * w.2.2))) * (U / 2 * (1 / 2 * τ 1)) := by
    intro w hw
    have e : ∀ v ∈ triples N,
        (1 / (N : S)) * (1 / (N : S)) * ζ ^ ((k1 : ℤ) * w.1 + (k2 : ℤ) * w.2.1 - (k3 : ℤ) * w.2.2) *
        ((1 / (N : S)) * ζ ^ ((l3 : ℤ) * v.2.2 - (l2 : ℤ) * v.2.1 - (l1 : ℤ) * v.1)) *
        τ ((dft C ζ hN hζ hNS).labelOpAdj (.three v.1 v.2.1 v.2.2) * comm ((dft C ζ hN hζ hNS).interaction U)
          ((dft C ζ hN hζ hNS).labelOp (.three w.1 w.2.1 w.2.2))) =
        if w = v then ((1 / (N : S)) * ζ ^ (((k1 : ℤ) - l1) * w.1)) * (((1 / (N : S)) * ζ ^ (((k2 : ℤ) - l2) * w.2.1)) *
        ((1 / (N : S)) * ζ ^ (((l3 : ℤ) - k3) * w.2.2))) * (U / 2 * (1 / 2 * τ 1)) else 0 := by
      intro v hv
      rw [interaction_element (dft C ζ hN hζ hNS) τ hτ h2 U (triples_valid hw) (triples_valid hv)]
      obtain ⟨a, b, c⟩ := w
      obtain ⟨a', b', c'⟩ := v
      simp only [element, Prod.mk.injEq, List.not_mem_nil, false_and, and_false, if_false, zero_add]
      by_cases h : a = a' ∧ b = b' ∧ c = c'
      · obtain ⟨rfl, rfl, rfl⟩ := h
        simp only [and_self, if_true]
        have ez : ζ ^ ((k1 : ℤ) * a + (k2 : ℤ) * b - (k3 : ℤ) * c) * ζ ^ ((l3 : ℤ) * c - (l2 : ℤ) * b - (l1 : ℤ) * a) =
            ζ ^ (((k1 : ℤ) - l1) * a) * (ζ ^ (((k2 : ℤ) - l2) * b) * ζ ^ (((l3 : ℤ) - k3) * c)) := by
          rw [← zpow_add₀ h0, ← zpow_add₀ h0, ← zpow_add₀ h0]; congr 1; ring
        linear_combination (1 / (N : S)) * (1 / (N : S)) * (1 / (N : S)) * (U / 2 * (1 / 2 * τ 1)) * ez
      · rw [if_neg h, if_neg (by rintro ⟨h1, h2, h3⟩; exact h ⟨h1.symm, h2.symm, h3.symm⟩)]
        simp
    rw [Finset.sum_congr rfl e, Finset.sum_ite_eq, if_pos hw]
  rw [Finset.sum_congr rfl this, ← Finset.sum_mul]
  unfold triples
  simp only [Finset.sum_product]
  simp only [← Finset.mul_sum, ← Finset.sum_mul]
  simp only [Finset.mul_sum]
  rw [delta_sum hN hζ hNS h1 g1, delta_sum hN hζ hNS hk2 g2, ← Finset.mul_sum, ← Finset.mul_sum,
    delta_sum hN hζ hNS g3 h3]
  by_cases a1 : k1 = l1 <;> by_cases a2 : k2 = l2 <;> by_cases a3 : k3 = l3 <;> simp [a1, a2, a3, eq_comm]

omit hτ h2 hζ hNS in
theorem third_dvd (q k1 k2 : ℕ) : (N : ℤ) ∣ (q : ℤ) + third N q k1 k2 - k2 - k1 := by
  have e : ((third N q k1 k2 : ℕ) : ℤ) = ((k1 : ℤ) + k2 - q) % N := by
    unfold third siteMod
    exact Int.toNat_of_nonneg (Int.emod_nonneg _ (by omega))
  rw [e]
  refine ⟨-(((k1 : ℤ) + k2 - q) / N), ?_⟩
  have := Int.emod_add_mul_ediv ((k1 : ℤ) + k2 - q) N
  linarith

omit hτ h2 hζ hNS hN in
theorem kinetic_three (eps : ℕ → S) {i1 i2 i3 : ℕ} (h1 : i1 < N) (hi2 : i2 < N) (h3 : i3 < N) :
    comm (C.kinetic eps) (C.labelOp (.three i1 i2 i3)) = (eps i1 + eps i2 - eps i3) • C.labelOp (.three i1 i2 i3) := by
  simp only [CAROn.labelOp]
  rw [CAROn.lie_mul, kinetic_cr C eps h1]
  have k1 := kinetic_cr C eps hi2 false
  have k2 := kinetic_an C eps h3 false
  have hx : comm (C.kinetic eps) (2 * (C.cr (i2, false) * C.an (i3, false)) - if i2 = i3 then 1 else 0) =
      (eps i2 - eps i3) • (2 * (C.cr (i2, false) * C.an (i3, false)) - if i2 = i3 then 1 else 0) := by
    have : comm (C.kinetic eps) (2 * (C.cr (i2, false) * C.an (i3, false)) - if i2 = i3 then 1 else 0) =
        2 * (comm (C.kinetic eps) (C.cr (i2, false) * C.an (i3, false))) := by
      unfold Spec.comm
      split <;> noncomm_ring
    rw [this, CAROn.lie_mul, k1, k2]
    by_cases he : i2 = i3
    · subst he
      simp
    · rw [if_neg he, sub_zero, smul_mul_assoc, mul_neg, mul_smul_comm, sub_smul, mul_add, mul_neg, mul_smul_comm,
        mul_smul_comm, sub_eq_add_neg]
  rw [hx, smul_mul_assoc, mul_smul_comm, ← add_smul]
  congr 1; ring

/-- The label of a position of the momentum-space basis. -/
def label (N q p : ℕ) : Label :=
  if p = 0 then .one q else .three ((p - 1) / N) ((p - 1) % N) (third N q ((p - 1) / N) ((p - 1) % N))

omit hτ h2 hζ hNS hN in
theorem label_index (q : ℕ) {i1 i2 : ℕ} (hi2 : i2 < N) :
    label N q (get3opIndex N i1 i2) = .three i1 i2 (third N q i1 i2) := by
  have e : get3opIndex N i1 i2 - 1 = N * i1 + i2 := by unfold get3opIndex; rw [mul_comm N]; omega
  have hd : (get3opIndex N i1 i2 - 1) / N = i1 := by
    rw [e, Nat.mul_add_div (by omega), Nat.div_eq_of_lt hi2, add_zero]
  have hm : (get3opIndex N i1 i2 - 1) % N = i2 := by
    rw [e, Nat.mul_add_mod, Nat.mod_eq_of_lt hi2]
  unfold label
  rw [if_neg (by unfold get3opIndex; omega), hd, hm]

/-- C30: the whole momentum-space matrix is the projected Liouvillian: for every trace `τ` (infinite temperature scalar
product) and all basis operators, `⟨A_p', [H, A_p]⟩ = M(p, p') ⟨A_p', A_p'⟩`; different basis operators are orthogonal.
`H` is the momentum-space Hubbard Hamiltonian. -/
theorem momentumMatrix_projection {q : ℕ} (hq : q < N) (eps : ℕ → S) (U : S) :
    ∃ m, initMatrix (Spec.entries N q) N eps U N = .val m ∧ m.rows = N * N + 1 ∧ m.columns = N * N + 1 ∧
      ∀ p < m.rows, ∀ p' < m.columns,
        C.basisOp (Spec.entries N q) p = C.labelOp (label N q p) ∧
        τ (C.labelOpAdj (label N q p') * comm (C.kinetic eps + C.momentumInteraction U) (C.basisOp (Spec.entries N q) p)) =
          m.get p p' * τ (C.labelOpAdj (label N q p') * C.basisOp (Spec.entries N q) p') ∧
        τ (C.labelOpAdj (label N q p') * C.basisOp (Spec.entries N q) p) = if p = p' then 1 / 2 * τ 1 else 0 := by
  obtain ⟨m, e1, e2, e3, _, _, _, _, _, h00, h0i, hi0, hij⟩ := momentumMatrix_ok hN q eps U
  refine ⟨m, e1, e2, e3, ?_⟩
  rw [e2, e3]
  have l0 : label N q 0 = .one q := rfl
  have ne0 : ∀ i j, get3opIndex N i j ≠ 0 := by intro i j; unfold get3opIndex; omega
  have vq : Label.Valid N (.one q) := hq
  have v3 : ∀ i1 < N, ∀ i2 < N, Label.Valid N (.three i1 i2 (third N q i1 i2)) := fun i1 a i2 b =>
    ⟨a, b, third_lt hN q i1 i2⟩
  have g := fun {x y : Label} (hx : x.Valid N) (hy : y.Valid N) => RealSpace.trace_gram C τ hτ h2 hx hy
  intro p hp p' hp'
  rcases Nat.eq_zero_or_pos p with rfl | pp
  · have b0 : C.basisOp (Spec.entries N q) 0 = C.labelOp (.one q) := rfl
    have k0 : comm (C.kinetic eps) (C.labelOp (.one q)) = eps q • C.labelOp (.one q) := kinetic_cr C eps hq true
    rw [l0, b0]
    refine ⟨rfl, ?_⟩
    rcases Nat.eq_zero_or_pos p' with rfl | pp'
    · rw [l0, CAROn.comm_add_left, mul_add, map_add, momentum_element_11 C τ hτ h2 hN hζ hNS U hq, k0, mul_smul_comm,
        map_smul, b0, g vq vq, if_pos rfl, h00, smul_eq_mul]
      exact ⟨by ring, by rw [if_pos rfl]⟩
    · obtain ⟨i1, i2, a, b, rfl⟩ := index_surj N (by omega) hp'
      rw [label_index q b, CAROn.comm_add_left, mul_add, map_add, momentum_element_13 C τ hτ h2 hN hζ hNS U hq a b
        (third_lt hN q i1 i2) (third_dvd hN q i1 i2), k0, mul_smul_comm, map_smul, basisOp_three C q a b, g vq (v3 _ a _ b),
        if_neg (by simp), g (v3 _ a _ b) (v3 _ a _ b), if_pos rfl, smul_zero, zero_add, h0i i1 a i2 b, if_neg (ne0 i1 i2).symm]
      exact ⟨rfl, rfl⟩
  · obtain ⟨i1, i2, a, b, rfl⟩ := index_surj N (by omega) hp
    rw [label_index q b, basisOp_three C q a b]
    refine ⟨rfl, ?_⟩
    have k0 := kinetic_three C eps a b (third_lt hN q i1 i2)
    rcases Nat.eq_zero_or_pos p' with rfl | pp'
    · have b0 : C.basisOp (Spec.entries N q) 0 = C.labelOp (.one q) := rfl
      rw [l0, b0, CAROn.comm_add_left, mul_add, map_add, momentum_element_31 C τ hτ h2 hN hζ hNS U hq a b
        (third_lt hN q i1 i2) (third_dvd hN q i1 i2), k0, mul_smul_comm, map_smul, g (v3 _ a _ b) vq,
        if_neg (by simp), g vq vq, if_pos rfl, smul_zero, zero_add, hi0 i1 a i2 b, if_neg (ne0 i1 i2)]
      exact ⟨rfl, rfl⟩
    · obtain ⟨j1, j2, c, d, rfl⟩ := index_surj N (by omega) hp'
      rw [label_index q d, CAROn.comm_add_left, mul_add, map_add, momentum_element_33 C τ hτ h2 hN hζ hNS U a b
        (third_lt hN q i1 i2) c d (third_lt hN q j1 j2), k0, mul_smul_comm, map_smul, basisOp_three C q c d,
        g (v3 _ a _ b) (v3 _ c _ d), g (v3 _ c _ d) (v3 _ c _ d), if_pos rfl, hij i1 a i2 b j1 c j2 d, smul_eq_mul]
      simp only [index_inj b d, Label.three.injEq]
      by_cases h : i1 = j1 ∧ i2 = j2
      · obtain ⟨rfl, rfl⟩ := h
        simp only [and_self, if_true]
        refine ⟨?_, trivial⟩
        rw [show siteMod ((i1 : ℤ) + i2 - q) N = third N q i1 i2 from rfl]; ring
      · have h' : ¬ (i1 = j1 ∧ i2 = j2 ∧ third N q i1 i2 = third N q j1 j2) := fun h' => h ⟨h'.1, h'.2.1⟩
        simp only [if_neg h, if_neg h']
        simp

end

/-- The hypotheses hold: four momenta, the Fock space over ℂ, its trace. -/
example : ∃ τ : Module.End ℂ (Finset (Fin 4 ×ₗ Bool) → ℂ) →ₗ[ℂ] ℂ, (∀ x y, τ (x * y) = τ (y * x)) ∧ τ 1 ≠ 0 ∧
    ∃ m, initMatrix (Spec.entries 4 1) 4 (fun k => (k : ℂ)) 2 4 = .val m ∧
      τ ((fockCAROn ℂ 4).labelOpAdj (.one 1) *
        comm ((fockCAROn ℂ 4).kinetic (fun k => (k : ℂ)) + (fockCAROn ℂ 4).momentumInteraction (2 : ℂ))
          ((fockCAROn ℂ 4).basisOp (Spec.entries 4 1) 0)) = m.get 0 0 * (1 / 2 * τ 1) := by
  obtain ⟨τ, h1, h2⟩ := fock_trace 4
  refine ⟨τ, h1, h2, ?_⟩
  obtain ⟨m, e, r, c, h⟩ := momentumMatrix_projection (fockCAROn ℂ 4) τ h1 (by norm_num) (by omega)
    (Complex.isPrimitiveRoot_exp 4 (by norm_num)) (by norm_num) (q := 1) (by omega) (fun k => (k : ℂ)) 2
  refine ⟨m, e, ?_⟩
  have := h 0 (by omega) 0 (by omega)
  rw [if_pos rfl] at this
  rw [← this.2.2]
  exact this.2.1

end MomentumSpace

end Ieompp
