import Verif.Props.MatrixNo
import Verif.Spec.NormalOrder
import Verif.Model.SparseNo
import Mathlib.Tactic.IntervalCases

/-! # C31: the three-operator rows of the normal-ordered matrix -/

set_option autoImplicit false
set_option linter.unusedSectionVars false

namespace Ieompp

open Spec

namespace RealSpace
variable {S : Type*} [Field S] [DecidableEq S] {N z : ℕ} {nb : ℕ → List ℕ}
variable {R : Type*} [Ring R] (C : CAROn N R) [Algebra S R]

/-- Creator. -/
def mk (a : ℕ) (s : Bool) : Op (ℕ × Bool) := ⟨true, (a, s)⟩
/-- Annihilator. -/
def mk' (a : ℕ) (s : Bool) : Op (ℕ × Bool) := ⟨false, (a, s)⟩

theorem noWick1 (ev : ℕ → ℕ → S) (x : Op (ℕ × Bool)) : normalOrdered C.c (twoPoint ev) [x] = C.c x := by
  rw [normalOrdered, normalOrdered]
  simp

theorem noWick2 (ev : ℕ → ℕ → S) (x y : Op (ℕ × Bool)) : normalOrdered C.c (twoPoint ev) [x, y] = C.c x * C.c y - twoPoint ev x y • 1 := by
  rw [normalOrdered, noWick1]; erw [Fin.sum_univ_one]
  simp [normalOrdered]

theorem noWick3 (ev : ℕ → ℕ → S) (x y z : Op (ℕ × Bool)) : normalOrdered C.c (twoPoint ev) [x, y, z] =
    C.c x * (C.c y * C.c z - twoPoint ev y z • 1) - twoPoint ev x y • C.c z + twoPoint ev x z • C.c y := by
  rw [normalOrdered, noWick2]; erw [Fin.sum_univ_two]
  simp [noWick1]
  abel

theorem noWick4 (ev : ℕ → ℕ → S) (x y z w : Op (ℕ × Bool)) : normalOrdered C.c (twoPoint ev) [x, y, z, w] =
    C.c x * normalOrdered C.c (twoPoint ev) [y, z, w] - twoPoint ev x y • normalOrdered C.c (twoPoint ev) [z, w]
     + twoPoint ev x z • normalOrdered C.c (twoPoint ev) [y, w] - twoPoint ev x w • normalOrdered C.c (twoPoint ev) [y, z] := by
  rw [normalOrdered]; erw [Fin.sum_univ_three]
  simp
  abel

theorem noWick5 (ev : ℕ → ℕ → S) (x y z w v : Op (ℕ × Bool)) : normalOrdered C.c (twoPoint ev) [x, y, z, w, v] =
    C.c x * normalOrdered C.c (twoPoint ev) [y, z, w, v] - twoPoint ev x y • normalOrdered C.c (twoPoint ev) [z, w, v]
     + twoPoint ev x z • normalOrdered C.c (twoPoint ev) [y, w, v] - twoPoint ev x w • normalOrdered C.c (twoPoint ev) [y, z, v]
     + twoPoint ev x v • normalOrdered C.c (twoPoint ev) [y, z, w] := by
  rw [normalOrdered]; erw [Fin.sum_univ_four]
  simp [pow_succ]
  abel

/-- The part of `[H, A_abc]` outside of the space spanned by the basis: normal-ordered products of five operators, and of
three operators of spin up. -/
def outside (ev : ℕ → ℕ → S) (a b c : ℕ) : R :=
  let W := normalOrdered C.c (twoPoint ev)
  W [⟨true, (a, true)⟩, ⟨true, (a, false)⟩, ⟨false, (a, false)⟩, ⟨true, (b, false)⟩, ⟨false, (c, false)⟩] +
  W [⟨true, (a, true)⟩, ⟨true, (b, true)⟩, ⟨false, (b, true)⟩, ⟨true, (b, false)⟩, ⟨false, (c, false)⟩] -
  W [⟨true, (a, true)⟩, ⟨true, (c, true)⟩, ⟨false, (c, true)⟩, ⟨true, (b, false)⟩, ⟨false, (c, false)⟩] +
  ev b c • (W [⟨true, (a, true)⟩, ⟨true, (b, true)⟩, ⟨false, (b, true)⟩] - W [⟨true, (a, true)⟩, ⟨true, (c, true)⟩, ⟨false, (c, true)⟩])

/-- The elements of the normal-ordered basis are Wick's normal-ordered products. -/
theorem noOp_eq_wick (ev : ℕ → ℕ → S) (a b c : ℕ) : noOp C ev (.three a b c) =
    normalOrdered C.c (twoPoint ev) [⟨true, (a, true)⟩, ⟨true, (b, false)⟩, ⟨false, (c, false)⟩] := by
  rw [noWick3]
  simp [twoPoint, noOp, CAROn.cr, CAROn.an]

theorem comm_three_no (U : S) (ev : ℕ → ℕ → S) {a b c : ℕ} (ha : a < N) (hb : b < N) (hc : c < N) :
    comm (C.interaction U) (noOp C ev (.three a b c)) = U • outside C ev a b c + U • (
      (ev a a + ev b b - ev c c) • noOp C ev (.three a b c) +
      ((if a = b then 1 else 0) - ev b a) • noOp C ev (.three a a c) - ev a c • noOp C ev (.three a b a) -
      ev a b • noOp C ev (.three b b c) + ev a c • noOp C ev (.three c b c) +
      (ev a c * ((if a = b then 1 else 0) - ev b a) + (ev b b - ev c c) * ev b c) • noOp C ev (.one a) -
      (ev a b * ev b c) • noOp C ev (.one b) + (ev a c * ev b c) • noOp C ev (.one c)) := by
  have c1 : Commute (C.num (c, true)) (C.cr (b, false)) := C.num_comm_cr hc hb (by simp)
  have lhs : comm (C.interaction U) (noOp C ev (.three a b c)) =
      U • (C.cr (a, true) * C.num (a, false) * (C.cr (b, false) * C.an (c, false) - ev b c • 1) +
        C.cr (a, true) * C.num (b, true) * (C.cr (b, false) * C.an (c, false)) -
        C.cr (a, true) * C.num (c, true) * (C.cr (b, false) * C.an (c, false))) := by
    simp only [noOp]
    rw [CAROn.lie_mul, C.interaction_cr_up U ha]
    have : comm (C.interaction U) (C.cr (b, false) * C.an (c, false) - ev b c • (1 : R)) =
        U • (C.num (b, true) * (C.cr (b, false) * C.an (c, false)) - C.num (c, true) * (C.cr (b, false) * C.an (c, false))) := by
      have e : comm (C.interaction U) (C.cr (b, false) * C.an (c, false) - ev b c • (1 : R)) =
          comm (C.interaction U) (C.cr (b, false) * C.an (c, false)) := by
        unfold Spec.comm
        simp only [mul_sub, sub_mul, mul_smul_comm, smul_mul_assoc, mul_one, one_mul]
        abel
      rw [e, CAROn.lie_mul, C.interaction_cr_down U hb, C.interaction_an_down U hc, mul_neg, mul_smul_comm, smul_mul_assoc,
        ← mul_assoc (C.cr (b, false)), ← c1.eq, smul_sub, mul_assoc, mul_assoc]
      abel
    rw [this, mul_smul_comm, smul_mul_assoc, ← smul_add, mul_sub]
    congr 1
    simp only [mul_assoc, mul_sub]
    abel
  rw [lhs, ← smul_add]
  congr 1
  have car : C.c ⟨false, (a, false)⟩ * C.c ⟨true, (b, false)⟩ =
      (if a = b then (1 : S) else 0) • 1 - C.c ⟨true, (b, false)⟩ * C.c ⟨false, (a, false)⟩ := by
    have := C.an_cr (x := (a, false)) (y := (b, false)) ha hb
    simp only [CAROn.an, CAROn.cr, Prod.mk.injEq, and_true] at this
    rw [this]; split_ifs <;> simp
  revert car
  simp only [outside, noOp, noWick5, noWick4, noWick3, noWick2, noWick1, twoPoint, CAROn.num, CAROn.cr, CAROn.an]
  simp only [ne_eq, not_true_eq_false, if_false, Bool.true_eq_false, Bool.false_eq_true, not_false_eq_true, if_true, zero_smul, sub_zero, add_zero]
  generalize C.c ⟨true, (a, true)⟩ = A
  generalize C.c ⟨true, (a, false)⟩ = a1
  generalize C.c ⟨false, (a, false)⟩ = a2
  generalize C.c ⟨true, (b, false)⟩ = b1
  generalize C.c ⟨false, (c, false)⟩ = c2
  generalize C.c ⟨true, (b, true)⟩ = B1
  generalize C.c ⟨false, (b, true)⟩ = B2
  generalize C.c ⟨true, (c, true)⟩ = C1
  generalize C.c ⟨false, (c, true)⟩ = C2
  generalize (if a = b then (1 : S) else 0) = d
  intro car
  simp only [mul_sub, sub_mul, mul_add, add_mul, mul_smul_comm, smul_mul_assoc, mul_one, one_mul, smul_sub, smul_add, smul_smul, sub_smul, add_smul, mul_assoc, car]
  match_scalars <;> ring

theorem noRow_three_full (h : RegularLattice N z nb) (J U : S) (ev : ℕ → ℕ → S) {a b c : ℕ} (ha : a < N) (hb : b < N) (hc : c < N) :
    ((threeTripletsNo N nb J U ev (get3opIndex N a b c) a b c).map fun t => t.value • C.noBasisOp ev (basis3 N) t.column).sum =
      ((nb a).map fun n => (-J) • noOp C ev (.three n b c)).sum +
      ((nb b).map fun n => (-J) • noOp C ev (.three a n c)).sum +
      ((nb c).map fun n => J • noOp C ev (.three a b n)).sum +
      (U * ev b a * evConj ev c a) • noOp C ev (.one a) + (U * evConj ev b a * ev b c) • noOp C ev (.one b) +
      (-U * ev c a * ev b c) • noOp C ev (.one c) + (U * ev a a) • noOp C ev (.three a b c) +
      (-U * ev b a) • noOp C ev (.three a a c) + (U * evConj ev c a) • noOp C ev (.three a b a) +
      (if b ≠ c then (U * ev b a) • noOp C ev (.three b b c) + (-U * ev c a) • noOp C ev (.three c b c) else 0) := by
  unfold threeTripletsNo
  simp only [List.map_append, List.sum_append, List.map_map]
  have e1 : (nb a).map ((fun t : Triplet S => t.value • C.noBasisOp ev (basis3 N) t.column) ∘
      fun n => ⟨get3opIndex N a b c, get3opIndex N n b c, -J⟩) = (nb a).map fun n => (-J) • noOp C ev (.three n b c) := by
    apply List.map_congr_left
    intro n hn
    rw [← noBasisOp_pos C ev (x := .three n b c) ⟨h.lt a ha n hn, hb, hc⟩]; rfl
  have e2 : (nb b).map ((fun t : Triplet S => t.value • C.noBasisOp ev (basis3 N) t.column) ∘
      fun n => ⟨get3opIndex N a b c, get3opIndex N a n c, -J⟩) = (nb b).map fun n => (-J) • noOp C ev (.three a n c) := by
    apply List.map_congr_left
    intro n hn
    rw [← noBasisOp_pos C ev (x := .three a n c) ⟨ha, h.lt b hb n hn, hc⟩]; rfl
  have e3 : (nb c).map ((fun t : Triplet S => t.value • C.noBasisOp ev (basis3 N) t.column) ∘
      fun n => ⟨get3opIndex N a b c, get3opIndex N a b n, J⟩) = (nb c).map fun n => J • noOp C ev (.three a b n) := by
    apply List.map_congr_left
    intro n hn
    rw [← noBasisOp_pos C ev (x := .three a b n) ⟨ha, hb, h.lt c hc n hn⟩]; rfl
  have o : ∀ i < N, C.noBasisOp ev (basis3 N) i = noOp C ev (.one i) := fun i hi => noBasisOp_pos C ev (x := .one i) hi
  have t : ∀ i j k, i < N → j < N → k < N → C.noBasisOp ev (basis3 N) (get3opIndex N i j k) = noOp C ev (.three i j k) :=
    fun i j k hi hj hk => noBasisOp_pos C ev (x := .three i j k) ⟨hi, hj, hk⟩
  rw [e1, e2, e3]
  split_ifs <;> simp only [List.map_cons, List.map_nil, List.sum_cons, List.sum_nil, o a ha, o b hb, o c hc, t a b c ha hb hc,
    t a a c ha ha hc, t a b a ha hb ha, t b b c hb hb hc, t c b c hc hb hc] <;> abel

/-- C31, three-operator rows. Let `ev` be the correlations of a homogeneous state that is stationary under the hopping. Then
the row of `c†_a↑ (c†_b↓ c_c↓ - ⟨c†_b↓ c_c↓⟩)` is `[H, A_abc]` without the normal-ordered products outside of the basis, up to an error which is given
here: the signs of the contributions of `A_bbc`, `A_cbc` and `c†_c` are not those of the commutator. -/
theorem noMatrix_three_row (h : RegularLattice N z nb) (sort : List (Triplet S) → List (Triplet S)) (hs : IsSort sort)
    (isZero : S → Bool) (hz : ∀ x, isZero x = true → x = 0) (J U : S) (ev : ℕ → ℕ → S)
    (hst : ∀ b < N, ∀ c < N, ((nb b).map fun n => ev n c).sum = ((nb c).map fun n => ev b n).sum)
    (hsym : ∀ b < N, ∀ c < N, ev b c = ev c b) (hhom : ∀ b < N, ∀ c < N, ev b b = ev c c) :
    ∃ m, initMatrixNo sort isZero N z nb J U ev = .val m ∧ m.columns = N + N * N * N ∧ ∀ a < N, ∀ b < N, ∀ c < N,
      ∑ p ∈ Finset.range m.columns, m.get (get3opIndex N a b c) p • C.noBasisOp ev (basis3 N) p =
        comm (C.hopping nb J + C.interaction U) (C.noBasisOp ev (basis3 N) (get3opIndex N a b c)) - U • outside C ev a b c +
        U • ((if b ≠ c then
            (2 * ev b a - if a = b then 1 else 0) • C.noBasisOp ev (basis3 N) (get3opIndex N b b c) -
            (2 * ev c a - if a = c then 1 else 0) • C.noBasisOp ev (basis3 N) (get3opIndex N c b c) else 0) -
          (ev b c * (2 * ev c a - if a = c then 1 else 0)) • C.noBasisOp ev (basis3 N) c) := by
  obtain ⟨m, e1, _, e3, _, _, _, hg⟩ := initMatrixNo_ok_partial h sort hs isZero hz J U ev
  refine ⟨m, e1, e3, ?_⟩
  intro a ha b hb c hc
  obtain ⟨hr1, hr2⟩ := (realBasis_index_bijective N).1 a b c ha hb hc
  rw [e3, Finset.sum_congr rfl (fun p _ => by rw [hg _ hr2 p]),
    sum_columnSum_smul _ _ _ (rowNo_ok h sort hs isZero hz J U ev hr2).choose_spec.2.2.2.2.2]
  have : rawNo N nb J U ev (get3opIndex N a b c) = threeTripletsNo N nb J U ev (get3opIndex N a b c) a b c := by
    unfold rawNo; rw [if_neg (by omega), basisSites_three ha hb hc]; rfl
  have o : ∀ i < N, C.noBasisOp ev (basis3 N) i = noOp C ev (.one i) := fun i hi => noBasisOp_pos C ev (x := .one i) hi
  have t : ∀ i j k, i < N → j < N → k < N → C.noBasisOp ev (basis3 N) (get3opIndex N i j k) = noOp C ev (.three i j k) :=
    fun i j k hi hj hk => noBasisOp_pos C ev (x := .three i j k) ⟨hi, hj, hk⟩
  rw [this, noRow_three_full C h J U ev ha hb hc, t a b c ha hb hc, t b b c hb hb hc, t c b c hc hb hc, o c hc,
    CAROn.comm_add_left, hopping_three_no C h J ev ha hb hc (hst b hb c hc), comm_three_no C U ev ha hb hc]
  generalize ((nb a).map fun n => (-J) • noOp C ev (.three n b c)).sum = X1
  generalize ((nb b).map fun n => (-J) • noOp C ev (.three a n c)).sum = X2
  generalize ((nb c).map fun n => J • noOp C ev (.three a b n)).sum = X3
  generalize outside C ev a b c = X4
  unfold evConj
  have s1 := hsym b hb a ha
  have s2 := hsym c hc a ha
  have s3 := hsym c hc b hb
  rw [hhom b hb c hc, s1, s2]
  have t1 := hhom b hb a ha
  by_cases hbc : b = c
  · subst hbc
    by_cases hab : a = b
    · subst hab
      simp
      module
    · simp only [ne_eq, not_true_eq_false, if_false, hab, Ne.symm hab]
      module
  · by_cases hab : a = b
    · subst hab
      have hac : a ≠ c := hbc
      simp only [ne_eq, hbc, not_false_eq_true, if_true, if_false, Ne.symm hac]
      module
    · by_cases hac : a = c
      · subst hac
        simp only [ne_eq, hbc, not_false_eq_true, if_true, if_false, hab, s1]
        module
      · simp only [ne_eq, hbc, not_false_eq_true, if_true, if_false, hab, hac, Ne.symm hac, Ne.symm hab]
        module

/-- C31 for the one-operator basis: the kinetic matrix of the normal-ordered header has the elements `-J` between neighbours and is
assembled within its reservation; its rows expand `[H_hop, c†_i]`. -/
theorem initKineticMatrixNo_ok (h : RegularLattice N z nb) (sort : List (Triplet S) → List (Triplet S)) (hs : IsSort sort) (J : S) :
    ∃ m, initKineticMatrixNo sort N z nb J = .val m ∧ m.rows = N ∧ m.columns = N ∧ m.nonZeros ≤ m.capacity ∧
      (∀ i < N, ∀ j < N, m.get i j = if j ∈ nb i then -J else 0) ∧
      ∀ i < N, ∑ p ∈ Finset.range m.columns, m.get i p • C.cr (p, true) = comm (C.hopping nb J) (C.cr (i, true)) := by
  obtain ⟨m, h1, h2, h3, _, _, h6, h7⟩ := initKineticMatrix_ok h sort hs J
  refine ⟨m, h1, h2, h3, h6, h7, ?_⟩
  intro i hi
  rw [h3, C.hopping_cr h J hi, Finset.sum_congr rfl (fun p hp => by rw [h7 i hi p (Finset.mem_range.1 hp), ite_smul, zero_smul]),
    CAROn.sum_range_mem (nb i) (h.nodup i hi) (h.lt i hi)]

end RealSpace

/-- Correlations on a ring of four sites: 1/2 on a site, 1/3 between neighbours. -/
noncomputable def ringEv (i j : ℕ) : ℂ := if i = j then 1 / 2 else if (i + j) % 2 = 1 then 1 / 3 else 0

/-- The hypotheses of `noMatrix_three_row` are met by correlations which are not zero between neighbours, and the error is then not
trivial: for the row of (0, 1, 2) it is `U (2/3 A_112 - 0 A_212 - 0)`. -/
example : ∃ m, RealSpace.initMatrixNo (fun l : List (Triplet ℂ) => l.mergeSort (fun a b => a.column ≤ b.column))
    (fun x => decide (x = 0)) 4 2 (Chain.real (K := ℝ) 4 1).neighbors 1 1 ringEv = .val m ∧
      ∑ p ∈ Finset.range m.columns, m.get (RealSpace.get3opIndex 4 0 1 2) p • (fockCAROn ℂ 4).noBasisOp ringEv (RealSpace.basis3 4) p =
        comm ((fockCAROn ℂ 4).hopping (Chain.real (K := ℝ) 4 1).neighbors (1 : ℂ) + (fockCAROn ℂ 4).interaction (1 : ℂ))
          ((fockCAROn ℂ 4).noBasisOp ringEv (RealSpace.basis3 4) (RealSpace.get3opIndex 4 0 1 2)) -
        RealSpace.outside (fockCAROn ℂ 4) ringEv 0 1 2 +
        (2 / 3 : ℂ) • (fockCAROn ℂ 4).noBasisOp ringEv (RealSpace.basis3 4) (RealSpace.get3opIndex 4 1 1 2) := by
  have k1 : ∀ b < 4, ∀ c < 4, (((Chain.real (K := ℝ) 4 1).neighbors b).map fun n => ringEv n c).sum =
      (((Chain.real (K := ℝ) 4 1).neighbors c).map fun n => ringEv b n).sum := by
    intro b hb c hc
    interval_cases b <;> interval_cases c <;> simp [Chain.neighbors, Chain.real, ringEv] <;> norm_num
  have k2 : ∀ b < 4, ∀ c < 4, ringEv b c = ringEv c b := by
    intro b _ c _
    unfold ringEv
    simp only [eq_comm, add_comm]
  have k3 : ∀ b < 4, ∀ c < 4, ringEv b b = ringEv c c := by
    intro b _ c _
    simp [ringEv]
  obtain ⟨m, h1, h2, h3⟩ := RealSpace.noMatrix_three_row (fockCAROn ℂ 4) (chain_regular (.real (1:ℝ) (by omega) rfl) (by omega)) _
    mergeSort_isSort (fun x => decide (x = 0)) (by simp) 1 1 ringEv k1 k2 k3
  refine ⟨m, h1, ?_⟩
  rw [h3 0 (by omega) 1 (by omega) 2 (by omega)]
  simp [ringEv]
  norm_num

end Ieompp
