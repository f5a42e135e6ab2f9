import Verif.Props.ParticleNumber
import Mathlib.Tactic.NormNum
import Mathlib.Tactic.LinearCombination

/-! # C34, C35: the table of non-vanishing expectation values, and the particle number -/

set_option autoImplicit false
set_option linter.unusedSectionVars false

namespace Ieompp

open Ieompp.Spec

namespace MomentumSpace
open FermiSea
variable {E : Type*} [LinearOrder E] {K : Type*} [Field K] [CharZero K]

/-- The conjugate basis (`realBasis_getConjugate`). -/
def conjBasis (b : List HMonomial) : List HMonomial := b.map Monomial.conjugate

theorem entries_zero (N q : ℕ) : (Spec.entries N q)[0]? = some (RealSpace.Spec.one q) := by
  simp [Spec.entries, RealSpace.Spec.one]

theorem third_eq_second {N q a b : ℕ} (hq : q < N) (ha : a < N) (hb : b < N) : third N q a b = b ↔ a = q := by
  unfold third siteMod
  constructor
  · intro h
    have h1 := Int.emod_nonneg ((a : ℤ) + b - q) (show (N : ℤ) ≠ 0 by omega)
    have h2 : ((a : ℤ) + b - q) % N = b := by omega
    have h3 := Int.emod_add_mul_ediv ((a : ℤ) + b - q) N
    rw [h2] at h3
    have h4 : (N : ℤ) * (((a : ℤ) + b - q) / N) = a - q := by linarith
    have h5 : (((a : ℤ) + b - q) / N) = 0 := by
      rcases lt_trichotomy (((a : ℤ) + b - q) / N) 0 with h | h | h
      · nlinarith
      · exact h
      · nlinarith
    rw [h5] at h4; omega
  · rintro rfl
    rw [show ((a : ℤ) + b - a) = b by ring, Int.emod_eq_of_lt (by omega) (by omega)]; simp

/-- A position of the basis: the single operator, or a three-operator monomial. -/
theorem entries_cases {N q p : ℕ} (hq : q < N) (hp : p < N * N + 1) (h0 : p ≠ 0) :
    ∃ a b c, a < N ∧ b < N ∧ c < N ∧ (b = c → a = q) ∧ (Spec.entries N q)[p]? = some (RealSpace.Spec.three a b c) := by
  obtain ⟨a, b, ha, hb, rfl⟩ := index_surj N h0 hp
  exact ⟨a, b, third N q a b, ha, hb, third_lt (by omega) _ _ _,
    fun h => (third_eq_second hq ha hb).1 h.symm, entries_getElem N q ha hb⟩

theorem vecAt_some {τ : Type*} {v : List τ} {i : ℕ} {x : τ} (h : v[i]? = some x) : vecAt v i = .val x := by
  simp [vecAt, h]

section
variable {N q : ℕ} {disp : ℕ → E} {eF : E} {FS : Finset Mode}

/-- The list of prepared states. -/
def stateList (basis : List HMonomial) (disp : ℕ → E) (eF : E) : List FermiSea :=
  (conjBasis basis).map fun m => (applyMonomial disp eF m {}).1

theorem states_eq (basis : List HMonomial) : states basis (conjBasis basis) disp eF = .val (stateList basis disp eF) := by
  unfold states
  have : (List.range basis.length).map (fun i => (vecAt (conjBasis basis) i).map fun m => (applyMonomial disp eF m {}).1)
      = (stateList basis disp eF).map Res.val := by
    apply List.ext_getElem
    · simp [stateList, conjBasis]
    · intro i h1 h2
      have hi : i < basis.length := by simpa using h1
      simp [stateList, conjBasis, vecAt, hi]
  rw [this, collect_val]

theorem conj_getElem {b : List HMonomial} {i : ℕ} {m : HMonomial} (h : b[i]? = some m) :
    (conjBasis b)[i]? = some (Monomial.conjugate m) := by
  simp [conjBasis, h]

theorem state_getElem {b : List HMonomial} {i : ℕ} {m : HMonomial} (h : b[i]? = some m) :
    (stateList b disp eF)[i]? = some (applyMonomial disp eF (Monomial.conjugate m) {}).1 := by
  simp [stateList, conjBasis, h]

theorem product_two (c b : HMonomial) : product [.monomial c, .monomial b] = b ++ c := by simp [product, Call.product]

/-- Value of a survival test. -/
def tv (K : Type*) [Field K] (b : Bool) : K := if b then 1 else 0

variable (hFS : ∀ k < N, ∀ σ, toLex (k, σ) ∈ FS ↔ disp k < eF)

/-- All momenta of a word exist. -/
def Below (N : ℕ) (m : HMonomial) : Prop := ∀ o ∈ m, o.index.1 < N

theorem below_conj {m : HMonomial} (h : Below N m) : Below N (Monomial.conjugate m) := by
  intro o ho
  simp only [Monomial.conjugate, List.mem_map, List.mem_reverse] at ho
  obtain ⟨o', ho', rfl⟩ := ho
  exact h o' ho'

include hFS in
theorem test_value {x y : HMonomial} (calls : List Call) (hx : IsWord x) (hy : IsWord y) (bx : Below N x) (by' : Below N y)
    (hp : product calls = x ++ Monomial.conjugate y) :
    tv K (run disp eF calls).isInitial = ev K FS (x ++ Monomial.conjugate y) := by
  refine run_ev_word calls hx hy hp ?_
  intro o ho
  rw [hp] at ho
  have : o.index.1 < N := by
    rcases List.mem_append.1 ho with h | h
    · exact bx o h
    · exact below_conj by' o h
  have := hFS o.index.1 this o.index.2
  rwa [Prod.mk.eta] at this

theorem below_one {k : ℕ} (h : k < N) : Below N (RealSpace.Spec.one k) := by
  intro o ho; simp [RealSpace.Spec.one] at ho; rw [ho]; exact h

theorem below_three {a b c : ℕ} (ha : a < N) (hb : b < N) (hc : c < N) : Below N (RealSpace.Spec.three a b c) := by
  intro o ho
  simp [RealSpace.Spec.three] at ho
  rcases ho with rfl | rfl | rfl <;> assumption

/-! ### Values in terms of words -/

theorem ev_eq (x y : HMonomial) : ev K FS (x ++ Monomial.conjugate y) =
    (fockMono K x * fockMono K (Monomial.conjugate y)) (ket K FS) FS := by
  rw [ev, braket, fockMono_append]

theorem conj_three (a b c : ℕ) : Monomial.conjugate (RealSpace.Spec.three a b c) =
    [⟨true, (c, false)⟩, ⟨false, (b, false)⟩, ⟨false, (a, true)⟩] := rfl

theorem conj_one (a : ℕ) : Monomial.conjugate (RealSpace.Spec.one a) = [⟨false, (a, true)⟩] := rfl

theorem fockBasisOp_one (s : K) (k : ℕ) : fockBasisOp s (RealSpace.Spec.one k) = fockMono K (RealSpace.Spec.one k) := rfl

theorem fockBasisAdj_one (s : K) (k : ℕ) :
    fockBasisAdj s (RealSpace.Spec.one k) = fockMono K (Monomial.conjugate (RealSpace.Spec.one k)) := rfl

theorem fockBasisOp_three (s : K) (a b c : ℕ) : fockBasisOp s (RealSpace.Spec.three a b c) =
    (2 : K) • fockMono K (RealSpace.Spec.three a b c) +
      (if b = c then s else 0) • fockMono K (RealSpace.Spec.one a) := by
  show _ + (if b = c then s • fockMono K [⟨true, (a, true)⟩] else 0) = _
  by_cases h : b = c
  · rw [if_pos h, if_pos h]; rfl
  · rw [if_neg h, if_neg h, zero_smul]; rfl

theorem fockBasisAdj_three (s : K) (a b c : ℕ) : fockBasisAdj s (RealSpace.Spec.three a b c) =
    (2 : K) • fockMono K (Monomial.conjugate (RealSpace.Spec.three a b c)) +
      (if b = c then s else 0) • fockMono K (Monomial.conjugate (RealSpace.Spec.one a)) := by
  show _ + (if b = c then s • fockMono K [⟨false, (a, true)⟩] else 0) = _
  by_cases h : b = c
  · rw [if_pos h, if_pos h]; rfl
  · rw [if_neg h, if_neg h, zero_smul]; rfl

theorem sea_00 (s : K) : seaValue s FS (Spec.entries N q) 0 0 =
    ev K FS (RealSpace.Spec.one q ++ Monomial.conjugate (RealSpace.Spec.one q)) := by
  rw [seaValue, List.getD_eq_getElem?_getD, entries_zero, Option.getD_some, fockBasisOp_one, fockBasisAdj_one, ev_eq]; rfl

theorem sea_I0 (s : K) {i a b c : ℕ} (h : (Spec.entries N q)[i]? = some (RealSpace.Spec.three a b c)) :
    seaValue s FS (Spec.entries N q) i 0 =
      2 * ev K FS (RealSpace.Spec.three a b c ++ Monomial.conjugate (RealSpace.Spec.one q)) +
      (if b = c then s else 0) * ev K FS (RealSpace.Spec.one a ++ Monomial.conjugate (RealSpace.Spec.one q)) := by
  rw [seaValue, List.getD_eq_getElem?_getD, List.getD_eq_getElem?_getD, entries_zero, h, Option.getD_some,
    Option.getD_some, fockBasisOp_three, fockBasisAdj_one, ev_eq, ev_eq, braket, add_mul, smul_mul_assoc, smul_mul_assoc]
  rfl

theorem sea_0I (s : K) {i a b c : ℕ} (h : (Spec.entries N q)[i]? = some (RealSpace.Spec.three a b c)) :
    seaValue s FS (Spec.entries N q) 0 i =
      2 * ev K FS (RealSpace.Spec.one q ++ Monomial.conjugate (RealSpace.Spec.three a b c)) +
      (if b = c then s else 0) * ev K FS (RealSpace.Spec.one q ++ Monomial.conjugate (RealSpace.Spec.one a)) := by
  rw [seaValue, List.getD_eq_getElem?_getD, List.getD_eq_getElem?_getD, entries_zero, h, Option.getD_some,
    Option.getD_some, fockBasisAdj_three, fockBasisOp_one, ev_eq, ev_eq, braket, mul_add, mul_smul_comm, mul_smul_comm]
  rfl

theorem sea_IJ (s : K) {i a b c : ℕ} (h : (Spec.entries N q)[i]? = some (RealSpace.Spec.three a b c))
    {j a' b' c' : ℕ} (h' : (Spec.entries N q)[j]? = some (RealSpace.Spec.three a' b' c')) :
    seaValue s FS (Spec.entries N q) i j =
      4 * ev K FS (RealSpace.Spec.three a b c ++ Monomial.conjugate (RealSpace.Spec.three a' b' c')) +
      (if b = c then s else 0) * 2 *
        ev K FS (RealSpace.Spec.one a ++ Monomial.conjugate (RealSpace.Spec.three a' b' c')) +
      (if b' = c' then s else 0) * 2 *
        ev K FS (RealSpace.Spec.three a b c ++ Monomial.conjugate (RealSpace.Spec.one a')) +
      (if b = c then s else 0) * (if b' = c' then s else 0) *
        ev K FS (RealSpace.Spec.one a ++ Monomial.conjugate (RealSpace.Spec.one a')) := by
  rw [seaValue, List.getD_eq_getElem?_getD, List.getD_eq_getElem?_getD, h, h', Option.getD_some,
    Option.getD_some, fockBasisAdj_three, fockBasisOp_three, ev_eq, ev_eq, ev_eq, ev_eq, braket]
  generalize (if b = c then s else 0) = d
  generalize (if b' = c' then s else 0) = d'
  simp only [mul_add, add_mul, smul_mul_assoc, mul_smul_comm, LinearMap.add_apply, LinearMap.smul_apply, Pi.add_apply,
    Pi.smul_apply, smul_eq_mul]
  ring

/-! ### The entries -/

/-- The entry that is wanted at (i, j). -/
noncomputable def want (K : Type*) [Field K] (FS : Finset Mode) (N q : ℕ) (p : ℕ × ℕ) : List (Contribution K) := by
  classical
  exact if seaValue (1 : K) FS (Spec.entries N q) p.1 p.2 ≠ 0 then
    [⟨p.1, p.2, seaValue (1 : K) FS (Spec.entries N q) p.1 p.2⟩] else []

theorem want_eq (i j : ℕ) (t : Bool) (v : K) (hv : seaValue (1 : K) FS (Spec.entries N q) i j = v)
    (ht : t = true ↔ v ≠ 0) : (if t then [⟨i, j, v⟩] else []) = want K FS N q (i, j) := by
  unfold want
  rw [hv]
  by_cases h : v = 0
  · have : t = false := by by_contra h'; exact ht.1 (by simpa using h') h
    rw [this, if_neg (by simp), if_neg (by simpa using h)]
  · rw [ht.2 h, if_pos rfl, if_pos h]

include hFS in
theorem entry00_eq (hq : q < N) : entry00 (S := K) (Spec.entries N q) disp eF (stateList (Spec.entries N q) disp eF) =
    .val (want K FS N q (0, 0)) := by
  unfold entry00
  rw [vecAt_some (state_getElem (entries_zero N q)), Res.bind_val, vecAt_some (entries_zero N q), Res.bind_val]
  have h1 := test_value (K := K) hFS [.monomial (Monomial.conjugate (RealSpace.Spec.one q)), .monomial (RealSpace.Spec.one q)]
    (isWord_one q) (isWord_one q) (below_one hq) (below_one hq) (product_two _ _)
  have h2 := sea_00 (K := K) (FS := FS) (N := N) (q := q) 1
  rw [← h1] at h2
  congr 1
  change _ = tv K (testMonomial disp eF (applyMonomial disp eF (Monomial.conjugate (RealSpace.Spec.one q)) {}).1
    (RealSpace.Spec.one q)) at h2
  generalize testMonomial disp eF (applyMonomial disp eF (Monomial.conjugate (RealSpace.Spec.one q)) {}).1
    (RealSpace.Spec.one q) = t at h2 ⊢
  cases t with
  | true => exact want_eq 0 0 true 1 (by rw [h2]; rfl) (by simp)
  | false => exact want_eq 0 0 false 0 (by rw [h2]; rfl) (by simp)

include hFS in
theorem entryI0_eq (hq : q < N) {i : ℕ} (hi : i < N * N + 1) (h0 : i ≠ 0) :
    entryI0 (S := K) (Spec.entries N q) (conjBasis (Spec.entries N q)) disp eF (stateList (Spec.entries N q) disp eF) i =
    .val (want K FS N q (i, 0)) := by
  obtain ⟨a, b, c, ha, hb, hc, hbc, hget⟩ := entries_cases hq hi h0
  have sv := sea_I0 (K := K) (FS := FS) (N := N) (q := q) 1 hget
  unfold entryI0 opAt
  rw [vecAt_some (state_getElem (entries_zero N q)), Res.bind_val, vecAt_some hget, Res.bind_val]
  rw [vecAt_some (conj_getElem (entries_zero N q))]
  rw [← test_value hFS [.monomial (Monomial.conjugate (RealSpace.Spec.one q)), .monomial (RealSpace.Spec.three a b c)]
    (isWord_three a b c) (isWord_one q) (below_three ha hb hc) (below_one hq) (product_two _ _),
    ← test_value hFS [.operator ⟨false, (q, true)⟩, .operator ⟨true, (a, true)⟩]
    (isWord_one a) (isWord_one q) (below_one ha) (below_one hq) rfl] at sv
  simp only [Res.bind_val]
  have v0 : vecAt (RealSpace.Spec.three a b c) 0 = .val ⟨true, (a, true)⟩ := rfl
  have v1 : vecAt (RealSpace.Spec.three a b c) 1 = .val ⟨true, (b, false)⟩ := rfl
  have v2 : vecAt (RealSpace.Spec.three a b c) 2 = .val ⟨false, (c, false)⟩ := rfl
  have v3 : vecAt (Monomial.conjugate (RealSpace.Spec.one q)) 0 = .val ⟨false, (q, true)⟩ := rfl
  rw [v0, v1, v2, v3]
  simp only [Res.bind_val]
  change seaValue _ _ _ _ _ = 2 * tv K (testMonomial disp eF (applyMonomial disp eF
    (Monomial.conjugate (RealSpace.Spec.one q)) {}).1 (RealSpace.Spec.three a b c)) + _ * tv K (testOperators disp eF _ _) at sv
  generalize testMonomial disp eF (applyMonomial disp eF
    (Monomial.conjugate (RealSpace.Spec.one q)) {}).1 (RealSpace.Spec.three a b c) = t1 at sv ⊢
  generalize testOperators disp eF ⟨false, (q, true)⟩ ⟨true, (a, true)⟩ = t2 at sv ⊢
  by_cases hk : b = c
  · rw [if_pos hk] at sv ⊢
    rw [Res.bind_val]
    congr 1
    refine want_eq i 0 _ _ (by rw [sv]; cases t1 <;> cases t2 <;> simp [tv]) ?_
    cases t1 <;> cases t2 <;> norm_num
  · rw [if_neg hk] at sv ⊢
    rw [Res.bind_val]
    congr 1
    refine want_eq i 0 _ _ (by rw [sv]; cases t1 <;> simp [tv]) ?_
    cases t1 <;> norm_num

include hFS in
theorem entry0I_eq (hq : q < N) {i : ℕ} (hi : i < N * N + 1) (h0 : i ≠ 0) :
    entry0I (S := K) (Spec.entries N q) (conjBasis (Spec.entries N q)) disp eF (stateList (Spec.entries N q) disp eF) i =
    .val (want K FS N q (0, i)) := by
  obtain ⟨a, b, c, ha, hb, hc, hbc, hget⟩ := entries_cases hq hi h0
  have sv := sea_0I (K := K) (FS := FS) (N := N) (q := q) 1 hget
  unfold entry0I opAt
  rw [vecAt_some (state_getElem hget), Res.bind_val, vecAt_some (entries_zero N q), Res.bind_val]
  rw [vecAt_some (conj_getElem hget)]
  rw [← test_value hFS [.monomial (Monomial.conjugate (RealSpace.Spec.three a b c)), .monomial (RealSpace.Spec.one q)]
    (isWord_one q) (isWord_three a b c) (below_one hq) (below_three ha hb hc) (product_two _ _),
    ← test_value hFS [.operator ⟨false, (a, true)⟩, .operator ⟨true, (q, true)⟩]
    (isWord_one q) (isWord_one a) (below_one hq) (below_one ha) rfl] at sv
  simp only [Res.bind_val]
  have v0 : vecAt (Monomial.conjugate (RealSpace.Spec.three a b c)) 0 = .val ⟨true, (c, false)⟩ := rfl
  have v1 : vecAt (Monomial.conjugate (RealSpace.Spec.three a b c)) 1 = .val ⟨false, (b, false)⟩ := rfl
  have v2 : vecAt (Monomial.conjugate (RealSpace.Spec.three a b c)) 2 = .val ⟨false, (a, true)⟩ := rfl
  have v3 : vecAt (RealSpace.Spec.one q) 0 = .val ⟨true, (q, true)⟩ := rfl
  rw [v0, v1, v2, v3]
  simp only [Res.bind_val]
  change seaValue _ _ _ _ _ = 2 * tv K (testMonomial disp eF (applyMonomial disp eF
    (Monomial.conjugate (RealSpace.Spec.three a b c)) {}).1 (RealSpace.Spec.one q)) + _ * tv K (testOperators disp eF _ _) at sv
  generalize testMonomial disp eF (applyMonomial disp eF
    (Monomial.conjugate (RealSpace.Spec.three a b c)) {}).1 (RealSpace.Spec.one q) = t1 at sv ⊢
  generalize testOperators disp eF ⟨false, (a, true)⟩ ⟨true, (q, true)⟩ = t2 at sv ⊢
  by_cases hk : b = c
  · rw [if_pos hk] at sv
    rw [if_pos hk.symm]
    rw [Res.bind_val]
    congr 1
    refine want_eq 0 i _ _ (by rw [sv]; cases t1 <;> cases t2 <;> simp [tv]) ?_
    cases t1 <;> cases t2 <;> norm_num
  · rw [if_neg hk] at sv
    rw [if_neg (Ne.symm hk)]
    rw [Res.bind_val]
    congr 1
    refine want_eq 0 i _ _ (by rw [sv]; cases t1 <;> simp [tv]) ?_
    cases t1 <;> norm_num

include hFS in
theorem entryIJ_eq (hq : q < N) {i : ℕ} (hi : i < N * N + 1) (h0 : i ≠ 0) {j : ℕ} (hj : j < N * N + 1) (hj0 : j ≠ 0) :
    entryIJ (S := K) (Spec.entries N q) (conjBasis (Spec.entries N q)) disp eF (stateList (Spec.entries N q) disp eF) i j =
    .val (want K FS N q (i, j)) := by
  obtain ⟨a, b, c, ha, hb, hc, hbc, hget⟩ := entries_cases hq hi h0
  obtain ⟨a', b', c', ha', hb', hc', hbc', hget'⟩ := entries_cases hq hj hj0
  have sv := sea_IJ (K := K) (FS := FS) (N := N) (q := q) 1 hget hget'
  unfold entryIJ opAt
  rw [vecAt_some (state_getElem hget'), Res.bind_val, vecAt_some hget, Res.bind_val]
  rw [vecAt_some (conj_getElem hget'), vecAt_some (entries_zero N q), vecAt_some (state_getElem (entries_zero N q))]
  simp only [Res.bind_val]
  have v0 : vecAt (Monomial.conjugate (RealSpace.Spec.three a' b' c')) 0 = .val ⟨true, (c', false)⟩ := rfl
  have v1 : vecAt (Monomial.conjugate (RealSpace.Spec.three a' b' c')) 1 = .val ⟨false, (b', false)⟩ := rfl
  have v2 : vecAt (Monomial.conjugate (RealSpace.Spec.three a' b' c')) 2 = .val ⟨false, (a', true)⟩ := rfl
  have v3 : vecAt (RealSpace.Spec.one q) 0 = .val ⟨true, (q, true)⟩ := rfl
  have w0 : vecAt (RealSpace.Spec.three a b c) 0 = .val ⟨true, (a, true)⟩ := rfl
  have w1 : vecAt (RealSpace.Spec.three a b c) 1 = .val ⟨true, (b, false)⟩ := rfl
  have w2 : vecAt (RealSpace.Spec.three a b c) 2 = .val ⟨false, (c, false)⟩ := rfl
  rw [v0, v1, v2, v3, w0, w1, w2]
  simp only [Res.bind_val]
  -- the four tests
  have e1 := test_value (K := K) hFS [.monomial (Monomial.conjugate (RealSpace.Spec.three a' b' c')), .monomial (RealSpace.Spec.three a b c)]
    (isWord_three a b c) (isWord_three a' b' c') (below_three ha hb hc) (below_three ha' hb' hc') (product_two _ _)
  have e2 := test_value (K := K) hFS [.monomial (Monomial.conjugate (RealSpace.Spec.three a' b' c')), .operator ⟨true, (q, true)⟩]
    (isWord_one q) (isWord_three a' b' c') (below_one hq) (below_three ha' hb' hc') rfl
  have e3 := test_value (K := K) hFS [.monomial (Monomial.conjugate (RealSpace.Spec.one q)), .monomial (RealSpace.Spec.three a b c)]
    (isWord_three a b c) (isWord_one q) (below_three ha hb hc) (below_one hq) (product_two _ _)
  have e4 := test_value (K := K) hFS [.operator ⟨false, (a', true)⟩, .operator ⟨true, (a, true)⟩]
    (isWord_one a) (isWord_one a') (below_one ha) (below_one ha') rfl
  change tv K (testMonomial disp eF (applyMonomial disp eF _ {}).1 _) = _ at e1
  change tv K (testOperator disp eF (applyMonomial disp eF _ {}).1 _) = _ at e2
  change tv K (testMonomial disp eF (applyMonomial disp eF _ {}).1 _) = _ at e3
  change tv K (testOperators disp eF _ _) = _ at e4
  rw [← e1, ← e4] at sv
  have sv2 : (if b = c then (1 : K) else 0) * 2 * ev K FS (RealSpace.Spec.one a ++ Monomial.conjugate (RealSpace.Spec.three a' b' c')) =
      (if b = c then (1 : K) else 0) * 2 * tv K (testOperator disp eF (applyMonomial disp eF
        (Monomial.conjugate (RealSpace.Spec.three a' b' c')) {}).1 ⟨true, (q, true)⟩) := by
    by_cases h : b = c
    · rw [e2, hbc h]
    · simp [h]
  have sv3 : (if b' = c' then (1 : K) else 0) * 2 * ev K FS (RealSpace.Spec.three a b c ++ Monomial.conjugate (RealSpace.Spec.one a')) =
      (if b' = c' then (1 : K) else 0) * 2 * tv K (testMonomial disp eF (applyMonomial disp eF
        (Monomial.conjugate (RealSpace.Spec.one q)) {}).1 (RealSpace.Spec.three a b c)) := by
    by_cases h : b' = c'
    · rw [e3, hbc' h]
    · simp [h]
  rw [sv2, sv3] at sv
  generalize testMonomial disp eF (applyMonomial disp eF
    (Monomial.conjugate (RealSpace.Spec.three a' b' c')) {}).1 (RealSpace.Spec.three a b c) = t1 at sv ⊢
  generalize testOperator disp eF (applyMonomial disp eF
    (Monomial.conjugate (RealSpace.Spec.three a' b' c')) {}).1 ⟨true, (q, true)⟩ = t2 at sv ⊢
  generalize testMonomial disp eF (applyMonomial disp eF
    (Monomial.conjugate (RealSpace.Spec.one q)) {}).1 (RealSpace.Spec.three a b c) = t3 at sv ⊢
  generalize testOperators disp eF ⟨false, (a', true)⟩ ⟨true, (a, true)⟩ = t4 at sv ⊢
  have hk' : (c' = b') = (b' = c') := propext ⟨Eq.symm, Eq.symm⟩
  by_cases hk1 : b = c <;> by_cases hk2 : b' = c' <;>
    simp only [hk1, hk2, hk', if_true, if_false, and_self, and_true, and_false, Res.bind_val] at sv ⊢ <;>
    congr 1
  · refine want_eq i j _ _ (by rw [sv]; cases t1 <;> cases t2 <;> cases t3 <;> cases t4 <;> simp [tv]) ?_
    cases t1 <;> cases t2 <;> cases t3 <;> cases t4 <;> norm_num
  · refine want_eq i j _ _ (by rw [sv]; cases t1 <;> cases t2 <;> simp [tv]) ?_
    cases t1 <;> cases t2 <;> norm_num
  · refine want_eq i j _ _ (by rw [sv]; cases t1 <;> cases t3 <;> simp [tv]) ?_
    cases t1 <;> cases t3 <;> norm_num
  · refine want_eq i j _ _ (by rw [sv]; cases t1 <;> simp [tv]) ?_
    cases t1 <;> norm_num

/-- All index pairs in the order in which the constructor visits them. -/
def pairs (n : ℕ) : List (ℕ × ℕ) :=
  let idx := (List.range n).tail
  [(0, 0)] ++ idx.map (fun i => (i, 0)) ++ idx.map (fun i => (0, i)) ++ idx.flatMap fun i => idx.map fun j => (i, j)

theorem mem_tail_range {n i : ℕ} : i ∈ (List.range n).tail ↔ i < n ∧ i ≠ 0 := by
  cases n with
  | zero => simp
  | succ n =>
    rw [List.range_succ_eq_map, List.tail_cons, List.mem_map]
    constructor
    · rintro ⟨a, ha, rfl⟩; rw [List.mem_range] at ha; omega
    · rintro ⟨h1, h2⟩; exact ⟨i - 1, by rw [List.mem_range]; omega, by omega⟩

theorem nodup_tail_range (n : ℕ) : (List.range n).tail.Nodup := (List.tail_sublist _).nodup List.nodup_range

theorem pairs_nodup (n : ℕ) : (pairs n).Nodup := by
  unfold pairs
  have hn := nodup_tail_range n
  have h0 : ∀ i ∈ (List.range n).tail, i ≠ 0 := fun i hi => (mem_tail_range.1 hi).2
  refine List.Nodup.append (List.Nodup.append (List.Nodup.append (by simp) ?_ ?_) ?_ ?_) ?_ ?_
  · exact hn.map fun a b h => (Prod.mk.inj h).1
  · intro p h1 h2
    simp only [List.mem_map, List.mem_singleton] at h1 h2
    obtain ⟨i, hi, rfl⟩ := h2
    exact h0 i hi (Prod.mk.inj h1).1
  · exact hn.map fun a b h => (Prod.mk.inj h).2
  · intro p h1 h2
    simp only [List.mem_map, List.mem_append, List.mem_singleton] at h1 h2
    obtain ⟨i, hi, rfl⟩ := h2
    rcases h1 with h1 | ⟨k, hk, h1⟩
    · exact h0 i hi (Prod.mk.inj h1).2
    · exact h0 i hi (Prod.mk.inj h1).2.symm
  · rw [List.nodup_flatMap]
    refine ⟨fun i _ => hn.map fun a b h => (Prod.mk.inj h).2, ?_⟩
    refine hn.imp ?_
    intro a b hab p h1 h2
    simp only [List.mem_map] at h1 h2
    obtain ⟨j, _, rfl⟩ := h1
    obtain ⟨k, _, h⟩ := h2
    exact hab (Prod.mk.inj h).1.symm
  · intro p h1 h2
    simp only [List.mem_map, List.mem_append, List.mem_singleton, List.mem_flatMap] at h1 h2
    obtain ⟨i, hi, j, hj, rfl⟩ := h2
    rcases h1 with (h1 | ⟨k, hk, h1⟩) | ⟨k, hk, h1⟩
    · exact h0 i hi (Prod.mk.inj h1).1
    · exact h0 j hj (Prod.mk.inj h1).2.symm
    · exact h0 i hi (Prod.mk.inj h1).1.symm

theorem mem_pairs {n : ℕ} (hn : 0 < n) (p : ℕ × ℕ) : p ∈ pairs n ↔ p.1 < n ∧ p.2 < n := by
  obtain ⟨i, j⟩ := p
  simp only [pairs, List.mem_append, List.mem_singleton, List.mem_map, List.mem_flatMap, mem_tail_range, Prod.mk.injEq]
  constructor
  · rintro (((⟨rfl, rfl⟩ | ⟨k, hk, rfl, rfl⟩) | ⟨k, hk, rfl, rfl⟩) | ⟨k, hk, l, hl, rfl, rfl⟩) <;> omega
  · rintro ⟨h1, h2⟩
    by_cases hi : i = 0 <;> by_cases hj : j = 0
    · exact Or.inl (Or.inl (Or.inl ⟨hi, hj⟩))
    · exact Or.inl (Or.inr ⟨j, ⟨h2, hj⟩, hi.symm, rfl⟩)
    · exact Or.inl (Or.inl (Or.inr ⟨i, ⟨h1, hi⟩, rfl, hj.symm⟩))
    · exact Or.inr ⟨i, ⟨h1, hi⟩, j, ⟨h2, hj⟩, rfl, rfl⟩

include hFS in
theorem nonVanishing_eq (hq : q < N) :
    nonVanishing (S := K) (Spec.entries N q) (conjBasis (Spec.entries N q)) disp eF =
      .val ((pairs (N * N + 1)).flatMap (want K FS N q)) := by
  unfold nonVanishing
  rw [states_eq, Res.bind_val]
  simp only
  rw [entries_length]
  have key : ([entry00 (S := K) (Spec.entries N q) disp eF (stateList (Spec.entries N q) disp eF)] ++
      (List.range (N * N + 1)).tail.map (entryI0 (Spec.entries N q) (conjBasis (Spec.entries N q)) disp eF (stateList (Spec.entries N q) disp eF)) ++
      (List.range (N * N + 1)).tail.map (entry0I (Spec.entries N q) (conjBasis (Spec.entries N q)) disp eF (stateList (Spec.entries N q) disp eF)) ++
      (List.range (N * N + 1)).tail.flatMap fun i => (List.range (N * N + 1)).tail.map fun j =>
        entryIJ (Spec.entries N q) (conjBasis (Spec.entries N q)) disp eF (stateList (Spec.entries N q) disp eF) i j) =
      ((pairs (N * N + 1)).map (want K FS N q)).map Res.val := by
    simp only [pairs, List.map_append, List.map_map, List.map_cons, List.map_nil, List.map_flatMap]
    congr 1
    · congr 1
      · congr 1
        · rw [entry00_eq hFS hq]
        · apply List.map_congr_left
          intro i hi
          rw [mem_tail_range] at hi
          exact entryI0_eq hFS hq hi.1 hi.2
      · apply List.map_congr_left
        intro i hi
        rw [mem_tail_range] at hi
        exact entry0I_eq hFS hq hi.1 hi.2
    · apply List.flatMap_congr
      intro i hi
      apply List.map_congr_left
      intro j hj
      rw [mem_tail_range] at hi hj
      exact entryIJ_eq hFS hq hi.1 hi.2 hj.1 hj.2
  rw [key, collect_val, Res.map_val, List.flatMap_def]

include hFS in
/-- C34: for every chain length, momentum `q` and every dispersion and Fermi energy, the constructor succeeds (all
container accesses are in range); every index pair occurs at most once and lies inside the basis; a pair occurs exactly
when its value does not vanish; and the value is the Fermi-sea expectation value of `A_i A_j†` with the operators
`2 x y z + δ x` for the three-operator monomials. (What is missing for the full property: the basis of the matrix is
`2 x y z - δ x`, see `nonVanishing_wrong`.) -/
theorem nonVanishing_partial (hq : q < N) : ∃ l : List (Contribution K),
    nonVanishing (Spec.entries N q) (conjBasis (Spec.entries N q)) disp eF = .val l ∧
    (l.map fun c => (c.left, c.right)).Nodup ∧
    (∀ c ∈ l, c.left < (Spec.entries N q).length ∧ c.right < (Spec.entries N q).length ∧ c.value ≠ 0 ∧
      c.value = seaValue 1 FS (Spec.entries N q) c.left c.right) ∧
    (∀ i < (Spec.entries N q).length, ∀ j < (Spec.entries N q).length,
      seaValue (1 : K) FS (Spec.entries N q) i j ≠ 0 → ∃ c ∈ l, c.left = i ∧ c.right = j) := by
  refine ⟨_, nonVanishing_eq hFS hq, ?_, ?_, ?_⟩
  · rw [List.map_flatMap]
    have : ∀ p : ℕ × ℕ, ∀ x ∈ (want K FS N q p).map (fun c => (c.left, c.right)), x = p := by
      intro p x hx
      unfold want at hx
      split at hx <;> simp at hx
      exact hx
    rw [List.nodup_flatMap]
    constructor
    · intro p _
      unfold want
      split <;> simp
    · refine (pairs_nodup _).imp ?_
      intro a b hab x h1 h2
      exact hab ((this a x h1).symm.trans (this b x h2))
  · intro c hc
    rw [List.mem_flatMap] at hc
    obtain ⟨p, hp, hc⟩ := hc
    rw [mem_pairs (by omega)] at hp
    rw [entries_length]
    unfold want at hc
    split at hc
    · rename_i h
      rw [List.mem_singleton] at hc
      subst hc
      exact ⟨hp.1, hp.2, h, rfl⟩
    · simp at hc
  · intro i hi j hj h
    rw [entries_length] at hi hj
    refine ⟨⟨i, j, seaValue (1 : K) FS (Spec.entries N q) i j⟩, ?_, rfl, rfl⟩
    rw [List.mem_flatMap]
    refine ⟨(i, j), (mem_pairs (by omega) _).2 ⟨hi, hj⟩, ?_⟩
    unfold want
    rw [if_pos h]
    exact List.mem_singleton.2 rfl

/-- Adjointness of the basis operators. -/
theorem seaValue_symm (s : K) (hq : q < N) {i j : ℕ} (hi : i < N * N + 1) (hj : j < N * N + 1) :
    seaValue s FS (Spec.entries N q) i j = seaValue s FS (Spec.entries N q) j i := by
  have evsymm : ∀ x y : HMonomial, ev K FS (x ++ Monomial.conjugate y) = ev K FS (y ++ Monomial.conjugate x) := by
    intro x y
    have hc : ∀ m : HMonomial, Monomial.conjugate (Monomial.conjugate m) = m := by
      intro m
      simp only [Monomial.conjugate, List.map_reverse, List.reverse_reverse, List.map_map]
      conv_rhs => rw [← List.map_id m]
      congr 1
      funext o; simp [Op.conjugate]
    unfold ev braket fockMono
    rw [braket_conj]
    rw [← conj_mode]
    simp only [Monomial.conjugate, List.reverse_append, List.map_append]
    have := hc y
    simp only [Monomial.conjugate] at this
    rw [this]
  by_cases hi0 : i = 0 <;> by_cases hj0 : j = 0
  · rw [hi0, hj0]
  · obtain ⟨a, b, c, ha, hb, hc, hbc, hget⟩ := entries_cases hq hj hj0
    subst hi0
    rw [sea_0I s hget, sea_I0 s hget, evsymm (RealSpace.Spec.one q), evsymm (RealSpace.Spec.one q)]
  · obtain ⟨a, b, c, ha, hb, hc, hbc, hget⟩ := entries_cases hq hi hi0
    subst hj0
    rw [sea_0I s hget, sea_I0 s hget, evsymm (RealSpace.Spec.one q), evsymm (RealSpace.Spec.one q)]
  · obtain ⟨a, b, c, ha, hb, hc, hbc, hget⟩ := entries_cases hq hi hi0
    obtain ⟨a', b', c', ha', hb', hc', hbc', hget'⟩ := entries_cases hq hj hj0
    rw [sea_IJ s hget hget', sea_IJ s hget' hget, evsymm (RealSpace.Spec.three a b c) (RealSpace.Spec.three a' b' c'),
      evsymm (RealSpace.Spec.one a) (RealSpace.Spec.three a' b' c'), evsymm (RealSpace.Spec.three a b c) (RealSpace.Spec.one a'),
      evsymm (RealSpace.Spec.one a) (RealSpace.Spec.one a')]
    ring

include hFS in
/-- C34: the table is symmetric under exchange of the two indices. -/
theorem nonVanishing_symm (hq : q < N) : ∃ l : List (Contribution K),
    nonVanishing (Spec.entries N q) (conjBasis (Spec.entries N q)) disp eF = .val l ∧
    ∀ c ∈ l, ∃ c' ∈ l, c'.left = c.right ∧ c'.right = c.left ∧ c'.value = c.value := by
  obtain ⟨l, h1, h2, h3, h4⟩ := nonVanishing_partial (K := K) hFS hq
  refine ⟨l, h1, ?_⟩
  intro c hc
  obtain ⟨b1, b2, hne, hval⟩ := h3 c hc
  have sym := seaValue_symm (K := K) (FS := FS) 1 hq (by rwa [entries_length] at b1) (by rwa [entries_length] at b2)
  obtain ⟨c', hc', e1, e2⟩ := h4 c.right b2 c.left b1 (by rw [← sym, ← hval]; exact hne)
  refine ⟨c', hc', e1, e2, ?_⟩
  rw [(h3 c' hc').2.2.2, e1, e2, ← sym, hval]

/-- C34: the comparator of `sort` is a strict total order on the index pairs (so `std::sort` may be called with it),
and sorting by it puts the table in lexicographic order. -/
theorem contributionLess_strictTotal {S : Type*} (a b c : Contribution S) :
    (contributionLess a b = true ↔ toLex (a.left, a.right) < toLex (b.left, b.right)) ∧
    contributionLess a a = false ∧
    (contributionLess a b = true → contributionLess b c = true → contributionLess a c = true) ∧
    (contributionLess a b = false → contributionLess b a = false → a.left = b.left ∧ a.right = b.right) := by
  have key : ∀ a b : Contribution S,
      contributionLess a b = true ↔ a.left < b.left ∨ (a.left = b.left ∧ a.right < b.right) := by
    intro a b
    unfold contributionLess
    by_cases h1 : a.left < b.left
    · simp [h1]
    · by_cases h2 : a.left = b.left <;> simp [h1, h2]
  refine ⟨?_, ?_, ?_, ?_⟩
  · rw [key, Prod.Lex.toLex_lt_toLex]
  · rw [← Bool.not_eq_true, key]; omega
  · rw [key, key, key]; omega
  · rw [← Bool.not_eq_true, ← Bool.not_eq_true, key, key]; omega

include hFS in
/-- C34 is false of the code as far as the values are concerned: the Liouvillian is set up in the basis
`2 x y z - δ x`, the table is computed with `2 x y z + δ x`. For the occupied momentum `q` and every momentum `p` the
entry between `c†_q` and `c†_q n_p` is wrong by 2 (3 instead of 1 for occupied `p`, 1 instead of -1 for empty `p`). -/
theorem nonVanishing_wrong (hq : q < N) (hocc : disp q < eF) {p : ℕ} (hp : p < N) :
    ∃ l : List (Contribution K), nonVanishing (Spec.entries N q) (conjBasis (Spec.entries N q)) disp eF = .val l ∧
    ∃ c ∈ l, c.left = get3opIndex N q p ∧ c.right = 0 ∧
      c.value = (if disp p < eF then 3 else 1) ∧
      seaValue (-1) FS (Spec.entries N q) c.left c.right = (if disp p < eF then (1 : K) else -1) := by
  obtain ⟨l, h1, h2, h3, h4⟩ := nonVanishing_partial (K := K) hFS hq
  refine ⟨l, h1, ?_⟩
  have ht : third N q q p = p := (third_eq_second hq hq hp).2 rfl
  have hget := entries_getElem N q hq hp
  rw [ht] at hget
  have huq : up q ∈ FS := (hFS q hq true).2 hocc
  have evone : ev K FS (RealSpace.Spec.one q ++ Monomial.conjugate (RealSpace.Spec.one q)) = 1 := by
    rw [ev_append, adjVec_one, if_pos huq, map_smul, Pi.smul_apply, fockMono_ket_adj, adjVec_one, if_pos huq,
      Pi.smul_apply, ket, if_pos rfl, smul_eq_mul, smul_eq_mul, mul_one, ← Int.cast_mul, jwSign_sq, Int.cast_one]
  have evthree : ev K FS (RealSpace.Spec.three q p p ++ Monomial.conjugate (RealSpace.Spec.one q)) =
      if disp p < eF then 1 else 0 := by
    rw [ev_append, adjVec_one, if_pos huq, map_smul, Pi.smul_apply, fockMono_ket_adj, adjVec_diag]
    by_cases hd : disp p < eF
    · rw [if_pos ((hFS p hp false).2 hd), if_pos hd, adjVec_one, if_pos huq,
        Pi.smul_apply, ket, if_pos rfl, smul_eq_mul, smul_eq_mul, mul_one, ← Int.cast_mul, jwSign_sq, Int.cast_one]
    · rw [if_neg (fun h => hd ((hFS p hp false).1 h)), if_neg hd]; simp
  have sv : ∀ s : K, seaValue s FS (Spec.entries N q) (get3opIndex N q p) 0 = 2 * (if disp p < eF then 1 else 0) + s := by
    intro s
    rw [sea_I0 s hget, evone, evthree, if_pos rfl, mul_one]
  have hidx : get3opIndex N q p < N * N + 1 := by
    have : q * N + p < N * N := by nlinarith
    unfold get3opIndex; omega
  obtain ⟨c, hc, e1, e2⟩ := h4 (get3opIndex N q p) (by rw [entries_length]; exact hidx) 0 (by rw [entries_length]; omega)
    (by rw [sv]; split <;> norm_num)
  refine ⟨c, hc, e1, e2, ?_, ?_⟩
  · rw [(h3 c hc).2.2.2, e1, e2, sv]; split <;> norm_num
  · rw [e1, e2, sv]; split <;> norm_num

end

/-- Non-vacuity: four momenta, the first two occupied. -/
example : ∃ l : List (Contribution ℚ), nonVanishing (Spec.entries 4 1) (conjBasis (Spec.entries 4 1))
    (fun k : ℕ => (k : ℤ)) 2 = .val l ∧ ∃ c ∈ l, c.left = get3opIndex 4 1 2 ∧ c.right = 0 ∧ c.value = 1 := by
  obtain ⟨l, h, c, hc, h1, h2, h3, _⟩ := nonVanishing_wrong (K := ℚ) (N := 4) (q := 1) (p := 2)
    (disp := fun k : ℕ => (k : ℤ)) (eF := 2)
    (FS := modeSet [(0, true), (0, false), (1, true), (1, false)]) (by decide) (by decide) (by decide) (by decide)
  exact ⟨l, h, c, hc, h1, h2, by simpa using h3⟩

end MomentumSpace
end Ieompp
