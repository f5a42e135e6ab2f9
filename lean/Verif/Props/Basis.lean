import Verif.Model.HubbardBasis
import Verif.Props.Chain
import Verif.Props.Monomial
import Mathlib.Data.List.Nodup
import Mathlib.Data.List.Perm.Basic
import Mathlib.Tactic.IntervalCases

/-! # C24, C25: the operator bases -/

set_option autoImplicit false
set_option linter.unusedSectionVars false

namespace Ieompp

open Spec

/-! ## Enumeration lemmas -/

/-- Element `i * N + j` of `[f 0 0, ..., f 0 (N-1), f 1 0, ...]`. -/
theorem getElem?_flatMap_range {τ : Type*} (M N : ℕ) (f : ℕ → List τ) (hf : ∀ i < M, (f i).length = N)
    (i j : ℕ) (hi : i < M) (hj : j < N) :
    ((List.range M).flatMap f)[i * N + j]? = (f i)[j]? := by
  induction M with
  | zero => omega
  | succ M ih =>
    rw [List.range_succ, List.flatMap_append]
    have hlen : ((List.range M).flatMap f).length = M * N := by
      have : ∀ K ≤ M, ((List.range K).flatMap f).length = K * N := by
        intro K
        induction K with
        | zero => simp
        | succ K ihK =>
          intro hK
          rw [List.range_succ, List.flatMap_append, List.length_append, ihK (by omega)]
          simp [hf K (by omega)]; ring
      exact this M (le_refl _)
    by_cases h : i < M
    · rw [List.getElem?_append_left, ih (fun k hk => hf k (by omega)) h]
      rw [hlen]
      have : (i + 1) * N ≤ M * N := Nat.mul_le_mul_right _ h
      nlinarith
    · have hiM : i = M := by omega
      subst hiM
      rw [List.getElem?_append_right (by rw [hlen]; omega), hlen, Nat.add_sub_cancel_left]
      simp

theorem length_flatMap_range {τ : Type*} (M N : ℕ) (f : ℕ → List τ) (hf : ∀ i < M, (f i).length = N) :
    ((List.range M).flatMap f).length = M * N := by
  induction M with
  | zero => simp
  | succ K ih =>
    rw [List.range_succ, List.flatMap_append, List.length_append, ih (fun k hk => hf k (by omega))]
    simp [hf K (by omega)]; ring

theorem parallelModify_getElem? {τ : Type*} (f : τ → τ) (sched : List ℕ) (v : List τ) (k : ℕ) (hs : sched.Nodup) :
    (parallelModify f sched v)[k]? = if k ∈ sched then v[k]?.map f else v[k]? := by
  induction sched generalizing v with
  | nil => simp [parallelModify]
  | cons i s ih =>
    rw [List.nodup_cons] at hs
    have : parallelModify f (i :: s) v = parallelModify f s (v.modify i f) := rfl
    rw [this, ih _ hs.2]
    by_cases hik : i = k
    · subst hik
      rw [if_neg hs.1, if_pos (by simp)]; simp
    · have : (k ∈ i :: s) ↔ k ∈ s := by
        simp only [List.mem_cons]; exact ⟨fun h => h.resolve_left (fun e => hik e.symm), Or.inr⟩
      simp only [this, List.getElem?_modify, hik, if_false]
      simp

/-- A parallel element-wise loop gives the element-wise image, in whatever order the iterations run. -/
theorem parallelModify_eq_map {τ : Type*} (f : τ → τ) (sched : List ℕ) (v : List τ)
    (hs : sched.Perm (List.range v.length)) : parallelModify f sched v = v.map f := by
  apply List.ext_getElem?
  intro k
  rw [parallelModify_getElem? f sched v k (hs.nodup_iff.2 List.nodup_range)]
  by_cases hk : k < v.length
  · rw [if_pos (hs.mem_iff.2 (List.mem_range.2 hk))]; simp
  · rw [if_neg (fun h => hk (List.mem_range.1 (hs.mem_iff.1 h)))]
    simp [List.getElem?_eq_none (not_lt.1 hk)]

/-! ## C24 -/

namespace RealSpace

/-- The one-operator monomial `c†_{i↑}`. -/
def Spec.one (i : ℕ) : HMonomial := [⟨true, (i, true)⟩]
/-- The three-operator monomial `c†_{i↑} c†_{j↓} c_{k↓}`. -/
def Spec.three (i j k : ℕ) : HMonomial := [⟨true, (i, true)⟩, ⟨true, (j, false)⟩, ⟨false, (k, false)⟩]

theorem three_block_length (N i : ℕ) :
    ((List.range N).flatMap (fun i2 => (List.range N).map (fun i3 => Spec.three i i2 i3))).length = N * N :=
  length_flatMap_range N N _ (by simp)

/-- C24: size of the bases. -/
theorem realBasis_size (N : ℕ) : (basis1 N).length = N ∧ (basis3 N).length = N + N * N * N := by
  constructor
  · simp [basis1]
  · unfold basis3
    rw [List.length_append, List.length_map, List.length_range]
    congr 1
    rw [show (fun i1 => (List.range N).flatMap (fun i2 => (List.range N).map (fun i3 =>
      ([⟨true, (i1, true)⟩, ⟨true, (i2, false)⟩, ⟨false, (i3, false)⟩] : HMonomial))))
      = (fun i1 => (List.range N).flatMap (fun i2 => (List.range N).map (fun i3 => Spec.three i1 i2 i3))) from rfl,
      length_flatMap_range N (N * N) _ (fun i _ => three_block_length N i)]
    ring

/-- C24: the first N entries are the creators, and `get_3op_index(i,j,k)` is the position of `c†_i c†_j c_k`. -/
theorem realBasis_getElem (N : ℕ) :
    (∀ i < N, (basis1 N)[i]? = some (Spec.one i) ∧ (basis3 N)[i]? = some (Spec.one i)) ∧
    (∀ i j k, i < N → j < N → k < N → (basis3 N)[get3opIndex N i j k]? = some (Spec.three i j k)) := by
  constructor
  · intro i hi
    constructor
    · simp [basis1, Spec.one, hi]
    · unfold basis3
      rw [List.getElem?_append_left (by simpa using hi)]; simp [Spec.one, hi]
  · intro i j k hi hj hk
    unfold basis3 get3opIndex
    have e : N + N * N * i + N * j + k = N + (i * (N * N) + (j * N + k)) := by ring
    rw [e, List.getElem?_append_right (by simp)]
    rw [List.length_map, List.length_range, Nat.add_sub_cancel_left]
    have hjk : j * N + k < N * N := by
      have : (j + 1) * N ≤ N * N := Nat.mul_le_mul_right _ hj
      nlinarith
    change ((List.range N).flatMap (fun i1 => (List.range N).flatMap (fun i2 => (List.range N).map
      (fun i3 => Spec.three i1 i2 i3))))[i * (N * N) + (j * N + k)]? = _
    rw [getElem?_flatMap_range N (N * N) _ (fun i _ => three_block_length N i) i (j * N + k) hi hjk]
    rw [getElem?_flatMap_range N N _ (by simp) j k hj hk]
    simp [Spec.three, hk]

/-- C24: `get_3op_index` is a bijection from triples of sites onto the positions `N, ..., N + N³ - 1`. -/
theorem realBasis_index_bijective (N : ℕ) :
    (∀ i j k, i < N → j < N → k < N → N ≤ get3opIndex N i j k ∧ get3opIndex N i j k < N + N * N * N) ∧
    (∀ p, N ≤ p → p < N + N * N * N → ∃ i j k, i < N ∧ j < N ∧ k < N ∧ p = get3opIndex N i j k) ∧
    (∀ i j k i' j' k', i < N → j < N → k < N → i' < N → j' < N → k' < N →
      get3opIndex N i j k = get3opIndex N i' j' k' → i = i' ∧ j = j' ∧ k = k') := by
  have eform : ∀ i j k, get3opIndex N i j k = N + ((i * N + j) * N + k) := by
    intro i j k; unfold get3opIndex; ring
  refine ⟨?_, ?_, ?_⟩
  · intro i j k hi hj hk
    rw [eform]
    have h1 : (i + 1) * N ≤ N * N := Nat.mul_le_mul_right _ hi
    have h2 : (i * N + j + 1) * N ≤ N * N * N := by
      apply Nat.mul_le_mul_right; nlinarith
    constructor
    · omega
    · nlinarith
  · intro p h1 h2
    have hN : 0 < N := by
      rcases Nat.eq_zero_or_pos N with h | h
      · subst h; simp at h2
      · exact h
    refine ⟨(p - N) / N / N, (p - N) / N % N, (p - N) % N, ?_, Nat.mod_lt _ hN, Nat.mod_lt _ hN, ?_⟩
    · apply Nat.div_lt_of_lt_mul
      apply Nat.div_lt_of_lt_mul
      have : N * (N * N) = N * N * N := by ring
      omega
    · rw [eform]
      have a1 : N * ((p - N) / N / N) + (p - N) / N % N = (p - N) / N := Nat.div_add_mod _ _
      have a2 : N * ((p - N) / N) + (p - N) % N = p - N := Nat.div_add_mod _ _
      rw [mul_comm ((p - N) / N / N) N, a1, mul_comm _ N, a2]; omega
  · intro i j k i' j' k' hi hj hk hi' hj' hk' h
    rw [eform, eform] at h
    have h' : (i * N + j) * N + k = (i' * N + j') * N + k' := by omega
    have hN : 0 < N := by omega
    have div : ∀ x y, y < N → (x * N + y) / N = x ∧ (x * N + y) % N = y := by
      intro x y hy
      constructor
      · rw [mul_comm, Nat.mul_add_div hN, Nat.div_eq_of_lt hy, add_zero]
      · rw [mul_comm, Nat.mul_add_mod, Nat.mod_eq_of_lt hy]
    obtain ⟨d1, m1⟩ := div (i * N + j) k hk
    obtain ⟨d2, m2⟩ := div (i' * N + j') k' hk'
    rw [h'] at d1 m1
    have hk : k = k' := by omega
    have h2 : i * N + j = i' * N + j' := by omega
    obtain ⟨d3, m3⟩ := div i j hj
    obtain ⟨d4, m4⟩ := div i' j' hj'
    rw [h2] at d3 m3
    exact ⟨by omega, by omega, hk⟩

/-- C24: every entry of the three-operator basis is one of the listed monomials. -/
theorem realBasis_entries (N p : ℕ) (m : HMonomial) (h : (basis3 N)[p]? = some m) :
    (p < N ∧ m = Spec.one p) ∨ ∃ i j k, i < N ∧ j < N ∧ k < N ∧ p = get3opIndex N i j k ∧ m = Spec.three i j k := by
  obtain ⟨g1, g2⟩ := realBasis_getElem N
  have hp : p < N + N * N * N := by
    have := (List.getElem?_eq_some_iff.1 h).1
    rw [(realBasis_size N).2] at this; exact this
  by_cases hpN : p < N
  · left
    refine ⟨hpN, ?_⟩
    have := (g1 p hpN).2
    rw [h] at this; exact Option.some.inj this
  · right
    obtain ⟨i, j, k, hi, hj, hk, rfl⟩ := (realBasis_index_bijective N).2.1 p (by omega) hp
    have := g2 i j k hi hj hk
    rw [h] at this
    exact ⟨i, j, k, hi, hj, hk, rfl, Option.some.inj this⟩

/-- C24: no monomial is listed twice. -/
theorem realBasis_nodup (N : ℕ) : (basis1 N).Nodup ∧ (basis3 N).Nodup := by
  constructor
  · unfold basis1
    refine (List.nodup_map_iff ?_).2 List.nodup_range
    intro a b h; simpa using h
  · rw [List.nodup_iff_injective_get]
    rintro ⟨p, hp⟩ ⟨p', hp'⟩ h
    simp only [List.get_eq_getElem] at h
    have e1 : (basis3 N)[p]? = some (basis3 N)[p] := List.getElem?_eq_getElem hp
    have e2 : (basis3 N)[p']? = some (basis3 N)[p] := by rw [h]; exact List.getElem?_eq_getElem hp'
    apply Fin.ext
    show p = p'
    rcases realBasis_entries N p _ e1 with ⟨_, a⟩ | ⟨i, j, k, _, _, _, q, a⟩ <;>
      rcases realBasis_entries N p' _ e2 with ⟨_, b⟩ | ⟨i', j', k', _, _, _, q', b⟩
    · rw [a] at b; simpa [Spec.one] using b
    · rw [a] at b; simp [Spec.one, Spec.three] at b
    · rw [a] at b; simp [Spec.one, Spec.three] at b
    · rw [a] at b
      simp only [Spec.three, List.cons.injEq, Op.mk.injEq, Prod.mk.injEq, and_true, true_and] at b
      rw [q, q', b.1, b.2.1, b.2.2]

/-- C24: whatever the thread schedule, the conjugate basis holds the conjugate of each monomial at the same
position. -/
theorem realBasis_getConjugate (b : List HMonomial) (sched : List ℕ) (hs : sched.Perm (List.range b.length)) :
    getConjugate sched b = b.map Monomial.getConjugate := by
  unfold getConjugate
  rw [parallelModify_eq_map _ _ _ hs]
  apply List.map_congr_left
  intro m _
  exact monomial_conjugate_eq m

example : (basis3 2).length = 10 ∧ (basis3 2)[get3opIndex 2 1 0 1]? = some (Spec.three 1 0 1) := by decide
example : getConjugate [1, 2, 0] (basis1 3) = (basis1 3).map Monomial.getConjugate :=
  realBasis_getConjugate _ _ (by decide)

end RealSpace

/-! ## C25 -/

namespace MomentumSpace

theorem collect_val {α : Type*} (l : List α) : collect (l.map Res.val) = .val l := by
  induction l with
  | nil => rfl
  | cons a l ih => simp [collect, ih]

variable {K : Type*} [Field K] [LinearOrder K] [IsStrictOrderedRing K] [FloorRing K]

/-- What the momentum-space basis for external momentum `q` contains. -/
def Spec.entries (N q : ℕ) : List HMonomial :=
  [⟨true, (q, true)⟩] :: (List.range N).flatMap fun i1 => (List.range N).map fun i2 =>
    RealSpace.Spec.three i1 i2 (siteMod (i1 + i2 - q) N)

/-- C25: the constructor succeeds on every chain of momenta and every `q`. -/
theorem momentumBasis_eq (pi : K) (hpi : 0 < pi) (N : ℕ) (hN : 0 < N) (q : ℕ) :
    basis3 q (Chain.momentum pi N) = .val (Spec.entries N q) := by
  unfold basis3
  have : ((List.range N).flatMap fun i1 => (List.range N).map fun i2 =>
      ((Chain.momentum pi N).lookup ((Chain.momentum pi N).pos i1 + (Chain.momentum pi N).pos i2
        - (Chain.momentum pi N).pos q)).map fun i3 =>
        ([⟨true, (i1, true)⟩, ⟨true, (i2, false)⟩, ⟨false, (i3, false)⟩] : HMonomial))
      = ((List.range N).flatMap fun i1 => (List.range N).map fun i2 =>
          RealSpace.Spec.three i1 i2 (siteMod (i1 + i2 - q) N)).map Res.val := by
    rw [List.map_flatMap]
    congr 1; funext i1
    rw [List.map_map]
    congr 1; funext i2
    obtain ⟨r, h1, _, h2, _⟩ := chain_lookup_momentum_sum pi hpi N hN i1 i2 q
    rw [h1, h2]; rfl
  show (collect ((List.range N).flatMap fun i1 => (List.range N).map fun i2 => _)).map _ = _
  rw [this, collect_val]; rfl

/-- C25: size N² + 1, and `get_3op_index` finds the monomials; the third operator carries the momentum index
`i1 + i2 - q` modulo N. -/
theorem momentumBasis_getElem (pi : K) (hpi : 0 < pi) (N : ℕ) (hN : 0 < N) (q : ℕ) :
    ∃ B, basis3 q (Chain.momentum pi N) = .val B ∧ B.length = N * N + 1 ∧
      B[0]? = some (RealSpace.Spec.one q) ∧
      ∀ i1 i2, i1 < N → i2 < N → get3opIndex N i1 i2 < N * N + 1 ∧
        B[get3opIndex N i1 i2]? = some (RealSpace.Spec.three i1 i2 (siteMod (i1 + i2 - q) N)) := by
  refine ⟨_, momentumBasis_eq pi hpi N hN q, ?_, rfl, ?_⟩
  · unfold Spec.entries
    rw [List.length_cons, length_flatMap_range N N _ (by simp)]
  · intro i1 i2 h1 h2
    unfold get3opIndex
    constructor
    · have : (i1 + 1) * N ≤ N * N := Nat.mul_le_mul_right _ h1
      nlinarith
    · unfold Spec.entries
      rw [show 1 + i1 * N + i2 = (i1 * N + i2) + 1 by ring, List.getElem?_cons_succ,
        getElem?_flatMap_range N N _ (by simp) i1 i2 h1 h2]
      simp [h2]

/-- C25: the entries are pairwise different. -/
theorem momentumBasis_nodup (N q : ℕ) : (Spec.entries N q).Nodup := by
  unfold Spec.entries
  rw [List.nodup_cons]
  constructor
  · intro h
    rw [List.mem_flatMap] at h
    obtain ⟨i, _, h⟩ := h
    rw [List.mem_map] at h
    obtain ⟨j, _, h⟩ := h
    simp [RealSpace.Spec.three] at h
  · rw [List.nodup_flatMap]
    constructor
    · intro i _
      refine List.Nodup.map_on ?_ List.nodup_range
      intro x _ y _ h
      simp only [RealSpace.Spec.three, List.cons.injEq, Op.mk.injEq, Prod.mk.injEq, and_true, true_and] at h
      exact h.1
    · refine List.nodup_range.imp ?_
      intro a b hab
      simp only [Function.onFun, List.disjoint_left]
      intro m h1 h2
      rw [List.mem_map] at h1 h2
      obtain ⟨x, _, rfl⟩ := h1
      obtain ⟨y, _, h⟩ := h2
      simp only [RealSpace.Spec.three, List.cons.injEq, Op.mk.injEq, Prod.mk.injEq, and_true, true_and] at h
      exact hab h.1.symm

/-- C25: every basis monomial has total momentum `k_q` modulo 2π, one net creation and spin up, and only refers to
existing momenta. -/
theorem momentumBasis_conserved (pi : K) (hpi : 0 < pi) (N : ℕ) (hN : 0 < N) (q : ℕ) (hq : q < N) :
    ∃ B, basis3 q (Chain.momentum pi N) = .val B ∧ ∀ m ∈ B,
      let t : Term ℤ HOp := ⟨1, m⟩
      (∃ n : ℤ, Term.totalMomentum (·.creator) (fun op => (Chain.momentum pi N).pos op.index.1) t
        = (Chain.momentum pi N).pos q + n * (2 * pi)) ∧
      Term.totalCreations (·.creator) t = 1 ∧ Term.totalSpin (·.creator) (fun op => op.index.2) t = 1 ∧
      ∀ op ∈ m, op.index.1 < N := by
  refine ⟨_, momentumBasis_eq pi hpi N hN q, ?_⟩
  intro m hm
  unfold Spec.entries at hm
  rw [List.mem_cons] at hm
  rcases hm with rfl | hm
  · refine ⟨⟨0, ?_⟩, ?_, ?_, ?_⟩
    · simp [Term.totalMomentum]
    · simp [Term.totalCreations]
    · simp [Term.totalSpin]
    · simpa using hq
  · rw [List.mem_flatMap] at hm
    obtain ⟨i1, hi1, hm⟩ := hm
    rw [List.mem_map] at hm
    obtain ⟨i2, hi2, rfl⟩ := hm
    rw [List.mem_range] at hi1 hi2
    obtain ⟨r, _, hr, he, n, hn⟩ := chain_lookup_momentum_sum pi hpi N hN i1 i2 q
    rw [he] at hn hr
    refine ⟨⟨-n, ?_⟩, ?_, ?_, ?_⟩
    · simp only [Term.totalMomentum, RealSpace.Spec.three, List.foldl_cons, List.foldl_nil, if_true]
      simp only [Bool.false_eq_true, if_false]
      rw [hn]; push_cast; ring
    · simp [Term.totalCreations, RealSpace.Spec.three]
    · simp [Term.totalSpin, RealSpace.Spec.three]
    · simp [RealSpace.Spec.three, hi1, hi2, hr]

noncomputable example : basis3 1 (Chain.momentum Real.pi 4) = .val (Spec.entries 4 1) :=
  momentumBasis_eq Real.pi Real.pi_pos 4 (by omega) 1
example : (Spec.entries 4 1)[get3opIndex 4 3 3]? = some (RealSpace.Spec.three 3 3 1) := by decide

end MomentumSpace

end Ieompp
