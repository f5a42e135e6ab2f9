import Verif.Props.ParticleTable
import Mathlib.Algebra.BigOperators.Group.Finset.Basic
import Mathlib.Algebra.Order.BigOperators.Group.Finset

/-! # C35: the particle number is real and not negative -/

set_option autoImplicit false
set_option linter.unusedSectionVars false

namespace Ieompp

open Ieompp.Spec ComplexConjugate

section Cast
variable {ι : Type*} [LinearOrder ι] {R K : Type*} [CommRing R] [CommRing K] (f : R →+* K)

theorem fockWord_cast (m : List (Op ι)) (v : Finset ι → R) (S : Finset ι) :
    fockWord K m (fun T => f (v T)) S = f (fockWord R m v S) := by
  induction m generalizing S with
  | nil => simp [fockWord]
  | cons x m ih =>
    have e1 : fockWord K (x :: m) (fun T => f (v T)) = fockOp K x (fockWord K m (fun T => f (v T))) := by simp [fockWord]
    have e2 : fockWord R (x :: m) v = fockOp R x (fockWord R m v) := by simp [fockWord]
    rw [e1, e2, fockOp_apply, fockOp_apply]
    split
    · rw [ih, map_mul, map_intCast]
    · simp

theorem ket_cast (S : Finset ι) : (fun T => f (ket R S T)) = ket K S := by
  funext T; simp only [ket]; split <;> simp

end Cast

namespace MomentumSpace
open FermiSea

theorem ev_cast (FS : Finset Mode) (w : HMonomial) : ev ℂ FS w = ((ev ℝ FS w : ℝ) : ℂ) := by
  unfold ev braket fockMono
  rw [← ket_cast Complex.ofRealHom, fockWord_cast]
  rfl

theorem seaValue_cast (FS : Finset Mode) {N q : ℕ} (hq : q < N) {i j : ℕ} (hi : i < N * N + 1) (hj : j < N * N + 1)
    (s : ℝ) : seaValue (s : ℂ) FS (Spec.entries N q) i j = ((seaValue s FS (Spec.entries N q) i j : ℝ) : ℂ) := by
  have hif : ∀ P : Prop, [Decidable P] → (if P then (s : ℂ) else 0) = ((if P then s else 0 : ℝ) : ℂ) := by
    intro P _; split <;> simp
  by_cases hi0 : i = 0 <;> by_cases hj0 : j = 0
  · subst hi0; subst hj0
    rw [sea_00, sea_00, ev_cast]
  · obtain ⟨a, b, c, ha, hb, hc, hbc, hget⟩ := entries_cases hq hj hj0
    subst hi0
    rw [sea_0I _ hget, sea_0I _ hget, ev_cast, ev_cast, hif]
    push_cast; rfl
  · obtain ⟨a, b, c, ha, hb, hc, hbc, hget⟩ := entries_cases hq hi hi0
    subst hj0
    rw [sea_I0 _ hget, sea_I0 _ hget, ev_cast, ev_cast, hif]
    push_cast; rfl
  · obtain ⟨a, b, c, ha, hb, hc, hbc, hget⟩ := entries_cases hq hi hi0
    obtain ⟨a', b', c', ha', hb', hc', hbc', hget'⟩ := entries_cases hq hj hj0
    rw [sea_IJ _ hget hget', sea_IJ _ hget hget', ev_cast, ev_cast, ev_cast, ev_cast, hif, hif]
    push_cast; rfl

/-- The loop of `operator()` as a sum. -/
theorem particleSum_eq (h : ℕ → ℂ) (vec : List ℂ) (hvec : ∀ i < vec.length, vec[i]? = some (h i)) :
    ∀ (table : List (Contribution ℝ)) (r : ℂ), (∀ c ∈ table, c.left < vec.length ∧ c.right < vec.length) →
    table.foldl (fun (acc : Res ℂ) c => acc.bind fun r => particleStep vec r c) (Res.val r) =
      Res.val (r + (table.map fun c => h c.left * conj (h c.right) * (c.value : ℂ)).sum) := by
  intro table
  induction table with
  | nil => intro r _; simp
  | cons c t ih =>
    intro r hr
    obtain ⟨h1, h2⟩ := hr c (by simp)
    have key : particleStep vec r c = .val (r + h c.left * conj (h c.right) * (c.value : ℂ)) := by
      unfold particleStep
      rw [vecAt_some (hvec _ h1), vecAt_some (hvec _ h2)]
      split
      · rename_i e
        rw [Res.bind_val, ← e, Complex.mul_conj]; push_cast; rfl
      · rw [Res.bind_val, Res.bind_val, (complex_helpers (h c.left) (h c.right) 0).2.2.1]
    rw [List.foldl_cons, Res.bind_val, key, ih _ (fun c hc => hr c (by simp [hc])), List.map_cons, List.sum_cons, add_assoc]

theorem pairs_sum {M : Type*} [AddCommMonoid M] (n : ℕ) (hn : 0 < n) (f : ℕ × ℕ → M) :
    ((pairs n).map f).sum = ∑ i ∈ Finset.range n, ∑ j ∈ Finset.range n, f (i, j) := by
  rw [← Finset.sum_product', ← List.sum_toFinset f (pairs_nodup n)]
  apply Finset.sum_congr
  · ext p
    rw [List.mem_toFinset, mem_pairs hn, Finset.mem_product, Finset.mem_range, Finset.mem_range]
  · intros; rfl

variable {E : Type*} [LinearOrder E] {N q : ℕ} {disp : ℕ → E} {eF : E} {FS : Finset Mode}

theorem want_sum (h : ℕ → ℂ) (n : ℕ) (hn : 0 < n) :
    (((pairs n).flatMap (want ℝ FS N q)).map fun c => h c.left * conj (h c.right) * (c.value : ℂ)).sum =
      ∑ i ∈ Finset.range n, ∑ j ∈ Finset.range n,
        h i * conj (h j) * ((seaValue (1 : ℝ) FS (Spec.entries N q) i j : ℝ) : ℂ) := by
  rw [← pairs_sum n hn (fun p => h p.1 * conj (h p.2) * ((seaValue (1 : ℝ) FS (Spec.entries N q) p.1 p.2 : ℝ) : ℂ))]
  induction pairs n with
  | nil => simp
  | cons p t ih =>
    rw [List.flatMap_cons, List.map_append, List.sum_append, ih, List.map_cons, List.sum_cons]
    congr 1
    unfold want
    split
    · simp
    · rename_i h0
      push Not at h0
      simp [h0]

/-! ### Positivity -/

/-- The support of a vector. -/
def SupportedOn (F : Finset (Finset Mode)) (v : Finset Mode → ℂ) : Prop := ∀ T, T ∉ F → v T = 0

theorem supported_sum {F : Finset (Finset Mode)} {v : Finset Mode → ℂ} (h : SupportedOn F v) :
    v = ∑ T ∈ F, v T • ket ℂ T := by
  funext S
  rw [Finset.sum_apply]
  by_cases hS : S ∈ F
  · rw [Finset.sum_eq_single S]
    · simp [ket]
    · intro T _ hne; rw [Pi.smul_apply, ket, if_neg (Ne.symm hne), smul_zero]
    · intro h'; exact absurd hS h'
  · rw [h S hS, Finset.sum_eq_zero]
    intro T hT
    rw [Pi.smul_apply, ket, if_neg (by rintro rfl; exact hS hT), smul_zero]

/-- The vector `A_p† |FS⟩`. -/
noncomputable def adjState (FS : Finset Mode) (N q : ℕ) (p : ℕ) : Finset Mode → ℂ :=
  fockBasisAdj (1 : ℂ) ((Spec.entries N q).getD p []) (ket ℂ FS)

theorem word_real (m : HMonomial) (T S : Finset Mode) : conj (fockMono ℂ m (ket ℂ T) S) = fockMono ℂ m (ket ℂ T) S := by
  unfold fockMono
  rw [← ket_cast Complex.ofRealHom, fockWord_cast]
  simp

theorem word_adj (m : HMonomial) (T FS : Finset Mode) :
    fockMono ℂ m (ket ℂ T) FS = fockMono ℂ (Monomial.conjugate m) (ket ℂ FS) T := fockMono_ket_adj FS T m

/-- `⟨FS| A_p |T⟩` is the conjugate of `⟨T| A_p† |FS⟩`, and the latter is real. -/
theorem basisOp_adj (hq : q < N) {p : ℕ} (hp : p < N * N + 1) (T : Finset Mode) :
    fockBasisOp (1 : ℂ) ((Spec.entries N q).getD p []) (ket ℂ T) FS = adjState FS N q p T ∧
    conj (adjState FS N q p T) = adjState FS N q p T := by
  unfold adjState
  by_cases h0 : p = 0
  · subst h0
    rw [List.getD_eq_getElem?_getD, entries_zero, Option.getD_some, fockBasisOp_one, fockBasisAdj_one]
    exact ⟨word_adj _ _ _, word_real _ _ _⟩
  · obtain ⟨a, b, c, ha, hb, hc, hbc, hget⟩ := entries_cases hq hp h0
    rw [List.getD_eq_getElem?_getD, hget, Option.getD_some, fockBasisOp_three, fockBasisAdj_three]
    simp only [LinearMap.add_apply, LinearMap.smul_apply, Pi.add_apply, Pi.smul_apply, smul_eq_mul, map_add,
      map_mul, word_real]
    rw [word_adj (RealSpace.Spec.three a b c), word_adj (RealSpace.Spec.one a)]
    refine ⟨rfl, ?_⟩
    have h2 : conj (2 : ℂ) = 2 := Complex.conj_ofNat 2
    split <;> simp [h2]

theorem adjState_supported (hq : q < N) {p : ℕ} (hp : p < N * N + 1) : ∃ F, SupportedOn F (adjState FS N q p) := by
  have word : ∀ {x : HMonomial}, IsWord x → ∃ F, SupportedOn F (adjVec ℂ FS x) := by
    intro x hx
    rcases word_cases (K := ℂ) FS hx with h0 | ⟨k, hk, ek⟩ | ⟨k, l, m, hlm, rfl, hk, hl, hm, e1, he1, ee1⟩
    · exact ⟨∅, fun T _ => by rw [h0]; rfl⟩
    · refine ⟨{toggle (up k) FS}, fun T hT => ?_⟩
      rw [Finset.mem_singleton] at hT
      rw [ek, adjVec_one, if_pos hk, Pi.smul_apply, ket, if_neg hT, smul_zero]
    · refine ⟨{toggle (dn m) (toggle (dn l) (toggle (up k) FS))}, fun T hT => ?_⟩
      rw [Finset.mem_singleton] at hT
      rw [ee1, Pi.smul_apply, ket, if_neg hT, smul_zero]
  unfold adjState
  by_cases h0 : p = 0
  · subst h0
    rw [List.getD_eq_getElem?_getD, entries_zero, Option.getD_some, fockBasisAdj_one]
    exact word (isWord_one q)
  · obtain ⟨a, b, c, ha, hb, hc, hbc, hget⟩ := entries_cases hq hp h0
    rw [List.getD_eq_getElem?_getD, hget, Option.getD_some, fockBasisAdj_three]
    obtain ⟨F1, h1⟩ := word (isWord_three a b c)
    obtain ⟨F2, h2⟩ := word (isWord_one a)
    refine ⟨F1 ∪ F2, fun T hT => ?_⟩
    rw [Finset.mem_union] at hT
    push Not at hT
    have e1 := h1 T hT.1
    have e2 := h2 T hT.2
    unfold adjVec at e1 e2
    rw [LinearMap.add_apply, LinearMap.smul_apply, LinearMap.smul_apply, Pi.add_apply, Pi.smul_apply, Pi.smul_apply,
      e1, e2, smul_zero, smul_zero, add_zero]

theorem seaValue_gram (hq : q < N) {i j : ℕ} (hi : i < N * N + 1) (F : Finset (Finset Mode))
    (hF : SupportedOn F (adjState FS N q j)) :
    seaValue (1 : ℂ) FS (Spec.entries N q) i j = ∑ T ∈ F, conj (adjState FS N q i T) * adjState FS N q j T := by
  unfold seaValue braket
  rw [Module.End.mul_apply]
  change fockBasisOp (1 : ℂ) _ (adjState FS N q j) FS = _
  conv_lhs => rw [supported_sum hF]
  rw [map_sum, Finset.sum_apply]
  refine Finset.sum_congr rfl fun T _ => ?_
  rw [map_smul, Pi.smul_apply, smul_eq_mul, (basisOp_adj hq hi T).1, (basisOp_adj hq hi T).2, mul_comm]

variable (hFS : ∀ k < N, ∀ σ, toLex (k, σ) ∈ FS ↔ disp k < eF)

include hFS in
/-- C35: for every chain length, momentum, dispersion and Fermi energy and for every complex vector `h` of the size of
the basis, evaluating the particle number succeeds (all accesses are in range); the accumulated number is
`⟨FS| (Σ_i h_i A_i) (Σ_j h_j A_j)† |FS⟩` (with the operators `2 x y z + δ x`, see C34), its imaginary part, which the
program drops, is exactly zero, and the result is not negative. -/
theorem particleNumber_real (hq : q < N) (vec : List ℂ) (hlen : vec.length = (Spec.entries N q).length) :
    ∃ (l : List (Contribution ℝ)) (z : ℂ),
      nonVanishing (Spec.entries N q) (conjBasis (Spec.entries N q)) disp eF = .val l ∧
      particleSum vec l = .val z ∧ z.im = 0 ∧ particleNumber vec l = .val z.re ∧ 0 ≤ z.re ∧
      z = braket ℂ FS
        ((∑ i ∈ Finset.range vec.length, vec.getD i 0 • fockBasisOp (1 : ℂ) ((Spec.entries N q).getD i [])) *
          (∑ j ∈ Finset.range vec.length, conj (vec.getD j 0) • fockBasisAdj (1 : ℂ) ((Spec.entries N q).getD j []))) FS := by
  obtain ⟨l, e, _, hl, _⟩ := nonVanishing_partial (K := ℝ) hFS hq
  have hn : vec.length = N * N + 1 := by rw [hlen, entries_length]
  have hsum := particleSum_eq (fun i => vec.getD i 0) vec (fun i hi => by
    simp [List.getD_eq_getElem?_getD, hi]) l 0
    (fun c hc => ⟨by rw [hlen]; exact (hl c hc).1, by rw [hlen]; exact (hl c hc).2.1⟩)
  rw [zero_add] at hsum
  set h : ℕ → ℂ := fun i => vec.getD i 0 with hh
  refine ⟨l, _, e, hsum, ?_⟩
  have hl' : l = (pairs (N * N + 1)).flatMap (want ℝ FS N q) := by
    have := (nonVanishing_eq (K := ℝ) hFS hq).symm.trans e
    exact (Res.val.inj this).symm
  rw [hl', want_sum h _ (by omega)]
  -- a common support
  have : ∃ F, ∀ j < N * N + 1, SupportedOn F (adjState FS N q j) := by
    choose! G hG using fun j => adjState_supported (FS := FS) hq (p := j)
    refine ⟨(Finset.range (N * N + 1)).biUnion G, fun j hj T hT => hG j hj T fun h => hT ?_⟩
    exact Finset.mem_biUnion.2 ⟨j, Finset.mem_range.2 hj, h⟩
  obtain ⟨F, hF⟩ := this
  have key : ∑ i ∈ Finset.range (N * N + 1), ∑ j ∈ Finset.range (N * N + 1),
        h i * conj (h j) * ((seaValue (1 : ℝ) FS (Spec.entries N q) i j : ℝ) : ℂ) =
      ((∑ T ∈ F, Complex.normSq (∑ j ∈ Finset.range (N * N + 1), conj (h j) * adjState FS N q j T) : ℝ) : ℂ) := by
    push_cast
    simp only [Complex.normSq_eq_conj_mul_self, map_sum, Finset.sum_mul_sum, map_mul, Complex.conj_conj]
    rw [Finset.sum_comm]
    simp only [Finset.sum_comm (s := F)]
    rw [Finset.sum_comm]
    refine Finset.sum_congr rfl fun i hi => Finset.sum_congr rfl fun j hj => ?_
    rw [← seaValue_cast FS hq (Finset.mem_range.1 hi) (Finset.mem_range.1 hj), Complex.ofReal_one,
      seaValue_gram hq (Finset.mem_range.1 hi) F (hF j (Finset.mem_range.1 hj)), Finset.mul_sum]
    refine Finset.sum_congr rfl fun T _ => by ring
  rw [key]
  refine ⟨Complex.ofReal_im _, ?_, ?_, ?_⟩
  · unfold particleNumber particleSum
    rw [← hl', hsum, Res.map_val, hl', want_sum h _ (by omega), key]
  · rw [Complex.ofReal_re]
    exact Finset.sum_nonneg fun T _ => Complex.normSq_nonneg _
  · rw [← key, hn]
    unfold braket
    rw [Finset.sum_mul_sum]
    simp only [LinearMap.sum_apply, Finset.sum_apply, smul_mul_assoc, mul_smul_comm, LinearMap.smul_apply, Pi.smul_apply,
      smul_smul, smul_eq_mul]
    refine Finset.sum_congr rfl fun i hi => Finset.sum_congr rfl fun j hj => ?_
    rw [← seaValue_cast FS hq (Finset.mem_range.1 hi) (Finset.mem_range.1 hj), Complex.ofReal_one,
      mul_comm (conj (vec.getD j 0))]
    rfl

/-- Non-vacuity: four momenta, the first two occupied, a complex vector. -/
example : ∃ (l : List (Contribution ℝ)) (z : ℂ),
    nonVanishing (Spec.entries 4 1) (conjBasis (Spec.entries 4 1)) (fun k : ℕ => (k : ℤ)) 2 = .val l ∧
    particleSum (List.replicate 17 Complex.I) l = .val z ∧ z.im = 0 := by
  obtain ⟨l, z, h1, h2, h3, _⟩ := particleNumber_real (N := 4) (q := 1) (disp := fun k : ℕ => (k : ℤ)) (eF := 2)
    (FS := modeSet [(0, true), (0, false), (1, true), (1, false)]) (by decide) (by decide)
    (List.replicate 17 Complex.I) (by rw [entries_length]; simp)
  exact ⟨l, z, h1, h2, h3⟩

end MomentumSpace
end Ieompp
