import Verif.Model.Width
import Verif.Props.Chain
import Verif.Props.Square
import Verif.Props.Basis

/-!
# C87: index arithmetic does not overflow
-/

set_option autoImplicit false
set_option linter.unusedSectionVars false

namespace Ieompp.Width

variable {w : ℕ} {K : Type*}

theorem toNat_inj {x y : BitVec w} : x = y ↔ x.toNat = y.toNat := BitVec.toNat_inj.symm

theorem w_pos_of_ne {N : BitVec w} (h : N ≠ 0) : 0 < w := by
  rcases Nat.eq_zero_or_pos w with rfl | h'
  · exact absurd (Subsingleton.elim N 0) h
  · exact h'

theorem one_toNat (hw : 0 < w) : (1 : BitVec w).toNat = 1 := by
  have : (1 : ℕ) < 2 ^ w := Nat.one_lt_two_pow (by omega)
  simp [Nat.mod_eq_of_lt this]

theorem pos_of_ne {N : BitVec w} (h : N ≠ 0) : 0 < N.toNat := by
  rcases Nat.eq_zero_or_pos N.toNat with h' | h'
  · exact absurd (BitVec.eq_of_toNat_eq (by simpa using h')) h
  · exact h'

theorem sub_toNat {x y : BitVec w} (h : y.toNat ≤ x.toNat) : (x - y).toNat = x.toNat - y.toNat :=
  BitVec.toNat_sub_of_le h

theorem add_toNat {x y : BitVec w} (h : x.toNat + y.toNat < 2 ^ w) : (x + y).toNat = x.toNat + y.toNat :=
  BitVec.toNat_add_of_lt h

theorem mul_toNat {x y : BitVec w} (h : x.toNat * y.toNat < 2 ^ w) : (x * y).toNat = x.toNat * y.toNat :=
  BitVec.toNat_mul_of_lt h

/-! ### The chain: right for every size -/

section Chain
variable [Field K] [LinearOrder K] [IsStrictOrderedRing K]

/-- C87: the chain works for every number of sites the index type can hold: all index functions return, for all sites,
the values of the model with unbounded integers (for which C13-C16 are proved), `begin()` and `end()` are `0` and `N`,
and the numbers converted to `Float` are `N` and `N - 1`. -/
theorem chain_width {c : Chain K} {N : BitVec w} (hN : N ≠ 0) (hc : c.Constructed N.toNat) (a b : BitVec w)
    (ha : a.toNat < N.toNat) (hb : b.toNat < N.toNat) :
    (ChainW.make N).size.toNat = c.size ∧ (ChainW.make N).first.toNat = c.first ∧ (ChainW.make N).last.toNat = c.last ∧
    ((ChainW.make N).neighbors a).map BitVec.toNat = c.neighbors a.toNat ∧
    ((ChainW.make N).uniqueNeighbor a).toNat = c.uniqueNeighbor a.toNat ∧
    ((ChainW.make N).latticeDistance a b).toNat = c.latticeDistance a.toNat b.toNat ∧
    (ChainW.make N).neighboring a b = c.neighboring a.toNat b.toNat ∧
    ((ChainW.make N).range.1.toNat = 0 ∧ (ChainW.make N).range.2.toNat = N.toNat) ∧
    ChainW.floatFactors N = (N.toNat, N.toNat - 1) := by
  have hw := w_pos_of_ne hN
  have h1 := one_toNat hw
  have hp := pos_of_ne hN
  have hlt : N.toNat < 2 ^ w := N.isLt
  obtain ⟨f1, f2, f3⟩ := hc.fields
  have hl : (N - 1).toNat = N.toNat - 1 := by rw [sub_toNat (by omega), h1]
  have hz : (0 : BitVec w).toNat = 0 := by simp
  have a1 : ∀ x : BitVec w, x.toNat < N.toNat → (x + 1).toNat = x.toNat + 1 := by
    intro x hx; rw [add_toNat (by omega), h1]
  refine ⟨by simp [ChainW.make, f1], by simp [ChainW.make, f2], by rw [f3]; exact hl, ?_, ?_, ?_, ?_,
    ⟨by simp [ChainW.make, ChainW.range], ?_⟩, by rw [ChainW.floatFactors, hl]⟩
  · simp only [ChainW.neighbors, ChainW.make, Chain.neighbors, List.map_cons, List.map_nil, f2, f3, gt_iff_lt,
      BitVec.lt_def, hl, hz]
    congr 1
    · split
      · rw [sub_toNat (by omega), h1]
      · exact hl
    · congr 1
      split
      · exact a1 a ha
      · rfl
  · simp only [ChainW.uniqueNeighbor, ChainW.make, Chain.uniqueNeighbor, f2, f3, BitVec.lt_def, hl]
    split
    · exact a1 a ha
    · rfl
  · simp only [ChainW.latticeDistance, ChainW.make, Chain.latticeDistance, f1, gt_iff_lt, BitVec.lt_def]
    have hd : (if a.toNat < b.toNat then b - a else a - b).toNat
        = if a.toNat < b.toNat then b.toNat - a.toNat else a.toNat - b.toNat := by
      split
      · rw [sub_toNat (by omega)]
      · rw [sub_toNat (by omega)]
    generalize (if a.toNat < b.toNat then b - a else a - b) = d at hd
    rw [← hd]
    have hdN : d.toNat < N.toNat := by rw [hd]; split <;> omega
    have hs : (N - d).toNat = N.toNat - d.toNat := sub_toNat (by omega)
    rw [hs]
    split
    · rw [hs]; omega
    · omega
  · simp only [ChainW.neighboring, ChainW.make, Chain.neighboring, f1]
    rw [Bool.eq_iff_iff]
    simp only [Bool.or_eq_true, beq_iff_eq, toNat_inj, BitVec.toNat_umod, a1 a ha, a1 b hb]
  · simp only [ChainW.range, ChainW.make]
    rw [add_toNat (by rw [hl, h1]; omega), hl, h1]; omega

variable [FloorRing K]

theorem whileLoop_not {α : Type*} {cond : α → Prop} {body : α → α} {x y : α} (h : whileLoop cond body x = .val y) :
    ¬ cond y := by
  classical
  unfold whileLoop at h
  split at h
  · rename_i hex
    rw [Res.val.injEq] at h
    rw [← h]; exact Nat.find_spec hex
  · cases h

theorem cround_le {x : K} {N : ℕ} (h : x ≤ N) : cround x ≤ N := by
  unfold cround
  split
  · have : ⌊x + 1 / 2⌋ < (N : ℤ) + 1 := by rw [Int.floor_lt]; push_cast; linarith
    omega
  · rename_i h0
    have : (0 : ℤ) ≤ ⌊-x + 1 / 2⌋ := Int.floor_nonneg.2 (by linarith [not_le.1 h0])
    omega

/-- The lookup of a coordinate agrees with the unbounded model, because the rounded value is at most `N`. -/
theorem coordIndexW_eq {N : ℕ} (hN : N < 2 ^ w) {xMin xMax dx : K} (xLength v : K) (hdx : 0 < dx)
    (h : xMax - xMin ≤ N * dx) :
    (coordIndexW w xMin xMax xLength dx v).map BitVec.toNat = coordIndex xMin xMax xLength dx v ∧
    ∀ i, coordIndexW w xMin xMax xLength dx v = .val i → i.toNat ≤ N := by
  unfold coordIndexW coordIndex
  cases h1 : whileLoop (fun v => v < xMin) (fun v => v + xLength) v with
  | ub => exact ⟨rfl, fun i hi => by simp at hi⟩
  | diverges => exact ⟨rfl, fun i hi => by simp at hi⟩
  | val v1 =>
    simp only [Res.bind_val]
    cases h2 : whileLoop (fun v => v > xMax) (fun v => v - xLength) v1 with
    | ub => exact ⟨rfl, fun i hi => by simp at hi⟩
    | diverges => exact ⟨rfl, fun i hi => by simp at hi⟩
    | val v2 =>
      simp only [Res.bind_val]
      have hv : v2 ≤ xMax := not_lt.1 (whileLoop_not h2)
      have hz : cround ((v2 - xMin) / dx) ≤ N := by
        apply cround_le
        rw [div_le_iff₀ hdx]; linarith
      generalize cround ((v2 - xMin) / dx) = z at hz
      unfold toUnsignedW toUnsigned
      have hpow : ((2 ^ w : ℕ) : ℤ) = (2 : ℤ) ^ w := by push_cast; rfl
      by_cases h0 : 0 ≤ z
      · have hz2 : z < (2 : ℤ) ^ w := by rw [← hpow]; omega
        have ht : (BitVec.ofInt w z).toNat = z.toNat := by
          rw [BitVec.toNat_ofInt, Int.emod_eq_of_lt h0 (by rw [hpow]; exact hz2)]
        rw [if_pos ⟨h0, hz2⟩, if_pos h0]
        refine ⟨by rw [Res.map_val, ht], fun i hi => ?_⟩
        rw [Res.val.injEq] at hi
        rw [← hi, ht]; omega
      · rw [if_neg (fun h => h0 h.1), if_neg h0]
        exact ⟨rfl, fun i hi => by simp at hi⟩

/-- C87: the lookup of a position on the chain agrees with the unbounded model for every number of sites (C20). -/
theorem chain_lookup_width {N : BitVec w} (hN : N ≠ 0) (v : K) :
    (∀ dx : K, 0 < dx → (chainLookupW (Chain.real N.toNat dx) N v).map BitVec.toNat
      = (Chain.real N.toNat dx).lookup v) ∧
    (∀ pi : K, 0 < pi → (chainLookupW (Chain.momentum pi N.toNat) N v).map BitVec.toNat
      = (Chain.momentum pi N.toNat).lookup v) := by
  have hp := pos_of_ne hN
  have hp' : (0 : K) < N.toNat := by exact_mod_cast hp
  have key : ∀ c : Chain K, c.size = N.toNat → 0 < c.dx → c.xMax - c.xMin ≤ N.toNat * c.dx →
      (chainLookupW c N v).map BitVec.toNat = c.lookup v := by
    intro c hs hdx h
    obtain ⟨h1, h2⟩ := coordIndexW_eq N.isLt (w := w) c.xLength v hdx h
    unfold chainLookupW Chain.lookup
    rw [← h1, hs]
    cases coordIndexW w c.xMin c.xMax c.xLength c.dx v <;> simp [ChainW.make]
  constructor
  · intro dx hdx
    refine key _ rfl hdx ?_
    show dx * ((N.toNat - 1 : ℕ) : K) - 0 ≤ N.toNat * dx
    have : ((N.toNat - 1 : ℕ) : K) ≤ N.toNat := by exact_mod_cast Nat.sub_le _ _
    nlinarith
  · intro pi hpi
    refine key _ rfl (div_pos (by linarith) hp') ?_
    show pi - -pi ≤ N.toNat * (2 * pi / N.toNat)
    rw [mul_div_cancel₀ _ hp'.ne']; linarith

end Chain

/-! ### The square lattice: right exactly while the number of sites fits -/

section Square
variable [Field K] [LinearOrder K] [IsStrictOrderedRing K]

/-- C87: `size()` is the number of sites exactly when that number fits into the index type. -/
theorem square_size_iff (Nx Ny : BitVec w) :
    (SquareW.make Nx Ny).size.toNat = Nx.toNat * Ny.toNat ↔ Nx.toNat * Ny.toNat < 2 ^ w := by
  simp only [SquareW.make, BitVec.toNat_mul]
  constructor
  · intro h; rw [← h]; exact Nat.mod_lt _ (by positivity)
  · exact Nat.mod_eq_of_lt

/-- C87: while the number of sites fits, all index functions of an `N x N` lattice return, for all sites, the values of
the model with unbounded integers (C17, C18). -/
theorem square_width {s : Square K} {N : BitVec w} (hN : N ≠ 0) (hs : s.Constructed N.toNat N.toNat)
    (hfit : N.toNat * N.toNat < 2 ^ w) (a b : BitVec w) (ha : a.toNat < N.toNat * N.toNat)
    (hb : b.toNat < N.toNat * N.toNat) :
    (SquareW.make N N).asserts ∧
    (SquareW.make N N).size.toNat = s.size ∧ (SquareW.make N N).first.toNat = s.first ∧
    (SquareW.make N N).last.toNat = s.last ∧
    ((SquareW.make N N).range.1.toNat = 0 ∧ (SquareW.make N N).range.2.toNat = N.toNat * N.toNat) ∧
    ((SquareW.make N N).xIndex a).toNat = s.xIndex a.toNat ∧ ((SquareW.make N N).yIndex a).toNat = s.yIndex a.toNat ∧
    ((SquareW.make N N).neighbors a).map BitVec.toNat = s.neighbors a.toNat ∧
    ((SquareW.make N N).uniqueNeighbors a).map BitVec.toNat = s.uniqueNeighbors a.toNat ∧
    some ((SquareW.make N N).latticeDistanceX a b).toNat = s.latticeDistanceX a.toNat b.toNat ∧
    some ((SquareW.make N N).latticeDistanceY a b).toNat = s.latticeDistanceY a.toNat b.toNat ∧
    (SquareW.make N N).neighboring a b = s.neighboring a.toNat b.toNat := by
  have hw := w_pos_of_ne hN
  have h1 := one_toNat hw
  have hp := pos_of_ne hN
  have hlt : N.toNat < 2 ^ w := N.isLt
  have hsz : (N * N).toNat = N.toNat * N.toNat := mul_toNat hfit
  have hszp : 0 < N.toNat * N.toNat := by positivity
  obtain ⟨f1, f2, f3, f4, f5⟩ := hs.fields
  have hl : (N - 1).toNat = N.toNat - 1 := by rw [sub_toNat (by omega), h1]
  have hz : (0 : BitVec w).toNat = 0 := by simp
  have hdiv : ∀ x : BitVec w, x.toNat < N.toNat * N.toNat → (x / N).toNat < N.toNat := by
    intro x hx; rw [BitVec.toNat_udiv]; exact Nat.div_lt_of_lt_mul hx
  have hmod : ∀ x : BitVec w, (x % N).toNat < N.toNat := by
    intro x; rw [BitVec.toNat_umod]; exact Nat.mod_lt _ hp
  have a1 : ∀ x : BitVec w, x.toNat < N.toNat → (x + 1).toNat = x.toNat + 1 := by
    intro x hx; rw [add_toNat (by omega), h1]
  have hidx : ∀ x y : BitVec w, x.toNat < N.toNat → y.toNat < N.toNat →
      (x * N + y).toNat = x.toNat * N.toNat + y.toNat := by
    intro x y hx hy
    have hb : x.toNat * N.toNat + y.toNat < N.toNat * N.toNat := by
      have : (x.toNat + 1) * N.toNat ≤ N.toNat * N.toNat := Nat.mul_le_mul_right _ (by omega)
      rw [Nat.add_mul] at this; omega
    have hm : (x * N).toNat = x.toNat * N.toNat := mul_toNat (by omega)
    rw [add_toNat (by rw [hm]; omega), hm]
  have hdown : ∀ x : BitVec w, x.toNat < N.toNat →
      (if x = 0 then N - 1 else x - 1).toNat = (if x.toNat = 0 then N.toNat - 1 else x.toNat - 1) ∧
      (if x = 0 then N - 1 else x - 1).toNat < N.toNat := by
    intro x hx
    have e : x = 0 ↔ x.toNat = 0 := by rw [toNat_inj, hz]
    by_cases h : x.toNat = 0
    · rw [if_pos h, if_pos (e.2 h), hl]; omega
    · rw [if_neg h, if_neg (fun h' => h (e.1 h')), sub_toNat (by omega), h1]; omega
  have hup : ∀ x : BitVec w, x.toNat < N.toNat →
      (if x = N - 1 then 0 else x + 1).toNat = (if x.toNat = N.toNat - 1 then 0 else x.toNat + 1) ∧
      (if x = N - 1 then 0 else x + 1).toNat < N.toNat := by
    intro x hx
    have e : x = N - 1 ↔ x.toNat = N.toNat - 1 := by rw [toNat_inj, hl]
    by_cases h : x.toNat = N.toNat - 1
    · rw [if_pos h, if_pos (e.2 h), hz]; omega
    · rw [if_neg h, if_neg (fun h' => h (e.1 h')), a1 x hx]; omega
  have hdist : ∀ x y : BitVec w, x.toNat < N.toNat → y.toNat < N.toNat →
      some (if N - (if x > y then x - y else y - x) < (if x > y then x - y else y - x)
        then N - (if x > y then x - y else y - x) else (if x > y then x - y else y - x)).toNat
      = if (if x.toNat > y.toNat then x.toNat - y.toNat else y.toNat - x.toNat) ≤ N.toNat then
          some (min (if x.toNat > y.toNat then x.toNat - y.toNat else y.toNat - x.toNat)
            (N.toNat - (if x.toNat > y.toNat then x.toNat - y.toNat else y.toNat - x.toNat))) else none := by
    intro x y hx hy
    have hd : (if x > y then x - y else y - x).toNat
        = if x.toNat > y.toNat then x.toNat - y.toNat else y.toNat - x.toNat := by
      simp only [gt_iff_lt, BitVec.lt_def]
      split
      · rw [sub_toNat (by omega)]
      · rw [sub_toNat (by omega)]
    generalize (if x > y then x - y else y - x) = d at hd
    rw [← hd]
    have hdN : d.toNat < N.toNat := by rw [hd]; split <;> omega
    have hs' : (N - d).toNat = N.toNat - d.toNat := sub_toNat (by omega)
    rw [if_pos (show d.toNat ≤ N.toNat by omega)]
    by_cases hc : N - d < d
    · rw [if_pos hc, hs']
      rw [BitVec.lt_def, hs'] at hc
      rw [min_eq_right (by omega)]
    · rw [if_neg hc]
      rw [BitVec.lt_def, hs'] at hc
      rw [min_eq_left (by omega)]
  have hi := hdiv a ha
  have hj := hmod a
  refine ⟨⟨?_, ?_, ?_⟩, ?_, by simp [SquareW.make, f4], ?_, ⟨by simp [SquareW.make, SquareW.range], ?_⟩, ?_, ?_, ?_, ?_, ?_, ?_, ?_⟩
  · simpa [SquareW.make, BitVec.lt_def] using hp
  · simpa [SquareW.make, BitVec.lt_def] using hp
  · simp only [SquareW.make, gt_iff_lt, BitVec.lt_def, hz, hsz]; exact hszp
  · rw [f3]; exact hsz
  · rw [f5]
    show (N * N - 1).toNat = _
    rw [sub_toNat (by omega), hsz, h1]
  · show (N * N - 1 + 1).toNat = _
    have : (N * N - 1).toNat = N.toNat * N.toNat - 1 := by rw [sub_toNat (by omega), hsz, h1]
    rw [add_toNat (by omega), this, h1]; omega
  · simp [SquareW.make, SquareW.xIndex, Square.xIndex, f1, BitVec.toNat_udiv]
  · simp [SquareW.make, SquareW.yIndex, Square.yIndex, f1, BitVec.toNat_umod]
  · have e : (SquareW.make N N).neighbors a = [(if a / N = 0 then N - 1 else a / N - 1) * N + a % N,
        a / N * N + (if a % N = 0 then N - 1 else a % N - 1), (if a / N = N - 1 then 0 else a / N + 1) * N + a % N,
        a / N * N + (if a % N = N - 1 then 0 else a % N + 1)] := rfl
    rw [e]
    simp only [List.map_cons, List.map_nil]
    rw [hidx _ _ (hdown _ hi).2 hj, hidx _ _ hi (hdown _ hj).2, hidx _ _ (hup _ hi).2 hj, hidx _ _ hi (hup _ hj).2,
      (hdown _ hi).1, (hdown _ hj).1, (hup _ hi).1, (hup _ hj).1, BitVec.toNat_udiv, BitVec.toNat_umod]
    simp only [Square.neighbors, Square.index, f1, f2]
  · have e : (SquareW.make N N).uniqueNeighbors a = [(if a / N = N - 1 then 0 else a / N + 1) * N + a % N,
        a / N * N + (if a % N = N - 1 then 0 else a % N + 1)] := rfl
    rw [e]
    simp only [List.map_cons, List.map_nil]
    rw [hidx _ _ (hup _ hi).2 hj, hidx _ _ hi (hup _ hj).2,
      (hup _ hi).1, (hup _ hj).1, BitVec.toNat_udiv, BitVec.toNat_umod]
    simp only [Square.uniqueNeighbors, Square.index, f1, f2]
  · have := hdist (a / N) (b / N) hi (hdiv b hb)
    refine Eq.trans this ?_
    simp only [Square.latticeDistanceX, Square.xIndex, f1, BitVec.toNat_udiv]
  · have := hdist (a % N) (b % N) hj (hmod b)
    refine Eq.trans this ?_
    simp only [Square.latticeDistanceY, Square.yIndex, f1, f2, BitVec.toNat_umod]
  · have e : ∀ x y : BitVec w, x.toNat < N.toNat → ((x + 1) % N == y) = ((x.toNat + 1) % N.toNat == y.toNat) := by
      intro x y hx
      rw [Bool.eq_iff_iff, beq_iff_eq, beq_iff_eq, toNat_inj, BitVec.toNat_umod, a1 x hx]
    have e' : (SquareW.make N N).neighboring a b
        = if a / N = b / N then ((a % N + 1) % N == b % N) || ((b % N + 1) % N == a % N)
          else if a % N = b % N then ((a / N + 1) % N == b / N) || ((b / N + 1) % N == a / N) else false := rfl
    rw [e', e _ _ hj, e _ _ (hmod b), e _ _ hi, e _ _ (hdiv b hb)]
    simp only [Square.neighboring, Square.xIndex, Square.yIndex, f1, f2, toNat_inj, BitVec.toNat_udiv, BitVec.toNat_umod]

/-- C87, negation: as soon as the number of sites does not fit, two different sites have the same index. -/
theorem square_index_collides {N : BitVec w} (h : 2 ^ w < N.toNat * N.toNat) :
    ∃ x y : BitVec w, x.toNat < N.toNat ∧ y.toNat < N.toNat ∧ (x.toNat ≠ 0 ∨ y.toNat ≠ 0) ∧
      (SquareW.make N N).index x y = (SquareW.make N N).index 0 0 := by
  have hp : 0 < N.toNat := by
    rcases Nat.eq_zero_or_pos N.toNat with h0 | h0
    · rw [h0] at h; simp at h
    · exact h0
  have hlt : N.toNat < 2 ^ w := N.isLt
  have hx : 2 ^ w / N.toNat < N.toNat := Nat.div_lt_of_lt_mul h
  have hy : 2 ^ w % N.toNat < N.toNat := Nat.mod_lt _ hp
  have ex : (BitVec.ofNat w (2 ^ w / N.toNat)).toNat = 2 ^ w / N.toNat := by
    rw [BitVec.toNat_ofNat, Nat.mod_eq_of_lt (by omega)]
  have ey : (BitVec.ofNat w (2 ^ w % N.toNat)).toNat = 2 ^ w % N.toNat := by
    rw [BitVec.toNat_ofNat, Nat.mod_eq_of_lt (by omega)]
  refine ⟨BitVec.ofNat w (2 ^ w / N.toNat), BitVec.ofNat w (2 ^ w % N.toNat), by omega, by omega, ?_, ?_⟩
  · left
    rw [ex]
    exact (Nat.div_pos hlt.le hp).ne'
  · rw [toNat_inj]
    simp only [SquareW.index, SquareW.make, BitVec.toNat_add, BitVec.toNat_mul, ex, ey, Nat.mod_add_mod]
    rw [Nat.div_add_mod' (2 ^ w) N.toNat]
    simp

/-- C87, negation: lattices for which the asserted `size > 0` fails although both extents are positive; without the
assertions, the range `begin()..end()` is empty. For 64-bit indices: 2^32 x 2^32. -/
theorem square_size_zero (k : ℕ) (hk : 0 < k) :
    (SquareW.make (w := k + k) (BitVec.ofNat _ (2 ^ k)) (BitVec.ofNat _ (2 ^ k))).sizeX > 0 ∧
    (SquareW.make (w := k + k) (BitVec.ofNat _ (2 ^ k)) (BitVec.ofNat _ (2 ^ k))).size = 0 ∧
    (SquareW.make (w := k + k) (BitVec.ofNat _ (2 ^ k)) (BitVec.ofNat _ (2 ^ k))).range = (0, 0) := by
  have h1 : (2 : ℕ) ^ k < 2 ^ (k + k) := Nat.pow_lt_pow_right (by omega) (by omega)
  have e : (BitVec.ofNat (k + k) (2 ^ k)).toNat = 2 ^ k := by rw [BitVec.toNat_ofNat, Nat.mod_eq_of_lt h1]
  have hz : (BitVec.ofNat (k + k) (2 ^ k)) * (BitVec.ofNat (k + k) (2 ^ k)) = 0 := by
    rw [toNat_inj, BitVec.toNat_mul, e, ← pow_add]; simp
  refine ⟨?_, hz, ?_⟩
  · simp only [SquareW.make, gt_iff_lt, BitVec.lt_def, e]; simp
  · simp only [SquareW.range, SquareW.make, hz]; simp

variable [FloorRing K]

/-- C87: lookups on the square lattice agree with the unbounded model while `N * N + N` fits. -/
theorem square_lookup_width {N : BitVec w} (hN : N ≠ 0) (hfit : N.toNat * N.toNat + N.toNat < 2 ^ w) (v : K × K) :
    (∀ dx dy : K, 0 < dx → 0 < dy → (squareLookupW (Square.real N.toNat N.toNat dx dy) N v).map BitVec.toNat
      = (Square.real N.toNat N.toNat dx dy).lookup v) ∧
    (∀ pi : K, 0 < pi → (squareLookupW (Square.momentum pi N.toNat N.toNat) N v).map BitVec.toNat
      = (Square.momentum pi N.toNat N.toNat).lookup v) := by
  have hp := pos_of_ne hN
  have hp' : (0 : K) < N.toNat := by exact_mod_cast hp
  have key : ∀ s : Square K, s.sizeX = N.toNat → 0 < s.dx → 0 < s.dy → s.xMax - s.xMin ≤ N.toNat * s.dx →
      s.yMax - s.yMin ≤ N.toNat * s.dy → (squareLookupW s N v).map BitVec.toNat = s.lookup v := by
    intro s hs hdx hdy hx hy
    obtain ⟨h1, h2⟩ := coordIndexW_eq N.isLt (w := w) s.xLength v.1 hdx hx
    obtain ⟨h3, h4⟩ := coordIndexW_eq N.isLt (w := w) s.yLength v.2 hdy hy
    unfold squareLookupW Square.lookup
    rw [← h1, ← h3, hs]
    cases ei : coordIndexW w s.xMin s.xMax s.xLength s.dx v.1 with
    | ub => simp
    | diverges => simp
    | val i =>
      cases ej : coordIndexW w s.yMin s.yMax s.yLength s.dy v.2 with
      | ub => simp
      | diverges => simp
      | val j =>
        have hi := h2 i ei
        have hj := h4 j ej
        have hm : i.toNat * N.toNat ≤ N.toNat * N.toNat := Nat.mul_le_mul_right _ hi
        have em : (i * N).toNat = i.toNat * N.toNat := mul_toNat (by omega)
        have : (i * N + j).toNat = i.toNat * N.toNat + j.toNat := by rw [add_toNat (by omega), em]
        simp only [Res.map_val, Res.bind_val, this]
  have hreal : ∀ dx : K, 0 < dx → dx * ((N.toNat - 1 : ℕ) : K) - 0 ≤ N.toNat * dx := by
    intro dx hdx
    have : ((N.toNat - 1 : ℕ) : K) ≤ N.toNat := by exact_mod_cast Nat.sub_le _ _
    nlinarith
  constructor
  · intro dx dy hdx hdy
    exact key _ rfl hdx hdy (hreal dx hdx) (hreal dy hdy)
  · intro pi hpi
    have : pi - -pi ≤ N.toNat * (2 * pi / N.toNat) := by rw [mul_div_cancel₀ _ hp'.ne']; linarith
    exact key _ rfl (div_pos (by linarith) hp') (div_pos (by linarith) hp') this this

end Square

/-- The wrapping subtraction used for the distances in the two-dimensional expectation values is that of 64-bit
integers. -/
theorem wrapSub_width (a b : ℕ) (ha : a < 2 ^ 64) (hb : b < 2 ^ 64) :
    RealSpace.wrapSub a b = (BitVec.ofNat 64 a - BitVec.ofNat 64 b).toNat := by
  unfold RealSpace.wrapSub
  rw [BitVec.toNat_sub, BitVec.toNat_ofNat, BitVec.toNat_ofNat, Nat.mod_eq_of_lt ha, Nat.mod_eq_of_lt hb]
  split
  · omega
  · omega

/-! ### Bases and reservations -/

/-- C87: for every real space basis that fits into memory (its number of elements does not exceed the largest index),
`get_3op_index` is exact. -/
theorem real_index_width (N i1 i2 i3 : BitVec w) (hfit : N.toNat + N.toNat * N.toNat * N.toNat ≤ 2 ^ w)
    (h1 : i1.toNat < N.toNat) (h2 : i2.toNat < N.toNat) (h3 : i3.toNat < N.toNat) :
    (get3opIndexReal N i1 i2 i3).toNat = RealSpace.get3opIndex N.toNat i1.toNat i2.toNat i3.toNat := by
  unfold get3opIndexReal RealSpace.get3opIndex
  simp only [BitVec.toNat_add, BitVec.toNat_mul, Nat.mod_add_mod, Nat.add_mod_mod, Nat.mod_mul_mod]
  have hb : N.toNat + N.toNat * N.toNat * i1.toNat + N.toNat * i2.toNat + i3.toNat < 2 ^ w := by
    have e1 : N.toNat * i2.toNat + N.toNat ≤ N.toNat * N.toNat := by
      have := Nat.mul_le_mul_left N.toNat (show i2.toNat + 1 ≤ N.toNat by omega)
      rw [Nat.mul_add] at this; omega
    have e2 : N.toNat * N.toNat * i1.toNat + N.toNat * N.toNat ≤ N.toNat * N.toNat * N.toNat := by
      have := Nat.mul_le_mul_left (N.toNat * N.toNat) (show i1.toNat + 1 ≤ N.toNat by omega)
      rw [Nat.mul_add] at this; omega
    omega
  exact Nat.mod_eq_of_lt hb

/-- C87, negation: for every larger number of sites some triple of sites gets the index 0, which belongs to a monomial
with one operator. -/
theorem real_index_wrong (N : BitVec w) (hbig : 2 ^ w < N.toNat + N.toNat * N.toNat * N.toNat) :
    ∃ i1 i2 i3 : BitVec w, i1.toNat < N.toNat ∧ i2.toNat < N.toNat ∧ i3.toNat < N.toNat ∧
      get3opIndexReal N i1 i2 i3 = 0 := by
  have hp : 0 < N.toNat := by
    rcases Nat.eq_zero_or_pos N.toNat with h0 | h0
    · rw [h0] at hbig; simp at hbig
    · exact h0
  have hlt : N.toNat < 2 ^ w := N.isLt
  obtain ⟨r, hr⟩ : ∃ r, r = 2 ^ w - N.toNat := ⟨_, rfl⟩
  have hrlt : r < N.toNat * N.toNat * N.toNat := by omega
  have e1 : r / (N.toNat * N.toNat) < N.toNat := Nat.div_lt_of_lt_mul hrlt
  have e2 : r % (N.toNat * N.toNat) / N.toNat < N.toNat :=
    Nat.div_lt_of_lt_mul (Nat.mod_lt _ (by positivity))
  have e3 : r % N.toNat < N.toNat := Nat.mod_lt _ hp
  have t : ∀ x, x < N.toNat → (BitVec.ofNat w x).toNat = x := fun x hx => by
    rw [BitVec.toNat_ofNat, Nat.mod_eq_of_lt (by omega)]
  refine ⟨BitVec.ofNat w (r / (N.toNat * N.toNat)), BitVec.ofNat w (r % (N.toNat * N.toNat) / N.toNat),
    BitVec.ofNat w (r % N.toNat), by rw [t _ e1]; exact e1, by rw [t _ e2]; exact e2, by rw [t _ e3]; exact e3, ?_⟩
  rw [toNat_inj]
  unfold get3opIndexReal
  simp only [BitVec.toNat_add, BitVec.toNat_mul, Nat.mod_add_mod, Nat.add_mod_mod, Nat.mod_mul_mod, t _ e1, t _ e2, t _ e3]
  have s1 := Nat.div_add_mod r (N.toNat * N.toNat)
  have s2 := Nat.div_add_mod (r % (N.toNat * N.toNat)) N.toNat
  rw [Nat.mod_mul_left_mod] at s2
  have : N.toNat + N.toNat * N.toNat * (r / (N.toNat * N.toNat)) + N.toNat * (r % (N.toNat * N.toNat) / N.toNat)
      + r % N.toNat = 2 ^ w := by omega
  rw [this]; simp

/-- C87: the same for the momentum space basis. -/
theorem momentum_index_width (N i1 i2 : BitVec w) (hfit : 1 + N.toNat * N.toNat ≤ 2 ^ w)
    (h1 : i1.toNat < N.toNat) (h2 : i2.toNat < N.toNat) :
    (get3opIndexMomentum N i1 i2).toNat = MomentumSpace.get3opIndex N.toNat i1.toNat i2.toNat := by
  have hw : 0 < w := by
    rcases Nat.eq_zero_or_pos w with rfl | h
    · simp at hfit; rw [hfit] at h1; simp at h1
    · exact h
  unfold get3opIndexMomentum MomentumSpace.get3opIndex
  rw [BitVec.toNat_add, BitVec.toNat_add, BitVec.toNat_mul, one_toNat hw, Nat.mod_add_mod, Nat.add_assoc,
    Nat.add_assoc, Nat.add_left_comm, Nat.mod_add_mod, Nat.add_left_comm]
  have e1 : i1.toNat * N.toNat + N.toNat ≤ N.toNat * N.toNat := by
    have := Nat.mul_le_mul_right N.toNat (show i1.toNat + 1 ≤ N.toNat by omega)
    rw [Nat.add_mul] at this; omega
  exact Nat.mod_eq_of_lt (by omega)

/-- C87, negation for the momentum space basis. -/
theorem momentum_index_wrong (N : BitVec w) (hbig : 2 ^ w < 1 + N.toNat * N.toNat) (hw : 0 < w) :
    ∃ i1 i2 : BitVec w, i1.toNat < N.toNat ∧ i2.toNat < N.toNat ∧ get3opIndexMomentum N i1 i2 = 0 := by
  have hp : 0 < N.toNat := by
    rcases Nat.eq_zero_or_pos N.toNat with h0 | h0
    · rw [h0] at hbig
      have : 0 < 2 ^ w := by positivity
      have h2 : (1 : ℕ) < 2 ^ w := Nat.one_lt_two_pow (by omega)
      omega
    · exact h0
  have hlt : N.toNat < 2 ^ w := N.isLt
  obtain ⟨r, hr⟩ : ∃ r, r = 2 ^ w - 1 := ⟨_, rfl⟩
  have e1 : r / N.toNat < N.toNat := Nat.div_lt_of_lt_mul (by omega)
  have e3 : r % N.toNat < N.toNat := Nat.mod_lt _ hp
  have t : ∀ x, x < N.toNat → (BitVec.ofNat w x).toNat = x := fun x hx => by
    rw [BitVec.toNat_ofNat, Nat.mod_eq_of_lt (by omega)]
  refine ⟨BitVec.ofNat w (r / N.toNat), BitVec.ofNat w (r % N.toNat), by rw [t _ e1]; exact e1,
    by rw [t _ e3]; exact e3, ?_⟩
  rw [toNat_inj]
  unfold get3opIndexMomentum
  rw [BitVec.toNat_add, BitVec.toNat_add, BitVec.toNat_mul, one_toNat hw, t _ e1, t _ e3]
  have s := Nat.div_add_mod' r N.toNat
  rw [Nat.add_mod_mod, Nat.mod_add_mod, Nat.add_assoc, s, hr]
  have : 1 + (2 ^ w - 1) = 2 ^ w := by omega
  rw [this]; simp

/-- C87: the reservations are exact while the largest of them fits. -/
theorem counts_width (N z size : BitVec w) (hw : 4 ≤ w)
    (hsize : size.toNat = N.toNat + N.toNat * N.toNat * N.toNat)
    (hk : RealSpace.numberOfKineticElements3 N.toNat z.toNat < 2 ^ w)
    (hi : RealSpace.numberOfInteractionElementsNo N.toNat < 2 ^ w) :
    (counts N z size).kinetic1.toNat = RealSpace.numberOfKineticElements1 N.toNat z.toNat ∧
    (counts N z size).kinetic3.toNat = RealSpace.numberOfKineticElements3 N.toNat z.toNat ∧
    (counts N z size).interaction.toNat = RealSpace.numberOfInteractionElements N.toNat ∧
    (counts N z size).kineticNo3.toNat = RealSpace.numberOfKineticElementsNo3 N.toNat z.toNat ∧
    (counts N z size).interactionNo.toNat = RealSpace.numberOfInteractionElementsNo N.toNat := by
  have h16 : (16 : ℕ) ≤ 2 ^ w := by
    calc (16 : ℕ) = 2 ^ 4 := by norm_num
      _ ≤ 2 ^ w := Nat.pow_le_pow_right (by omega) hw
  have lit : ∀ n, n < 16 → (BitVec.ofNat w n).toNat = n := fun n hn => by
    rw [BitVec.toNat_ofNat, Nat.mod_eq_of_lt (by omega)]
  have l2 : (2 : BitVec w).toNat = 2 := lit 2 (by omega)
  have l6 : (6 : BitVec w).toNat = 6 := lit 6 (by omega)
  have l8 : (8 : BitVec w).toNat = 8 := lit 8 (by omega)
  have hlen := (RealSpace.realBasis_size N.toNat).2
  unfold RealSpace.numberOfKineticElements3 at hk
  unfold RealSpace.numberOfInteractionElementsNo at hi
  rw [hlen, Nat.add_sub_cancel_left] at hi
  have hsub : (size - N).toNat = N.toNat * N.toNat * N.toNat := by rw [sub_toNat (by omega), hsize]; omega
  refine ⟨?_, ?_, ?_, ?_, ?_⟩
  · show (N * z).toNat = _
    rw [mul_toNat (by omega)]; rfl
  · show (N * z + N * (N * N) * 6 * z).toNat = _
    simp only [BitVec.toNat_add, BitVec.toNat_mul, Nat.mod_add_mod, Nat.add_mod_mod, Nat.mod_mul_mod, Nat.mul_mod_mod, l6]
    exact Nat.mod_eq_of_lt hk
  · show (size * 2).toNat = _
    unfold RealSpace.numberOfInteractionElements
    rw [mul_toNat (by rw [l2, hsize]; omega), l2, hsize, hlen]
  · show (N * z + (size - N) * 6 * z).toNat = _
    unfold RealSpace.numberOfKineticElementsNo3
    rw [hlen, Nat.add_sub_cancel_left]
    simp only [BitVec.toNat_add, BitVec.toNat_mul, Nat.mod_add_mod, Nat.add_mod_mod, Nat.mod_mul_mod, l6, hsub]
    refine Nat.mod_eq_of_lt ?_
    rw [← Nat.mul_assoc N.toNat] at hk; exact hk
  · show (N * 2 + (size - N) * 8).toNat = _
    unfold RealSpace.numberOfInteractionElementsNo
    rw [hlen, Nat.add_sub_cancel_left]
    simp only [BitVec.toNat_add, BitVec.toNat_mul, Nat.mod_add_mod, Nat.add_mod_mod, Nat.mod_mul_mod, l2, l8, hsub]
    exact Nat.mod_eq_of_lt hi

/-- C87: the reservation for the momentum space matrix. -/
theorem momentum_count_width (N z size : BitVec w) (hw : 2 ≤ w)
    (h : MomentumSpace.numberOfMatrixElements N.toNat < 2 ^ w) :
    (counts N z size).momentum.toNat = MomentumSpace.numberOfMatrixElements N.toNat := by
  have h4 : (4 : ℕ) ≤ 2 ^ w := by
    calc (4 : ℕ) = 2 ^ 2 := by norm_num
      _ ≤ 2 ^ w := Nat.pow_le_pow_right (by omega) hw
  have l1 : (1 : BitVec w).toNat = 1 := one_toNat (by omega)
  have l3 : (3 : BitVec w).toNat = 3 := by
    show (BitVec.ofNat w 3).toNat = 3
    rw [BitVec.toNat_ofNat, Nat.mod_eq_of_lt (by omega)]
  show (N * (1 + 3 * N)).toNat = _
  simp only [BitVec.toNat_add, BitVec.toNat_mul, Nat.add_mod_mod, Nat.mul_mod_mod, l1, l3]
  exact Nat.mod_eq_of_lt h

/-- Non-vacuity: a chain with the largest 64-bit number of sites, a square lattice of 32-bit indices at the limit, a
basis of a thousand sites, and the first square lattice that does not fit. -/
example : (Chain.real (K := ℚ) (2 ^ 64 - 1) 1).Constructed (BitVec.allOnes 64).toNat ∧
    (65535 * 65535 < 2 ^ 32 ∧ 2 ^ 32 < 65537 * 65537) ∧
    (1000 + 1000 * 1000 * 1000 ≤ 2 ^ 64 ∧ RealSpace.numberOfKineticElements3 1000 4 < 2 ^ 64 ∧
      1000 * 2 + (1000 * 1000 * 1000) * 8 < 2 ^ 64) := by
  refine ⟨.real 1 (by decide) (by simp), by norm_num, by norm_num, by norm_num [RealSpace.numberOfKineticElements3],
    by norm_num⟩

end Ieompp.Width
