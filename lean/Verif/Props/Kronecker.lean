import Verif.Props.Commutator
import Mathlib.Data.String.Basic
import Mathlib.Data.Multiset.Basic
import Mathlib.Algebra.BigOperators.Group.Multiset.Basic
import Mathlib.Data.Multiset.Sort
import Mathlib.Data.List.Sort

/-!
# C09, C10, C11: Kronecker deltas and symbolic prefactors
-/

set_option autoImplicit false
set_option linter.unusedSectionVars false

namespace Ieompp

open Spec

variable {σ : Type*}

/-! ## C09 -/

section C09

/-- C09: `==` identifies exactly `δ_ab` and `δ_ba`. -/
theorem kronecker_eq_iff [DecidableEq σ] (x y : Kronecker σ) :
    x.eqB y = true ↔ (y = x ∨ y = ⟨x.b, x.a⟩) := by
  obtain ⟨a, b⟩ := x; obtain ⟨c, d⟩ := y
  simp [Kronecker.eqB]
  constructor
  · rintro (⟨rfl, rfl⟩ | ⟨rfl, rfl⟩) <;> simp
  · rintro (⟨rfl, rfl⟩ | ⟨rfl, rfl⟩) <;> simp

/-- C09: `==` is an equivalence relation. -/
theorem kronecker_eq_equivalence [DecidableEq σ] :
    Equivalence (fun x y : Kronecker σ => x.eqB y = true) where
  refl x := by rw [kronecker_eq_iff]; exact Or.inl rfl
  symm := by
    intro x y; rw [kronecker_eq_iff, kronecker_eq_iff]
    rintro (rfl | rfl) <;> simp
  trans := by
    intro x y z; rw [kronecker_eq_iff, kronecker_eq_iff, kronecker_eq_iff]
    rintro (rfl | rfl) (rfl | rfl) <;> simp

/-- C09: `!=` is the complement of `==`. -/
theorem kronecker_ne_eq_not [DecidableEq σ] (x y : Kronecker σ) : x.neB y = !(x.eqB y) := rfl

variable [LinearOrder σ]

/-- C09: after `order()` the symbols are in order. -/
theorem kronecker_order_le (x : Kronecker σ) : x.order.a ≤ x.order.b := by
  unfold Kronecker.order; split
  · rename_i h; exact le_of_lt h
  · rename_i h; exact not_lt.mp h

/-- C09: `order()` is idempotent. -/
theorem kronecker_order_idem (x : Kronecker σ) : x.order.order = x.order := by
  have h := kronecker_order_le x
  rw [Kronecker.order, if_neg (not_lt.mpr h)]

/-- C09: `order()` does not change the delta: the result compares equal to the original and has the same value under
every valuation. -/
theorem kronecker_order_value {V K : Type*} [DecidableEq V] [CommRing K] (ρ : σ → V) (x : Kronecker σ) :
    x.order.eqB x = true ∧ (evalKronecker ρ x.order : K) = evalKronecker ρ x := by
  unfold Kronecker.order; split
  · refine ⟨by simp [Kronecker.eqB], ?_⟩
    simp [evalKronecker, eq_comm]
  · exact ⟨by simp [Kronecker.eqB], rfl⟩

/-- C09: two deltas are equal exactly when their ordered forms coincide literally. -/
theorem kronecker_eq_iff_order_eq (x y : Kronecker σ) : x.eqB y = true ↔ x.order = y.order := by
  rw [kronecker_eq_iff]
  obtain ⟨a, b⟩ := x; obtain ⟨c, d⟩ := y
  unfold Kronecker.order
  constructor
  · rintro (h | h)
    · simp only [Kronecker.mk.injEq] at h; obtain ⟨rfl, rfl⟩ := h; rfl
    · simp only [Kronecker.mk.injEq] at h; obtain ⟨rfl, rfl⟩ := h
      rcases lt_trichotomy c d with h | rfl | h
      · simp [h, not_lt.mpr h.le]
      · rfl
      · simp [h, not_lt.mpr h.le]
  · split <;> split <;> simp <;> rintro rfl rfl <;> simp

end C09

example : (⟨"a", "b"⟩ : Kronecker String).eqB ⟨"b", "a"⟩ = true ∧
    (⟨"a", "b"⟩ : Kronecker String).eqB ⟨"a", "c"⟩ = false ∧
    (⟨"b", "a"⟩ : Kronecker String).order = ⟨"a", "b"⟩ := by decide

/-! ## C10 -/

section C10
variable [LinearOrder σ]

theorem krLess_iff_of_le (x y : Kronecker σ) (hx : x.a ≤ x.b) (_hy : y.a ≤ y.b) :
    Prefactor.krLess x y = true ↔ (x.a < y.a ∨ (x.a = y.a ∧ x.a = x.b ∧ y.a < y.b)) := by
  unfold Prefactor.krLess
  split
  · rename_i h; simp [h]
  · rename_i h
    have h' := not_lt.mp h
    split
    · rename_i h2
      simp only [Bool.false_eq_true, false_iff, not_or, not_and]
      exact ⟨h, fun e1 e2 => absurd h2 (by rw [← e2, e1]; exact lt_irrefl _)⟩
    · rename_i h2
      have h3 := not_lt.mp h2
      have e1 : x.b = y.a := le_antisymm h3 (h'.trans hx)
      have e2 : x.a = y.a := le_antisymm (hx.trans h3) h'
      rw [decide_eq_true_eq]
      constructor
      · intro hlt; exact Or.inr ⟨e2, e2.trans e1.symm, by rw [← e1]; exact hlt⟩
      · rintro (hlt | ⟨_, _, hlt⟩)
        · exact absurd hlt h
        · rw [e1]; exact hlt

/-- C10: on ordered deltas — the only ones it is applied to — the comparator handed to `std::sort` is a strict weak
order, so the call is legal. -/
theorem krLess_strictWeak :
    StrictWeak (fun x y : {k : Kronecker σ // k.a ≤ k.b} => Prefactor.krLess x.1 y.1) where
  irrefl x := by
    rw [Bool.eq_false_iff, Ne, krLess_iff_of_le _ _ x.2 x.2]
    rintro (h | ⟨_, h1, h2⟩)
    · exact lt_irrefl _ h
    · exact absurd h1 (ne_of_lt h2)
  trans x y z := by
    rw [krLess_iff_of_le _ _ x.2 y.2, krLess_iff_of_le _ _ y.2 z.2, krLess_iff_of_le _ _ x.2 z.2]
    rintro (h | ⟨h1, h2, h3⟩) (h' | ⟨h1', h2', h3'⟩)
    · exact Or.inl (h.trans h')
    · exact Or.inl (h1' ▸ h)
    · exact Or.inl (h1.symm ▸ h')
    · exact absurd h2' (ne_of_lt h3)
  incomp_trans x y z := by
    simp only [Bool.eq_false_iff, Ne]
    rw [krLess_iff_of_le _ _ x.2 y.2, krLess_iff_of_le _ _ y.2 x.2, krLess_iff_of_le _ _ y.2 z.2,
      krLess_iff_of_le _ _ z.2 y.2, krLess_iff_of_le _ _ x.2 z.2, krLess_iff_of_le _ _ z.2 x.2]
    have hx := x.2; have hy := y.2; have hz := z.2
    simp only [not_or, not_and, not_lt]
    rintro ⟨a1, a2⟩ ⟨b1, b2⟩ ⟨c1, c2⟩ ⟨d1, d2⟩
    have e1 : x.1.a = y.1.a := le_antisymm b1 a1
    have e2 : y.1.a = z.1.a := le_antisymm d1 c1
    refine ⟨⟨by rw [e1, e2], fun _ hxx => ?_⟩, ⟨by rw [e1, e2], fun _ hzz => ?_⟩⟩
    · have hyy := a2 e1 hxx
      exact c2 e2 (le_antisymm hy hyy)
    · have hyy := d2 e2.symm hzz
      exact b2 e1.symm (le_antisymm hy hyy)

/-- C10: whatever `std::sort` returns, `order_kroneckers` does not change the value of the prefactor and leaves every
delta ordered, with non-decreasing first symbols. -/
theorem orderKroneckers_value {V K : Type*} [DecidableEq V] [CommRing K] (ρ : σ → V)
    (p q : Prefactor K σ) (h : Prefactor.OrderKroneckers p q) :
    evalPrefactor ρ q = evalPrefactor ρ p ∧ (∀ k ∈ q.kroneckers, k.a ≤ k.b) ∧
    q.kroneckers.Pairwise (fun x y => x.a ≤ y.a) := by
  obtain ⟨h1, h2, h3⟩ := h
  have hord : ∀ k ∈ q.kroneckers, k.a ≤ k.b := by
    intro k hk
    have := h2.mem_iff.mp hk
    simp only [List.mem_map] at this
    obtain ⟨k', _, rfl⟩ := this
    exact kronecker_order_le k'
  refine ⟨?_, hord, ?_⟩
  · unfold evalPrefactor
    rw [h1, (h2.map (evalKronecker ρ)).prod_eq, List.map_map]
    congr 2
    apply List.map_congr_left
    intro k _
    exact (kronecker_order_value ρ k).2
  · refine h3.imp_of_mem ?_
    intro x y hx hy hxy
    rw [Bool.eq_false_iff, Ne, krLess_iff_of_le _ _ (hord y hy) (hord x hx), not_or] at hxy
    exact not_lt.mp hxy.1

/-- Full canonicity statement of C10 (false for the code, see `orderKroneckers_not_canonical`): prefactors with the same
value and the same multiset of deltas, up to the order of the symbols, have the same ordered form. -/
def OrderKroneckersCanonical (V σ : Type) [LinearOrder σ] : Prop :=
  ∀ p p' q q' : Prefactor V σ, p.value = p'.value →
    (p.kroneckers.map Kronecker.order).Perm (p'.kroneckers.map Kronecker.order) →
    Prefactor.OrderKroneckers p q → Prefactor.OrderKroneckers p' q' → q = q'

/-- C10, negation of canonicity: `δ_ab δ_ac` and `δ_ac δ_ab` are both already "sorted" for the code's comparator,
so two prefactors that differ only in the order of their deltas stay different. -/
theorem orderKroneckers_not_canonical : ¬ OrderKroneckersCanonical ℤ ℕ := by
  intro h
  have := h ⟨1, [⟨0, 1⟩, ⟨0, 2⟩]⟩ ⟨1, [⟨0, 2⟩, ⟨0, 1⟩]⟩ ⟨1, [⟨0, 1⟩, ⟨0, 2⟩]⟩ ⟨1, [⟨0, 2⟩, ⟨0, 1⟩]⟩ rfl
    (List.Perm.swap _ _ _) ⟨rfl, List.Perm.refl _, by simp [Prefactor.krLess]⟩
    ⟨rfl, List.Perm.refl _, by simp [Prefactor.krLess]⟩
  simp at this

/-- C10, part of canonicity that holds: if all first symbols of the ordered deltas are different, the result is unique.
Missing: prefactors in which two deltas share their smaller symbol. -/
theorem orderKroneckers_canonical_partial {V : Type*} (p p' q q' : Prefactor V σ)
    (hv : p.value = p'.value)
    (hperm : (p.kroneckers.map Kronecker.order).Perm (p'.kroneckers.map Kronecker.order))
    (hdist : (p.kroneckers.map (fun k => k.order.a)).Nodup)
    (h : Prefactor.OrderKroneckers p q) (h' : Prefactor.OrderKroneckers p' q') : q = q' := by
  obtain ⟨h1, h2, h3⟩ := h
  obtain ⟨h1', h2', h3'⟩ := h'
  have hq : q.kroneckers.Perm q'.kroneckers := h2.trans (hperm.trans h2'.symm)
  have hnd : (q.kroneckers.map (·.a)).Nodup := by
    have : (q.kroneckers.map (·.a)).Perm (p.kroneckers.map (fun k => k.order.a)) := by
      have := h2.map (·.a)
      rwa [List.map_map] at this
    exact this.nodup_iff.mpr hdist
  have hs : ∀ l : List (Kronecker σ), l.Perm (p.kroneckers.map Kronecker.order) →
      (l.map (·.a)).Nodup → l.Pairwise (fun x y => Prefactor.krLess y x = false) →
      l.Pairwise (fun x y => x.a < y.a) := by
    intro l hl hn hp
    have hord : ∀ k ∈ l, k.a ≤ k.b := by
      intro k hk
      have := hl.mem_iff.mp hk
      simp only [List.mem_map] at this
      obtain ⟨k', _, rfl⟩ := this
      exact kronecker_order_le k'
    have hn' : l.Pairwise (fun x y => x.a ≠ y.a) := by
      rw [List.Nodup, List.pairwise_map] at hn; exact hn
    refine (hp.and hn').imp_of_mem ?_
    rintro x y hx hy ⟨hxy, hne⟩
    rw [Bool.eq_false_iff, Ne, krLess_iff_of_le _ _ (hord y hy) (hord x hx), not_or] at hxy
    exact lt_of_le_of_ne (not_lt.mp hxy.1) hne
  have e : q.kroneckers = q'.kroneckers := by
    refine List.Perm.eq_of_pairwise (le := fun x y => x.a < y.a) ?_ (hs _ h2 hnd h3)
      (hs _ (h2'.trans hperm.symm) ((hq.map (·.a)).nodup_iff.mp hnd) h3') hq
    intro a b _ _ h h'
    exact absurd (h.trans h') (lt_irrefl _)
  cases q; cases q'
  simp_all

example : Prefactor.OrderKroneckers (⟨3, [⟨2, 1⟩, ⟨0, 5⟩]⟩ : Prefactor ℤ ℕ) ⟨3, [⟨0, 5⟩, ⟨1, 2⟩]⟩ ∧
    (([⟨2, 1⟩, ⟨0, 5⟩] : List (Kronecker ℕ)).map (fun k => k.order.a)).Nodup := by
  refine ⟨⟨rfl, ?_, ?_⟩, by decide⟩
  · exact List.Perm.swap _ _ _
  · simp [Prefactor.krLess]

/-- **C10**, exactly: for the prefactor `p` the ordered form is the same for all prefactors with the same value and the same
multiset of deltas, iff no two different deltas of `p` share their smaller symbol (deltas with equal symbols aside). -/
theorem orderKroneckers_canonical_iff {V : Type*} (p : Prefactor V σ) :
    (∀ p' q q' : Prefactor V σ, p.value = p'.value →
      (p.kroneckers.map Kronecker.order).Perm (p'.kroneckers.map Kronecker.order) →
      Prefactor.OrderKroneckers p q → Prefactor.OrderKroneckers p' q' → q = q') ↔
    ∀ x ∈ p.kroneckers, ∀ y ∈ p.kroneckers, x.a ≠ x.b → y.a ≠ y.b → min x.a x.b = min y.a y.b →
      max x.a x.b = max y.a y.b := by
  have minmax : ∀ {u v : σ}, min u v = max u v → u = v := fun {u v} h =>
    le_antisymm ((le_max_left u v).trans (h ▸ min_le_right u v)) ((le_max_right u v).trans (h ▸ min_le_left u v))
  have hord : ∀ k : Kronecker σ, k.order = ⟨min k.a k.b, max k.a k.b⟩ := by
    intro k
    unfold Kronecker.order
    split_ifs with h
    · rw [min_eq_right h.le, max_eq_left h.le]
    · rw [min_eq_left (not_lt.1 h), max_eq_right (not_lt.1 h)]
  constructor
  · intro h x hx y hy hxd hyd hmin
    by_contra hmax
    wlog hlt : max x.a x.b < max y.a y.b generalizing x y
    · exact this y hy x hx hyd hxd hmin.symm (Ne.symm hmax) (lt_of_le_of_ne (not_lt.1 hlt) (Ne.symm hmax))
    set l := p.kroneckers.map Kronecker.order with hl
    have hle : ∀ k ∈ l, k.a ≤ k.b := by
      intro k hk
      obtain ⟨k', -, rfl⟩ := List.mem_map.1 hk
      exact kronecker_order_le k'
    classical
    let r1 : Kronecker σ → Kronecker σ → Prop := fun x y => x.a < y.a ∨ (x.a = y.a ∧ x.b ≤ y.b)
    let r2 : Kronecker σ → Kronecker σ → Prop := fun x y => x.a < y.a ∨ (x.a = y.a ∧ (x.a = x.b ∨ (y.a ≠ y.b ∧ y.b ≤ x.b)))
    haveI t1 : Std.Total r1 := ⟨fun u v => by
      rcases lt_trichotomy u.a v.a with h | h | h
      · exact .inl (.inl h)
      · rcases le_total u.b v.b with h' | h'
        · exact .inl (.inr ⟨h, h'⟩)
        · exact .inr (.inr ⟨h.symm, h'⟩)
      · exact .inr (.inl h)⟩
    haveI t1' : IsTrans (Kronecker σ) r1 := ⟨fun u v w huv hvw => by
      rcases huv with h | ⟨h, h1⟩ <;> rcases hvw with h' | ⟨h', h1'⟩
      · exact .inl (h.trans h')
      · exact .inl (h' ▸ h)
      · exact .inl (h ▸ h')
      · exact .inr ⟨h.trans h', h1.trans h1'⟩⟩
    haveI t2 : Std.Total r2 := ⟨fun u v => by
      rcases lt_trichotomy u.a v.a with h | h | h
      · exact .inl (.inl h)
      · by_cases hu : u.a = u.b
        · exact .inl (.inr ⟨h, .inl hu⟩)
        · by_cases hv : v.a = v.b
          · exact .inr (.inr ⟨h.symm, .inl hv⟩)
          · rcases le_total u.b v.b with h' | h'
            · exact .inr (.inr ⟨h.symm, .inr ⟨hu, h'⟩⟩)
            · exact .inl (.inr ⟨h, .inr ⟨hv, h'⟩⟩)
      · exact .inr (.inl h)⟩
    haveI t2' : IsTrans (Kronecker σ) r2 := ⟨fun u v w huv hvw => by
      rcases huv with h | ⟨h, h1⟩ <;> rcases hvw with h' | ⟨h', h1'⟩
      · exact .inl (h.trans h')
      · exact .inl (h' ▸ h)
      · exact .inl (h ▸ h')
      · refine .inr ⟨h.trans h', ?_⟩
        rcases h1 with h1 | ⟨h1, h2⟩
        · exact .inl h1
        · rcases h1' with h1' | ⟨h3, h4⟩
          · exact absurd h1' h1
          · exact .inr ⟨h3, h4.trans h2⟩⟩
    have sorted1 : (l.insertionSort r1).Pairwise (fun x y => Prefactor.krLess y x = false) := by
      refine (List.pairwise_insertionSort r1 l).imp_of_mem ?_
      intro u v hu hv huv
      rw [List.mem_insertionSort] at hu hv
      rw [Bool.eq_false_iff, Ne, krLess_iff_of_le _ _ (hle v hv) (hle u hu), not_or]
      rcases huv with h | ⟨h, h1⟩
      · exact ⟨not_lt.2 h.le, fun ⟨h2, _⟩ => absurd h2 (ne_of_gt h)⟩
      · refine ⟨by rw [h]; exact lt_irrefl _, fun ⟨h2, h3, h4⟩ => ?_⟩
        exact absurd (h4.trans_le h1) (by rw [← h3, h2]; exact lt_irrefl _)
    have sorted2 : (l.insertionSort r2).Pairwise (fun x y => Prefactor.krLess y x = false) := by
      refine (List.pairwise_insertionSort r2 l).imp_of_mem ?_
      intro u v hu hv huv
      rw [List.mem_insertionSort] at hu hv
      rw [Bool.eq_false_iff, Ne, krLess_iff_of_le _ _ (hle v hv) (hle u hu), not_or]
      rcases huv with h | ⟨h, h1⟩
      · exact ⟨not_lt.2 h.le, fun ⟨h2, _⟩ => absurd h2 (ne_of_gt h)⟩
      · refine ⟨by rw [h]; exact lt_irrefl _, fun ⟨h2, h3, h4⟩ => ?_⟩
        rcases h1 with h1 | ⟨h1, -⟩
        · exact absurd h1 (ne_of_lt h4)
        · exact h1 h3
    have e := h p ⟨p.value, l.insertionSort r1⟩ ⟨p.value, l.insertionSort r2⟩ rfl (List.Perm.refl _)
      ⟨rfl, List.perm_insertionSort r1 l, sorted1⟩ ⟨rfl, List.perm_insertionSort r2 l, sorted2⟩
    have e' : l.insertionSort r1 = l.insertionSort r2 := congrArg Prefactor.kroneckers e
    have hboth : (l.insertionSort r1).Pairwise (fun u v => r1 u v ∧ r2 u v) :=
      (List.pairwise_insertionSort r1 l).and (e' ▸ List.pairwise_insertionSort r2 l)
    have hmx : x.order ∈ l.insertionSort r1 := by rw [List.mem_insertionSort]; exact List.mem_map_of_mem hx
    have hmy : y.order ∈ l.insertionSort r1 := by rw [List.mem_insertionSort]; exact List.mem_map_of_mem hy
    have hxo := hord x
    have hyo := hord y
    have hne : x.order ≠ y.order := by
      rw [hxo, hyo]; intro h'; injection h' with _ h2; exact hmax h2
    have hminmax : ∀ k : Kronecker σ, k.a ≠ k.b → min k.a k.b ≠ max k.a k.b := fun k hk h' => hk (minmax h')
    obtain ⟨i, hi, hxi⟩ := List.getElem_of_mem hmx
    obtain ⟨j, hj, hyj⟩ := List.getElem_of_mem hmy
    rw [List.pairwise_iff_getElem] at hboth
    rcases lt_trichotomy i j with hij | hij | hij
    · have := (hboth i j hi hj hij).2
      rw [hxi, hyj, hxo, hyo] at this
      rcases this with h1 | ⟨-, h1 | ⟨-, h1⟩⟩
      · exact absurd hmin (ne_of_lt h1)
      · exact hminmax x hxd h1
      · exact absurd hlt (not_lt.2 h1)
    · subst hij; exact hne (hxi.symm.trans hyj)
    · have := (hboth j i hj hi hij).1
      rw [hxi, hyj, hxo, hyo] at this
      rcases this with h1 | ⟨-, h1⟩
      · exact absurd hmin.symm (ne_of_lt h1)
      · exact absurd hlt (not_lt.2 h1)
  · intro h p' q q' hv hperm ⟨h1, h2, h3⟩ ⟨h1', h2', h3'⟩
    have e : q.kroneckers = q'.kroneckers := by
      refine List.Perm.eq_of_pairwise (le := fun x y => Prefactor.krLess y x = false) ?_ h3 h3' (h2.trans (hperm.trans h2'.symm))
      intro u v hu hv huv hvu
      obtain ⟨u', hu', rfl⟩ := List.mem_map.1 (h2.mem_iff.1 hu)
      obtain ⟨v', hv', rfl⟩ := List.mem_map.1 (hperm.mem_iff.2 (h2'.mem_iff.1 hv))
      rw [Bool.eq_false_iff, Ne, krLess_iff_of_le _ _ (kronecker_order_le _) (kronecker_order_le _), not_or] at huv hvu
      have ea : u'.order.a = v'.order.a := le_antisymm (not_lt.1 huv.1) (not_lt.1 hvu.1)
      have key := h u' hu' v' hv'
      rw [hord u', hord v'] at ea huv hvu ⊢
      simp only at ea huv hvu
      by_cases hud : u'.a = u'.b
      · by_cases hvd : v'.a = v'.b
        · rw [hud, hvd] at ea ⊢; simp at ea ⊢; exact ea
        · exfalso
          refine hvu.2 ⟨ea, by rw [hud]; simp, lt_of_le_of_ne min_le_max fun h' => hvd (minmax h')⟩
      · by_cases hvd : v'.a = v'.b
        · exfalso
          exact huv.2 ⟨ea.symm, by rw [hvd]; simp, lt_of_le_of_ne min_le_max fun h' => hud (minmax h')⟩
        · rw [ea, key hud hvd ea]
    cases q; cases q'
    simp_all

end C10

/-! ## C11 -/

section C11
variable {V K : Type*} [DecidableEq V] [CommRing K]

/-- C11: all four products multiply the value, under every valuation. -/
theorem prefactor_mul_value (ρ : σ → V) (p q : Prefactor K σ) (k : Kronecker σ)
    (ks : List (Kronecker σ)) (x : K) :
    evalPrefactor ρ (p.mul q) = evalPrefactor ρ p * evalPrefactor ρ q ∧
    evalPrefactor ρ (p.mulAssign q) = evalPrefactor ρ p * evalPrefactor ρ q ∧
    evalPrefactor ρ (p.mulKronecker k) = evalPrefactor ρ p * (if ρ k.a = ρ k.b then 1 else 0) ∧
    evalPrefactor ρ (p.mulKroneckers ks) = evalPrefactor ρ p * (ks.map (evalKronecker ρ)).prod ∧
    evalPrefactor ρ (p.mulNumber x) = evalPrefactor ρ p * x := by
  refine ⟨evalPrefactor_mul ρ p q, evalPrefactor_mul ρ p q, evalPrefactor_mulKronecker ρ p k, ?_,
    evalPrefactor_mulNumber ρ p x⟩
  simp [evalPrefactor, Prefactor.mulKroneckers, mul_assoc]

/-- C11: the product is associative with unit `⟨1, []⟩`, literally (not only in value). -/
theorem prefactor_mul_assoc (p q r : Prefactor K σ) :
    (p.mul q).mul r = p.mul (q.mul r) ∧ p.mul ⟨1, []⟩ = p ∧ Prefactor.mul ⟨1, []⟩ p = p := by
  simp [Prefactor.mul, Prefactor.mulAssign, mul_assoc]

end C11

example : evalPrefactor (fun s : ℕ => s % 2) (Prefactor.mul ⟨3, [⟨0, 2⟩]⟩ ⟨5, [⟨1, 3⟩]⟩ : Prefactor ℤ ℕ) = 15 ∧
    evalPrefactor (fun s : ℕ => s) (Prefactor.mul ⟨3, [⟨0, 2⟩]⟩ ⟨5, [⟨1, 3⟩]⟩ : Prefactor ℤ ℕ) = 0 := by
  decide

end Ieompp
