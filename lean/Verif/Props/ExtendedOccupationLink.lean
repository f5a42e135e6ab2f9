import Verif.Props.ExtendedOccupationRuns
import Verif.Props.ExtendedLink

/-! # C133: the programs with infinities extend those of C118 -/

set_option autoImplicit false
set_option linter.unusedSectionVars false

namespace Ieompp.RealSpace

open Ieompp.Spec IEEE
open MomentumSpace (vecAt)

variable {rnd : ℝ → Res ℝ} {sinF : ℝ → ℝ}

theorem mulX {x y z : ℝ} (h : rnd (x * y) = .val z) : Ext.mul rnd (.fin x) (.fin y) = .fin z := Sim.round_val h
theorem addX {x y z : ℝ} (h : rnd (x + y) = .val z) : Ext.add rnd (.fin x) (.fin y) = .fin z := Sim.round_val h
theorem subX {x y z : ℝ} (h : rnd (x - y) = .val z) : Ext.sub rnd (.fin x) (.fin y) = .fin z := Sim.round_val (by rwa [← sub_eq_add_neg])
theorem divX {x y z : ℝ} (hy : y ≠ 0) (h : rnd (x / y) = .val z) : Ext.div rnd (.fin x) (.fin y) = .fin z := by
  show (if y = 0 then _ else _) = _
  rw [if_neg hy]
  exact Sim.round_val h
theorem divRX {x y z : ℝ} (h : divR rnd x y = .val z) : Ext.div rnd (.fin x) (.fin y) = .fin z := by
  unfold divR at h
  split_ifs at h with hy
  exact divX hy h

/-! ### The table -/

theorem storeLoop_extends {α β : Type} {f : ℕ → Res α} {g : ℕ → Res β} {φ : α → β} (h : ∀ i x, f i = .val x → g i = .val (φ x)) :
    ∀ {sched : List ℕ} {v w : List α}, storeLoop f sched v = .val w → storeLoop g sched (v.map φ) = .val (w.map φ) ∧ w.length = v.length := by
  intro sched
  induction sched with
  | nil => intro v w e; cases e; exact ⟨rfl, rfl⟩
  | cons i s ih =>
    intro v w e
    unfold storeLoop at e ih ⊢
    rw [List.foldl_cons] at e ⊢
    simp only [Res.bind_val] at e ⊢
    cases hf : f i with
    | val x =>
      rw [hf, Res.bind_val] at e
      rw [h i x hf, Res.bind_val]
      by_cases hi : i < v.length
      · have e1 : assignAt v i x = .val (v.set i x) := if_pos hi
        have e2 : assignAt (v.map φ) i (φ x) = .val ((v.set i x).map φ) := by unfold assignAt; rw [if_pos (by simpa using hi), List.map_set]
        rw [e1] at e
        rw [e2]
        have := ih e
        exact ⟨this.1, by rw [this.2]; simp⟩
      · exfalso
        have e1 : assignAt v i x = .ub := if_neg hi
        rw [e1] at e
        have : ∀ s : List ℕ, s.foldl (fun (acc : Res (List α)) i => acc.bind fun v => (f i).bind fun x => assignAt v i x) .ub = .ub := by
          intro s; induction s with
          | nil => rfl
          | cons a s ih => exact ih
        rw [this] at e; cases e
    | ub =>
      exfalso
      rw [hf] at e
      have : ∀ s : List ℕ, s.foldl (fun (acc : Res (List α)) i => acc.bind fun v => (f i).bind fun x => assignAt v i x) .ub = .ub := by
        intro s; induction s with
        | nil => rfl
        | cons a s ih => exact ih
      have e : s.foldl _ Res.ub = _ := e
      rw [this] at e; cases e
    | diverges =>
      exfalso
      rw [hf] at e
      have : ∀ s : List ℕ, s.foldl (fun (acc : Res (List α)) i => acc.bind fun v => (f i).bind fun x => assignAt v i x) .diverges = .diverges := by
        intro s; induction s with
        | nil => rfl
        | cons a s ih => exact ih
      have e : s.foldl _ Res.diverges = _ := e
      rw [this] at e; cases e

theorem evValue1D_extends {kF dx x : ℝ} {d : ℕ} (h : evValue1DR rnd sinF kF dx d = .val x) : evValue1DX rnd sinF (.fin kF) dx d = .fin x := by
  obtain ⟨d', h1, h⟩ := Res.val_of_bind h
  obtain ⟨a, h2, h⟩ := Res.val_of_bind h
  obtain ⟨a', h3, h⟩ := Res.val_of_bind h
  obtain ⟨p, h4, h⟩ := Res.val_of_bind h
  obtain ⟨b, h5, h⟩ := Res.val_of_bind h
  obtain ⟨b', h6, h⟩ := Res.val_of_bind h
  unfold evValue1DX
  rw [Sim.round_val h1, Sim.round_val h4, mulX h2, mulX h3, mulX h5, mulX h6]
  exact divRX h

theorem fermiMomentum1D_extends {filling kF : ℝ} (h : fermiMomentum1DR rnd filling = .val kF) : fermiMomentum1DX rnd (.fin filling) = .fin kF := by
  obtain ⟨p, h1, h⟩ := Res.val_of_bind h
  unfold fermiMomentum1DX
  rw [Sim.round_val h1]
  exact mulX h

theorem evTable1D_extends {N : ℕ} {filling kF : ℝ} {sched : List ℕ} {values : List ℝ}
    (h : evTable1DR rnd sinF (Chain.real (K := ℝ) N 1) filling kF sched = .val values) :
    evTable1DX rnd sinF (Chain.real (K := ℝ) N 1) (.fin filling) (.fin kF) sched = .val (values.map .fin) ∧ values.length = N / 2 + 1 := by
  obtain ⟨v, h1, h⟩ := Res.val_of_bind h
  have hs : (Chain.real (K := ℝ) N 1).size = N := rfl
  rw [hs] at h1
  have e1 : v = (List.replicate (N / 2 + 1) 0).set 0 filling := by
    unfold assignAt at h1
    rw [if_pos (by simp)] at h1
    cases h1; rfl
  have h2 := storeLoop_extends (g := fun d => .val (evValue1DX rnd sinF (.fin kF) (Chain.real (K := ℝ) N 1).dx d)) (φ := Ext.fin)
    (fun i x hx => by rw [evValue1D_extends hx]) h
  refine ⟨?_, by rw [h2.2, e1]; simp⟩
  unfold evTable1DX
  have e2 : assignAt (List.replicate ((Chain.real (K := ℝ) N 1).size / 2 + 1) (.fin 0)) 0 (.fin filling) = .val (v.map Ext.fin) := by
    unfold assignAt
    rw [if_pos (by simp), e1, List.map_set, List.map_replicate, hs]
  rw [e2]
  exact h2.1

/-- A correlation function with finite values on the sites of the lattice. -/
def Agree (N : ℕ) (ev : HOp → HOp → ℝ) (evX : HOp → HOp → Res Ext) : Prop := ∀ a b : HOp, a.index.1 < N → b.index.1 < N → evX a b = .val (.fin (ev a b))

theorem evFunction_agree {N : ℕ} (hN : 1 ≤ N) {values : List ℝ} (h : values.length = N / 2 + 1) :
    Agree N (Program.evFunction (Chain.real (K := ℝ) N 1) values) (evFunctionX (Chain.real (K := ℝ) N 1) (values.map .fin)) := by
  intro a b ha hb
  have hc := Chain.Constructed.real (N := N) (1 : ℝ) hN rfl
  have hd := (chain_distance_metric hc a.index.1 b.index.1 a.index.1 ha hb ha).2.2.2
  unfold Program.evFunction evFunctionX evLookup1D
  set d := (Chain.real (K := ℝ) N 1).latticeDistance a.index.1 b.index.1
  have hlt : d < values.length := by omega
  rw [vecAt_lt hlt, vecAt_lt (v := values.map Ext.fin) (by simpa using hlt), List.getElem_map]

/-! ### The terms -/

variable {N : ℕ} {ev : HOp → HOp → ℝ} {evX : HOp → HOp → Res Ext}

/-- The sites of a product of operators are sites of the lattice. -/
def Inside (N : ℕ) (m : HMonomial) : Prop := ∀ o ∈ m, o.index.1 < N

theorem vecAt_mem {τ : Type*} {v : List τ} {i : ℕ} {x : τ} (h : vecAt v i = .val x) : x ∈ v := by
  unfold vecAt at h
  cases e : v[i]? with
  | none => rw [e] at h; cases h
  | some y => rw [e] at h; cases h; exact List.mem_of_getElem? e

theorem vecAt_map {α β : Type*} {φ : α → β} {v : List α} {i : ℕ} {x : α} (h : vecAt v i = .val x) : vecAt (v.map φ) i = .val (φ x) := by
  unfold vecAt at h ⊢
  rw [List.getElem?_map]
  cases e : v[i]? with
  | none => rw [e] at h; cases h
  | some y => rw [e] at h; cases h; rfl

theorem ev11_extends (hev : Agree N ev evX) {a b : HMonomial} (ha : Inside N a) (hb : Inside N b) {x : ℝ} (h : ev11R rnd ev a b = .val x) :
    ev11X rnd evX a b = .val (.fin x) := by
  obtain ⟨a0, h1, h⟩ := Res.val_of_bind h
  obtain ⟨b0, h2, h⟩ := Res.val_of_bind h
  unfold ev11X
  rw [h1, Res.bind_val, h2, Res.bind_val, hev a0 b0 (ha _ (vecAt_mem h1)) (hb _ (vecAt_mem h2)), Res.map_val, mulX h]

theorem ev13_extends (hev : Agree N ev evX) {a b : HMonomial} (ha : Inside N a) (hb : Inside N b) {x : ℝ} (h : ev13R rnd ev a b = .val x) :
    ev13X rnd evX a b = .val (.fin x) := by
  obtain ⟨b0, h1, h⟩ := Res.val_of_bind h
  obtain ⟨b1, h2, h⟩ := Res.val_of_bind h
  obtain ⟨r, h3, h⟩ := Res.val_of_bind h
  obtain ⟨a0, h4, h⟩ := Res.val_of_bind h
  obtain ⟨b2, h5, h⟩ := Res.val_of_bind h
  obtain ⟨y, h6, h⟩ := Res.val_of_bind h
  have hr : (if b0.index.1 = b1.index.1 then Ext.sub rnd (.fin (ev b0 b1)) (.fin 0.5) else .fin (ev b0 b1)) = .fin r := by
    split_ifs at h3 ⊢
    · exact subX h3
    · cases h3; rfl
  unfold ev13X
  simp only [h1, h2, h4, h5, Res.bind_val, hev b0 b1 (hb _ (vecAt_mem h1)) (hb _ (vecAt_mem h2)), hev a0 b2 (ha _ (vecAt_mem h4)) (hb _ (vecAt_mem h5)),
    Res.map_val, hr, mulX h6, mulX h]

theorem value33_extends {k1 k2 k3 : Prop} [Decidable k1] [Decidable k2] [Decidable k3] {x1 x2 x3 x4 x5 x : ℝ}
    (h : ((rnd (8 * x1)).bind fun x => (rnd (x * x2)).bind fun x => (rnd (x * x3)).bind fun ev6 =>
      (rnd (8 * x1)).bind fun x => (rnd (x * x4)).bind fun x =>
      (rnd ((if k3 then 1 else 0) - x5)).bind fun d => (rnd (x * d)).bind fun x => (rnd (ev6 + x)).bind fun ev6 =>
      (if k1 then (rnd (4 * x1)).bind fun x => (rnd (x * x3)).bind fun x => rnd (0 - x) else .val 0).bind fun ev4 =>
      (if k2 then (rnd (4 * x1)).bind fun x => (rnd (x * x2)).bind fun x => rnd (ev4 - x) else .val ev4).bind fun ev4 =>
      (if k1 ∧ k2 then (rnd (2 * x1)).bind fun x => rnd (0 + x) else .val 0).bind fun ev2 =>
      (rnd (ev6 + ev4)).bind fun s => rnd (s + ev2)) = .val x) :
    value33X rnd (decide k1) (decide k2) (decide k3) (.fin x1) (.fin x2) (.fin x3) (.fin x4) (.fin x5) = .fin x := by
  obtain ⟨y1, h1, h⟩ := Res.val_of_bind h
  obtain ⟨y2, h2, h⟩ := Res.val_of_bind h
  obtain ⟨y3, h3, h⟩ := Res.val_of_bind h
  obtain ⟨y4, h4, h⟩ := Res.val_of_bind h
  rw [h1] at h4
  cases h4
  obtain ⟨y5, h5, h⟩ := Res.val_of_bind h
  obtain ⟨y6, h6, h⟩ := Res.val_of_bind h
  obtain ⟨y7, h7, h⟩ := Res.val_of_bind h
  obtain ⟨y8, h8, h⟩ := Res.val_of_bind h
  obtain ⟨y9, h9, h⟩ := Res.val_of_bind h
  obtain ⟨y10, h10, h⟩ := Res.val_of_bind h
  obtain ⟨y11, h11, h⟩ := Res.val_of_bind h
  obtain ⟨y12, h12, h⟩ := Res.val_of_bind h
  have e9 : (if k1 then Ext.sub rnd (.fin 0) (Ext.mul rnd (Ext.mul rnd (.fin 4) (.fin x1)) (.fin x3)) else .fin 0) = .fin y9 := by
    split_ifs at h9 ⊢
    · obtain ⟨u, u1, h9⟩ := Res.val_of_bind h9
      obtain ⟨w, w1, h9⟩ := Res.val_of_bind h9
      rw [mulX u1, mulX w1, subX h9]
    · cases h9; rfl
  have e10 : (if k2 then Ext.sub rnd (.fin y9) (Ext.mul rnd (Ext.mul rnd (.fin 4) (.fin x1)) (.fin x2)) else .fin y9) = .fin y10 := by
    split_ifs at h10 ⊢
    · obtain ⟨u, u1, h10⟩ := Res.val_of_bind h10
      obtain ⟨w, w1, h10⟩ := Res.val_of_bind h10
      rw [mulX u1, mulX w1, subX h10]
    · cases h10; rfl
  have e11 : (if k1 ∧ k2 then Ext.add rnd (.fin 0) (Ext.mul rnd (.fin 2) (.fin x1)) else .fin 0) = .fin y11 := by
    by_cases hk : k1 ∧ k2
    · rw [if_pos hk] at h11 ⊢
      obtain ⟨u, u1, h11⟩ := Res.val_of_bind h11
      rw [mulX u1, addX h11]
    · rw [if_neg hk] at h11 ⊢
      cases h11; rfl
  unfold value33X
  simp only [mulX h1, mulX h2, mulX h3, mulX h5, decide_eq_true_eq, Bool.and_eq_true, subX h6, mulX h7, addX h8, e9, e10, e11, addX h12, addX h]

theorem ev33_extends (hev : Agree N ev evX) {a b : HMonomial} (ha : Inside N a) (hb : Inside N b) {x : ℝ} (h : ev33R rnd ev a b = .val x) :
    ev33X rnd evX a b = .val (.fin x) := by
  obtain ⟨a0, h1, h⟩ := Res.val_of_bind h
  obtain ⟨a1, h2, h⟩ := Res.val_of_bind h
  obtain ⟨a2, h3, h⟩ := Res.val_of_bind h
  obtain ⟨b0, h4, h⟩ := Res.val_of_bind h
  obtain ⟨b1, h5, h⟩ := Res.val_of_bind h
  obtain ⟨b2, h6, h⟩ := Res.val_of_bind h
  have i0 := ha _ (vecAt_mem h1); have i1 := ha _ (vecAt_mem h2); have i2 := ha _ (vecAt_mem h3)
  have j0 := hb _ (vecAt_mem h4); have j1 := hb _ (vecAt_mem h5); have j2 := hb _ (vecAt_mem h6)
  have key := value33_extends h
  unfold ev33X
  simp only [h1, h2, h3, h4, h5, h6, Res.bind_val, hev _ _ i0 j2, hev _ _ i1 i2, hev _ _ j0 j1, hev _ _ i1 j1, hev _ _ j0 i2, Res.map_val, key]

variable {basis conj : List HMonomial} {f : HMonomial → HMonomial → Res ℝ} {g : HMonomial → HMonomial → Res Ext} {vec : List ℂ}

theorem evAt_extends (hbasis : ∀ m ∈ basis, Inside N m) (hconj : ∀ m ∈ conj, Inside N m)
    (hfg : ∀ a b x, Inside N a → Inside N b → f a b = .val x → g a b = .val (.fin x)) {i j : ℕ} {x : ℝ} (h : evAt basis conj f i j = .val x) :
    evAtX basis conj g i j = .val (.fin x) := by
  obtain ⟨a, h1, h⟩ := Res.val_of_bind h
  obtain ⟨b, h2, h⟩ := Res.val_of_bind h
  rw [evAtX, h1, Res.bind_val, h2, Res.bind_val]
  exact hfg a b x (hbasis _ (vecAt_mem h1)) (hconj _ (vecAt_mem h2)) h

theorem multiplyWithConjugate_extends {a b z : ℂ} (h : multiplyWithConjugateR rnd a b = .val z) : multiplyWithConjugateX rnd (embC a) (embC b) = embC z := by
  obtain ⟨p, h1, h⟩ := Res.val_of_bind h
  obtain ⟨q, h2, h⟩ := Res.val_of_bind h
  obtain ⟨x, h3, h⟩ := Res.val_of_bind h
  obtain ⟨r, h4, h⟩ := Res.val_of_bind h
  obtain ⟨s, h5, h⟩ := Res.val_of_bind h
  obtain ⟨y, h6, h⟩ := Res.val_of_bind h
  cases h
  simp only [multiplyWithConjugateX, embC, Ext.neg, mulX h1, mulX h2, addX h3, mulX h4, mulX h5, addX h6]

theorem addConjugateProducts_extends {a b : ℂ} {z : ℝ} (h : addConjugateProductsR rnd a b = .val z) : addConjugateProductsX rnd (embC a) (embC b) = .fin z := by
  obtain ⟨p, h1, h⟩ := Res.val_of_bind h
  obtain ⟨q, h2, h⟩ := Res.val_of_bind h
  obtain ⟨x, h3, h⟩ := Res.val_of_bind h
  simp only [addConjugateProductsX, embC, mulX h1, mulX h2, addX h3, mulX h]

theorem norm_extends {a : ℂ} {z : ℝ} (h : normR rnd a = .val z) : normX rnd (embC a) = .fin z := by
  obtain ⟨p, h1, h⟩ := Res.val_of_bind h
  obtain ⟨q, h2, h⟩ := Res.val_of_bind h
  simp only [normX, embC, mulX h1, mulX h2, addX h]

theorem embC_real (x : ℝ) : embC (x : ℂ) = ⟨.fin x, .fin 0⟩ := by simp [embC]

section
variable (he : ∀ i j x, evAt basis conj f i j = .val x → evAtX basis conj g i j = .val (.fin x))
include he

theorem fullTerm_extends {i j : ℕ} {z : ℂ} (h : fullTermR rnd basis conj vec f i j = .val z) : fullTermX rnd basis conj (vec.map embC) g i j = .val (embC z) := by
  obtain ⟨e, h1, h⟩ := Res.val_of_bind h
  obtain ⟨vi, h2, h⟩ := Res.val_of_bind h
  obtain ⟨vj, h3, h⟩ := Res.val_of_bind h
  obtain ⟨y, h4, h⟩ := Res.val_of_bind h
  obtain ⟨w, h5, h⟩ := Res.val_of_bind h
  obtain ⟨p, h6, h⟩ := Res.val_of_bind h
  obtain ⟨q, h7, h⟩ := Res.val_of_bind h
  cases h
  unfold fullTermX
  simp only [he i j e h1, Res.bind_val, vecAt_map h2, vecAt_map h3, Res.map_val, multiplyWithConjugate_extends h4, Ieompp.scale_extends h5]
  simp only [embC, divX two_ne_zero h6, divX two_ne_zero h7]

theorem symTerm_extends {i j : ℕ} {z : ℂ} (h : symTermR rnd basis conj vec f i j = .val z) : symTermX rnd basis conj (vec.map embC) g i j = .val (embC z) := by
  obtain ⟨e, h1, h⟩ := Res.val_of_bind h
  obtain ⟨vi, h2, h⟩ := Res.val_of_bind h
  obtain ⟨vj, h3, h⟩ := Res.val_of_bind h
  obtain ⟨y, h4, h⟩ := Res.val_of_bind h
  obtain ⟨w, h5, h⟩ := Res.val_of_bind h
  obtain ⟨p, h6, h⟩ := Res.val_of_bind h
  cases h
  unfold symTermX
  simp only [he i j e h1, Res.bind_val, vecAt_map h2, vecAt_map h3, Res.map_val, addConjugateProducts_extends h4, mulX h5, divX two_ne_zero h6, embC_real]

theorem triTerm_extends {i j : ℕ} {z : ℂ} (h : triTermR rnd basis conj vec f i j = .val z) : triTermX rnd basis conj (vec.map embC) g i j = .val (embC z) := by
  unfold triTermR at h
  unfold triTermX
  split_ifs at h ⊢
  · obtain ⟨e, h1, h⟩ := Res.val_of_bind h
    obtain ⟨vi, h2, h⟩ := Res.val_of_bind h
    obtain ⟨y, h4, h⟩ := Res.val_of_bind h
    obtain ⟨w, h5, h⟩ := Res.val_of_bind h
    obtain ⟨p, h6, h⟩ := Res.val_of_bind h
    cases h
    unfold diagTermX
    simp only [he i i e h1, Res.bind_val, vecAt_map h2, Res.map_val, norm_extends h4, mulX h5, divX two_ne_zero h6, embC_real]
  · exact symTerm_extends he h

end

/-! ### The loops -/

theorem runLoop_extends {body : ℕ → ℕ → Res ℂ} {bodyX : ℕ → ℕ → Res ExtC} (hb : ∀ i j z, body i j = .val z → bodyX i j = .val (embC z)) :
    ∀ {sched : List Event} {results r : List ℂ}, runLoopR rnd body sched results = .val r →
      runLoopX rnd bodyX sched (results.map embC) = .val (r.map embC) := by
  intro sched
  induction sched with
  | nil => intro results r e; cases e; rfl
  | cons e s ih =>
    intro results r h
    unfold runLoopR at h ih
    rw [List.foldl_cons] at h
    have bad : ∀ (s : List Event) (x : Res (List ℂ)), (∀ y, x ≠ .val y) →
        ∀ y, s.foldl (fun acc e => acc.bind fun r => (body e.2.1 e.2.2).bind fun x => addToR rnd r e.1 x) x ≠ .val y := by
      intro s
      induction s with
      | nil => intro x hx; exact hx
      | cons a s ih =>
        intro x hx
        refine ih _ fun y hy => ?_
        obtain ⟨b, hb, -⟩ := Res.val_of_bind hy
        exact hx b hb
    by_cases hv : ∃ y, ((Res.val results).bind fun r => (body e.2.1 e.2.2).bind fun x => addToR rnd r e.1 x) = .val y
    · obtain ⟨y, hy⟩ := hv
      rw [hy] at h
      obtain ⟨x, h1, h2⟩ := Res.val_of_bind hy
      cases h1
      obtain ⟨x, h1, h2⟩ := Res.val_of_bind h2
      obtain ⟨q, h3, h2⟩ := Res.val_of_bind h2
      obtain ⟨z, h4, h2⟩ := Res.val_of_bind h2
      cases h2
      have ihr := ih h
      unfold runLoopX at ihr ⊢
      rw [List.foldl_cons]
      have : ((Res.val (results.map embC)).bind fun r => (bodyX e.2.1 e.2.2).bind fun x => addToX rnd r e.1 x) = .val ((results.set e.1 z).map embC) := by
        simp only [Res.bind_val, hb _ _ _ h1, addToX, vecAt_map h3, Res.map_val, Ieompp.add_extends h4, List.map_set]
      rw [this]
      exact ihr
    · exact absurd h (bad s _ (fun y hy => hv ⟨y, hy⟩) r)

theorem runLoops_extends : ∀ {L : List ((ℕ → ℕ → Res ℂ) × (ℕ → ℕ → Res ExtC) × List Event)}
    (_ : ∀ l ∈ L, ∀ i j z, l.1 i j = .val z → l.2.1 i j = .val (embC z)) {results r : List ℂ},
    runLoopsR rnd (L.map fun l => (l.1, l.2.2)) results = .val r → runLoopsX rnd (L.map fun l => (l.2.1, l.2.2)) (results.map embC) = .val (r.map embC) := by
  intro L
  induction L with
  | nil => intro _ results r e; cases e; rfl
  | cons l L ih =>
    intro hL results r e
    obtain ⟨q, e1, e⟩ := Res.val_of_bind e
    have e2 := ih (fun l' hl' => hL l' (by simp [hl'])) e
    have e3 := runLoop_extends (hL l (by simp)) e1
    rw [List.map_cons, runLoopsX, e3]
    exact e2

theorem accumulate_extends {results : List ℂ} {z : ℂ} (h : accumulateR rnd results = .val z) : accumulateX rnd (results.map embC) = embC z := by
  have key : ∀ (l : List ℂ) (a : ℂ) (z : ℂ), l.foldl (fun (acc : Res ℂ) r => acc.bind fun a => addR rnd a r) (.val a) = .val z →
      (l.map embC).foldl (ExtC.add rnd) (embC a) = embC z := by
    intro l
    induction l with
    | nil => intro a z e; cases e; rfl
    | cons b l ih =>
      intro a z e
      rw [List.foldl_cons] at e
      have bad : ∀ (s : List ℂ) (x : Res ℂ), (∀ y, x ≠ .val y) → ∀ y, s.foldl (fun (acc : Res ℂ) r => acc.bind fun a => addR rnd a r) x ≠ .val y := by
        intro s
        induction s with
        | nil => intro x hx; exact hx
        | cons a s ih =>
          intro x hx
          refine ih _ fun y hy => ?_
          obtain ⟨b, hb, -⟩ := Res.val_of_bind hy
          exact hx b hb
      by_cases hv : ∃ y, addR rnd a b = .val y
      · obtain ⟨y, hy⟩ := hv
        rw [Res.bind_val, hy] at e
        rw [List.map_cons, List.foldl_cons, Ieompp.add_extends hy]
        exact ih y z e
      · exact absurd e (bad l _ (fun y hy => hv ⟨y, hy⟩) z)
  have := key results 0 z h
  rw [show embC 0 = ExtC.zero by simp [embC, ExtC.zero]] at this
  exact this

theorem siteOccupation_extends {L : List ((ℕ → ℕ → Res ℂ) × (ℕ → ℕ → Res ExtC) × List Event)}
    (hL : ∀ l ∈ L, ∀ i j z, l.1 i j = .val z → l.2.1 i j = .val (embC z)) {threads : ℕ} {x : ℝ}
    (h : siteOccupationR rnd (L.map fun l => (l.1, l.2.2)) threads = .val x) :
    siteOccupationX rnd (L.map fun l => (l.2.1, l.2.2)) threads = .val (.fin x) := by
  obtain ⟨r, e1, h⟩ := Res.val_of_bind h
  obtain ⟨z, e2, rfl⟩ := Res.val_of_map h
  have := runLoops_extends hL e1
  rw [List.map_replicate, show embC 0 = ExtC.zero by simp [embC, ExtC.zero]] at this
  rw [siteOccupationX, this, Res.map_val, accumulate_extends e2]
  rfl

theorem siteOccupation3_extends (hev : Agree N ev evX) (hbasis : ∀ m ∈ basis, Inside N m) (hconj : ∀ m ∈ conj, Inside N m) {threads : ℕ}
    {s1 s2 s3 : List Event} {x : ℝ} (h : siteOccupation3R rnd ev basis conj vec threads s1 s2 s3 = .val x) :
    siteOccupation3X rnd evX basis conj (vec.map embC) threads s1 s2 s3 = .val (.fin x) := by
  refine siteOccupation_extends (L := [(triTermR rnd basis conj vec (ev11R rnd ev), triTermX rnd basis conj (vec.map embC) (ev11X rnd evX), s1),
    (symTermR rnd basis conj vec (ev13R rnd ev), symTermX rnd basis conj (vec.map embC) (ev13X rnd evX), s2),
    (triTermR rnd basis conj vec (ev33R rnd ev), triTermX rnd basis conj (vec.map embC) (ev33X rnd evX), s3)]) ?_ h
  intro l hl i j z hz
  simp only [List.mem_cons, List.not_mem_nil, or_false] at hl
  rcases hl with rfl | rfl | rfl
  · exact triTerm_extends (fun i j x => evAt_extends hbasis hconj fun a b x ha hb => ev11_extends hev ha hb) hz
  · exact symTerm_extends (fun i j x => evAt_extends hbasis hconj fun a b x ha hb => ev13_extends hev ha hb) hz
  · exact triTerm_extends (fun i j x => evAt_extends hbasis hconj fun a b x ha hb => ev33_extends hev ha hb) hz

theorem siteOccupation1_extends (hev : Agree N ev evX) (hbasis : ∀ m ∈ basis, Inside N m) (hconj : ∀ m ∈ conj, Inside N m) {threads : ℕ}
    {s1 : List Event} {x : ℝ} (h : siteOccupation1R rnd ev basis conj vec threads s1 = .val x) :
    siteOccupation1X rnd evX basis conj (vec.map embC) threads s1 = .val (.fin x) := by
  refine siteOccupation_extends (L := [(fullTermR rnd basis conj vec (ev11R rnd ev), fullTermX rnd basis conj (vec.map embC) (ev11X rnd evX), s1)]) ?_ h
  intro l hl i j z hz
  rw [List.mem_singleton] at hl
  subst hl
  exact fullTerm_extends (fun i j x => evAt_extends hbasis hconj fun a b x ha hb => ev11_extends hev ha hb) hz

theorem inside_basis (N : ℕ) : (∀ m ∈ basis1 N, Inside N m) ∧ (∀ m ∈ basis3 N, Inside N m) := by
  have one : ∀ i < N, Inside N (Spec.one i) := by
    intro i hi o ho
    simp only [Spec.one, List.mem_singleton] at ho
    subst ho
    exact hi
  constructor
  · intro m hm
    obtain ⟨i, hi, rfl⟩ := List.mem_iff_getElem.1 hm
    have hi' : i < N := by rwa [(realBasis_size N).1] at hi
    have := ((realBasis_getElem N).1 i hi').1
    rw [List.getElem?_eq_getElem hi] at this
    have e : (basis1 N)[i] = Spec.one i := by injection this
    rw [e]
    exact one i hi'
  · intro m hm
    obtain ⟨i, hi, rfl⟩ := List.mem_iff_getElem.1 hm
    have hi' : i < N + N * N * N := by rwa [(realBasis_size N).2] at hi
    rcases basis3_cases hi' with ⟨j, -, hj, e⟩ | ⟨a, b, c, -, ha, hb, hc, e⟩
    · rw [List.getElem?_eq_getElem hi] at e
      injection e with e
      rw [e]
      exact one j hj
    · rw [List.getElem?_eq_getElem hi] at e
      injection e with e
      rw [e]
      intro o ho
      simp only [Spec.three, List.mem_cons, List.not_mem_nil, or_false] at ho
      rcases ho with rfl | rfl | rfl
      exacts [ha, hb, hc]

theorem inside_conj {N : ℕ} {l : List HMonomial} (h : ∀ m ∈ l, Inside N m) : ∀ m ∈ conjOf l, Inside N m := by
  intro m hm
  obtain ⟨m', h', rfl⟩ := List.mem_map.1 hm
  intro o ho
  simp only [Monomial.conjugate, List.mem_map, List.mem_reverse] at ho
  obtain ⟨o', ho', rfl⟩ := ho
  exact h m' h' o' ho'

end Ieompp.RealSpace

namespace Ieompp.Program

open Ieompp.Spec IEEE RealSpace

variable {rnd : ℝ → Res ℝ} {sinF : ℝ → ℝ} {N : ℕ} {sort : List (Triplet ℝ) → List (Triplet ℝ)} {sortX : List (Triplet Ext) → List (Triplet Ext)} {e : Execution}

/-- A program of C118 as a program with infinities. -/
theorem occupation_extends {n : ℕ} {m : Sparse ℂ} {mx : Sparse ExtC} (hm : ODE.Matches n m mx) {occ : ℕ → List ℂ → Res ℝ} {occX : ℕ → List ExtC → Res Ext}
    (ho : ∀ k u x, occ k u = .val x → occX k (u.map embC) = .val (.fin x)) {w : ODE.Work ℂ} {h : List ℂ} {dt tEnd : ℝ} {interval : ℕ} {s : Sim.State Vars ℝ}
    (hs : IEEE.simulateR rnd (IEEE.stepVarsR rnd n dt m) (fun s => (occ s.1 s.2.2).map fun x => (s, x)) dt tEnd interval (0, w, h) = .val s) :
    ∃ sx, Sim.simulateX rnd (stepVarsX rnd n (.fin dt) mx) (fun s => (occX s.1 s.2).map fun x => (s, x)) (.fin dt) (.fin tEnd) interval (0, h.map embC) = .val sx ∧
      sx.out = s.out.map fun r => (.fin r.1, .fin r.2) := by
  have := Sim.simulateX_transport (fun v : Vars => ((v.1, v.2.2.map embC) : ℕ × List ExtC)) Ext.fin
    (step' := stepVarsX rnd n (.fin dt) mx) (measure' := fun s => (occX s.1 s.2).map fun x => (s, x)) (by
      intro v v' hv
      obtain ⟨r, e1, rfl⟩ := Res.val_of_map hv
      rw [stepVarsX, ODE.step_extends hm e1]
      rfl) (by
      intro v r hr
      obtain ⟨x, e1, rfl⟩ := Res.val_of_map hr
      show (occX v.1 (v.2.2.map embC)).map _ = _
      rw [ho _ _ _ e1]
      rfl) (Sim.simulateX_extends hs)
  exact ⟨_, this, by simp [Sim.mapStateX, embed, Function.comp_def]⟩

/-- **C133**: `hubbard_real_1d_rk4` with infinities and NaN is the program of C118 whenever everything that comes up in that is finite: same times, same rows. -/
theorem real1dRk4_extends (hN : 3 ≤ N) (hs : IsSort sort) (hsX : IsSort sortX) (he : e.Valid N) {J U dt tEnd filling : ℝ} {interval : ℕ} {w : ODE.Work ℂ}
    {s : Sim.State Vars ℝ} (h : IEEE.real1dRk4R rnd sinF sort e w N J U dt tEnd interval filling = .val s) :
    ∃ sx, real1dRk4X rnd sinF sortX e N (.fin J) (.fin U) (.fin dt) (.fin tEnd) interval (.fin filling) = .val sx ∧
      sx.out = s.out.map fun r => (.fin r.1, .fin r.2) := by
  have hreg := chain_regular (Chain.Constructed.real (N := N) (1 : ℝ) (by omega) rfl) hN
  obtain ⟨kF, g1, h⟩ := Res.val_of_bind h
  obtain ⟨values, g2, h⟩ := Res.val_of_bind h
  obtain ⟨half, h1, h⟩ := Res.val_of_bind h
  obtain ⟨m, h2, h⟩ := Res.val_of_bind h
  obtain ⟨m', h3, h⟩ := Res.val_of_bind h
  obtain ⟨v, h4, h⟩ := Res.val_of_bind h
  obtain ⟨mx, ex, hx⟩ := initMatrixX_val (rnd := rnd) hreg sortX hsX (.fin J) (.fin U)
  have hlen : (basis3 N).length = N + N * N * N := (realBasis_size N).2
  have hd := initMatrix_done hreg sort J (2 * half) h2
  have hM : ODE.Matches (N + N * N * N) m' (timesIX rnd mx) :=
    timesI_matches (L := fun r => sort (rowList N (Chain.real (K := ℝ) N 1).neighbors J (2 * half) r))
      (fun i hi => strict_of_sorted_nodup (hs _) (row_columns hreg J (2 * half) hi).2.1) (fun i hi => by rw [hd]; simp [List.getD, hi])
      (fun i hi => by
        obtain ⟨l, e1, e2, -⟩ := hx i hi
        rw [rowX_finite hreg h1 hi] at e1
        cases e1
        rw [e2, sort_finite hs hsX (row_columns hreg J (2 * half) hi).2.1]) h3
  have hc : getConjugate e.conjugation (basis3 N) = conjOf (basis3 N) := parallelModify_eq_map _ _ _ he.conjugation
  obtain ⟨t1, t2⟩ := evTable1D_extends g2
  have hev := evFunction_agree (N := N) (by omega) t2
  simp only [hlen, hc] at h h4
  obtain ⟨sx, r1, r2⟩ := occupation_extends hM (occ := fun k u => siteOccupation3R rnd (evFunction (Chain.real (K := ℝ) N 1) values) (basis3 N) (conjOf (basis3 N)) u
      (e.threads k) (e.loop1 k) (e.loop2 k) (e.loop3 k))
    (occX := fun k u => siteOccupation3X rnd (evFunctionX (Chain.real (K := ℝ) N 1) (values.map .fin)) (basis3 N) (conjOf (basis3 N)) u
      (e.threads k) (e.loop1 k) (e.loop2 k) (e.loop3 k))
    (fun k u x hx => siteOccupation3_extends hev (inside_basis N).2 (inside_conj (inside_basis N).2) hx) h
  refine ⟨sx, ?_, r2⟩
  unfold real1dRk4X
  simp only [fermiMomentum1D_extends g1, t1, ex, Res.bind_val, hlen, initVector_extends h4, hc]
  exact r1

/-- **C133**: the same for `hubbard_real_1d_kinetic_rk4`. -/
theorem real1dKineticRk4_extends (hN : 3 ≤ N) (hs : IsSort sort) (hsX : IsSort sortX) (he : e.ValidKinetic N) {J dt tEnd filling : ℝ} {interval : ℕ} {w : ODE.Work ℂ}
    {s : Sim.State Vars ℝ} (h : IEEE.real1dKineticRk4R rnd sinF sort e w N J dt tEnd interval filling = .val s) :
    ∃ sx, real1dKineticRk4X rnd sinF sortX e N (.fin J) (.fin dt) (.fin tEnd) interval (.fin filling) = .val sx ∧
      sx.out = s.out.map fun r => (.fin r.1, .fin r.2) := by
  have hreg := chain_regular (Chain.Constructed.real (N := N) (1 : ℝ) (by omega) rfl) hN
  obtain ⟨kF, g1, h⟩ := Res.val_of_bind h
  obtain ⟨values, g2, h⟩ := Res.val_of_bind h
  obtain ⟨m, h2, h⟩ := Res.val_of_bind h
  obtain ⟨m', h3, h⟩ := Res.val_of_bind h
  obtain ⟨v, h4, h⟩ := Res.val_of_bind h
  obtain ⟨mx, ex, hx⟩ := initKineticMatrixX_val hreg sortX hsX (.fin J)
  have hlen : (basis1 N).length = N := (realBasis_size N).1
  have hd := initKineticMatrix_done sort J h2
  have hM : ODE.Matches N m' (timesIX rnd mx) :=
    timesI_matches (L := fun r => sort (kineticTriplets (Chain.real (K := ℝ) N 1).neighbors J r))
      (fun i hi => strict_of_sorted_nodup (hs _) (kinetic_columns hreg J hi).1) (fun i hi => by rw [hd]; simp [List.getD, hi])
      (fun i hi => by
        rw [hx i hi]
        have e : kineticTripletsX (Chain.real (K := ℝ) N 1).neighbors (.fin J) i =
            (kineticTriplets (Chain.real (K := ℝ) N 1).neighbors J i).map Triplet.finite := by
          simp [kineticTripletsX, kineticTriplets, Triplet.finite, Function.comp_def, Ext.neg]
        rw [e, sort_finite hs hsX (kinetic_columns hreg J hi).1]) h3
  have hc : getConjugate e.conjugation (basis1 N) = conjOf (basis1 N) := parallelModify_eq_map _ _ _ he.conjugation
  obtain ⟨t1, t2⟩ := evTable1D_extends g2
  have hev := evFunction_agree (N := N) (by omega) t2
  simp only [hlen, hc] at h h4
  obtain ⟨sx, r1, r2⟩ := occupation_extends hM (occ := fun k u => siteOccupation1R rnd (evFunction (Chain.real (K := ℝ) N 1) values) (basis1 N) (conjOf (basis1 N)) u
      (e.threads k) (e.loop1 k))
    (occX := fun k u => siteOccupation1X rnd (evFunctionX (Chain.real (K := ℝ) N 1) (values.map .fin)) (basis1 N) (conjOf (basis1 N)) u
      (e.threads k) (e.loop1 k))
    (fun k u x hx => siteOccupation1_extends hev (inside_basis N).1 (inside_conj (inside_basis N).1) hx) h
  refine ⟨sx, ?_, r2⟩
  unfold real1dKineticRk4X
  simp only [fermiMomentum1D_extends g1, t1, ex, Res.bind_val, hlen, initVector_extends h4, hc]
  exact r1

end Ieompp.Program
