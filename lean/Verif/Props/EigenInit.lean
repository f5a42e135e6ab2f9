import Verif.Model.EigenInit
import Verif.Model.Number
import Mathlib.Data.List.Nodup
import Mathlib.Tactic.Ring
import Mathlib.Tactic.Linarith
import Mathlib.Data.Real.Basic

/-!
# C72: `init` and `init_symmetric` fill an Eigen matrix with the given function

The statements speak about the result only through its size, the stored positions and `coeff` (for dense matrices: the
value at a position).
-/

set_option autoImplicit false
set_option linter.unusedSectionVars false

namespace Ieompp
namespace Eigen

variable {S : Type}

/-! ### Loops -/

/-- The invariant rule for the loop. -/
theorem forM_inv {M : Type} (n : ℕ) (m : M) (body : M → ℕ → Option M) (P : ℕ → M → Prop) (h0 : P 0 m)
    (hs : ∀ i m, i < n → P i m → ∃ m', body m i = some m' ∧ P (i + 1) m') : ∃ m', forM n m body = some m' ∧ P n m' := by
  induction n with
  | zero => exact ⟨m, rfl, h0⟩
  | succ n ih =>
    obtain ⟨m1, h1, p1⟩ := ih fun i m hi => hs i m (by omega)
    obtain ⟨m2, h2, p2⟩ := hs n m1 (by omega) p1
    refine ⟨m2, ?_, p2⟩
    unfold forM at *
    rw [List.range_succ, List.foldlM_append, h1]
    simpa using h2

/-! ### Sparse matrices -/

/-- The matrix stores exactly the positions satisfying `P`, once, inside `rows × cols`, with the values of `g`. -/
structure Holds (rows cols : ℕ) (P : ℕ → ℕ → Prop) (g : ℕ → ℕ → S) (m : Sparse S) : Prop where
  rows : m.rows = rows
  cols : m.cols = cols
  nodup : (m.entries.map Prod.fst).Nodup
  mem : ∀ i j v, ((i, j), v) ∈ m.entries ↔ P i j ∧ v = g i j

theorem Holds.insert {rows cols : ℕ} {P Q : ℕ → ℕ → Prop} {g : ℕ → ℕ → S} {m : Sparse S} (h : Holds rows cols P g m)
    {i j : ℕ} (hi : i < rows) (hj : j < cols) (hp : ¬ P i j) (hQ : ∀ a b, Q a b ↔ P a b ∨ (a = i ∧ b = j)) :
    ∃ m', m.insert i j (g i j) = some m' ∧ Holds rows cols Q g m' := by
  have hn : ∀ e ∈ m.entries, e.1 ≠ (i, j) := by
    rintro ⟨⟨a, b⟩, v⟩ he h'
    simp only [Prod.mk.injEq] at h'
    exact hp (h'.1 ▸ h'.2 ▸ ((h.mem a b v).1 he).1)
  refine ⟨{ m with entries := m.entries ++ [((i, j), g i j)] }, ?_, h.rows, h.cols, ?_, ?_⟩
  · unfold Sparse.insert
    rw [if_pos ⟨by rw [h.rows]; exact hi, by rw [h.cols]; exact hj, hn⟩]
  · simp only [List.map_append, List.map_cons, List.map_nil]
    refine List.Nodup.append h.nodup (by simp) ?_
    intro x hx hx'
    simp only [List.mem_singleton] at hx'
    subst hx'
    obtain ⟨e, he, h'⟩ := List.mem_map.1 hx
    exact hn e he h'
  · intro a b v
    simp only [List.mem_append, List.mem_singleton, Prod.mk.injEq, h.mem, hQ]
    constructor
    · rintro (⟨h1, h2⟩ | ⟨⟨h1, h2⟩, h3⟩)
      · exact ⟨Or.inl h1, h2⟩
      · subst h1 h2; exact ⟨Or.inr ⟨rfl, rfl⟩, h3⟩
    · rintro ⟨h1 | ⟨h1, h2⟩, h3⟩
      · exact Or.inl ⟨h1, h3⟩
      · subst h1 h2; exact Or.inr ⟨⟨rfl, rfl⟩, h3⟩

theorem Holds.congr {rows cols : ℕ} {P Q : ℕ → ℕ → Prop} {g : ℕ → ℕ → S} {m : Sparse S} (h : Holds rows cols P g m)
    (hQ : ∀ a b, Q a b ↔ P a b) : Holds rows cols Q g m :=
  ⟨h.rows, h.cols, h.nodup, fun i j v => by rw [h.mem, hQ]⟩

theorem Holds.coeff [Zero S] {rows cols : ℕ} {P : ℕ → ℕ → Prop} {g : ℕ → ℕ → S} {m : Sparse S}
    (h : Holds rows cols P g m) (i j : ℕ) [Decidable (P i j)] : m.coeff i j = if P i j then g i j else 0 := by
  unfold Sparse.coeff
  cases hf : m.entries.find? fun e => decide (e.1 = (i, j)) with
  | none =>
    rw [if_neg]
    · rfl
    · intro hp
      have := List.find?_eq_none.1 hf ((i, j), g i j) ((h.mem i j _).2 ⟨hp, rfl⟩)
      simp at this
  | some e =>
    obtain ⟨⟨a, b⟩, v⟩ := e
    have h1 := List.find?_some hf
    have h2 := List.mem_of_find?_eq_some hf
    simp only [decide_eq_true_eq, Prod.mk.injEq] at h1
    obtain ⟨rfl, rfl⟩ := h1
    obtain ⟨hp, hv⟩ := (h.mem a b v).1 h2
    rw [if_pos hp]
    simpa using hv

/-- **C72** (sparse `init`): whatever the matrix held before, `init` succeeds without touching a position twice or
outside of the matrix; the result has the given size, the entry at `(i, j)` is `f(i, j)` unless `f(i, j)` counts as
zero, and nothing else is stored. -/
theorem initSparse_correct [Zero S] (zero : S → Bool) (m : Sparse S) (rows cols : ℕ) (f : ℕ → ℕ → S) :
    ∃ m', initSparse zero m rows cols f = some m' ∧ m'.rows = rows ∧ m'.cols = cols ∧
      (m'.entries.map Prod.fst).Nodup ∧
      (∀ i j, (∃ v, ((i, j), v) ∈ m'.entries) ↔ i < rows ∧ j < cols ∧ zero (f i j) = false) ∧
      ∀ i j, i < rows → j < cols → m'.coeff i j = if zero (f i j) then 0 else f i j := by
  obtain ⟨m', h, hP⟩ := forM_inv rows (Sparse.make rows cols)
    (fun m i => forM cols m fun m j => if !zero (f i j) then m.insert i j (f i j) else some m)
    (fun n m => Holds rows cols (fun i j => i < n ∧ j < cols ∧ zero (f i j) = false) f m)
    ⟨rfl, rfl, by simp [Sparse.make], fun i j v => by simp [Sparse.make]⟩ (by
      intro i m hi hm
      obtain ⟨m', h, hP⟩ := forM_inv cols m (fun m j => if !zero (f i j) then m.insert i j (f i j) else some m)
        (fun n m => Holds rows cols
          (fun a b => (a < i ∧ b < cols ∧ zero (f a b) = false) ∨ (a = i ∧ b < n ∧ zero (f a b) = false)) f m)
        (hm.congr fun a b => by simp) (by
          intro j m hj hm
          cases hz : zero (f i j) with
          | true =>
            refine ⟨m, by simp, hm.congr fun a b => ?_⟩
            constructor
            · rintro (h | ⟨rfl, h1, h2⟩)
              · exact Or.inl h
              · refine Or.inr ⟨rfl, ?_, h2⟩
                rcases Nat.lt_succ_iff_lt_or_eq.1 h1 with h | rfl
                · exact h
                · rw [hz] at h2; simp at h2
            · rintro (h | ⟨rfl, h1, h2⟩)
              · exact Or.inl h
              · exact Or.inr ⟨rfl, by omega, h2⟩
          | false =>
            simp only [Bool.not_false, if_true]
            refine hm.insert hi hj ?_ ?_
            · rintro (⟨h, _⟩ | ⟨_, h, _⟩) <;> omega
            · intro a b
              constructor
              · rintro (h | ⟨rfl, h1, h2⟩)
                · exact Or.inl (Or.inl h)
                · rcases Nat.lt_succ_iff_lt_or_eq.1 h1 with h | rfl
                  · exact Or.inl (Or.inr ⟨rfl, h, h2⟩)
                  · exact Or.inr ⟨rfl, rfl⟩
              · rintro ((h | ⟨rfl, h1, h2⟩) | ⟨rfl, rfl⟩)
                · exact Or.inl h
                · exact Or.inr ⟨rfl, by omega, h2⟩
                · exact Or.inr ⟨rfl, by omega, hz⟩)
      refine ⟨m', h, hP.congr fun a b => ?_⟩
      constructor
      · rintro ⟨h1, h2, h3⟩
        rcases Nat.lt_succ_iff_lt_or_eq.1 h1 with h | rfl
        · exact Or.inl ⟨h, h2, h3⟩
        · exact Or.inr ⟨rfl, h2, h3⟩
      · rintro (⟨h1, h2, h3⟩ | ⟨rfl, h2, h3⟩)
        · exact ⟨by omega, h2, h3⟩
        · exact ⟨by omega, h2, h3⟩)
  refine ⟨m', h, hP.rows, hP.cols, hP.nodup, ?_, ?_⟩
  · intro i j
    constructor
    · rintro ⟨v, hv⟩; exact ((hP.mem i j v).1 hv).1
    · intro h; exact ⟨_, (hP.mem i j _).2 ⟨h, rfl⟩⟩
  · intro i j hi hj
    rw [hP.coeff]
    cases zero (f i j) <;> simp [hi, hj]

/-- **C72** (sparse `init_symmetric`): `init_symmetric` succeeds; the entry at `(i, j)` and the entry at `(j, i)` are both
`f(max i j, min i j)`, unless that counts as zero; no position is written twice. -/
theorem initSymmetricSparse_correct [Zero S] (zero : S → Bool) (m : Sparse S) (rows : ℕ) (f : ℕ → ℕ → S) :
    ∃ m', initSymmetricSparse zero m rows f = some m' ∧ m'.rows = rows ∧ m'.cols = rows ∧
      (m'.entries.map Prod.fst).Nodup ∧
      (∀ i j, (∃ v, ((i, j), v) ∈ m'.entries) ↔ i < rows ∧ j < rows ∧ zero (f (max i j) (min i j)) = false) ∧
      ∀ i j, i < rows → j < rows →
        m'.coeff i j = if zero (f (max i j) (min i j)) then 0 else f (max i j) (min i j) := by
  let g : ℕ → ℕ → S := fun i j => f (max i j) (min i j)
  obtain ⟨m', h, hP⟩ := forM_inv rows (Sparse.make rows rows)
    (fun m i => do
      let m ← forM i m fun m j =>
        if !zero (f i j) then do
          let m ← m.insert i j (f i j)
          m.insert j i (f i j)
        else some m
      if !zero (f i i) then m.insert i i (f i i) else some m)
    (fun n m => Holds rows rows (fun i j => i < n ∧ j < n ∧ zero (g i j) = false) g m)
    ⟨rfl, rfl, by simp [Sparse.make], fun i j v => by simp [Sparse.make]⟩ (by
      intro i m hi hm
      obtain ⟨m1, h1, hP1⟩ := forM_inv i m (fun m j => if !zero (f i j) then do
          let m ← m.insert i j (f i j)
          m.insert j i (f i j)
        else some m)
        (fun n m => Holds rows rows (fun a b => zero (g a b) = false ∧
          ((a < i ∧ b < i) ∨ (a = i ∧ b < n) ∨ (b = i ∧ a < n))) g m)
        (hm.congr fun a b => by simp; tauto) (by
          intro j m hj hm
          have e1 : g i j = f i j := by simp [g, hj.le]
          have e2 : g j i = f i j := by simp [g, hj.le]
          cases hz : zero (f i j) with
          | true =>
            refine ⟨m, by simp, hm.congr fun a b => ?_⟩
            have k1 : zero (g i j) = true := by rw [e1]; exact hz
            have k2 : zero (g j i) = true := by rw [e2]; exact hz
            constructor
            · rintro ⟨z, (h | ⟨rfl, h⟩ | ⟨rfl, h⟩)⟩
              · exact ⟨z, Or.inl h⟩
              · rcases Nat.lt_succ_iff_lt_or_eq.1 h with h | rfl
                · exact ⟨z, Or.inr (Or.inl ⟨rfl, h⟩)⟩
                · rw [k1] at z; simp at z
              · rcases Nat.lt_succ_iff_lt_or_eq.1 h with h | rfl
                · exact ⟨z, Or.inr (Or.inr ⟨rfl, h⟩)⟩
                · rw [k2] at z; simp at z
            · rintro ⟨z, h⟩
              exact ⟨z, by omega⟩
          | false =>
            simp only [Bool.not_false, if_true]
            have k1 : zero (g i j) = false := by rw [e1]; exact hz
            have k2 : zero (g j i) = false := by rw [e2]; exact hz
            obtain ⟨m1, h1, p1⟩ := hm.insert (Q := fun a b => (zero (g a b) = false ∧
              ((a < i ∧ b < i) ∨ (a = i ∧ b < j) ∨ (b = i ∧ a < j))) ∨ (a = i ∧ b = j)) hi (j := j) (by omega)
              (by rintro ⟨_, h⟩; omega) (fun a b => Iff.rfl)
            obtain ⟨m2, h2, p2⟩ := p1.insert (Q := fun a b => zero (g a b) = false ∧
              ((a < i ∧ b < i) ∨ (a = i ∧ b < j + 1) ∨ (b = i ∧ a < j + 1))) (i := j) (j := i) (by omega) hi
              (by rintro (⟨_, h⟩ | h) <;> omega) (fun a b => by
                constructor
                · rintro ⟨z, h⟩
                  by_cases c1 : a = i ∧ b = j
                  · exact Or.inl (Or.inr c1)
                  by_cases c2 : a = j ∧ b = i
                  · exact Or.inr c2
                  · exact Or.inl (Or.inl ⟨z, by omega⟩)
                · rintro ((⟨z, h⟩ | ⟨rfl, rfl⟩) | ⟨rfl, rfl⟩)
                  · exact ⟨z, by omega⟩
                  · exact ⟨k1, by omega⟩
                  · exact ⟨k2, by omega⟩)
            refine ⟨m2, ?_, p2⟩
            rw [e1] at h1
            rw [e2] at h2
            rw [h1]
            exact h2)
      have e3 : g i i = f i i := by simp [g]
      rw [h1]
      simp only [Option.bind_eq_bind, Option.bind_some]
      cases hz : zero (f i i) with
      | true =>
        refine ⟨m1, by simp, hP1.congr fun a b => ?_⟩
        have k : zero (g i i) = true := by rw [e3]; exact hz
        constructor
        · rintro ⟨h1, h2, z⟩
          refine ⟨z, ?_⟩
          by_cases c : a = i ∧ b = i
          · rw [c.1, c.2, k] at z; simp at z
          · omega
        · rintro ⟨z, h⟩
          exact ⟨by omega, by omega, z⟩
      | false =>
        have k : zero (g i i) = false := by rw [e3]; exact hz
        simp only [Bool.not_false, if_true]
        rw [← e3]
        refine hP1.insert hi hi (by rintro ⟨_, h⟩; omega) fun a b => ?_
        constructor
        · rintro ⟨h1, h2, z⟩
          by_cases c : a = i ∧ b = i
          · exact Or.inr c
          · exact Or.inl ⟨z, by omega⟩
        · rintro (⟨z, h⟩ | ⟨rfl, rfl⟩)
          · exact ⟨by omega, by omega, z⟩
          · exact ⟨by omega, by omega, k⟩)
  refine ⟨m', h, hP.rows, hP.cols, hP.nodup, ?_, ?_⟩
  · intro i j
    constructor
    · rintro ⟨v, hv⟩; exact ((hP.mem i j v).1 hv).1
    · intro h; exact ⟨_, (hP.mem i j _).2 ⟨h, rfl⟩⟩
  · intro i j hi hj
    rw [hP.coeff]
    simp only [g]
    cases zero (f (max i j) (min i j)) <;> simp [hi, hj]

/-! ### Dense matrices -/

theorem Dense.set_some {m : Dense S} {i j : ℕ} (v : S) (hi : i < m.rows) (hj : j < m.cols) :
    m.set i j v = some { m with val := fun i' j' => if i' = i ∧ j' = j then v else m.val i' j' } := by
  unfold Dense.set
  rw [if_pos ⟨hi, hj⟩]

/-- **C72** (dense `init`): the result has the given size and its value at every position is `f`. -/
theorem initDense_correct [Zero S] (m : Dense S) (rows cols : ℕ) (f : ℕ → ℕ → S) :
    ∃ m', initDense m rows cols f = some m' ∧ m'.rows = rows ∧ m'.cols = cols ∧
      ∀ i j, i < rows → j < cols → m'.val i j = f i j := by
  obtain ⟨m', h, hP⟩ := forM_inv rows (Dense.zero rows cols)
    (fun m i => forM cols m fun m j => m.set i j (f i j))
    (fun n m => m.rows = rows ∧ m.cols = cols ∧ ∀ i j, i < n → j < cols → m.val i j = f i j)
    ⟨rfl, rfl, fun i j h => by omega⟩ (by
      rintro i m hi ⟨hr, hc, hm⟩
      obtain ⟨m', h, hr', hc', hP⟩ := forM_inv cols m (fun m j => m.set i j (f i j))
        (fun n m => m.rows = rows ∧ m.cols = cols ∧
          ∀ a b, (a < i ∧ b < cols) ∨ (a = i ∧ b < n) → m.val a b = f a b)
        ⟨hr, hc, fun a b h => hm a b (by omega) (by omega)⟩ (by
          rintro j m hj ⟨hr, hc, hm⟩
          refine ⟨_, Dense.set_some _ (by omega) (by omega), hr, hc, fun a b h => ?_⟩
          dsimp only
          split_ifs with h'
          · rw [h'.1, h'.2]
          · exact hm a b (by omega))
      exact ⟨m', h, hr', hc', fun a b ha hb => hP a b (by omega)⟩)
  exact ⟨m', h, hP⟩

/-- **C72** (dense `init_symmetric`): the value at `(i, j)` and at `(j, i)` is `f(max i j, min i j)`. -/
theorem initSymmetricDense_correct [Zero S] (m : Dense S) (rows : ℕ) (f : ℕ → ℕ → S) :
    ∃ m', initSymmetricDense m rows f = some m' ∧ m'.rows = rows ∧ m'.cols = rows ∧
      ∀ i j, i < rows → j < rows → m'.val i j = f (max i j) (min i j) := by
  obtain ⟨m', h, hP⟩ := forM_inv rows (Dense.zero rows rows)
    (fun m i => do
      let m ← forM i m fun m j => do
        let m ← m.set i j (f i j)
        m.set j i (f i j)
      m.set i i (f i i))
    (fun n m => m.rows = rows ∧ m.cols = rows ∧ ∀ i j, i < n → j < n → m.val i j = f (max i j) (min i j))
    ⟨rfl, rfl, fun i j h => by omega⟩ (by
      rintro i m hi ⟨hr, hc, hm⟩
      obtain ⟨m', h, hr', hc', hP⟩ := forM_inv i m (fun m j => do
          let m ← m.set i j (f i j)
          m.set j i (f i j))
        (fun n m => m.rows = rows ∧ m.cols = rows ∧
          ∀ a b, (a < i ∧ b < i) ∨ (a = i ∧ b < n) ∨ (b = i ∧ a < n) → m.val a b = f (max a b) (min a b))
        ⟨hr, hc, fun a b h => hm a b (by omega) (by omega)⟩ (by
          rintro j m hj ⟨hr, hc, hm⟩
          rw [Dense.set_some _ (by omega) (by omega)]
          simp only [Option.bind_eq_bind, Option.bind_some]
          rw [Dense.set_some _ (by simp only; omega) (by simp only; omega)]
          refine ⟨_, rfl, hr, hc, fun a b h => ?_⟩
          dsimp only
          split_ifs with h1 h2
          · rw [h1.1, h1.2, max_eq_right hj.le, min_eq_left hj.le]
          · rw [h2.1, h2.2, max_eq_left hj.le, min_eq_right hj.le]
          · exact hm a b (by omega))
      rw [h]
      simp only [Option.bind_eq_bind, Option.bind_some]
      refine ⟨_, Dense.set_some _ (by omega) (by omega), hr', hc', fun a b ha hb => ?_⟩
      dsimp only
      split_ifs with h1
      · rw [h1.1, h1.2, max_self, min_self]
      · exact hP a b (by omega))
  exact ⟨m', h, hP⟩

/-! ### What the user sees -/

/-- For a symmetric `f`, `init_symmetric` and `init` give matrices with the same entries (sparse). -/
theorem initSymmetricSparse_eq_init [Zero S] (zero : S → Bool) (m : Sparse S) (rows : ℕ) (f : ℕ → ℕ → S)
    (hf : ∀ i j, i < rows → j < rows → f i j = f j i) :
    ∃ a b, initSymmetricSparse zero m rows f = some a ∧ initSparse zero m rows rows f = some b ∧
      ∀ i j, i < rows → j < rows → a.coeff i j = b.coeff i j := by
  obtain ⟨a, ha, _, _, _, _, ha'⟩ := initSymmetricSparse_correct zero m rows f
  obtain ⟨b, hb, _, _, _, _, hb'⟩ := initSparse_correct zero m rows rows f
  refine ⟨a, b, ha, hb, fun i j hi hj => ?_⟩
  rw [ha' i j hi hj, hb' i j hi hj]
  rcases le_total i j with h | h
  · rw [max_eq_right h, min_eq_left h, hf j i hj hi]
  · rw [max_eq_left h, min_eq_right h]

/-- For a symmetric `f`, `init_symmetric` and `init` give the same matrix (dense). -/
theorem initSymmetricDense_eq_init [Zero S] (m : Dense S) (rows : ℕ) (f : ℕ → ℕ → S)
    (hf : ∀ i j, i < rows → j < rows → f i j = f j i) :
    ∃ a, initSymmetricDense m rows f = some a ∧ ∀ i j, i < rows → j < rows → a.val i j = f i j := by
  obtain ⟨a, ha, _, _, ha'⟩ := initSymmetricDense_correct m rows f
  refine ⟨a, ha, fun i j hi hj => ?_⟩
  rw [ha' i j hi hj]
  rcases le_total i j with h | h
  · rw [max_eq_right h, min_eq_left h, hf j i hj hi]
  · rw [max_eq_left h, min_eq_right h]

/-- Whatever `f` is, the result of the sparse `init_symmetric` is a symmetric matrix. -/
theorem initSymmetricSparse_symmetric [Zero S] (zero : S → Bool) (m : Sparse S) (rows : ℕ) (f : ℕ → ℕ → S) :
    ∃ a, initSymmetricSparse zero m rows f = some a ∧
      ∀ i j, i < rows → j < rows → a.coeff i j = a.coeff j i := by
  obtain ⟨a, ha, _, _, _, _, ha'⟩ := initSymmetricSparse_correct zero m rows f
  exact ⟨a, ha, fun i j hi hj => by rw [ha' i j hi hj, ha' j i hj hi, max_comm, min_comm]⟩

open Classical in
/-- With `IsZero` of floating point numbers: every coefficient of the sparse matrix is closer to `f` than the machine
epsilon, and equals it when `|f| ≥ epsilon`. -/
theorem initSparse_close (eps : ℝ) (he : 0 < eps) (m : Sparse ℝ) (rows cols : ℕ) (f : ℕ → ℕ → ℝ) :
    ∃ m', initSparse (fun v => decide (isZeroR eps v)) m rows cols f = some m' ∧
      ∀ i j, i < rows → j < cols → |m'.coeff i j - f i j| < eps ∧ (eps ≤ |f i j| → m'.coeff i j = f i j) := by
  obtain ⟨m', h, _, _, _, _, hc⟩ := initSparse_correct (fun v => decide (isZeroR eps v)) m rows cols f
  refine ⟨m', h, fun i j hi hj => ?_⟩
  rw [hc i j hi hj]
  by_cases hz : isZeroR eps (f i j)
  · have : |f i j| < eps := hz
    simp only [hz, decide_true, if_true]
    exact ⟨by simpa using this, fun h => absurd h (not_le.2 this)⟩
  · simp [hz, he]

/-- A concrete case: a 2×2 tridiagonal function; the diagonal zero is not stored. -/
example : ∃ m', initSymmetricSparse (fun v : ℤ => v == 0) (Sparse.make 5 5) 2 (fun i j => (i : ℤ) - j) = some m' ∧
    m'.coeff 0 1 = 1 ∧ m'.coeff 1 0 = 1 ∧ m'.coeff 1 1 = 0 := by
  obtain ⟨m', h, _, _, _, _, hc⟩ := initSymmetricSparse_correct (fun v : ℤ => v == 0) (Sparse.make 5 5) 2
    (fun i j => (i : ℤ) - j)
  exact ⟨m', h, by rw [hc 0 1 (by omega) (by omega)]; simp, by rw [hc 1 0 (by omega) (by omega)]; simp,
    by rw [hc 1 1 (by omega) (by omega)]; simp⟩

end Eigen
end Ieompp
