import Verif.Model.BlazeInsert
import Verif.Props.EigenTriplet
import Mathlib.Data.List.Perm.Basic
import Mathlib.Data.List.Nodup
import Mathlib.Data.List.Sort
import Mathlib.Algebra.BigOperators.Group.List.Basic

/-! # C102: filling a Blaze matrix element by element -/

set_option autoImplicit false
set_option linter.unusedSectionVars false

namespace Ieompp.BlazeInsert

variable {S : Type*}

/-- Strictly increasing indices. -/
def SortedLine (l : List (ℕ × S)) : Prop := l.Pairwise fun a b => a.1 < b.1

theorem insertLine_some {k : ℕ} {v : S} {l : List (ℕ × S)} (hl : SortedLine l) (hk : ∀ e ∈ l, e.1 ≠ k) :
    ∃ l', insertLine k v l = some l' ∧ SortedLine l' ∧ l'.Perm ((k, v) :: l) := by
  induction l with
  | nil => exact ⟨[(k, v)], rfl, by simp [SortedLine], List.Perm.refl _⟩
  | cons e l ih =>
    rw [SortedLine, List.pairwise_cons] at hl
    by_cases h1 : e.1 < k
    · obtain ⟨l', e1, e2, e3⟩ := ih hl.2 fun a ha => hk a (List.mem_cons_of_mem _ ha)
      refine ⟨e :: l', by simp [insertLine, h1, e1], ?_, ?_⟩
      · rw [SortedLine, List.pairwise_cons]
        refine ⟨fun a ha => ?_, e2⟩
        rcases List.mem_cons.1 (e3.subset ha) with rfl | ha
        · exact h1
        · exact hl.1 a ha
      · exact (List.Perm.cons e e3).trans (List.Perm.swap ..)
    · have h2 : e.1 ≠ k := hk e (List.mem_cons_self ..)
      refine ⟨(k, v) :: e :: l, by simp [insertLine, h1, h2], ?_, List.Perm.refl _⟩
      rw [SortedLine, List.pairwise_cons]
      refine ⟨fun a ha => ?_, by rw [List.pairwise_cons]; exact hl⟩
      rcases List.mem_cons.1 ha with rfl | ha
      · show k < a.1; omega
      · have := hl.1 a ha
        show k < a.1; omega

theorem sortedLine_unique {l : List (ℕ × S)} (hl : SortedLine l) {a b : ℕ × S} (ha : a ∈ l) (hb : b ∈ l) (h : a.1 = b.1) :
    a = b := by
  induction l with
  | nil => simp at ha
  | cons e l ih =>
    rw [SortedLine, List.pairwise_cons] at hl
    rcases List.mem_cons.1 ha with ea | ha' <;> rcases List.mem_cons.1 hb with eb | hb'
    · rw [ea, eb]
    · have := hl.1 b hb'; rw [ea] at h; omega
    · have := hl.1 a ha'; rw [eb] at h; omega
    · exact ih hl.2 ha' hb'

theorem insertLine_none {k : ℕ} {v : S} {l : List (ℕ × S)} (hl : SortedLine l) (hk : ∃ e ∈ l, e.1 = k) :
    insertLine k v l = none := by
  induction l with
  | nil => simp at hk
  | cons e l ih =>
    rw [SortedLine, List.pairwise_cons] at hl
    obtain ⟨a, ha, rfl⟩ := hk
    rcases List.mem_cons.1 ha with rfl | ha
    · simp [insertLine]
    · have := hl.1 a ha
      simp [insertLine, this, ih hl.2 ⟨a, ha, rfl⟩]

/-- The elements of a line among the inserted ones. -/
def lineOf (columnMajor : Bool) (i : ℕ) (ts : List (ℕ × ℕ × S)) : List (ℕ × S) :=
  (ts.filter fun t => (if columnMajor then t.2.1 else t.1) = i).map fun t => (if columnMajor then t.1 else t.2.1, t.2.2)

/-- The matrix has exactly the elements `ts`. -/
structure Holds (m : CMatrix S) (ts : List (ℕ × ℕ × S)) : Prop where
  sorted : ∀ i, SortedLine (m.lines i)
  perm : ∀ i, (m.lines i).Perm (lineOf m.columnMajor i ts)

theorem mem_lineOf {c : Bool} {i j : ℕ} {v : S} {ts : List (ℕ × ℕ × S)} :
    (j, v) ∈ lineOf c i ts ↔ (if c then (j, i, v) else (i, j, v)) ∈ ts := by
  simp only [lineOf, List.mem_map, List.mem_filter, decide_eq_true_eq, Prod.mk.injEq]
  cases c with
  | true =>
    simp only [if_true]
    constructor
    · rintro ⟨⟨a, b, w⟩, ⟨h1, h2⟩, h3, h4⟩; simp only at h2 h3 h4; subst h2 h3 h4; exact h1
    · intro h; exact ⟨_, ⟨h, rfl⟩, rfl, rfl⟩
  | false =>
    simp only [Bool.false_eq_true, if_false]
    constructor
    · rintro ⟨⟨a, b, w⟩, ⟨h1, h2⟩, h3, h4⟩; simp only at h2 h3 h4; subst h2 h3 h4; exact h1
    · intro h; exact ⟨_, ⟨h, rfl⟩, rfl, rfl⟩

theorem insert_new {m : CMatrix S} {ts : List (ℕ × ℕ × S)} (hm : Holds m ts) {r c : ℕ} {v : S} (hr : r < m.rows) (hc : c < m.cols)
    (hn : ∀ w, (r, c, w) ∉ ts) :
    ∃ m', matrixInsert m r c v = .ok m' ∧ Holds m' ((r, c, v) :: ts) ∧ m'.rows = m.rows ∧ m'.cols = m.cols ∧
      m'.columnMajor = m.columnMajor := by
  have hne : ∀ e ∈ m.lines (m.position r c).1, e.1 ≠ (m.position r c).2 := by
    rintro ⟨k, w⟩ he hk
    have h1 := (hm.perm _).subset he
    rw [mem_lineOf] at h1
    simp only at hk
    subst hk
    unfold CMatrix.position at h1
    cases hcm : m.columnMajor <;> simp only [hcm, if_true, Bool.false_eq_true, if_false] at h1 <;> exact hn w h1
  obtain ⟨l', e1, e2, e3⟩ := insertLine_some (v := v) (hm.sorted (m.position r c).1) hne
  refine ⟨{ m with lines := Function.update m.lines (m.position r c).1 l' }, ?_, ⟨?_, ?_⟩, rfl, rfl, rfl⟩
  · simp only [matrixInsert, CMatrix.insert, if_pos (And.intro hr hc), e1]
  · intro i
    by_cases hi : i = (m.position r c).1
    · subst hi; simpa using e2
    · simpa [hi] using hm.sorted i
  · intro i
    show (Function.update m.lines (m.position r c).1 l' i).Perm (lineOf m.columnMajor i ((r, c, v) :: ts))
    have hl : lineOf m.columnMajor i ((r, c, v) :: ts) =
        if (m.position r c).1 = i then ((m.position r c).2, v) :: lineOf m.columnMajor i ts else lineOf m.columnMajor i ts := by
      unfold CMatrix.position lineOf
      cases m.columnMajor <;> simp only [if_true, Bool.false_eq_true, if_false] <;> rw [List.filter_cons] <;>
        split_ifs <;> simp_all
    rw [hl]
    by_cases hi : i = (m.position r c).1
    · rw [if_pos hi.symm, hi, Function.update_self]
      exact e3.trans (List.Perm.cons _ (hm.perm _))
    · rw [if_neg (Ne.symm hi), Function.update_of_ne hi]
      exact hm.perm i

theorem insert_old {m : CMatrix S} {ts : List (ℕ × ℕ × S)} (hm : Holds m ts) {r c : ℕ} {v : S} (hr : r < m.rows) (hc : c < m.cols)
    (hn : ∃ w, (r, c, w) ∈ ts) : matrixInsert m r c v = .threw := by
  obtain ⟨w, hw⟩ := hn
  have : insertLine (m.position r c).2 v (m.lines (m.position r c).1) = none := by
    apply insertLine_none (hm.sorted _)
    refine ⟨((m.position r c).2, w), (hm.perm _).symm.subset ?_, rfl⟩
    rw [mem_lineOf]
    unfold CMatrix.position
    cases m.columnMajor <;> simpa using hw
  simp only [matrixInsert, CMatrix.insert, if_pos (And.intro hr hc), this]

/-- The positions of the inserted elements. -/
def positions (ts : List (ℕ × ℕ × S)) : List (ℕ × ℕ) := ts.map fun t => (t.1, t.2.1)

theorem insertAll_holds (ts : List (ℕ × ℕ × S)) : ∀ (m : CMatrix S) (us : List (ℕ × ℕ × S)), Holds m us →
    (∀ t ∈ ts, t.1 < m.rows ∧ t.2.1 < m.cols) →
    ((positions ts).Nodup → (∀ p ∈ positions ts, p ∉ positions us) → ∃ m', insertAll m ts = .ok m' ∧
      Holds m' (ts.reverse ++ us) ∧ m'.rows = m.rows ∧ m'.cols = m.cols ∧ m'.columnMajor = m.columnMajor) ∧
    (¬ ((positions ts).Nodup ∧ ∀ p ∈ positions ts, p ∉ positions us) → insertAll m ts = .threw) := by
  induction ts with
  | nil =>
    intro m us hm _
    exact ⟨fun _ _ => ⟨m, rfl, hm, rfl, rfl, rfl⟩, fun h => absurd (by simp [positions]) h⟩
  | cons t ts ih =>
    intro m us hm hin
    obtain ⟨r, c, v⟩ := t
    have hrc := hin _ (List.mem_cons_self ..)
    by_cases hold : ∃ w, (r, c, w) ∈ us
    · have hi := insert_old (v := v) hm hrc.1 hrc.2 hold
      obtain ⟨w, hw⟩ := hold
      refine ⟨fun _ h => absurd (List.mem_map.2 ⟨_, hw, rfl⟩) (h (r, c) (by simp [positions])), fun _ => ?_⟩
      simp only [insertAll]
      rw [hi]
    · have hn : ∀ w, (r, c, w) ∉ us := fun w hw => hold ⟨w, hw⟩
      obtain ⟨m', e, hm', h1, h2, h3⟩ := insert_new (v := v) hm hrc.1 hrc.2 hn
      have hnot : (r, c) ∉ positions us := by
        intro h
        obtain ⟨⟨a, b, w⟩, hw, e⟩ := List.mem_map.1 h
        simp only [Prod.mk.injEq] at e
        exact hn w (by rw [← e.1, ← e.2]; exact hw)
      obtain ⟨i1, i2⟩ := ih m' ((r, c, v) :: us) hm' (by
        intro t ht; rw [h1, h2]; exact hin t (List.mem_cons_of_mem _ ht))
      have hcons : insertAll m ((r, c, v) :: ts) = insertAll m' ts := by
        simp only [insertAll]; rw [e]
      rw [hcons]
      have hpc : positions ((r, c, v) :: ts) = (r, c) :: positions ts := rfl
      have hpu : positions ((r, c, v) :: us) = (r, c) :: positions us := rfl
      rw [hpc]
      rw [hpu] at i1 i2
      constructor
      · intro hnd hd
        rw [List.nodup_cons] at hnd
        obtain ⟨m'', a, b, c1, c2, c3⟩ := i1 hnd.2 (by
          intro p hp hpm
          rcases List.mem_cons.1 hpm with rfl | hpm
          · exact hnd.1 hp
          · exact hd p (List.mem_cons_of_mem _ hp) hpm)
        refine ⟨m'', a, ?_, by rw [c1, h1], by rw [c2, h2], by rw [c3, h3]⟩
        simpa using b
      · intro h
        apply i2
        rintro ⟨hnd, hd⟩
        apply h
        refine ⟨List.nodup_cons.2 ⟨fun hp => hd _ hp (List.mem_cons_self ..), hnd⟩, ?_⟩
        intro p hp
        rcases List.mem_cons.1 hp with rfl | hp
        · exact hnot
        · exact fun h' => hd p hp (List.mem_cons_of_mem _ h')

theorem empty_holds (c : Bool) (rows cols : ℕ) : Holds (CMatrix.empty c rows cols : CMatrix S) [] :=
  ⟨fun _ => List.Pairwise.nil, fun _ => List.Perm.refl _⟩

theorem get_of_holds [Zero S] {m : CMatrix S} {ts : List (ℕ × ℕ × S)} (hm : Holds m ts) (r c : ℕ) :
    (∀ v, (r, c, v) ∈ ts → m.get r c = v) ∧ ((∀ v, (r, c, v) ∉ ts) → m.get r c = 0) := by
  have hmem : ∀ k v, (k, v) ∈ m.lines (m.position r c).1 → k = (m.position r c).2 → (r, c, v) ∈ ts := by
    intro k v h hk
    have := (hm.perm _).subset h
    rw [mem_lineOf] at this
    subst hk
    unfold CMatrix.position at this
    cases hcm : m.columnMajor <;> simpa [hcm] using this
  constructor
  · intro v hv
    have hin : ((m.position r c).2, v) ∈ m.lines (m.position r c).1 := by
      apply (hm.perm _).symm.subset
      rw [mem_lineOf]
      unfold CMatrix.position
      cases m.columnMajor <;> simpa using hv
    unfold CMatrix.get
    cases hf : (m.lines (m.position r c).1).find? (fun e => e.1 = (m.position r c).2) with
    | none =>
      have := List.find?_eq_none.1 hf _ hin
      simp at this
    | some e =>
      have h1 : e.1 = (m.position r c).2 := by simpa using List.find?_some hf
      have h2 := List.mem_of_find?_eq_some hf
      have hs := hm.sorted (m.position r c).1
      show e.2 = v
      rw [sortedLine_unique hs h2 hin h1]
  · intro hv
    unfold CMatrix.get
    cases hf : (m.lines (m.position r c).1).find? (fun e => e.1 = (m.position r c).2) with
    | none => rfl
    | some e =>
      exact absurd (hmem e.1 e.2 (List.mem_of_find?_eq_some hf) (by simpa using List.find?_some hf)) (hv e.2)

/-- **C102**: inserting elements within the shape into an empty matrix, in any order and for both storage orders, succeeds
exactly if no position occurs twice (otherwise an exception is thrown); then the matrix has the inserted elements, zero
elsewhere, and its shape. -/
theorem matrixInsert_all [Zero S] (columnMajor : Bool) (rows cols : ℕ) (ts : List (ℕ × ℕ × S))
    (hin : ∀ t ∈ ts, t.1 < rows ∧ t.2.1 < cols) :
    ((positions ts).Nodup → ∃ m, insertAll (CMatrix.empty columnMajor rows cols) ts = .ok m ∧
      m.rows = rows ∧ m.cols = cols ∧ m.columnMajor = columnMajor ∧ (∀ t ∈ ts, m.get t.1 t.2.1 = t.2.2) ∧
      ∀ r c, (r, c) ∉ positions ts → m.get r c = 0) ∧
    (¬ (positions ts).Nodup → insertAll (CMatrix.empty columnMajor rows cols) ts = .threw) := by
  obtain ⟨h1, h2⟩ := insertAll_holds ts (CMatrix.empty columnMajor rows cols) [] (empty_holds ..) hin
  constructor
  · intro hn
    obtain ⟨m, e, hm, a, b, c⟩ := h1 hn (by simp [positions])
    rw [List.append_nil] at hm
    refine ⟨m, e, a, b, c, fun t ht => (get_of_holds hm _ _).1 _ (by simpa using ht), fun r c hrc => (get_of_holds hm r c).2 ?_⟩
    intro v hv
    exact hrc (List.mem_map.2 ⟨_, by simpa using hv, rfl⟩)
  · intro hn
    exact h2 fun h => hn h.1

/-- **C102**: the order of the insertions does not matter: the result is the same matrix, element by element in memory, or an
exception in both cases. -/
theorem matrixInsert_order (columnMajor : Bool) (rows cols : ℕ) {ts ts' : List (ℕ × ℕ × S)} (hp : ts.Perm ts')
    (hin : ∀ t ∈ ts, t.1 < rows ∧ t.2.1 < cols) :
    insertAll (CMatrix.empty columnMajor rows cols) ts = insertAll (CMatrix.empty columnMajor rows cols) ts' := by
  have hpp : (positions ts).Perm (positions ts') := hp.map _
  have hin' : ∀ t ∈ ts', t.1 < rows ∧ t.2.1 < cols := fun t ht => hin t (hp.symm.subset ht)
  obtain ⟨h1, h2⟩ := insertAll_holds ts (CMatrix.empty columnMajor rows cols) [] (empty_holds ..) hin
  obtain ⟨h1', h2'⟩ := insertAll_holds ts' (CMatrix.empty columnMajor rows cols) [] (empty_holds ..) hin'
  by_cases hn : (positions ts).Nodup
  · obtain ⟨m, e, hm, a, b, c⟩ := h1 hn (by simp [positions])
    obtain ⟨m', e', hm', a', b', c'⟩ := h1' (hpp.nodup_iff.1 hn) (by simp [positions])
    rw [e, e']
    congr 1
    have hl : m.lines = m'.lines := by
      funext i
      have hperm : (m.lines i).Perm (m'.lines i) := by
        refine (hm.perm i).trans (List.Perm.trans ?_ (hm'.perm i).symm)
        rw [c, c']
        unfold lineOf
        refine List.Perm.map _ (List.Perm.filter _ ?_)
        rw [List.append_nil, List.append_nil]
        exact (List.reverse_perm _).trans (hp.trans (List.reverse_perm _).symm)
      exact hperm.eq_of_pairwise (fun x y _ _ hxy hyx => absurd hxy (by omega)) (hm.sorted i) (hm'.sorted i)
    clear e e' hm hm'
    obtain ⟨mr, mc, mm, ml⟩ := m
    obtain ⟨mr', mc', mm', ml'⟩ := m'
    simp only [CMatrix.empty] at a b c a' b' c' hl
    rw [a, b, c, a', b', c', hl]
  · rw [h2 fun h => hn h.1, h2' fun h => hn (hpp.nodup_iff.2 h.1)]

open EigenTriplet in
/-- **C102**: the same insertions into an Eigen triplet list, whose elements are summed when the matrix is built, give the same
matrix, whenever Blaze accepts them. -/
theorem matrixInsert_eigen [AddCommMonoid S] (columnMajor : Bool) (rows cols : ℕ) (ts : List (ℕ × ℕ × S))
    (hin : ∀ t ∈ ts, t.1 < rows ∧ t.2.1 < cols) {m : CMatrix S}
    (h : insertAll (CMatrix.empty columnMajor rows cols) ts = .ok m) (r c : ℕ) :
    m.get r c = (((ts.foldl (fun l t => TList.insert l t.1 t.2.1 t.2.2) (TList.make rows cols)).elements.filter
      fun e => e.row = r ∧ e.column = c).map Entry.value).sum := by
  have hnd : (positions ts).Nodup := by
    by_contra hn
    rw [(matrixInsert_all columnMajor rows cols ts hin).2 hn] at h
    exact absurd h (by simp)
  obtain ⟨m', e, -, -, -, hg, hz⟩ := (matrixInsert_all columnMajor rows cols ts hin).1 hnd
  rw [h] at e
  obtain rfl : m = m' := by injection e
  have hel : ∀ (ts : List (ℕ × ℕ × S)) (l : TList S),
      (ts.foldl (fun l t => TList.insert l t.1 t.2.1 t.2.2) l).elements =
      l.elements ++ ts.map fun t => ⟨t.1, t.2.1, t.2.2⟩ := by
    intro ts
    induction ts with
    | nil => intro l; simp
    | cons t ts ih => intro l; rw [List.foldl_cons, ih]; simp [TList.insert]
  rw [hel]
  show _ = ((List.filter _ ([] ++ _)).map _).sum
  rw [List.nil_append]
  clear hel h
  by_cases hrc : (r, c) ∈ positions ts
  · obtain ⟨⟨a, b, v⟩, ht, e⟩ := List.mem_map.1 hrc
    simp only [Prod.mk.injEq] at e
    obtain ⟨rfl, rfl⟩ := e
    rw [hg _ ht]
    simp only
    clear hg hz hin hrc
    induction ts with
    | nil => simp at ht
    | cons t ts ih =>
      have hp : positions (t :: ts) = (t.1, t.2.1) :: positions ts := rfl
      rw [hp, List.nodup_cons] at hnd
      rw [List.map_cons, List.filter_cons]
      rcases List.mem_cons.1 ht with rfl | ht
      · have hno : ∀ ts : List (ℕ × ℕ × S), (a, b) ∉ positions ts → (ts.map fun t => (⟨t.1, t.2.1, t.2.2⟩ : Entry S)).filter
            (fun e => e.row = a ∧ e.column = b) = [] := by
          intro ts hts
          rw [List.filter_eq_nil_iff]
          intro e he
          obtain ⟨⟨x, y, z⟩, hx, rfl⟩ := List.mem_map.1 he
          simp only [decide_eq_true_eq, not_and]
          rintro rfl rfl
          exact hts (List.mem_map.2 ⟨_, hx, rfl⟩)
        rw [hno ts hnd.1]
        simp
      · have hne : ¬ (t.1 = a ∧ t.2.1 = b) := by
          rintro ⟨rfl, rfl⟩
          exact hnd.1 (List.mem_map.2 ⟨_, ht, rfl⟩)
        simp only [decide_eq_true_eq]
        rw [if_neg hne]
        exact ih hnd.2 ht
  · rw [hz r c hrc]
    have : (ts.map fun t => (⟨t.1, t.2.1, t.2.2⟩ : Entry S)).filter (fun e => e.row = r ∧ e.column = c) = [] := by
      rw [List.filter_eq_nil_iff]
      intro e he
      obtain ⟨⟨x, y, z⟩, hx, rfl⟩ := List.mem_map.1 he
      simp only [decide_eq_true_eq, not_and]
      rintro rfl rfl
      exact hrc (List.mem_map.2 ⟨_, hx, rfl⟩)
    rw [this]; rfl

/-- Concrete cases: three insertions against the order of the lines; a position used twice. -/
example : ∃ m, insertAll (CMatrix.empty true 2 3 : CMatrix ℤ) [(1, 2, 5), (0, 2, 4), (1, 0, 7)] = .ok m ∧
    m.get 0 2 = 4 ∧ m.get 1 2 = 5 ∧ m.get 0 1 = 0 ∧ m.lines 2 = [(0, 4), (1, 5)] := ⟨_, rfl, rfl, rfl, rfl, rfl⟩
example : insertAll (CMatrix.empty false 2 2 : CMatrix ℤ) [(1, 1, 5), (1, 1, 4)] = .threw := rfl

end Ieompp.BlazeInsert
