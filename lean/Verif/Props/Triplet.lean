import Verif.Spec.Triplet
import Mathlib.Algebra.Group.Int.Defs
import Mathlib.Tactic.Common

/-! # C16: triplet lists -/

set_option autoImplicit false
set_option linter.unusedSectionVars false

namespace Ieompp

open Spec

variable {S : Type*} [AddCommMonoid S]

@[simp] theorem columnSum_nil (c : ℕ) : columnSum ([] : List (Triplet S)) c = 0 := rfl

theorem columnSum_cons (t : Triplet S) (l : List (Triplet S)) (c : ℕ) :
    columnSum (t :: l) c = (if t.column = c then t.value else 0) + columnSum l c := by
  unfold columnSum
  by_cases h : t.column = c <;> simp [h]

theorem columnSum_append (l m : List (Triplet S)) (c : ℕ) :
    columnSum (l ++ m) c = columnSum l c + columnSum m c := by
  unfold columnSum; simp

theorem columnSum_perm {l m : List (Triplet S)} (h : l.Perm m) (c : ℕ) :
    columnSum l c = columnSum m c := by
  unfold columnSum
  exact ((h.filter _).map _).sum_eq

theorem columnSum_eq_zero {l : List (Triplet S)} {c : ℕ} (h : ¬ HasColumn l c) : columnSum l c = 0 := by
  induction l with
  | nil => rfl
  | cons t l ih =>
    rw [columnSum_cons, ih (fun ⟨u, hu, hc⟩ => h ⟨u, by simp [hu], hc⟩),
      if_neg (fun hc => h ⟨t, by simp, hc⟩), add_zero]

/-- What the loop guarantees: with `all` the sorted input read so far (ending in the columns merged into
`cur`). -/
theorem uniqueLoop_spec (isZero : S → Bool) (ts : List (Triplet S)) :
    ∀ (cur : Triplet S) (filtered : List (Triplet S)),
    StrictColumns filtered → (∀ u ∈ filtered, u.column < cur.column) →
    (∀ u ∈ ts, cur.column ≤ u.column) → ts.Pairwise (fun a b => ¬ b.column < a.column) →
    let r := TripletList.uniqueLoop isZero cur filtered ts
    StrictColumns (r.2 ++ [r.1]) ∧
    (∀ c, (∃ u ∈ filtered, u.column = c) → columnSum (r.2 ++ [r.1]) c = columnSum filtered c) ∧
    (∀ c, HasColumn (r.2 ++ [r.1]) c → HasColumn (filtered ++ cur :: ts) c) ∧
    (∀ c, cur.column ≤ c → HasColumn (r.2 ++ [r.1]) c →
      columnSum (r.2 ++ [r.1]) c = columnSum (cur :: ts) c) ∧
    (∀ c, cur.column ≤ c → ¬ HasColumn (r.2 ++ [r.1]) c → HasColumn (cur :: ts) c →
      isZero (columnSum (cur :: ts) c) = true) ∧
    (∀ u ∈ filtered, u ∈ r.2) ∧
    (∀ ρ, (∀ u ∈ filtered ++ cur :: ts, u.row = ρ) → ∀ u ∈ r.2 ++ [r.1], u.row = ρ) ∧
    (∀ u ∈ ts, u.column ≤ r.1.column) := by
  induction ts with
  | nil =>
    intro cur filtered hf hlt _ _
    simp only [TripletList.uniqueLoop]
    refine ⟨?_, ?_, ?_, ?_, ?_, ?_, ?_, ?_⟩
    · unfold StrictColumns at *
      rw [List.pairwise_append]
      exact ⟨hf, by simp, by simpa using hlt⟩
    · rintro c ⟨u, hu, rfl⟩
      rw [columnSum_append, columnSum_cons, if_neg (by have := hlt u hu; omega)]; simp
    · intro c h; exact h
    · intro c hc _
      rw [columnSum_append, columnSum_eq_zero (l := filtered), zero_add]
      rintro ⟨u, hu, rfl⟩; have := hlt u hu; omega
    · intro c hc h1 h2
      exact absurd (by obtain ⟨u, hu, h⟩ := h2; exact ⟨u, by simp at hu ⊢; tauto, h⟩) h1
    · intro u hu; exact hu
    · intro ρ h; exact h
    · simp
  | cons t ts ih =>
    intro cur filtered hf hlt hle hs
    rw [List.pairwise_cons] at hs
    have hct := hle t (by simp)
    by_cases h : t.column = cur.column
    · simp only [TripletList.uniqueLoop, h, if_true]
      have := ih { cur with value := cur.value + t.value } filtered hf hlt
        (fun u hu => hle u (by simp [hu])) hs.2
      have hsum : ∀ c, columnSum ({ cur with value := cur.value + t.value } :: ts) c
          = columnSum (cur :: t :: ts) c := by
        intro c
        simp only [columnSum_cons, h]
        by_cases hc : cur.column = c <;> simp [hc, add_assoc]
      obtain ⟨h1, h2, h3, h4, h5, h6, h7, h8⟩ := this
      refine ⟨h1, h2, ?_, ?_, ?_, h6, ?_, ?_⟩
      · intro c hc
        obtain ⟨u, hu, rfl⟩ := h3 c hc
        simp only [List.mem_append, List.mem_cons] at hu
        rcases hu with hu | rfl | hu
        · exact ⟨u, by simp [hu], rfl⟩
        · exact ⟨cur, by simp, rfl⟩
        · exact ⟨u, by simp [hu], rfl⟩
      · intro c hc hh; rw [h4 c hc hh, hsum]
      · intro c hc hh hg
        rw [← hsum]
        refine h5 c hc hh ?_
        obtain ⟨u, hu, rfl⟩ := hg
        simp only [List.mem_cons] at hu
        rcases hu with rfl | rfl | hu
        · exact ⟨_, List.mem_cons_self .., rfl⟩
        · exact ⟨_, List.mem_cons_self .., h.symm⟩
        · exact ⟨u, by simp [hu], rfl⟩
      · intro ρ hρ
        refine h7 ρ ?_
        intro u hu
        simp only [List.mem_append, List.mem_cons] at hu
        rcases hu with hu | rfl | hu
        · exact hρ u (by simp [hu])
        · exact hρ cur (by simp)
        · exact hρ u (by simp [hu])
      · intro u hu
        simp only [List.mem_cons] at hu
        rcases hu with rfl | hu
        · rw [h]
          -- the last column is at least the current one
          by_contra hcon
          have : HasColumn ((TripletList.uniqueLoop isZero { cur with value := cur.value + u.value } filtered ts).2
            ++ [(TripletList.uniqueLoop isZero { cur with value := cur.value + u.value } filtered ts).1])
              (TripletList.uniqueLoop isZero { cur with value := cur.value + u.value } filtered ts).1.column :=
            ⟨_, by simp, rfl⟩
          obtain ⟨v, hv, hvc⟩ := h3 _ this
          simp only [List.mem_append, List.mem_cons] at hv
          rcases hv with hv | rfl | hv
          · have hin := h6 v hv
            unfold StrictColumns at h1
            rw [List.pairwise_append] at h1
            have := h1.2.2 v hin _ (List.mem_singleton_self _)
            omega
          · simp at hvc; omega
          · have := hle v (by simp [hv]); omega
        · exact h8 u hu
    · have hlt' : cur.column < t.column := by omega
      simp only [TripletList.uniqueLoop, h, if_false]
      have hts : ∀ u ∈ ts, t.column ≤ u.column := fun u hu => by have := hs.1 u hu; omega
      set F := (if !(isZero cur.value) then filtered ++ [cur] else filtered) with hF
      have hFmem : ∀ u ∈ F, u ∈ filtered ∨ u = cur := by
        intro u hu; rw [hF] at hu
        split at hu
        · simpa using hu
        · exact Or.inl hu
      have hfF : ∀ u ∈ filtered, u ∈ F := by
        intro u hu; rw [hF]; split <;> simp [hu]
      have hFs : StrictColumns F := by
        rw [hF]; split
        · unfold StrictColumns at *; rw [List.pairwise_append]
          exact ⟨hf, by simp, by simpa using hlt⟩
        · exact hf
      have hFlt : ∀ u ∈ F, u.column < t.column := by
        intro u hu; rcases hFmem u hu with h' | rfl
        · have := hlt u h'; omega
        · exact hlt'
      obtain ⟨h1, h2, h3, h4, h5, h6, h7, h8⟩ := ih t F hFs hFlt hts hs.2
      have hcur0 : columnSum (t :: ts) cur.column = 0 := by
        apply columnSum_eq_zero
        rintro ⟨u, hu, hc⟩
        simp only [List.mem_cons] at hu
        rcases hu with rfl | hu
        · omega
        · have := hts u hu; omega
      refine ⟨h1, ?_, ?_, ?_, ?_, ?_, ?_, ?_⟩
      · rintro c ⟨u, hu, rfl⟩
        rw [h2 _ ⟨u, hfF u hu, rfl⟩, hF]
        split
        · rw [columnSum_append, columnSum_cons, if_neg (by have := hlt u hu; omega)]; simp
        · rfl
      · intro c hc
        obtain ⟨u, hu, rfl⟩ := h3 c hc
        rw [List.mem_append] at hu
        rcases hu with hu | hu
        · rcases hFmem u hu with h' | rfl
          · exact ⟨u, by simp [h'], rfl⟩
          · exact ⟨u, by simp, rfl⟩
        · exact ⟨u, by simp only [List.mem_append]; right; exact List.mem_cons_of_mem _ hu, rfl⟩
      · intro c hc hh
        by_cases hcc : c = cur.column
        · subst hcc
          rw [columnSum_cons, if_pos rfl, hcur0, add_zero]
          by_cases hz : isZero cur.value = true
          · obtain ⟨u, hu, huc⟩ := h3 _ hh
            exfalso
            rw [List.mem_append] at hu
            rcases hu with hu | hu
            · rw [hF] at hu; simp [hz] at hu
              have := hlt u hu; omega
            · simp only [List.mem_cons] at hu
              rcases hu with rfl | hu
              · omega
              · have := hts u hu; omega
          · rw [h2 _ ⟨cur, by rw [hF]; simp [hz], rfl⟩, hF]
            simp only [hz]
            simp only [Bool.not_false, if_true, columnSum_append, columnSum_cons, columnSum_nil, add_zero]
            rw [columnSum_eq_zero, zero_add]
            rintro ⟨u, hu, huc⟩; have := hlt u hu; omega
        · have hc' : t.column ≤ c := by
            by_contra hcon
            obtain ⟨u, hu, huc⟩ := h3 _ hh
            rw [List.mem_append] at hu
            rcases hu with hu | hu
            · rcases hFmem u hu with h' | rfl
              · have := hlt u h'; omega
              · omega
            · simp only [List.mem_cons] at hu
              rcases hu with rfl | hu
              · omega
              · have := hts u hu; omega
          rw [h4 c hc' hh, columnSum_cons (t := cur), if_neg (fun e => hcc e.symm), zero_add]
      · intro c hc hh hg
        by_cases hcc : c = cur.column
        · subst hcc
          rw [columnSum_cons, if_pos rfl, hcur0, add_zero]
          by_contra hz
          apply hh
          refine ⟨cur, ?_, rfl⟩
          rw [List.mem_append]; left; apply h6; rw [hF, if_pos (by simpa using hz)]; simp
        · obtain ⟨u, hu, rfl⟩ := hg
          simp only [List.mem_cons] at hu
          have hin : u ∈ t :: ts := by
            rcases hu with rfl | hu
            · exact absurd rfl hcc
            · simpa using hu
          have hc' : t.column ≤ u.column := by
            simp only [List.mem_cons] at hin
            rcases hin with rfl | hin
            · exact Nat.le_refl _
            · exact hts u hin
          have := h5 u.column hc' hh ⟨u, hin, rfl⟩
          rw [columnSum_cons (t := cur), if_neg (fun e => hcc e.symm), zero_add]; exact this
      · intro u hu; exact h6 u (hfF u hu)
      · intro ρ hρ
        refine h7 ρ ?_
        intro u hu
        rw [List.mem_append] at hu
        rcases hu with hu | hu
        · rcases hFmem u hu with h' | rfl
          · exact hρ u (by simp [h'])
          · exact hρ u (by simp)
        · exact hρ u (by simp only [List.mem_append]; right; exact List.mem_cons_of_mem _ hu)
      · intro u hu
        simp only [List.mem_cons] at hu
        rcases hu with rfl | hu
        · by_contra hcon
          obtain ⟨v, hv, hvc⟩ := h3 _ ⟨(TripletList.uniqueLoop isZero u F ts).1, by simp, rfl⟩
          rw [List.mem_append] at hv
          rcases hv with hv | hv
          · have hin := h6 v hv
            unfold StrictColumns at h1
            rw [List.pairwise_append] at h1
            have := h1.2.2 v hin _ (List.mem_singleton_self _)
            omega
          · simp only [List.mem_cons] at hv
            rcases hv with rfl | hv
            · omega
            · have := hts v hv; omega
        · exact h8 u hu

/-- C16: sorting by column (any outcome of `std::sort`) followed by `make_columns_unique`, for every
non-empty list: columns strictly increase; every column kept has exactly the sum of the input column, no
column is invented; a column of the input that is dropped has a sum the scalar type's `IsZero` accepts, and
the largest column is never dropped; the row is kept when all entries belong to one row. -/
theorem makeColumnsUnique_correct (isZero : S → Bool) (l s : List (Triplet S)) (hl : l ≠ [])
    (hs : TripletList.Sorted l s) :
    ∃ r, TripletList.makeColumnsUnique isZero s = some r ∧ StrictColumns r ∧
      (∀ c, HasColumn r c → HasColumn l c ∧ columnSum r c = columnSum l c) ∧
      (∀ c, HasColumn l c → ¬ HasColumn r c → isZero (columnSum l c) = true) ∧
      (∃ u ∈ r, ∀ v ∈ l, v.column ≤ u.column) ∧
      (∀ ρ, (∀ u ∈ l, u.row = ρ) → ∀ u ∈ r, u.row = ρ) := by
  obtain ⟨hp, hsort⟩ := hs
  cases s with
  | nil => exact absurd hp.symm.eq_nil hl
  | cons t ts =>
    rw [List.pairwise_cons] at hsort
    have hts : ∀ u ∈ ts, t.column ≤ u.column := fun u hu => by have := hsort.1 u hu; omega
    obtain ⟨h1, _, h3, h4, h5, _, h7, h8⟩ := uniqueLoop_spec isZero ts t []
      (by simp [StrictColumns]) (by simp) hts hsort.2
    have hcol : ∀ c, HasColumn (t :: ts) c ↔ HasColumn l c := by
      intro c; unfold HasColumn; simp only [hp.mem_iff]
    have hge : ∀ c, HasColumn (t :: ts) c → t.column ≤ c := by
      rintro c ⟨u, hu, rfl⟩
      simp only [List.mem_cons] at hu
      rcases hu with rfl | hu
      · exact Nat.le_refl _
      · exact hts u hu
    simp only [List.nil_append] at h3
    refine ⟨_, rfl, h1, ?_, ?_, ?_, ?_⟩
    · intro c hc
      have := h3 c hc
      exact ⟨(hcol c).1 this, by rw [h4 c (hge c this) hc, columnSum_perm hp]⟩
    · intro c hc hr
      rw [← columnSum_perm hp]
      exact h5 c (hge c ((hcol c).2 hc)) hr ((hcol c).2 hc)
    · refine ⟨_, List.mem_append_right _ (List.mem_singleton_self _), ?_⟩
      intro v hv
      rw [← hp.mem_iff, List.mem_cons] at hv
      rcases hv with rfl | hv
      · obtain ⟨u, hu, huc⟩ := h3 _ ⟨(TripletList.uniqueLoop isZero v [] ts).1, by simp, rfl⟩
        rw [← huc]
        simp only [List.mem_cons] at hu
        rcases hu with rfl | hu
        · exact Nat.le_refl _
        · exact hts u hu
      · exact h8 v hv
    · intro ρ hρ
      refine h7 ρ ?_
      intro u hu
      simp only [List.nil_append] at hu
      exact hρ u (hp.mem_iff.1 hu)

/-- C16: when `IsZero` is exact (integral scalars, or zero tolerance) every column sum is kept, also of the
dropped columns. -/
theorem makeColumnsUnique_columnSum (isZero : S → Bool) (hz : ∀ x, isZero x = true → x = 0)
    (l s r : List (Triplet S)) (hs : TripletList.Sorted l s)
    (hr : TripletList.makeColumnsUnique isZero s = some r) (c : ℕ) : columnSum r c = columnSum l c := by
  by_cases hl : l = []
  · subst hl
    have := hs.1.eq_nil; subst this; simp [TripletList.makeColumnsUnique] at hr
  · obtain ⟨r', hr', _, h1, h2, _⟩ := makeColumnsUnique_correct isZero l s hl hs
    rw [hr] at hr'; obtain rfl := Option.some.inj hr'
    by_cases h : HasColumn r c
    · exact (h1 c h).2
    · rw [columnSum_eq_zero h]
      by_cases h' : HasColumn l c
      · exact (hz _ (h2 c h' h)).symm
      · rw [columnSum_eq_zero h']

/-- C16: `has_unique_columns` on a list sorted by column decides whether no column occurs twice; in
particular it accepts every result of `make_columns_unique`. -/
theorem hasUniqueColumns_iff (s : List (Triplet S)) (hne : s ≠ [])
    (hs : s.Pairwise (fun a b => ¬ b.column < a.column)) :
    TripletList.hasUniqueColumns s = some true ↔ (s.map Triplet.column).Nodup := by
  cases s with
  | nil => exact absurd rfl hne
  | cons t ts =>
    clear hne
    simp only [TripletList.hasUniqueColumns, Option.some.injEq]
    induction ts generalizing t with
    | nil => simp [TripletList.hasUniqueLoop]
    | cons u us ih =>
      rw [List.pairwise_cons] at hs
      unfold TripletList.hasUniqueLoop
      by_cases h : u.column = t.column
      · simp [h]
      · rw [if_neg h, ih u hs.2, List.map_cons (a := t), List.nodup_cons]
        rw [List.pairwise_cons] at hs
        have := hs.1 u (by simp)
        have h2 : ∀ v ∈ us, u.column ≤ v.column := fun v hv => by have := hs.2.1 v hv; omega
        constructor
        · intro hn
          refine ⟨?_, hn⟩
          simp only [List.map_cons, List.mem_cons, List.mem_map, not_or, not_exists, not_and]
          exact ⟨fun e => h e.symm, fun v hv => by have := h2 v hv; omega⟩
        · exact fun hn => hn.2

theorem makeColumnsUnique_hasUnique (isZero : S → Bool) (l s r : List (Triplet S)) (hl : l ≠ [])
    (hs : TripletList.Sorted l s) (hr : TripletList.makeColumnsUnique isZero s = some r) :
    TripletList.hasUniqueColumns r = some true := by
  obtain ⟨r', hr', h1, _, _, ⟨u, hu, _⟩, _⟩ := makeColumnsUnique_correct isZero l s hl hs
  rw [hr] at hr'; obtain rfl := Option.some.inj hr'
  rw [hasUniqueColumns_iff r (by rintro rfl; simp at hu)]
  · rw [List.nodup_iff_pairwise_ne, List.pairwise_map]
    exact h1.imp (fun h => by omega)
  · exact h1.imp (fun h => by omega)

/-- C16 (boundary): on an empty list the behaviour is undefined. -/
theorem makeColumnsUnique_empty_ub (isZero : S → Bool) :
    TripletList.makeColumnsUnique isZero ([] : List (Triplet S)) = none ∧
    TripletList.hasUniqueColumns ([] : List (Triplet S)) = none := ⟨rfl, rfl⟩

/-- A concrete run: columns 1 (cancelling, dropped), 3 (merged), 7 (zero but last, kept). -/
example : TripletList.Sorted (S := ℤ)
      [⟨0, 3, 2⟩, ⟨0, 1, 5⟩, ⟨0, 7, 0⟩, ⟨0, 3, 4⟩, ⟨0, 1, -5⟩]
      [⟨0, 1, 5⟩, ⟨0, 1, -5⟩, ⟨0, 3, 4⟩, ⟨0, 3, 2⟩, ⟨0, 7, 0⟩] ∧
    TripletList.makeColumnsUnique (S := ℤ) (· == 0)
      [⟨0, 1, 5⟩, ⟨0, 1, -5⟩, ⟨0, 3, 4⟩, ⟨0, 3, 2⟩, ⟨0, 7, 0⟩] = some [⟨0, 3, 6⟩, ⟨0, 7, 0⟩] := by
  refine ⟨⟨by decide, by decide⟩, by decide⟩

end Ieompp
