import Verif.Spec.Extended
import Verif.Props.LexicalCast

/-! # C104, C128: the texts for infinities and NaN are accepted as numbers -/

set_option autoImplicit false
set_option linter.unusedSectionVars false

namespace Ieompp.Main

open Ieompp.IO App Spec

theorem toLower_letter {c l u : Char} (h : l.val.toNat = u.val.toNat + 32) (hu : 65 ≤ u.val.toNat ∧ u.val.toNat ≤ 90) : c.toLower = l ↔ c = l ∨ c = u := by
  have hv : ∀ a b : Char, a = b ↔ a.val.toNat = b.val.toNat := fun a b =>
    ⟨fun e => by rw [e], fun e => Char.ext (UInt32.toNat_inj.1 e)⟩
  have e1 : c.toLower.val.toNat = if 65 ≤ c.val.toNat ∧ c.val.toNat ≤ 90 then c.val.toNat + 32 else c.val.toNat := by
    unfold Char.toLower
    have ha : 'A'.val.toNat = 65 := by decide
    have hz : 'Z'.val.toNat = 90 := by decide
    by_cases hc : c.val ≥ 'A'.val ∧ c.val ≤ 'Z'.val
    · have h1 := UInt32.le_iff_toNat_le.1 hc.1
      have h2 := UInt32.le_iff_toNat_le.1 hc.2
      rw [dif_pos hc, if_pos ⟨by omega, by omega⟩]
      show (c.val + ('a'.val - 'A'.val)).toNat = _
      rw [UInt32.toNat_add, show ('a'.val - 'A'.val).toNat = 32 by decide]
      omega
    · rw [dif_neg hc, if_neg]
      rintro ⟨h1, h2⟩
      exact hc ⟨UInt32.le_iff_toNat_le.2 (by omega), UInt32.le_iff_toNat_le.2 (by omega)⟩
  rw [hv, hv, hv, e1]
  split_ifs <;> omega

theorem equalNoCase_iff : ∀ {w : List (Char × Char)} (_ : ∀ l ∈ w, l.1.val.toNat = l.2.val.toNat + 32 ∧ 65 ≤ l.2.val.toNat ∧ l.2.val.toNat ≤ 90) {t : Text},
    equalNoCase t (w.map Prod.fst) = true ↔ Word w t
  | [], _, t => by
    cases t with
    | nil => simp [equalNoCase, Word]
    | cons c t =>
      constructor
      · intro h; simp [equalNoCase] at h
      · intro h; cases h
  | l :: w, hw, t => by
    cases t with
    | nil =>
      constructor
      · intro h; simp [equalNoCase] at h
      · intro h; cases h
    | cons c t =>
      have ih := equalNoCase_iff (w := w) (fun l hl => hw l (List.mem_cons_of_mem _ hl)) (t := t)
      have hl := hw l List.mem_cons_self
      have e : equalNoCase (c :: t) ((l :: w).map Prod.fst) = true ↔ c.toLower = l.1 ∧ equalNoCase t (w.map Prod.fst) = true := by
        simp [equalNoCase]
      rw [e, ih, toLower_letter hl.1 hl.2]
      unfold Word
      rw [List.forall₂_cons]

theorem nanWord_iff {t : Text} : equalNoCase t ['n', 'a', 'n'] = true ↔ Word [('n', 'N'), ('a', 'A'), ('n', 'N')] t :=
  equalNoCase_iff (w := [('n', 'N'), ('a', 'A'), ('n', 'N')]) (by decide)

theorem infWord_iff {t : Text} : equalNoCase t ['i', 'n', 'f'] = true ↔ Word [('i', 'I'), ('n', 'N'), ('f', 'F')] t :=
  equalNoCase_iff (w := [('i', 'I'), ('n', 'N'), ('f', 'F')]) (by decide)

theorem infinityWord_iff {t : Text} : equalNoCase t ['i', 'n', 'f', 'i', 'n', 'i', 't', 'y'] = true ↔
    Word [('i', 'I'), ('n', 'N'), ('f', 'F'), ('i', 'I'), ('n', 'N'), ('i', 'I'), ('t', 'T'), ('y', 'Y')] t :=
  equalNoCase_iff (w := [('i', 'I'), ('n', 'N'), ('f', 'F'), ('i', 'I'), ('n', 'N'), ('i', 'I'), ('t', 'T'), ('y', 'Y')]) (by decide)

theorem word_head {w : List (Char × Char)} {p : Char × Char} {t : Text} (h : Word (p :: w) t) : ∃ c r, t = c :: r ∧ (c = p.1 ∨ c = p.2) ∧ Word w r := by
  cases h with
  | cons h1 h2 => exact ⟨_, _, rfl, h1, h2⟩

theorem word_length {w : List (Char × Char)} {t : Text} (h : Word w t) : t.length = w.length := h.length_eq

/-- The reading of the texts for infinities and NaN against the specification. -/
theorem lexicalSpecial_iff {t : Text} {v : Ext} : lexicalSpecial t = some v ↔ SpecialText t v := by
  constructor
  · intro h
    have hs := takeSign_spec t
    unfold lexicalSpecial at h
    simp only at h
    refine ⟨_, _, hs, ?_⟩
    set r := (takeSign t).2
    by_cases h1 : equalNoCase (r.take 3) ['n', 'a', 'n'] = true
    · rw [if_pos h1] at h
      have hw := nanWord_iff.1 h1
      have e : r = r.take 3 ++ r.drop 3 := (List.take_append_drop 3 r).symm
      split_ifs at h with h2 h3 h4
      · cases h
        exact Or.inl ⟨r.take 3, [], hw, Or.inl (by rw [h2, List.append_nil] at e; exact e), rfl⟩
      · cases h
        refine Or.inl ⟨r.take 3, (r.drop 3).tail.dropLast, hw, Or.inr ?_, rfl⟩
        obtain ⟨ys, hy⟩ := List.getLast?_eq_some_iff.1 h4.2
        cases ys with
        | nil => rw [hy] at h3; simp at h3
        | cons y ys =>
          have : y = '(' := by rw [hy] at h4; simpa using h4.1
          subst this
          rw [e]
          congr 1
          · simp
          · rw [List.take_append_drop, hy]; simp
    · rw [if_neg h1] at h
      split_ifs at h with h2
      · cases h
        refine Or.inr ⟨?_, ?_⟩
        · exact h2.imp infWord_iff.1 infinityWord_iff.1
        · cases (takeSign t).1 <;> simp
  · rintro ⟨s, r, hs, h⟩
    have hhead : ∃ c r', r = c :: r' ∧ c ≠ '-' ∧ c ≠ '+' := by
      rcases h with ⟨w, x, hw, hr, -⟩ | ⟨hw | hw, -⟩
      · obtain ⟨c, w', rfl, hc, -⟩ := word_head hw
        have hc' : c ≠ '-' ∧ c ≠ '+' := by rcases hc with rfl | rfl <;> decide
        rcases hr with rfl | rfl
        · exact ⟨c, w', rfl, hc'⟩
        · exact ⟨c, _, rfl, hc'⟩
      · obtain ⟨c, w', rfl, hc, -⟩ := word_head hw
        exact ⟨c, w', rfl, by rcases hc with rfl | rfl <;> decide⟩
      · obtain ⟨c, w', rfl, hc, -⟩ := word_head hw
        exact ⟨c, w', rfl, by rcases hc with rfl | rfl <;> decide⟩
    have hsign := (takeSign_signed hs (by
      obtain ⟨c, r', rfl, h1, h2⟩ := hhead
      simp [h1, h2])).1
    unfold lexicalSpecial
    rw [hsign]
    simp only
    rcases h with ⟨w, x, hw, hr, rfl⟩ | ⟨hw, rfl⟩
    · have hl := word_length hw
      have e3 : r.take 3 = w := by
        rcases hr with rfl | rfl
        · exact List.take_of_length_le (by rw [hl]; rfl)
        · rw [List.take_append_of_le_length (by rw [hl]; exact le_refl 3)]
          exact List.take_of_length_le (by rw [hl]; rfl)
      rw [e3, if_pos (nanWord_iff.2 hw)]
      rcases hr with rfl | rfl
      · rw [if_pos (List.drop_of_length_le (by rw [hl]; rfl))]
      · have : (w ++ '(' :: (x ++ [')'])).drop 3 = '(' :: (x ++ [')']) := List.drop_left' hl
        rw [this, if_neg (by simp), if_neg (by simp), if_pos]
        exact ⟨rfl, by rw [← List.cons_append, List.getLast?_append]; simp⟩
    · have h3 : ¬ equalNoCase (r.take 3) ['n', 'a', 'n'] = true := by
        intro h
        obtain ⟨c, r', e, hc, -⟩ := word_head (nanWord_iff.1 h)
        have : ∃ c' r'', r = c' :: r'' ∧ (c' = 'i' ∨ c' = 'I') := by
          rcases hw with hw | hw <;> obtain ⟨c', r'', e', hc', -⟩ := word_head hw <;> exact ⟨c', r'', e', hc'⟩
        obtain ⟨c', r'', rfl, hc'⟩ := this
        simp only [List.take_succ_cons, List.cons.injEq] at e
        rw [← e.1] at hc
        rcases hc with rfl | rfl <;> revert hc' <;> decide
      rw [if_neg h3, if_pos]
      exact hw.imp infWord_iff.2 infinityWord_iff.2

/-- No text is both. -/
theorem special_not_decimal {t : Text} {v : Ext} (h : SpecialText t v) : readDecimal t = none := by
  obtain ⟨s, r, hs, h⟩ := h
  have hhead : ∃ c r', r = c :: r' ∧ c ≠ '-' ∧ c ≠ '+' ∧ c ≠ '.' ∧ c.isDigit = false := by
    rcases h with ⟨w, x, hw, hr, -⟩ | ⟨hw | hw, -⟩
    · obtain ⟨c, w', rfl, hc, -⟩ := word_head hw
      have hc' : c ≠ '-' ∧ c ≠ '+' ∧ c ≠ '.' ∧ c.isDigit = false := by rcases hc with rfl | rfl <;> decide
      rcases hr with rfl | rfl
      · exact ⟨c, w', rfl, hc'⟩
      · exact ⟨c, _, rfl, hc'⟩
    · obtain ⟨c, w', rfl, hc, -⟩ := word_head hw
      exact ⟨c, w', rfl, by rcases hc with rfl | rfl <;> decide⟩
    · obtain ⟨c, w', rfl, hc, -⟩ := word_head hw
      exact ⟨c, w', rfl, by rcases hc with rfl | rfl <;> decide⟩
  obtain ⟨c, r', rfl, h1, h2, h3, h4⟩ := hhead
  have hsign := (takeSign_signed hs (by simp [h1, h2])).1
  unfold readDecimal
  rw [hsign]
  have e1 : (c :: r').takeWhile Char.isDigit = [] := by simp [h4]
  have e2 : (c :: r').dropWhile Char.isDigit = c :: r' := by simp [h4]
  have e3 : (takeFraction (c :: r')).1 = [] := by
    unfold takeFraction
    split
    · rename_i heq
      simp only [List.cons.injEq] at heq
      exact absurd heq.1 h3
    · rfl
  simp only [e1, e2, e3, List.append_nil, if_true]

/-- **C104**: exactly which texts are accepted as the value of a number option, and as which values: those for infinities and NaN, and decimal numbers in
the range of `double`. -/
theorem lexicalExt_iff {rnd : ℚ → ℝ} {t : Text} {v : Ext} :
    lexicalExt rnd t = some v ↔ SpecialText t v ∨ ∃ x : ℚ, DecimalText t x ∧ |x| < 2 ^ 1024 - 2 ^ 970 ∧ v = .fin (rnd x) := by
  unfold lexicalExt
  constructor
  · intro h
    cases hsp : lexicalSpecial t with
    | some w =>
      rw [hsp] at h
      cases h
      exact Or.inl (lexicalSpecial_iff.1 hsp)
    | none =>
      rw [hsp, Option.none_or, Option.map_eq_some_iff] at h
      obtain ⟨y, hy, rfl⟩ := h
      obtain ⟨x, h1, h2, h3⟩ := (number_iff (rnd := rnd)).1 hy
      exact Or.inr ⟨x, h1, h2, by rw [h3]⟩
  · rintro (h | ⟨x, h1, h2, rfl⟩)
    · rw [lexicalSpecial_iff.2 h]; rfl
    · have hn : lexicalSpecial t = none := by
        cases hsp : lexicalSpecial t with
        | none => rfl
        | some w =>
          have := special_not_decimal (lexicalSpecial_iff.1 hsp)
          rw [readDecimal_iff.2 h1] at this
          cases this
      have : lexicalNum rnd t = some (rnd x) := (number_iff (rnd := rnd)).2 ⟨x, h1, h2, rfl⟩
      rw [hn, this]; rfl

/-- Whether `store` accepts the text for an option of that type, with all texts that boost accepts. -/
noncomputable def extOk (rnd : ℚ → ℝ) (kinds : List (Text × Kind)) (k t : Text) : Bool :=
  match kindOf kinds k with
  | .num => (lexicalExt rnd t).isSome
  | x => (lexicalConv rnd).ok x t

theorem extOk_of_ok {rnd : ℚ → ℝ} {kinds : List (Text × Kind)} {k t : Text} (h : (lexicalConv rnd).ok (kindOf kinds k) t = true) : extOk rnd kinds k t = true := by
  unfold extOk
  cases hk : kindOf kinds k with
  | num =>
    rw [hk] at h
    have h' : (lexicalNum rnd t).isSome = true := h
    obtain ⟨x, hx⟩ := Option.isSome_iff_exists.1 h'
    simp only [lexicalExt, hx]
    cases lexicalSpecial t <;> rfl
  | nat => rw [hk] at h; exact h
  | text => rw [hk] at h; exact h

/-- **C104** refuted: every program started with `--k=inf`, `--k=nan` or the like for any of its number options accepts it. -/
theorem program_special (rnd : ℚ → ℝ) {pk : Prog × List (Text × Kind)} (hp : pk ∈ programKinds) {k : String}
    (hk : k.toList ∈ pk.1.own.map Prod.fst) (hkind : kindOf pk.2 k.toList = .num) {t : Text} {v : Ext} (ht : SpecialText t v) (env : Env) (fs : FS) :
    ∃ a, construct pk.1.options (extOk rnd pk.2) env fs ["--".toList ++ k.toList ++ "=".toList ++ t] = .val (some (.app a)) ∧ ExtSetting rnd a k v := by
  have hv : lexicalExt rnd t = some v := lexicalExt_iff.2 (Or.inl ht)
  have h1 := programKinds_good rnd hp
  have ht0 : t ≠ [] := by
    rintro rfl
    have := lexicalSpecial_iff.2 ht
    have e : lexicalSpecial [] = none := by decide
    rw [e] at this
    cases this
  obtain ⟨a, ha, h2, -⟩ := program_starts h1.1 (valid := extOk rnd pk.2) (fun o ho => extOk_of_ok (h1.2.1 o ho))
    (extOk_of_ok (by rw [h1.2.2]; rfl)) env fs [(k.toList, t)]
    (fun o ho => by
      cases List.mem_singleton.1 ho
      refine ⟨ht0, ?_, Or.inr hk⟩
      unfold extOk
      rw [hkind]
      simp [hv]) (by simp)
  exact ⟨a, ha, t, hv, h2 _ (List.mem_singleton_self _)⟩

/-- **C104**: every other text is refused: the program ends with an exception before any file is written. -/
theorem program_rejects_rest (rnd : ℚ → ℝ) {pk : Prog × List (Text × Kind)} (hp : pk ∈ programKinds) {k : String} (hk : k.toList ∈ pk.1.own.map Prod.fst)
    (hkind : kindOf pk.2 k.toList = .num) {t : Text} (ht : t ≠ []) (h1 : ∀ v, ¬ SpecialText t v)
    (h2 : ∀ x : ℚ, DecimalText t x → ¬ |x| < 2 ^ 1024 - 2 ^ 970) (env : Env) (fs : FS) :
    construct pk.1.options (extOk rnd pk.2) env fs ["--".toList ++ k.toList ++ "=".toList ++ t] = .val none := by
  have hok : extOk rnd pk.2 k.toList t = false := by
    unfold extOk
    rw [hkind]
    simp only
    cases h : lexicalExt rnd t with
    | none => rfl
    | some v =>
      rcases lexicalExt_iff.1 h with h | ⟨x, h3, h4, -⟩
      · exact absurd h (h1 v)
      · exact absurd h4 (h2 x h3)
  obtain ⟨g1, g2, g3⟩ := programKinds_good rnd hp
  have hg := programs_good g1 (valid := extOk rnd pk.2) (fun o ho => extOk_of_ok (g2 o ho)) (extOk_of_ok (by
    rw [show outName = "out".toList by decide, g3]; rfl))
  have hk0 : k.toList ≠ [] := by
    have : ∀ pk ∈ programKinds, ∀ k ∈ pk.1.own.map Prod.fst, k ≠ [] := by decide
    exact this pk hp _ hk
  have hparse : parseArgs pk.1.options ["--".toList ++ k.toList ++ "=".toList ++ t] = some [⟨k.toList, [t]⟩] := by
    have e : "--".toList ++ k.toList ++ "=".toList ++ t = longArg (k.toList, t) := by
      rw [show "--".toList = ['-', '-'] by decide, show "=".toList = ['='] by decide]; rfl
    rw [e]
    have := parseArgs_longArg hg [(k.toList, t)] (fun o ho => by
      cases List.mem_singleton.1 ho
      obtain ⟨x, hx, e⟩ := List.mem_map.1 hk
      refine ⟨ht, Or.inr ⟨⟨x.1, true, some x.2⟩, ?_, e, rfl⟩⟩
      simp only [Prog.options, programOptions, List.mem_append, List.mem_map]
      exact Or.inr ⟨x, hx, rfl⟩) []
    simpa [parseArgs] using this
  unfold construct parseCommandLineOptions store
  rw [hparse]
  simp only [Option.bind_some]
  rw [show storeLoop (extOk rnd pk.2) VM.empty.final [⟨k.toList, [t]⟩] VM.empty.value = none by
    simp [storeLoop, hk0, VM.empty, App.discard, hok]]
  rfl

/-- Instances: the texts `nan`, `-inf` and `Infinity`. -/
theorem special_examples : SpecialText "nan".toList .nan ∧ SpecialText "-inf".toList (.inf true) ∧ SpecialText "Infinity".toList (.inf false) ∧
    SpecialText "NaN(0)".toList .nan := by
  refine ⟨?_, ?_, ?_, ?_⟩ <;> rw [← lexicalSpecial_iff] <;> rfl

end Ieompp.Main
