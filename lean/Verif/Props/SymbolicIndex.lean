import Verif.Model.SymbolicIndex
import Verif.Props.Print
import Verif.Props.Checkpoint

/-! # C75: numbered symbols are pairwise different; texts of indices, types and exceptions -/

set_option autoImplicit false
set_option linter.unusedSectionVars false

namespace Ieompp
namespace Symbolic

open IO (Text)

theorem minus_not_digit (n : ℕ) : '-' ∉ Nat.toDigits 10 n := by
  intro h
  have := Nat.isDigit_of_mem_toDigits (b := 10) (by decide) (by decide) h
  revert this
  decide

/-- Different numbers have different texts. -/
theorem toString'_inj {i j : ℤ} (h : toString' i = toString' j) : i = j := by
  unfold toString' at h
  by_cases hi : i < 0 <;> by_cases hj : j < 0
  · rw [if_pos hi, if_pos hj] at h
    have := IO.toDigits_inj (List.append_cancel_left h)
    omega
  · rw [if_pos hi, if_neg hj] at h
    exact absurd (by rw [List.nil_append] at h; rw [← h]; simp) (minus_not_digit j.natAbs)
  · rw [if_neg hi, if_pos hj] at h
    exact absurd (by rw [List.nil_append] at h; rw [h]; simp) (minus_not_digit i.natAbs)
  · rw [if_neg hi, if_neg hj] at h
    have := IO.toDigits_inj (List.append_cancel_left h)
    omega

/-- `==` decides equality, `!=` is its negation, and the printed text determines the index. -/
theorem index_eq {kind : Kind} (a b : Index kind) :
    (a.eq b = true ↔ a = b) ∧ a.ne b = !a.eq b ∧ (a.print = b.print ↔ a = b) := by
  cases a; cases b
  simp [Index.eq, Index.ne, Index.print, bne]

/-- **C75**: the symbols numbered by an `int` are pairwise different, for every kind that can be numbered, and different
from the symbol without number. -/
theorem index_ofInt {kind : Kind} (hk : kind ≠ .unspecified) : ∃ f : ℤ → Index kind, ∃ d : Index kind,
    (∀ i, Index.ofInt kind i = some (f i)) ∧ Index.default kind = some d ∧
    (∀ i j, (f i).eq (f j) = true ↔ i = j) ∧ ∀ i, (f i).eq d = false := by
  obtain ⟨c, hc⟩ : ∃ c, letter kind = some c := by cases kind <;> simp [letter] at hk ⊢
  refine ⟨fun i => ⟨[c, '_'] ++ toString' i⟩, ⟨[c]⟩, fun i => by simp [Index.ofInt, hc], by simp [Index.default, hc], ?_, ?_⟩
  · intro i j
    rw [(index_eq _ _).1]
    constructor
    · intro h
      injection h with h
      exact toString'_inj (List.append_cancel_left h)
    · rintro rfl; rfl
  · intro i
    simp [Index.eq]

/-- **C75**: symbols made by the constructors from a number or without arguments print differently when they are of
different kinds, so no expression mixing them is ambiguous. -/
theorem index_kinds {k₁ k₂ : Kind} (h : k₁ ≠ k₂) (a : Index k₁) (b : Index k₂)
    (ha : Index.default k₁ = some a ∨ ∃ i, Index.ofInt k₁ i = some a)
    (hb : Index.default k₂ = some b ∨ ∃ i, Index.ofInt k₂ i = some b) : a.print ≠ b.print := by
  have key : ∀ (k : Kind) (x : Index k), (Index.default k = some x ∨ ∃ i, Index.ofInt k i = some x) →
      letter k ≠ none ∧ x.print.head? = letter k := by
    intro k x hx
    cases hl : letter k with
    | none =>
      simp [Index.default, Index.ofInt, hl] at hx
    | some c =>
      refine ⟨by simp, ?_⟩
      rcases hx with hx | ⟨i, hx⟩
      · simp [Index.default, hl] at hx; rw [← hx]; simp [Index.print]
      · simp [Index.ofInt, hl] at hx; rw [← hx]; simp [Index.print]
  obtain ⟨n1, h1⟩ := key k₁ a ha
  obtain ⟨n2, h2⟩ := key k₂ b hb
  intro e
  rw [e, h2] at h1
  revert h n1 n2 h1
  clear h2 e ha hb a b key
  cases k₁ <;> cases k₂ <;> simp [letter]

/-- **C75** (what is not true): a symbol made from a string may coincide with a numbered one. -/
theorem index_ofString_collides : ∃ i : ℤ, Index.ofInt .space i = some (Index.ofString .space ['r', '_', '1']) :=
  ⟨1, rfl⟩

/-! ### compose, exceptions, names -/

/-- **C75**: `compose` is concatenation. -/
theorem compose_eq (ts : List Text) : compose ts = ts.flatten := by
  have : ∀ (ts : List Text) (a : Text), ts.foldl (fun strm t => strm ++ t) a = a ++ ts.flatten := by
    intro ts
    induction ts with
    | nil => intro a; simp
    | cons t ts ih => intro a; rw [List.foldl_cons, ih]; simp
  rw [compose, this]; rfl

/-- **C75**: from `what()` of an exception one can read off the place and the message: for files without colon in their
names, texts without null characters. -/
theorem createException_determines {f f' m m' : Text} {l l' : ℕ} (hf : ':' ∉ f) (hf' : ':' ∉ f')
    (h0 : '\x00' ∉ f ++ m) (h0' : '\x00' ∉ f' ++ m')
    (h : what (createException f l m) = what (createException f' l' m')) : f = f' ∧ l = l' ∧ m = m' := by
  have hw : ∀ (f m : Text) (l : ℕ), '\x00' ∉ f ++ m → what (createException f l m) = createException f l m := by
    intro f m l h0
    unfold what
    have tw : ∀ t : Text, (∀ c ∈ t, (c != '\x00') = true) → t.takeWhile (fun c => c != '\x00') = t := by
      intro t
      induction t with
      | nil => intro _; rfl
      | cons c t ih =>
        intro h
        rw [List.takeWhile_cons_of_pos (p := fun c => c != '\x00') (h c (by simp)), ih fun c hc => h c (List.mem_cons_of_mem _ hc)]
    apply tw
    intro c hc
    simp only [bne_iff_ne, ne_eq]
    rintro rfl
    unfold createException at hc
    simp only [List.mem_append, List.mem_cons, List.not_mem_nil, or_false] at hc
    rcases hc with (((hc | hc) | hc) | hc) | hc
    · exact h0 (List.mem_append_left _ hc)
    · revert hc; decide
    · have := Nat.isDigit_of_mem_toDigits (b := 10) (by decide) (by decide) hc
      revert this; decide
    · revert hc; decide
    · exact h0 (List.mem_append_right _ hc)
  rw [hw f m l h0, hw f' m' l' h0'] at h
  have split : ∀ (a b x y : Text), ':' ∉ a → ':' ∉ b → a ++ ':' :: x = b ++ ':' :: y → a = b ∧ x = y := by
    intro a
    induction a with
    | nil =>
      intro b x y _ hb h
      cases b with
      | nil => simpa using h
      | cons c b => simp at h; exact absurd (h.1 ▸ List.mem_cons_self) hb
    | cons c a ih =>
      intro b x y ha hb h
      cases b with
      | nil => simp at h; exact absurd (h.1 ▸ List.mem_cons_self) ha
      | cons d b =>
        simp only [List.cons_append, List.cons.injEq] at h
        obtain ⟨rfl, h⟩ := h
        obtain ⟨rfl, rfl⟩ := ih b x y (fun h => ha (List.mem_cons_of_mem _ h)) (fun h => hb (List.mem_cons_of_mem _ h)) h
        exact ⟨rfl, rfl⟩
  have hd : ∀ n : ℕ, ':' ∉ Nat.toDigits 10 n := by
    intro n h
    have := Nat.isDigit_of_mem_toDigits (b := 10) (by decide) (by decide) h
    revert this; decide
  unfold createException at h
  simp only [List.append_assoc, List.cons_append, List.nil_append] at h
  obtain ⟨hff, h2⟩ := split _ _ _ _ hf hf' h
  obtain ⟨hl, h3⟩ := split _ _ _ _ (hd _) (hd _) h2
  refine ⟨hff, IO.toDigits_inj hl, ?_⟩
  simpa using h3

/-- **C75**: the name of a type determines the type, among all arithmetic types. -/
theorem typeName_injective (a b : Arith) (h : typeName a = typeName b) : a = b := by
  cases a <;> cases b <;> first | rfl | (exfalso; revert h; decide)

/-- **C75**: the description of a scalar type determines the type. -/
theorem typeDescription_injective (a b : Scalar) (h : typeDescription a = typeDescription b) : a = b := by
  cases a with
  | real s =>
    cases b with
    | real t =>
      simp only [typeDescription, List.cons.injEq, Prod.mk.injEq] at h
      rw [typeName_injective s t h.1.2]
    | complex t => simp [typeDescription] at h
  | complex s =>
    cases b with
    | real t => simp [typeDescription] at h
    | complex t =>
      simp only [typeDescription, compose_eq, List.cons.injEq, Prod.mk.injEq, and_true, true_and, List.flatten_cons,
        List.flatten_nil, List.append_nil] at h
      have h' := List.append_cancel_right (List.append_cancel_left h)
      rw [typeName_injective s t h']

/-- The decimal text of a number. -/
theorem toString'_eq (i : ℤ) : toString' i = (if i < 0 then "-" else "").toList ++ (toString i.natAbs).toList := by
  unfold toString'
  split_ifs <;> simp [toString, Nat.repr]

/-- **C75**: the texts are the documented ones: `r`, `k` and `σ`, and `r_i`, `k_i` and `σ_i` with the decimal text of the
number. -/
theorem index_text (i : ℤ) :
    (Index.default .space).map Index.print = some "r".toList ∧
    (Index.default .momentum).map Index.print = some "k".toList ∧
    (Index.default .spin).map Index.print = some "σ".toList ∧
    Index.default .unspecified = none ∧ Index.ofInt .unspecified i = none ∧
    (Index.ofInt .space i).map Index.print = some ("r_".toList ++ toString' i) ∧
    (Index.ofInt .momentum i).map Index.print = some ("k_".toList ++ toString' i) ∧
    (Index.ofInt .spin i).map Index.print = some ("σ_".toList ++ toString' i) ∧
    ∀ kind s, (Index.ofString kind s).print = s :=
  ⟨rfl, rfl, rfl, rfl, rfl, rfl, rfl, rfl, fun _ _ => rfl⟩

/-- The fixed width integer type with or without sign and `8 * bytes` bits, if there is one. -/
def fixedWidth (signed : Bool) (bytes : ℕ) : Option Arith :=
  match signed, bytes with
  | false, 1 => some .u8 | false, 2 => some .u16 | false, 4 => some .u32 | false, 8 => some .u64
  | true, 1 => some .i8 | true, 2 => some .i16 | true, 4 => some .i32 | true, 8 => some .i64
  | _, _ => none

/-- **C75**: a fixed width integer type is called `intW_t` or `uintW_t` with `W` its number of bits, and is described with
its number of bytes. -/
theorem typeName_fixedWidth {signed : Bool} {bytes : ℕ} {t : Arith} (h : fixedWidth signed bytes = some t) :
    typeName t = (if signed then "" else "u").toList ++ "int".toList ++ (toString (8 * bytes)).toList ++ "_t".toList ∧
    typeDescription (.real t) = [("type".toList, typeName t), ("size".toList, (toString bytes).toList)] := by
  unfold fixedWidth at h
  split at h <;> simp only [Option.some.injEq, reduceCtorEq] at h <;> subst h <;> decide

/-- **C75**: the other arithmetic types. -/
theorem typeName_other :
    typeName .bool = "bool".toList ∧ typeName .float = "float".toList ∧ typeName .double = "double".toList ∧
    typeName .longDouble = "long double".toList ∧
    (∀ t : Arith, (∃ signed bytes, fixedWidth signed bytes = some t) ∨
      t = .bool ∨ t = .float ∨ t = .double ∨ t = .longDouble) := by
  refine ⟨by decide, by decide, by decide, by decide, fun t => ?_⟩
  cases t
  case bool => simp
  case float => simp
  case double => simp
  case longDouble => simp
  case u8 => exact .inl ⟨false, 1, rfl⟩
  case u16 => exact .inl ⟨false, 2, rfl⟩
  case u32 => exact .inl ⟨false, 4, rfl⟩
  case u64 => exact .inl ⟨false, 8, rfl⟩
  case i8 => exact .inl ⟨true, 1, rfl⟩
  case i16 => exact .inl ⟨true, 2, rfl⟩
  case i32 => exact .inl ⟨true, 4, rfl⟩
  case i64 => exact .inl ⟨true, 8, rfl⟩

/-- **C75**: the descriptions of real and complex types. -/
theorem typeDescription_text (t : Arith) :
    (∃ size, typeDescription (.real t) = [("type".toList, typeName t), ("size".toList, size)]) ∧
    typeDescription (.complex t) = [("type".toList, "complex<".toList ++ typeName t ++ ">".toList)] ∧
    typeDescription (.real .bool) = [("type".toList, "bool".toList), ("size".toList, "1".toList)] ∧
    typeDescription (.real .float) = [("type".toList, "float".toList), ("size".toList, "4".toList)] ∧
    typeDescription (.real .double) = [("type".toList, "double".toList), ("size".toList, "8".toList)] ∧
    typeDescription (.real .longDouble) =
      [("type".toList, "long double".toList), ("size".toList, "16".toList)] := by
  refine ⟨⟨_, rfl⟩, ?_, by decide, by decide, by decide, by decide⟩
  simp [typeDescription, compose_eq]

/-- Concrete cases. -/
example : Index.ofInt .spin (-12) = some ⟨['σ', '_', '-', '1', '2']⟩ := rfl
example : createException ['a', '.', 'h'] 41 ['x'] = ['a', '.', 'h', ':', '4', '1', ':', ' ', 'x'] := rfl

end Symbolic
end Ieompp
