import Verif.Model.FermiSea
import Verif.Spec.Fock
import Mathlib.Tactic.Ring
import Mathlib.Data.List.Sort
import Mathlib.Algebra.BigOperators.Group.List.Basic

/-! # C32, C33: the excited Fermi sea -/

set_option autoImplicit false
set_option linter.unusedSectionVars false

namespace Ieompp

open Ieompp.Spec

section Ket
variable {ι : Type*} [LinearOrder ι] {K : Type*} [CommRing K]

theorem ket_ne_zero [Nontrivial K] (S : Finset ι) : ket K S ≠ 0 := by
  intro h
  have := congrFun h S
  simp [ket] at this

theorem ket_inj [Nontrivial K] {S T : Finset ι} {a b : ℤ} (ha : a = 1 ∨ a = -1)
    (h : (a : K) • ket K S = (b : K) • ket K T) : S = T := by
  by_contra hne
  have h1 := congrFun h S
  have e1 : ket K S S = 1 := by simp [ket]
  have e2 : ket K T S = 0 := by simp [ket, hne]
  rw [Pi.smul_apply, Pi.smul_apply, e1, e2] at h1
  rcases ha with rfl | rfl <;> simp at h1

theorem sign_smul_ket_ne [Nontrivial K] {S : Finset ι} {a : ℤ} (ha : a = 1 ∨ a = -1) : (a : K) • ket K S ≠ 0 := by
  intro h
  have h1 := congrFun h S
  have e1 : ket K S S = 1 := by simp [ket]
  rw [Pi.smul_apply, e1] at h1
  rcases ha with rfl | rfl <;> simp at h1

theorem jwSign_sign (i : ι) (S : Finset ι) : jwSign i S = 1 ∨ jwSign i S = -1 := by
  unfold jwSign; exact neg_one_pow_eq_or ℤ _

/-- A ladder operator on an occupation-number state: zero when it creates an occupied or annihilates an empty mode,
otherwise, up to a sign, the state with the mode changed. -/
theorem fockOp_ket (x : Op ι) (S : Finset ι) : fockOp K x (ket K S) =
    if (x.index ∈ S) ↔ (x.creator = true) then 0
    else ((jwSign x.index (toggle x.index S) : ℤ) : K) • ket K (toggle x.index S) := by
  funext T
  rw [fockOp_apply]
  by_cases hT : T = toggle x.index S
  · subst hT
    rw [toggle_toggle_self]
    have : (x.index ∈ toggle x.index S) ↔ ¬ (x.index ∈ S) := by rw [mem_toggle]; simp
    by_cases h1 : x.index ∈ S <;> by_cases h2 : x.creator = true <;> simp [this, h1, h2, ket]
  · have : toggle x.index T ≠ S := by
      rintro rfl; exact hT (toggle_toggle_self _ _).symm
    simp only [ket, this, if_false, mul_zero, ite_self]
    split
    · rfl
    · rw [Pi.smul_apply, ket, if_neg hT, smul_zero]

theorem fockWord_append (m n : List (Op ι)) : fockWord K (m ++ n) = fockWord K m * fockWord K n := by
  simp [fockWord]

theorem fockMono_append (m n : HMonomial) : fockMono K (m ++ n) = fockMono K m * fockMono K n := by
  simp [fockMono, fockWord_append]

theorem fockMono_cons (o : HOp) (m : HMonomial) : fockMono K (o :: m) = fockOp K (HOp.mode o) * fockMono K m := by
  simp [fockMono, fockWord]

end Ket

namespace MomentumSpace
namespace FermiSea
variable {E : Type*} [LinearOrder E]

theorem sortList_perm (l : List (ℕ × Bool)) : (sortList l).Perm l := List.perm_insertionSort _ _

theorem modeSet_perm {l l' : List (ℕ × Bool)} (h : l.Perm l') : modeSet l = modeSet l' := by
  ext x; simp only [modeSet, List.mem_toFinset]; exact (h.map _).mem_iff

theorem mem_modeSet (x : ℕ × Bool) (l : List (ℕ × Bool)) : toLex x ∈ modeSet l ↔ x ∈ l := by
  simp [modeSet]

/-- The occupied modes a state object stands for. -/
def occupied (FS : Finset Mode) (s : FermiSea) : Finset Mode := (FS \ modeSet s.annihilated) ∪ modeSet s.created

/-- The state object describes the vector `v` of Fock space. -/
def Inv (K : Type*) [CommRing K] (disp : ℕ → E) (eF : E) (FS : Finset Mode) (s : FermiSea) (v : Finset Mode → K) :
    Prop :=
  (s.vanishes = true → v = 0) ∧
  (s.vanishes = false → (∃ e : ℤ, (e = 1 ∨ e = -1) ∧ v = (e : K) • ket K (occupied FS s)) ∧
    s.annihilated.Nodup ∧ s.created.Nodup ∧
    (∀ x ∈ s.annihilated, toLex x ∈ FS ∧ disp x.1 < eF) ∧ (∀ x ∈ s.created, toLex x ∉ FS ∧ ¬ disp x.1 < eF))

section
variable {K : Type*} [CommRing K] {disp : ℕ → E} {eF : E} {FS : Finset Mode}

theorem inv_perm {s t : FermiSea} {v : Finset Mode → K} (h : Inv K disp eF FS s v)
    (hv : t.vanishes = s.vanishes) (hc : t.created.Perm s.created) (ha : t.annihilated.Perm s.annihilated) :
    Inv K disp eF FS t v := by
  refine ⟨fun ht => h.1 (hv ▸ ht), fun ht => ?_⟩
  obtain ⟨⟨e, he, hev⟩, n1, n2, m1, m2⟩ := h.2 (hv ▸ ht)
  refine ⟨⟨e, he, ?_⟩, ha.nodup_iff.2 n1, hc.nodup_iff.2 n2, fun x hx => m1 x (ha.mem_iff.1 hx),
    fun x hx => m2 x (hc.mem_iff.1 hx)⟩
  rw [hev, occupied, occupied, modeSet_perm ha, modeSet_perm hc]

theorem inv_finish {s : FermiSea} {v : Finset Mode → K} (h : Inv K disp eF FS s v) :
    Inv K disp eF FS (finish s) v := by
  by_cases hv : s.vanishes = true
  · simpa [finish, hv] using h
  · have hv' : s.vanishes = false := by simpa using hv
    refine inv_perm h ?_ ?_ ?_ <;> simp [finish, hv', sortList_perm]

theorem mem_occupied {s : FermiSea} {x : ℕ × Bool} (hx : toLex x ∈ FS ↔ disp x.1 < eF)
    (_ha : ∀ x ∈ s.annihilated, toLex x ∈ FS ∧ disp x.1 < eF)
    (hc : ∀ x ∈ s.created, toLex x ∉ FS ∧ ¬ disp x.1 < eF) :
    toLex x ∈ occupied FS s ↔ if disp x.1 < eF then x ∉ s.annihilated else x ∈ s.created := by
  simp only [occupied, Finset.mem_union, Finset.mem_sdiff, mem_modeSet]
  by_cases h : disp x.1 < eF
  · simp only [h, if_true, hx.2 h, true_and]
    exact or_iff_left (fun h' => (hc x h').2 h)
  · simp [h, hx]

theorem toLex_eq_iff {x y : ℕ × Bool} : (toLex x : Mode) = toLex y ↔ x = y := by simp

theorem occupied_toggle {s t : FermiSea} {x : ℕ × Bool} (_hx : toLex x ∈ FS ↔ disp x.1 < eF)
    (hs : ∀ y, y ≠ x → ((y ∈ t.annihilated ↔ y ∈ s.annihilated) ∧ (y ∈ t.created ↔ y ∈ s.created)))
    (hm : toLex x ∈ occupied FS t ↔ toLex x ∉ occupied FS s) :
    occupied FS t = toggle (toLex x) (occupied FS s) := by
  ext y
  rw [mem_toggle]
  by_cases hy : y = toLex x
  · rw [if_pos hy, hy]; exact hm
  · rw [if_neg hy]
    induction y using Lex.rec with | _ y
    have := hs y (fun h => hy (by rw [h]))
    simp only [occupied, Finset.mem_union, Finset.mem_sdiff, mem_modeSet, this]

/-- One step: the state object follows the ladder operator. -/
theorem inv_step {s : FermiSea} {v : Finset Mode → K} (h : Inv K disp eF FS s v) (o : HOp)
    (ho : toLex o.index ∈ FS ↔ disp o.index.1 < eF) :
    Inv K disp eF FS (step disp eF o s) (fockOp K (HOp.mode o) v) := by
  obtain ⟨van, cre, ann⟩ := s
  obtain ⟨cr, x⟩ := o
  cases van with
  | true =>
    have hv : v = 0 := h.1 rfl
    subst hv
    cases cr <;> simp [step, createParticle, annihilateParticle, Inv]
  | false =>
    obtain ⟨⟨e, he, hev⟩, n1, n2, m1, m2⟩ := h.2 rfl
    simp only at n1 n2 m1 m2 ho
    have hocc := mem_occupied (s := ⟨false, cre, ann⟩) ho m1 m2
    have hvec : fockOp K (HOp.mode ⟨cr, x⟩) v = if (toLex x ∈ occupied FS ⟨false, cre, ann⟩) ↔ (cr = true) then 0 else
        ((e * jwSign (toLex x) (toggle (toLex x) (occupied FS ⟨false, cre, ann⟩)) : ℤ) : K) •
          ket K (toggle (toLex x) (occupied FS ⟨false, cre, ann⟩)) := by
      rw [hev, map_smul, show HOp.mode ⟨cr, x⟩ = ⟨cr, toLex x⟩ from rfl, fockOp_ket ⟨cr, toLex x⟩]
      by_cases hc : (toLex x ∈ occupied FS ⟨false, cre, ann⟩) ↔ (cr = true)
      · rw [if_pos hc, if_pos hc, smul_zero]
      · rw [if_neg hc, if_neg hc, smul_smul]; push_cast; rfl
    have hsign : e * jwSign (toLex x) (toggle (toLex x) (occupied FS ⟨false, cre, ann⟩)) = 1 ∨
        e * jwSign (toLex x) (toggle (toLex x) (occupied FS ⟨false, cre, ann⟩)) = -1 := by
      rcases he with rfl | rfl <;> rcases jwSign_sign (toLex x) (toggle (toLex x) (occupied FS ⟨false, cre, ann⟩)) with
        h | h <;> simp [h]
    by_cases hd : disp x.1 < eF
    · simp only [hd, if_true] at hocc
      by_cases hxa : x ∈ ann
      · have hxo : ¬ toLex x ∈ occupied FS ⟨false, cre, ann⟩ := by rw [hocc]; simpa using hxa
        cases cr with
        | true =>
          -- reverse the annihilation
          have hst : step disp eF ⟨true, x⟩ ⟨false, cre, ann⟩ = ⟨false, cre, ann.erase x⟩ := by
            simp [step, createParticle, isInitiallyOccupied, hd, hxa]
          rw [hst, hvec, if_neg (by simp [hxo])]
          have m1' : ∀ y ∈ ann.erase x, toLex y ∈ FS ∧ disp y.1 < eF := fun y hy => m1 y (List.mem_of_mem_erase hy)
          refine ⟨by simp, fun _ => ⟨⟨_, hsign, ?_⟩, n1.erase x, n2, m1', m2⟩⟩
          congr 2
          refine (occupied_toggle ho ?_ ?_).symm
          · intro y hy; simp [List.mem_erase_of_ne hy]
          · rw [mem_occupied (s := ⟨false, cre, ann.erase x⟩) ho m1' m2]
            simp [hd, hxo, n1.not_mem_erase]
        | false =>
          have hst : step disp eF ⟨false, x⟩ ⟨false, cre, ann⟩ = ⟨true, cre, ann⟩ := by
            simp [step, annihilateParticle, isInitiallyOccupied, hd, hxa]
          rw [hst, hvec, if_pos (by simp [hxo])]
          simp [Inv]
      · have hxo : toLex x ∈ occupied FS ⟨false, cre, ann⟩ := by rw [hocc]; simpa using hxa
        cases cr with
        | true =>
          have hst : step disp eF ⟨true, x⟩ ⟨false, cre, ann⟩ = ⟨true, cre, ann⟩ := by
            simp [step, createParticle, isInitiallyOccupied, hd, hxa]
          rw [hst, hvec, if_pos (by simp [hxo])]
          simp [Inv]
        | false =>
          have hst : step disp eF ⟨false, x⟩ ⟨false, cre, ann⟩ = ⟨false, cre, ann ++ [x]⟩ := by
            simp [step, annihilateParticle, isInitiallyOccupied, hd, hxa]
          rw [hst, hvec, if_neg (by simp [hxo])]
          have m1' : ∀ y ∈ ann ++ [x], toLex y ∈ FS ∧ disp y.1 < eF := by
            intro y hy
            rcases List.mem_append.1 hy with hy | hy
            · exact m1 y hy
            · rw [List.mem_singleton.1 hy]; exact ⟨ho.2 hd, hd⟩
          refine ⟨by simp, fun _ => ⟨⟨_, hsign, ?_⟩, ?_, n2, m1', m2⟩⟩
          · congr 2
            refine (occupied_toggle ho ?_ ?_).symm
            · intro y hy; simp [hy]
            · rw [mem_occupied (s := ⟨false, cre, ann ++ [x]⟩) ho m1' m2]
              simp [hd, hxo]
          · simp only [List.nodup_append, n1, true_and]
            refine ⟨by simp, ?_⟩
            intro a ha b hb; rw [List.mem_singleton.1 hb]; rintro rfl; exact hxa ha
    · simp only [hd, if_false] at hocc
      by_cases hxc : x ∈ cre
      · have hxo : toLex x ∈ occupied FS ⟨false, cre, ann⟩ := by rw [hocc]; exact hxc
        cases cr with
        | true =>
          have hst : step disp eF ⟨true, x⟩ ⟨false, cre, ann⟩ = ⟨true, cre, ann⟩ := by
            simp [step, createParticle, isInitiallyOccupied, hd, hxc]
          rw [hst, hvec, if_pos (by simp [hxo])]
          simp [Inv]
        | false =>
          have hst : step disp eF ⟨false, x⟩ ⟨false, cre, ann⟩ = ⟨false, cre.erase x, ann⟩ := by
            simp [step, annihilateParticle, isInitiallyOccupied, hd, hxc]
          rw [hst, hvec, if_neg (by simp [hxo])]
          have m2' : ∀ y ∈ cre.erase x, toLex y ∉ FS ∧ ¬ disp y.1 < eF := fun y hy => m2 y (List.mem_of_mem_erase hy)
          refine ⟨by simp, fun _ => ⟨⟨_, hsign, ?_⟩, n1, n2.erase x, m1, m2'⟩⟩
          congr 2
          refine (occupied_toggle ho ?_ ?_).symm
          · intro y hy; simp [List.mem_erase_of_ne hy]
          · rw [mem_occupied (s := ⟨false, cre.erase x, ann⟩) ho m1 m2']
            simp [hd, hxo, n2.not_mem_erase]
      · have hxo : ¬ toLex x ∈ occupied FS ⟨false, cre, ann⟩ := by rw [hocc]; exact hxc
        cases cr with
        | true =>
          have hst : step disp eF ⟨true, x⟩ ⟨false, cre, ann⟩ = ⟨false, cre ++ [x], ann⟩ := by
            simp [step, createParticle, isInitiallyOccupied, hd, hxc]
          rw [hst, hvec, if_neg (by simp [hxo])]
          have m2' : ∀ y ∈ cre ++ [x], toLex y ∉ FS ∧ ¬ disp y.1 < eF := by
            intro y hy
            rcases List.mem_append.1 hy with hy | hy
            · exact m2 y hy
            · rw [List.mem_singleton.1 hy]; exact ⟨fun h => hd (ho.1 h), hd⟩
          refine ⟨by simp, fun _ => ⟨⟨_, hsign, ?_⟩, n1, ?_, m1, m2'⟩⟩
          · congr 2
            refine (occupied_toggle ho ?_ ?_).symm
            · intro y hy; simp [hy]
            · rw [mem_occupied (s := ⟨false, cre ++ [x], ann⟩) ho m1 m2']
              simp [hd, hxo]
          · simp only [List.nodup_append, n2, true_and]
            refine ⟨by simp, ?_⟩
            intro a ha b hb; rw [List.mem_singleton.1 hb]; rintro rfl; exact hxc ha
        | false =>
          have hst : step disp eF ⟨false, x⟩ ⟨false, cre, ann⟩ = ⟨true, cre, ann⟩ := by
            simp [step, annihilateParticle, isInitiallyOccupied, hd, hxc]
          rw [hst, hvec, if_pos (by simp [hxo])]
          simp [Inv]

theorem step_vanished {s : FermiSea} (h : s.vanishes = true) (o : HOp) : step disp eF o s = s := by
  unfold step createParticle annihilateParticle
  cases o.creator <;> simp [h]

theorem inv_loop (os : List HOp) : ∀ {s : FermiSea} {v : Finset Mode → K}, Inv K disp eF FS s v →
    (∀ o ∈ os, toLex o.index ∈ FS ↔ disp o.index.1 < eF) →
    Inv K disp eF FS (loop disp eF os s) (fockMono K os.reverse v) := by
  induction os with
  | nil => intro s v h _; simpa [loop, fockMono, fockWord] using h
  | cons o os ih =>
    intro s v h ho
    have h1 := inv_step h o (ho o (by simp))
    have e : fockMono K (o :: os).reverse v = fockMono K os.reverse (fockOp K (HOp.mode o) v) := by
      rw [List.reverse_cons, fockMono_append, fockMono_cons]
      simp [fockMono, fockWord]
    rw [e]
    unfold loop
    by_cases hv : (step disp eF o s).vanishes = true
    · simp only [hv, if_true]
      refine ⟨fun _ => ?_, fun h' => absurd hv (by simp [h'])⟩
      rw [h1.1 hv, map_zero]
    · simp only [hv]
      exact ih h1 (fun o ho' => ho o (by simp [ho']))

end

/-! ### Sequences of calls -/

/-- A call of a member function of the class. -/
inductive Call where
  | monomial (m : HMonomial)
  | operator (o : HOp)
  | create (x : ℕ × Bool)
  | annihilate (x : ℕ × Bool)

/-- The operator product a call applies to the state. -/
def Call.product : Call → HMonomial
  | monomial m => m
  | operator o => [o]
  | create x => [⟨true, x⟩]
  | annihilate x => [⟨false, x⟩]

/-- The effect of a call on the object. -/
def Call.exec (disp : ℕ → E) (eF : E) : Call → FermiSea → FermiSea
  | monomial m, s => (applyMonomial disp eF m s).1
  | operator o, s => (applyOperator disp eF o s).1
  | create x, s => (createParticle disp eF x s).1
  | annihilate x, s => (annihilateParticle disp eF x s).1

/-- The object after a sequence of calls, starting from a default-constructed one. -/
def run (disp : ℕ → E) (eF : E) (calls : List Call) : FermiSea := calls.foldl (fun s c => c.exec disp eF s) {}

/-- The operator product applied by a sequence of calls: later calls stand further left. -/
def product (calls : List Call) : HMonomial := (calls.reverse.map Call.product).flatten

variable {K : Type*} [CommRing K] {disp : ℕ → E} {eF : E} {FS : Finset Mode}

theorem inv_exec (c : Call) {s : FermiSea} {v : Finset Mode → K} (h : Inv K disp eF FS s v)
    (hc : ∀ o ∈ c.product, toLex o.index ∈ FS ↔ disp o.index.1 < eF) :
    Inv K disp eF FS (c.exec disp eF s) (fockMono K c.product v) := by
  have single : ∀ o : HOp, fockMono K [o] v = fockOp K (HOp.mode o) v := by
    intro o; rw [fockMono_cons]; simp [fockMono, fockWord]
  cases c with
  | monomial m =>
    unfold Call.exec applyMonomial
    by_cases hv : s.vanishes = true
    · simp only [hv, if_true]
      refine ⟨fun _ => ?_, fun h' => absurd hv (by simp [h'])⟩
      rw [h.1 hv, map_zero]
    · simp only [hv]
      have := inv_loop m.reverse h (fun o ho => hc o (by simpa [Call.product] using ho))
      rw [List.reverse_reverse] at this
      exact inv_finish this
  | operator o =>
    unfold Call.exec applyOperator
    rw [Call.product, single]
    by_cases hv : s.vanishes = true
    · simp only [hv, if_true]
      refine ⟨fun _ => ?_, fun h' => absurd hv (by simp [h'])⟩
      rw [h.1 hv, map_zero]
    · simp only [hv]
      exact inv_finish (inv_step h o (hc o (by simp [Call.product])))
  | create x =>
    have := inv_step h ⟨true, x⟩ (hc ⟨true, x⟩ (by simp [Call.product]))
    rw [Call.product, single]
    simpa [step, Call.exec] using this
  | annihilate x =>
    have := inv_step h ⟨false, x⟩ (hc ⟨false, x⟩ (by simp [Call.product]))
    rw [Call.product, single]
    simpa [step, Call.exec] using this

theorem inv_foldl (calls : List Call) : ∀ {s : FermiSea} {v : Finset Mode → K}, Inv K disp eF FS s v →
    (∀ o ∈ product calls, toLex o.index ∈ FS ↔ disp o.index.1 < eF) →
    Inv K disp eF FS (calls.foldl (fun s c => c.exec disp eF s) s) (fockMono K (product calls) v) := by
  induction calls with
  | nil => intro s v h _; simpa [product, fockMono, fockWord] using h
  | cons c cs ih =>
    intro s v h hp
    have e : product (c :: cs) = product cs ++ c.product := by simp [product]
    rw [e] at hp ⊢
    rw [fockMono_append, List.foldl_cons]
    exact ih (inv_exec c h (fun o ho => hp o (by simp [ho]))) (fun o ho => hp o (by simp [ho]))

theorem inv_init (K : Type*) [CommRing K] (disp : ℕ → E) (eF : E) (FS : Finset Mode) :
    Inv K disp eF FS {} (ket K FS) := by
  refine ⟨by simp, fun _ => ⟨⟨1, Or.inl rfl, ?_⟩, by simp, by simp, by simp, by simp⟩⟩
  have : occupied FS {} = FS := by simp [occupied, modeSet]
  rw [this]; simp

/-- C32: after any sequence of calls, the object describes the operator product of the calls applied to the Fermi sea
`|FS⟩` (the occupation-number state in which exactly the modes with energy below the Fermi energy are occupied):
`vanishes` is set exactly when the product annihilates the Fermi sea; otherwise the result is, up to sign, the
occupation-number state in which the modes of the list `annihilated` (all from the Fermi sea, no repetition) are
missing and those of `created` (none from the Fermi sea, no repetition) are added; and `is_initial_fermi_sea` holds
exactly when the result is, up to sign, the Fermi sea. -/
theorem fermiSea_correct [Nontrivial K] (calls : List Call)
    (hFS : ∀ o ∈ product calls, toLex o.index ∈ FS ↔ disp o.index.1 < eF) :
    ((run disp eF calls).vanishes = true ↔ fockMono K (product calls) (ket K FS) = 0) ∧
    ((run disp eF calls).vanishes = false →
      (∃ e : ℤ, (e = 1 ∨ e = -1) ∧ fockMono K (product calls) (ket K FS) =
        (e : K) • ket K ((FS \ modeSet (run disp eF calls).annihilated) ∪ modeSet (run disp eF calls).created)) ∧
      (run disp eF calls).annihilated.Nodup ∧ (run disp eF calls).created.Nodup ∧
      modeSet (run disp eF calls).annihilated ⊆ FS ∧ Disjoint (modeSet (run disp eF calls).created) FS) ∧
    ((run disp eF calls).isInitial = true ↔
      ∃ e : ℤ, (e = 1 ∨ e = -1) ∧ fockMono K (product calls) (ket K FS) = (e : K) • ket K FS) := by
  have inv := inv_foldl (K := K) calls (inv_init K disp eF FS) hFS
  change Inv K disp eF FS (run disp eF calls) _ at inv
  generalize run disp eF calls = s at inv
  generalize fockMono K (product calls) (ket K FS) = v at inv
  have sub : s.vanishes = false → modeSet s.annihilated ⊆ FS := by
    intro hs x hx
    simp only [modeSet, List.mem_toFinset, List.mem_map] at hx
    obtain ⟨y, hy, rfl⟩ := hx
    exact ((inv.2 hs).2.2.2.1 y hy).1
  have disj : s.vanishes = false → Disjoint (modeSet s.created) FS := by
    intro hs
    rw [Finset.disjoint_left]
    intro x hx
    simp only [modeSet, List.mem_toFinset, List.mem_map] at hx
    obtain ⟨y, hy, rfl⟩ := hx
    exact ((inv.2 hs).2.2.2.2 y hy).1
  refine ⟨⟨inv.1, fun h => ?_⟩, fun hs => ?_, ?_⟩
  · by_contra hv
    obtain ⟨⟨e, he, hev⟩, _⟩ := inv.2 (by simpa using hv)
    exact sign_smul_ket_ne he (hev.symm.trans h)
  · obtain ⟨h1, n1, n2, _⟩ := inv.2 hs
    exact ⟨h1, n1, n2, sub hs, disj hs⟩
  · constructor
    · intro hi
      simp only [isInitial, Bool.and_eq_true, Bool.not_eq_true', List.isEmpty_iff] at hi
      obtain ⟨⟨hv, hc⟩, ha⟩ := hi
      obtain ⟨⟨e, he, hev⟩, _⟩ := inv.2 hv
      refine ⟨e, he, ?_⟩
      rw [hev, occupied, hc, ha]
      simp [modeSet]
    · rintro ⟨e, he, hev⟩
      have hv : s.vanishes = false := by
        by_contra hv
        rw [inv.1 (by simpa using hv)] at hev
        exact sign_smul_ket_ne he hev.symm
      obtain ⟨⟨e', he', hev'⟩, _, _, m1, m2⟩ := inv.2 hv
      have hocc := ket_inj he (hev.symm.trans hev')
      have hc : s.created = [] := by
        rw [List.eq_nil_iff_forall_not_mem]
        intro x hx
        have : toLex x ∈ FS := by
          rw [hocc]; simp [occupied, mem_modeSet, hx]
        exact (m2 x hx).1 this
      have ha : s.annihilated = [] := by
        rw [List.eq_nil_iff_forall_not_mem]
        intro x hx
        have h1 := (m1 x hx).1
        rw [hocc] at h1
        simp [occupied, mem_modeSet, hx, hc] at h1
      simp [isInitial, hv, hc, ha]

/-- C32: after `apply_monomial` or `apply_operator` the lists of a surviving state are sorted. -/
theorem fermiSea_sorted (m : HMonomial) (o : HOp) (s : FermiSea) (t : FermiSea)
    (ht : t = (applyMonomial disp eF m s).1 ∨ t = (applyOperator disp eF o s).1) (hv : t.vanishes = false) :
    (t.created.map toLex : List Mode).Pairwise (· ≤ ·) ∧ (t.annihilated.map toLex : List Mode).Pairwise (· ≤ ·) := by
  have srt : ∀ l, ((sortList l).map toLex : List Mode).Pairwise (· ≤ ·) := by
    intro l
    rw [List.pairwise_map]
    have : Std.Total (fun x y : ℕ × Bool => tupleLE x y = true) := ⟨fun x y => by
      simp only [tupleLE, decide_eq_true_eq]; exact le_total _ _⟩
    have : IsTrans (ℕ × Bool) (fun x y => tupleLE x y = true) := ⟨fun x y z => by
      simp only [tupleLE, decide_eq_true_eq]; exact le_trans⟩
    exact (List.pairwise_insertionSort (fun x y : ℕ × Bool => tupleLE x y = true) l).imp
      (fun h => by simpa [tupleLE] using h)
  have fin : ∀ s : FermiSea, (finish s).vanishes = false →
      ((finish s).created.map toLex : List Mode).Pairwise (· ≤ ·) ∧
      ((finish s).annihilated.map toLex : List Mode).Pairwise (· ≤ ·) := by
    intro s hs
    have : s.vanishes = false := by
      by_contra h
      have h : s.vanishes = true := by simpa using h
      simp [finish, h] at hs
    simp only [finish, this, Bool.not_false, if_true]
    exact ⟨srt _, srt _⟩
  by_cases hs : s.vanishes = true
  · rcases ht with rfl | rfl
    · simp [applyMonomial, hs] at hv
    · simp [applyOperator, hs] at hv
  · rcases ht with rfl | rfl
    · simp only [applyMonomial, hs] at hv ⊢
      exact fin _ hv
    · simp only [applyOperator, hs] at hv ⊢
      exact fin _ hv

/-- C33, what holds: a call of `apply_monomial` or `apply_operator` on a state that has not vanished returns `true`
exactly when the state has vanished afterwards. -/
theorem fermiSea_return_partial (m : HMonomial) (o : HOp) (s : FermiSea) (hs : s.vanishes = false) :
    (applyMonomial disp eF m s).2 = (applyMonomial disp eF m s).1.vanishes ∧
    (applyOperator disp eF o s).2 = (applyOperator disp eF o s).1.vanishes := by
  simp [applyMonomial, applyOperator, hs]

/-- C33 is false of the code: on a state that has vanished before, both functions return `false`, although the state
has vanished afterwards; so the same vanished product is reported as `true` when it vanishes during the call and as
`false` when it vanished before it. -/
theorem fermiSea_return_wrong (m : HMonomial) (o : HOp) (s : FermiSea) (hs : s.vanishes = true) :
    (applyMonomial disp eF m s).1.vanishes = true ∧ (applyMonomial disp eF m s).2 = false ∧
    (applyOperator disp eF o s).1.vanishes = true ∧ (applyOperator disp eF o s).2 = false := by
  simp [applyMonomial, applyOperator, hs]

/-- C33: `create_particle` and `annihilate_particle` return `true` exactly when the state has not vanished afterwards
(also for states that vanished before): the opposite convention of `apply_monomial`. -/
theorem fermiSea_particle_return (x : ℕ × Bool) (s : FermiSea) :
    (createParticle disp eF x s).2 = !(createParticle disp eF x s).1.vanishes ∧
    (annihilateParticle disp eF x s).2 = !(annihilateParticle disp eF x s).1.vanishes := by
  unfold createParticle annihilateParticle
  cases hv : s.vanishes <;> constructor <;> (try simp [hv]) <;> split_ifs <;> simp [hv]

/-- C33, concrete witness: annihilating an empty mode with one call of `c_0 c_0` reports `true`; with two calls of
`c_0`, the second call reports `false`. -/
example :
    (applyMonomial (fun k : ℕ => (k : ℤ)) 0 [⟨false, (0, true)⟩, ⟨false, (0, true)⟩] {}).2 = true ∧
    (applyMonomial (fun k : ℕ => (k : ℤ)) 0 [⟨false, (0, true)⟩]
      (applyMonomial (fun k : ℕ => (k : ℤ)) 0 [⟨false, (0, true)⟩] {}).1).2 = false := by decide

/-- Non-vacuity of C32: momenta 0..3 with energies -2,-1,1,2 and Fermi energy 0; move a particle from momentum 1 to
momentum 2, then annihilate it again. -/
example : ∀ o ∈ product [.monomial [⟨true, (2, true)⟩, ⟨false, (1, true)⟩], .annihilate (2, true)],
    (toLex o.index ∈ modeSet [(0, true), (0, false), (1, true), (1, false)] ↔
      (if o.index.1 < 2 then (o.index.1 : ℤ) - 2 else o.index.1 - 1) < 0) := by decide

example : run (fun k : ℕ => (if k < 2 then (k : ℤ) - 2 else k - 1)) 0
    [.monomial [⟨true, (2, true)⟩, ⟨false, (1, true)⟩], .annihilate (2, true)] = ⟨false, [], [(1, true)]⟩ := by decide

end FermiSea
end MomentumSpace

end Ieompp
