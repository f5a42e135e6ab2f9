import Verif.Props.Log
import Verif.Props.MomentumMatrix

/-! # C101: what the messages say -/

set_option autoImplicit false
set_option linter.unusedSectionVars false

namespace Ieompp.Log

open IO (Text)
open Ieompp.Spec.Log

/-- An argument which can be formatted in every way. -/
def anyArg : Arg := fun _ => some []

theorem fill_any (ps : List Piece) (n : ℕ) : (fill ps (List.replicate n anyArg)).isSome = true ↔ holes ps ≤ n := by
  induction ps generalizing n with
  | nil => simp [fill, holes]
  | cons p ps ih =>
    cases p with
    | lit c =>
      simp only [fill, Option.isSome_map, ih]
      simp [holes]
    | hole s =>
      have e : holes (Piece.hole s :: ps) = holes ps + 1 := by simp [holes]
      rw [e]
      cases n with
      | zero => simp [fill]
      | succ n =>
        rw [List.replicate_succ, fill]
        rw [show anyArg (s.getD []) = some [] from rfl, Option.bind_some, Option.isSome_map, ih n]
        omega

/-- A call is in order if its format string is a template with as many place holders as there are arguments, and both kinds of
loggers log the template filled with the arguments. -/
def InOrder (c : Call) : Prop :=
  ∃ ps : List Piece, (∀ p ∈ ps, p.WF) ∧ source ps = c.format.toList ∧ holes ps = c.args ∧
    ∀ (fs : Bool) (args : List Arg), args.length = c.args → info fs c.format.toList args = fill ps args

/-- A test for calls which are in order. -/
def check (c : Call) : Bool :=
  (format .text c.format.toList (List.replicate c.args anyArg)).isSome &&
    (if c.args = 0 then decide ('{' ∉ c.format.toList ∧ '}' ∉ c.format.toList)
     else (format .text c.format.toList (List.replicate (c.args - 1) anyArg)).isNone)

theorem check_iff (c : Call) : check c = true ↔ InOrder c := by
  unfold check InOrder
  rw [Bool.and_eq_true]
  constructor
  · rintro ⟨h1, h2⟩
    obtain ⟨t, ht⟩ := Option.isSome_iff_exists.1 h1
    obtain ⟨ps, hw, hs, hf⟩ := (format_iff _ _ _).1 ht
    have hle : holes ps ≤ c.args := (fill_any ps c.args).1 (by rw [hf]; rfl)
    by_cases h0 : c.args = 0
    · rw [if_pos h0, decide_eq_true_eq] at h2
      refine ⟨ps, hw, hs, by omega, ?_⟩
      intro fs args ha
      rw [h0, List.length_eq_zero_iff] at ha
      subst ha
      have hl := (lone_message_iff _).2 h2
      have : info true c.format.toList [] = fill ps [] := by
        show format .text _ _ = _
        rw [← hs, format_source ps hw]
      rw [← this, hl fs, hl true]
    · rw [if_neg h0] at h2
      have hge : ¬ holes ps ≤ c.args - 1 := by
        rw [← fill_any ps, ← format_source ps hw, hs, Option.isNone_iff_eq_none.1 h2]
        simp
      refine ⟨ps, hw, hs, by omega, ?_⟩
      intro fs args ha
      have hne : args.isEmpty = false := by
        cases args with
        | nil => exact absurd ha.symm h0
        | cons a as => rfl
      simp only [info, hne, Bool.false_and, Bool.false_eq_true, if_false]
      rw [← hs, format_source ps hw]
  · rintro ⟨ps, hw, hs, hh, hi⟩
    have hfm : ∀ args, format .text c.format.toList args = fill ps args := by
      intro args; rw [← hs, format_source ps hw]
    refine ⟨?_, ?_⟩
    · rw [hfm, fill_any, hh]
    · split_ifs with h0
      · rw [decide_eq_true_eq]
        apply (lone_message_iff _).1
        intro fs
        rw [hi fs [] (by rw [h0]; rfl), ← hi false [] (by rw [h0]; rfl)]
        rfl
      · rw [hfm, Option.isNone_iff_eq_none, ← Option.not_isSome_iff_eq_none, fill_any]
        omega

/-- The calls which are not in order. -/
def notInOrder : List Call :=
  [⟨"real_space/fermi_jump.hpp", 13, .main, "Init <Δn_{{k_F,↑}}> observable for half-filled model", 0⟩,
   ⟨"real_space/fermi_jump.hpp", 19, .main, "Finished initializing <Δn_{{k_F,↑}}> observable", 0⟩,
   ⟨"real_space/fermi_jump_no.hpp", 12, .main, "Init <Δn_{{k_F,↑}}> observable for half-filled model", 0⟩,
   ⟨"real_space/fermi_jump_no.hpp", 17, .main, "Finished initializing <Δn_{{k_F,↑}}> observable", 0⟩,
   ⟨"real_space/periodic_chain.hpp", 10, .main, "Init periodic chain with N = {} sites", 0⟩,
   ⟨"real_space/periodic_square_lattice.hpp", 10, .main, "Init periodic square lattice with N = {} sites", 0⟩,
   ⟨"real_space/site_occupation.hpp", 13, .main, "Init <n_{0,↑}> observable for half-filled model", 0⟩,
   ⟨"real_space/site_occupation.hpp", 18, .main, "Finished initializing <n_{0,↑}> observable", 0⟩]

theorem calls_filter : calls.filter (fun c => !check c) = notInOrder := by
  decide +kernel

/-- **C101**: of the 165 calls of `info` in the programs exactly the eight listed are not in order. -/
theorem messages_partial (c : Call) (h : c ∈ calls) : InOrder c ↔ c ∉ notInOrder := by
  rw [← check_iff, ← calls_filter, List.mem_filter]
  simp [h]

/-- **C101** is false of the code: the message about the lattice never shows the number of sites; it is the same text for
every lattice, or no message at all. -/
theorem lattice_message_wrong (fs : Bool) :
    info fs "Init periodic chain with N = {} sites".toList [] =
      (if fs then none else some "Init periodic chain with N = {} sites".toList) ∧
    info fs "Init periodic square lattice with N = {} sites".toList [] =
      (if fs then none else some "Init periodic square lattice with N = {} sites".toList) := by
  cases fs <;> decide

/-- **C101** is false of the code: no kind of logger shows the name of both observables: if messages without arguments are
format strings, the messages about the site occupation are lost; if not, those about the Fermi jump have doubled braces. -/
theorem observable_message_wrong (fs : Bool) :
    ¬ (info fs "Init <n_{0,↑}> observable for half-filled model".toList [] =
        some "Init <n_{0,↑}> observable for half-filled model".toList ∧
      info fs "Init <Δn_{{k_F,↑}}> observable for half-filled model".toList [] =
        some "Init <Δn_{k_F,↑}> observable for half-filled model".toList) ∧
    ¬ (info fs "Finished initializing <n_{0,↑}> observable".toList [] =
        some "Finished initializing <n_{0,↑}> observable".toList ∧
      info fs "Finished initializing <Δn_{{k_F,↑}}> observable".toList [] =
        some "Finished initializing <Δn_{k_F,↑}> observable".toList) := by
  cases fs <;> decide

/-- **C101**: the message about the elements of the matrix gives the number of stored elements and the number of all elements,
and their quotient; the number before the percent sign is the percentage only if nothing is stored. -/
theorem filling_message {S : Type*} (m : Sparse S) (h : 0 < m.rows * m.columns) :
    (fillingValues m).1 = m.nonZeros ∧ (fillingValues m).2.1 = m.rows * m.columns ∧
    (fillingValues m).2.2 * (m.rows * m.columns : ℕ) = m.nonZeros ∧
    ((fillingValues m).2.2 = 100 * (m.nonZeros / (m.rows * m.columns : ℕ)) ↔ m.nonZeros = 0) := by
  have h' : ((m.rows * m.columns : ℕ) : ℚ) ≠ 0 := by exact_mod_cast h.ne'
  refine ⟨rfl, rfl, ?_, ?_⟩
  · show (m.nonZeros : ℚ) / (m.rows * m.columns : ℕ) * (m.rows * m.columns : ℕ) = m.nonZeros
    rw [div_mul_cancel₀ _ h']
  · show (m.nonZeros : ℚ) / (m.rows * m.columns : ℕ) = 100 * (m.nonZeros / (m.rows * m.columns : ℕ)) ↔ m.nonZeros = 0
    constructor
    · intro e
      have : (m.nonZeros : ℚ) / (m.rows * m.columns : ℕ) = 0 := by linarith
      rcases div_eq_zero_iff.1 this with h1 | h1
      · exact_mod_cast h1
      · exact absurd h1 h'
    · intro e; rw [e]; simp

/-- **C101** is false of the code: in momentum space, for every number of sites, the message shows `(3N² + 1)/(N² + 1)²`
before the percent sign, a hundredth of the percentage. -/
theorem filling_message_wrong {S : Type*} [Field S] {N : ℕ} (hN : 0 < N) (q : ℕ) (eps : ℕ → S) (U : S) :
    ∃ m, MomentumSpace.initMatrix (MomentumSpace.Spec.entries N q) N eps U N = .val m ∧
      (fillingValues m).2.2 = (3 * N ^ 2 + 1) / (N ^ 2 + 1) ^ 2 ∧
      (fillingValues m).2.2 ≠ 100 * (m.nonZeros / (m.rows * m.columns : ℕ)) := by
  obtain ⟨m, e, h1, h2, -, -, h3, -⟩ := MomentumSpace.momentumMatrix_ok hN q eps U
  refine ⟨m, e, ?_, ?_⟩
  · show (m.nonZeros : ℚ) / (m.rows * m.columns : ℕ) = _
    rw [h1, h2, h3]; push_cast; ring_nf
  · intro e'
    have := ((filling_message m (by rw [h1, h2]; positivity)).2.2.2).1 e'
    omega

/-- **C101** is false of the code: `clean_output_file` announces that it opens the output file, but opens its backup. -/
theorem oldFile_message_wrong (path : Text) : oldFileMessage path = (path, path ++ ".bak".toList) ∧ (oldFileMessage path).1 ≠ (oldFileMessage path).2 := by
  refine ⟨rfl, fun h => ?_⟩
  have := congrArg List.length h
  simp [oldFileMessage] at this

/-- Concrete cases. -/
example : info true "\t{} = {}".toList [Arg.plain "N".toList, Arg.plain "16".toList] = some "\tN = 16".toList := by decide
example : calls.length = 165 := by decide +kernel

end Ieompp.Log
