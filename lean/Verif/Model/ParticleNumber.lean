import Verif.Model.FermiSea
import Verif.Model.Number
import Mathlib.Algebra.Ring.Defs

/-!
# Model of `include/ieompp/models/hubbard_momentum_space/{non_vanishing_expectation_values,particle_number}.hpp`

`basis[i]`, `basis[i][k]`, `states[i]` and `vec[i]` outside the container are undefined behaviour (`Res.ub`).
-/

set_option autoImplicit false

namespace Ieompp.MomentumSpace

/-- non_vanishing_expectation_values.hpp:17-24. -/
structure Contribution (S : Type*) where
  left : ℕ
  right : ℕ
  value : S

/-- `v[i]` for a vector. particle_number.hpp:46-53. -/
def vecAt {τ : Type*} (v : List τ) (i : ℕ) : Res τ :=
  match v[i]? with
  | some x => .val x
  | none => .ub

/-- `basis[i][k]`. non_vanishing_expectation_values.hpp:70-74. -/
def opAt (b : List HMonomial) (i k : ℕ) : Res HOp := (vecAt b i).bind fun m => vecAt m k

section
variable {E : Type*} [LinearOrder E] {S : Type*} [Ring S]
variable (basis conj : List HMonomial) (disp : ℕ → E) (eF : E)

open FermiSea

/-- non_vanishing_expectation_values.hpp:45-49: `states[i] = b_i^† |FS>`. -/
def states : Res (List FermiSea) :=
  collect ((List.range basis.length).map fun i => (vecAt conj i).map fun m => (applyMonomial disp eF m {}).1)

/-- `state = s; state.apply_monomial(m, ...); state.is_initial_fermi_sea()`. non_vanishing_expectation_values.hpp:52-54. -/
def testMonomial (s : FermiSea) (m : HMonomial) : Bool := (applyMonomial disp eF m s).1.isInitial

/-- `state = s; state.apply_operator(o, ...); state.is_initial_fermi_sea()`. non_vanishing_expectation_values.hpp:133-135. -/
def testOperator (s : FermiSea) (o : HOp) : Bool := (applyOperator disp eF o s).1.isInitial

/-- `state = State(); state.apply_operator(o1, ...); state.apply_operator(o2, ...); state.is_initial_fermi_sea()`.
non_vanishing_expectation_values.hpp:72-75. -/
def testOperators (o1 o2 : HOp) : Bool := testOperator disp eF (applyOperator disp eF o1 {}).1 o2

/-- non_vanishing_expectation_values.hpp:51-56: the entry (0, 0). -/
def entry00 (st : List FermiSea) : Res (List (Contribution S)) :=
  (vecAt st 0).bind fun s0 => (vecAt basis 0).bind fun b0 =>
    .val (if testMonomial disp eF s0 b0 then [⟨0, 0, 1⟩] else [])

/-- non_vanishing_expectation_values.hpp:59-84: the entry (i, 0). -/
def entryI0 (st : List FermiSea) (i : ℕ) : Res (List (Contribution S)) :=
  (vecAt st 0).bind fun s0 => (vecAt basis i).bind fun bi =>
  let t1 := testMonomial disp eF s0 bi
  (opAt basis i 1).bind fun o1 => (opAt basis i 2).bind fun o2 =>
  let kronecker := o1.index.1 = o2.index.1
  (if kronecker then (opAt conj 0 0).bind fun c00 => (opAt basis i 0).bind fun bi0 =>
      .val (testOperators disp eF c00 bi0) else .val false).bind fun t2 =>
  .val (if t1 || t2 then [⟨i, 0, (if t1 then 2 else 0) + (if t2 then 1 else 0)⟩] else [])

/-- non_vanishing_expectation_values.hpp:87-113: the entry (0, i). -/
def entry0I (st : List FermiSea) (i : ℕ) : Res (List (Contribution S)) :=
  (vecAt st i).bind fun si => (vecAt basis 0).bind fun b0 =>
  let t1 := testMonomial disp eF si b0
  (opAt conj i 0).bind fun o0 => (opAt conj i 1).bind fun o1 =>
  let kronecker := o0.index.1 = o1.index.1
  (if kronecker then (opAt conj i 2).bind fun ci2 => (opAt basis 0 0).bind fun b00 =>
      .val (testOperators disp eF ci2 b00) else .val false).bind fun t2 =>
  .val (if t1 || t2 then [⟨0, i, (if t1 then 2 else 0) + (if t2 then 1 else 0)⟩] else [])

/-- non_vanishing_expectation_values.hpp:116-165: the entry (i, j). -/
def entryIJ (st : List FermiSea) (i j : ℕ) : Res (List (Contribution S)) :=
  (vecAt st j).bind fun sj => (vecAt basis i).bind fun bi =>
  let t1 := testMonomial disp eF sj bi
  (opAt basis i 1).bind fun o1 => (opAt basis i 2).bind fun o2 =>
  let kronecker1 := o1.index.1 = o2.index.1
  (opAt conj j 0).bind fun p0 => (opAt conj j 1).bind fun p1 =>
  let kronecker2 := p0.index.1 = p1.index.1
  (if kronecker1 then (opAt basis 0 0).bind fun b00 => .val (testOperator disp eF sj b00)
    else .val false).bind fun t2 =>
  (if kronecker2 then (vecAt st 0).bind fun s0 => .val (testMonomial disp eF s0 bi) else .val false).bind fun t3 =>
  (if kronecker1 ∧ kronecker2 then (opAt conj j 2).bind fun cj2 => (opAt basis i 0).bind fun bi0 =>
      .val (testOperators disp eF cj2 bi0) else .val false).bind fun t4 =>
  .val (if t1 || t2 || t3 || t4 then
    [⟨i, j, (if t1 then 4 else 0) + (if t2 then 2 else 0) + (if t3 then 2 else 0) + (if t4 then 1 else 0)⟩] else [])

/-- non_vanishing_expectation_values.hpp:33-166: the constructor. -/
def nonVanishing : Res (List (Contribution S)) :=
  (states basis conj disp eF).bind fun st =>
  let idx := (List.range basis.length).tail
  (collect ([entry00 basis disp eF st] ++ idx.map (entryI0 basis conj disp eF st) ++
    idx.map (entry0I basis conj disp eF st) ++
    idx.flatMap fun i => idx.map fun j => entryIJ basis conj disp eF st i j)).map List.flatten

end

/-- non_vanishing_expectation_values.hpp:170-179: the comparator of `sort`. -/
def contributionLess {S : Type*} (a b : Contribution S) : Bool :=
  if a.left < b.left then true else if a.left == b.left then decide (a.right < b.right) else false

/-- non_vanishing_expectation_values.hpp:168-180: `sort()`. `std::sort` may leave any arrangement `l'` of the elements of `l` that the comparator accepts (it is not
stable), so this is a relation. -/
def SortsTo {S : Type*} (l l' : List (Contribution S)) : Prop := l'.Perm l ∧ l'.Pairwise fun a b => contributionLess b a = false

/-- particle_number.hpp:45-55: one round of the loop of `operator()`. -/
noncomputable def particleStep (vec : List ℂ) (result : ℂ) (c : Contribution ℝ) : Res ℂ :=
  if c.left = c.right then
    (vecAt vec c.left).bind fun l => .val (result + ((Complex.normSq l * c.value : ℝ) : ℂ))
  else
    (vecAt vec c.left).bind fun l => (vecAt vec c.right).bind fun r =>
      .val (result + multiplyWithConjugate l r * (c.value : ℂ))

/-- particle_number.hpp:39-55: the accumulated complex result of `operator()`. -/
noncomputable def particleSum (vec : List ℂ) (table : List (Contribution ℝ)) : Res ℂ :=
  table.foldl (fun acc c => acc.bind fun r => particleStep vec r c) (.val 0)

/-- particle_number.hpp:39-60: `operator()`; the assertion on the imaginary part is a separate claim. -/
noncomputable def particleNumber (vec : List ℂ) (table : List (Contribution ℝ)) : Res ℝ :=
  (particleSum vec table).map Complex.re

end Ieompp.MomentumSpace
