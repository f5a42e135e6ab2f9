import Verif.Model.Commutator
import Verif.Model.Print
import Verif.Model.HubbardBasis
import Mathlib.Order.Basic
import Mathlib.Data.List.Lex
import Mathlib.Data.Char

/-!
# Model of the programs `hubbard_commutators_momentum_space` and `hubbard_commutators_real_space`, and of the printing of terms

`include/ieompp/algebra/{kronecker,term/io}.hpp`, `include/ieompp/symbolic/prefactor.hpp`,
`src/hubbard/hubbard_commutators_{momentum,real}_space.cpp`. The outcome of a program is the text it prints.

`make_creator("k", true)` builds an `Operator<const char*, bool>`: the first index is a pointer to a string literal. Comparing
two such indices compares the addresses, and whether two literals with the same text have the same address is up to the
compiler; the addresses are a parameter. `shw` is what `<<` prints for a number. `std::sort` enters as any function `sort`.
-/

set_option autoImplicit false

namespace Ieompp.Program

open IO

/-- A string literal: its address and the characters stored there. Different texts have different addresses, so that the
equality of pairs used here is the equality of addresses used by the program. hubbard_commutators_momentum_space.cpp:14-24. -/
structure Literal where
  address : ℕ
  text : Text
  deriving DecidableEq

/-- The types of the two indices of `Operator<const char*, bool>`.
operator/operator.hpp:109-162 with the types of hubbard_commutators_momentum_space.cpp:14-24. -/
def PFam : Fin 2 → Type
  | 0 => Literal
  | 1 => Bool

instance : ∀ i, DecidableEq (PFam i)
  | 0 => inferInstanceAs (DecidableEq Literal)
  | 1 => inferInstanceAs (DecidableEq Bool)

/-- `Operator<const char*, bool>`. operator/operator.hpp:109-162. -/
abbrev POp := Op (∀ i, PFam i)

/-- operator/operator.hpp: `index1`. -/
def POp.site (x : POp) : Literal := x.index 0
/-- operator/operator.hpp: `index2`. -/
def POp.spin (x : POp) : Bool := x.index 1

/-- `Term<Prefactor<double>, Operator<const char*, bool>>`.
term/term.hpp:13-21, the type of hubbard_commutators_momentum_space.cpp:26. -/
abbrev PTerm (K : Type*) := Term (Prefactor K Text) POp

/-- operator/make.hpp:21-26, 42-47: `make_creator(index1, index2)`, `make_annihilator(index1, index2)`. -/
def makeOp (creator : Bool) (l : Literal) (spin : Bool) : POp :=
  ⟨creator, fun | 0 => l | 1 => spin⟩

/-- is_symbolic.hpp:32-36: `const char*` is not arithmetic, `bool` is. -/
def psym (i : Fin 2) : Bool := i = 0

/-- The implicit conversion of an index to `std::string` in the call of `make_kronecker`. anticommutator.hpp:52, 68. -/
def pstr : ∀ i, PFam i → Text
  | 0, l => Literal.text l
  | 1, _ => []

section
variable {K : Type*} [CommRing K] [DecidableEq K]

/-- operator/io.hpp:65-78 for `Operator<const char*, bool>`. -/
def printPOp (x : POp) : Text := printOperator2 x.creator (.other x.site.text) (.boolean x.spin)

/-- kronecker.hpp:34-38. -/
def printKronecker (k : Kronecker Text) : Text := ['δ', '_', '{'] ++ k.a ++ [','] ++ k.b ++ ['}']

/-- `std::copy(v.begin(), --v.end(), std::ostream_iterator<T>(strm, " ")); strm << v.back();` for a vector which is not
empty; undefined for an empty one. term/io.hpp:16-18, prefactor.hpp:99-102. -/
def printSeparated {τ : Type*} (f : τ → Text) (l : List τ) : Res Text :=
  if h : l = [] then .ub else .val ((l.dropLast.map fun x => f x ++ [' ']).flatten ++ f (l.getLast h))

/-- symbolic/prefactor.hpp:88-104. -/
def printPrefactor (shw : K → Text) (p : Prefactor K Text) : Res Text :=
  if p.kroneckers.isEmpty then .val (shw p.value)
  else
    let head := if p.value = -1 then ['-'] else if p.value ≠ 1 then shw p.value ++ [' ', '⋅', ' '] else []
    (printSeparated printKronecker p.kroneckers).map fun t => head ++ t

/-- term/io.hpp:13-21. -/
def printTerm (shw : K → Text) (t : PTerm K) : Res Text :=
  (printPrefactor shw t.prefactor).bind fun p => (printSeparated printPOp t.operators).map fun o => p ++ [' ', '⋅', ' '] ++ o

/-- symbolic/prefactor.hpp:62-77, with `sort` for `std::sort` and the comparator `krLess`. -/
def orderTerm (sort : List (Kronecker Text) → List (Kronecker Text)) (t : PTerm K) : PTerm K :=
  { t with prefactor := { t.prefactor with kroneckers := sort (t.prefactor.kroneckers.map Kronecker.order) } }

/-- The calls `commutate(h, t, comm)` for all `h`. hubbard_commutators_momentum_space.cpp:32-33. -/
def commutators (hs : List (PTerm K)) (t : PTerm K) (comm : List (PTerm K)) : Res (List (PTerm K)) :=
  match hs with
  | [] => .val comm
  | h :: hs =>
    match commutateSym psym pstr h t comm with
    | some comm => commutators hs t comm
    | none => .ub

/-- The loop `for(auto& t : comm) { t.prefactor.order_kroneckers(); cout << "\t\t" << t << '\n'; }`.
hubbard_commutators_momentum_space.cpp:34-37. -/
def printLoop (sort : List (Kronecker Text) → List (Kronecker Text)) (shw : K → Text) : List (PTerm K) → Res Text
  | [] => .val []
  | t :: ts => (printTerm shw (orderTerm sort t)).bind fun x =>
    (printLoop sort shw ts).map fun rest => ['\t', '\t'] ++ x ++ ['\n'] ++ rest

/-- hubbard_commutators_momentum_space.cpp:32-41 and the other blocks: the terms of the commutator, each on a line. -/
def printCommutators (sort : List (Kronecker Text) → List (Kronecker Text)) (shw : K → Text) (hs : List (PTerm K))
    (t : PTerm K) : Res Text :=
  (commutators hs t []).bind (printLoop sort shw)

/-- `make_term(symbolic::make_prefactor(1.), {…})`. hubbard_commutators_momentum_space.cpp:14. -/
def makeTerm (ops : List POp) : PTerm K := ⟨⟨1, []⟩, ops⟩

/-! ## hubbard_commutators_momentum_space.cpp; `addr n` is the address of the `n`-th literal with operator indices -/

section
variable (addr : ℕ → ℕ)

/-- hubbard_commutators_momentum_space.cpp:14-15. -/
def hopping1k : PTerm K := makeTerm [makeOp true ⟨addr 0, ['k']⟩ true, makeOp false ⟨addr 1, ['k']⟩ true]
/-- hubbard_commutators_momentum_space.cpp:16-17. -/
def hopping2k : PTerm K := makeTerm [makeOp true ⟨addr 2, ['k']⟩ false, makeOp false ⟨addr 3, ['k']⟩ false]
/-- hubbard_commutators_momentum_space.cpp:18-20. -/
def interactionk : PTerm K := makeTerm [makeOp true ⟨addr 4, ['k', '_', '1']⟩ true, makeOp false ⟨addr 5, ['k', '_', '2']⟩ true,
  makeOp true ⟨addr 6, ['k', '_', '3']⟩ false, makeOp false ⟨addr 7, ['k', '_', '4']⟩ false]
/-- hubbard_commutators_momentum_space.cpp:21. -/
def t1k : PTerm K := makeTerm [makeOp true ⟨addr 8, ['q']⟩ true]
/-- hubbard_commutators_momentum_space.cpp:22-24. -/
def t2k : PTerm K := makeTerm [makeOp true ⟨addr 9, ['q', '_', '1']⟩ true, makeOp true ⟨addr 10, ['q', '_', '2']⟩ false,
  makeOp false ⟨addr 11, ['q', '_', '3']⟩ false]

/-- hubbard_commutators_momentum_space.cpp:29 etc.: `"\t[ " << h << " + " << h' << "  ,  " << t << " ]=\n"`. -/
def printHeading (shw : K → Text) (hs : List (PTerm K)) (t : PTerm K) : Res Text :=
  (MomentumSpace.collect (hs.map (printTerm shw))).bind fun xs => (printTerm shw t).map fun y =>
    ['\t', '[', ' '] ++ List.intercalate [' ', '+', ' '] xs ++ [' ', ' ', ',', ' ', ' '] ++ y ++ [' ', ']', '=', '\n']

/-- hubbard_commutators_momentum_space.cpp:12-75: everything printed, as the list of: title, heading and lines of the four
blocks, separators. -/
def commutatorsMomentum (sort : List (Kronecker Text) → List (Kronecker Text)) (shw : K → Text) : Res (List Text) :=
  let hopping := [hopping1k addr, hopping2k addr]
  let interaction := [interactionk addr]
  MomentumSpace.collect [.val "One operator:\n".toList,
    printHeading shw hopping (t1k addr), printCommutators sort shw hopping (t1k addr), .val ['\n'],
    printHeading shw interaction (t1k addr), printCommutators sort shw interaction (t1k addr), .val ['\n', '\n'],
    .val "Three operators:\n".toList,
    printHeading shw hopping (t2k addr), printCommutators sort shw hopping (t2k addr), .val ['\n'],
    printHeading shw interaction (t2k addr), printCommutators sort shw interaction (t2k addr)]

/-! ## hubbard_commutators_real_space.cpp -/

/-- hubbard_commutators_real_space.cpp:14-21: the four hopping terms. -/
def hoppingr : List (PTerm K) :=
  let ri := ['r', '_', 'i']
  let rj := ['r', '_', 'i', '+', 'δ', '_', 'j']
  [makeTerm [makeOp true ⟨addr 0, ri⟩ true, makeOp false ⟨addr 1, rj⟩ true],
   makeTerm [makeOp true ⟨addr 2, rj⟩ true, makeOp false ⟨addr 3, ri⟩ true],
   makeTerm [makeOp true ⟨addr 4, ri⟩ false, makeOp false ⟨addr 5, rj⟩ false],
   makeTerm [makeOp true ⟨addr 6, rj⟩ false, makeOp false ⟨addr 7, ri⟩ false]]

/-- hubbard_commutators_real_space.cpp:22-24. -/
def interactionr : PTerm K :=
  let ri := ['r', '_', 'i']
  makeTerm [makeOp true ⟨addr 8, ri⟩ true, makeOp false ⟨addr 9, ri⟩ true, makeOp true ⟨addr 10, ri⟩ false,
    makeOp false ⟨addr 11, ri⟩ false]

/-- hubbard_commutators_real_space.cpp:25. -/
def t1r : PTerm K := makeTerm [makeOp true ⟨addr 12, ['ρ']⟩ true]
/-- hubbard_commutators_real_space.cpp:26-28. -/
def t2r : PTerm K := makeTerm [makeOp true ⟨addr 13, ['ρ', '_', '1']⟩ true, makeOp true ⟨addr 14, ['ρ', '_', '2']⟩ false,
  makeOp false ⟨addr 15, ['ρ', '_', '3']⟩ false]

/-- hubbard_commutators_real_space.cpp:32-41: a term on a line of its own. -/
def printLine (shw : K → Text) (t : PTerm K) : Res Text := (printTerm shw t).map fun x => ['\t'] ++ x ++ ['\n']

/-- hubbard_commutators_real_space.cpp:12-94: everything printed. -/
def commutatorsReal (sort : List (Kronecker Text) → List (Kronecker Text)) (shw : K → Text) : Res (List Text) :=
  MomentumSpace.collect ([.val "Kinetic terms in Hamiltonian\n".toList] ++ (hoppingr addr).map (printLine shw) ++ [.val ['\n'],
    .val "Interaction terms in Hamiltonian\n".toList, printLine shw (interactionr addr), .val ['\n'],
    .val "One operator:\n".toList, .val "\tKinetic terms:\n".toList, printCommutators sort shw (hoppingr addr) (t1r addr), .val ['\n'],
    .val "\tInteraction terms:\n".toList, printCommutators sort shw [interactionr addr] (t1r addr), .val ['\n', '\n'],
    .val "Three operators:\n".toList, .val "\tKinetic terms:\n".toList, printCommutators sort shw (hoppingr addr) (t2r addr),
    .val ['\n'], .val "\tInteraction terms:\n".toList, printCommutators sort shw [interactionr addr] (t2r addr)])

end

end

end Ieompp.Program
