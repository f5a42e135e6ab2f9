import Verif.Model.Commutator
import Verif.Props.Monomial

/-!
# Operations whose arguments are part of the object they change

`p *= p`, `p *= p.kroneckers` (symbolic/prefactor.hpp), `t *= t` (algebra/term/term.hpp) and `commutate(c[i], c[j], c)`
(algebra/commutator.hpp).  The vectors are modelled with their capacity (`Vec`, Model/Monomial.lean); reading through an
iterator or reference into storage that was given back is undefined behaviour (`none`).
-/

set_option autoImplicit false

namespace Ieompp.Aliasing

/-! ### Prefactors and terms with the capacity of their vectors -/

/-- symbolic/prefactor.hpp:17-23: `Prefactor` with the allocation of its vector of deltas. -/
structure VPrefactor (V σ : Type*) where
  value : V
  kroneckers : Vec (Kronecker σ)

namespace VPrefactor
variable {V σ : Type*}

/-- The value of the object, without the allocation. symbolic/prefactor.hpp:17-23. -/
def toPrefactor (p : VPrefactor V σ) : Prefactor V σ := ⟨p.value, p.kroneckers.data⟩

/-- prefactor.hpp:31-35: `p *= p.kroneckers`. -/
def mulKroneckersSelf (grow : ℕ → ℕ) (p : VPrefactor V σ) : Option (VPrefactor V σ) :=
  (p.kroneckers.copySelf grow p.kroneckers.data.length 0 false).map fun v => { p with kroneckers := v }

/-- prefactor.hpp:25-29: `p *= p.kroneckers[i]`: `push_back` of an element of the vector itself, which the standard
library supports also when it reallocates. Access outside the vector is undefined behaviour. -/
def mulKroneckerSelf (grow : ℕ → ℕ) (p : VPrefactor V σ) (i : ℕ) : Option (VPrefactor V σ) :=
  p.kroneckers.data[i]?.map fun k => { p with kroneckers := (p.kroneckers.pushBack grow k).1 }

/-- prefactor.hpp:37-45: `p *= p`: the deltas are copied, then `value *= rhs.value`, where `rhs.value` is `value`. -/
def mulAssignSelf [Mul V] (grow : ℕ → ℕ) (p : VPrefactor V σ) : Option (VPrefactor V σ) :=
  (p.kroneckers.copySelf grow p.kroneckers.data.length 0 false).map fun v =>
    { value := p.value * p.value, kroneckers := v }

end VPrefactor

/-- algebra/term/term.hpp:13-21: `Term` with the allocation of its vector of operators. -/
structure VTerm (P ω : Type*) where
  prefactor : P
  operators : Vec ω

namespace VTerm
variable {P ω : Type*}

/-- The value of the object, without the allocation. algebra/term/term.hpp:13-21. -/
def toTerm (t : VTerm P ω) : Term P ω := ⟨t.prefactor, t.operators.data⟩

/-- term.hpp:51-57: `t *= t`.  `squareP` is `prefactor *= prefactor` (a number: always defined; a symbolic prefactor:
`VPrefactor.mulAssignSelf`). -/
def mulAssignSelf (squareP : P → Option P) (grow : ℕ → ℕ) (t : VTerm P ω) : Option (VTerm P ω) :=
  match squareP t.prefactor with
  | none => none
  | some p => (t.operators.copySelf grow t.operators.data.length 0 false).map fun v => ⟨p, v⟩

end VTerm

/-! ### `commutate` with arguments inside the result container -/

/-- The arguments `const Term&` of `commutate` (commutator.hpp:19): a term elsewhere, or the element `i` of the
container `c`. -/
inductive Arg (P ω : Type*) where
  | outside (t : Term P ω)
  | inside (i : ℕ)

variable {P ω : Type*}

/-- Reading the argument (commutator.hpp:30-33, 40, 43, 52-66): `dangling` tells whether the storage of `c` at the time of the
call was given back. -/
def Arg.read (v : Vec (Term P ω)) (dangling : Bool) : Arg P ω → Option (Term P ω)
  | outside t => some t
  | inside i => if dangling then none else v.data[i]?

/-- commutator.hpp:68: `c.emplace_back(new_term)` for the terms one iteration produces; the flag is raised when the
storage is reallocated. -/
def pushAll (grow : ℕ → ℕ) (s : Vec (Term P ω) × Bool) (ts : List (Term P ω)) : Vec (Term P ω) × Bool :=
  ts.foldl (fun s t => ((s.1.pushBack grow t).1, s.2 || (s.1.pushBack grow t).2)) s

/-- commutator.hpp:42-69: the body of the inner loop. -/
def aliasedStep (mul : P → P → P) (mulSign : P → ℤ → P) (anti : ω → ω → Bool) (acomm : ω → ω → P → P)
    (grow : ℕ → ℕ) (x y : Arg P ω) (s : Vec (Term P ω) × Bool) (kl : ℕ × ℕ) : Option (Vec (Term P ω) × Bool) :=
  match x.read s.1 s.2, y.read s.1 s.2 with
  | some a, some b => (commutateStep mul mulSign anti acomm a b kl.1 kl.2 []).map (pushAll grow s)
  | _, _ => none

/-- commutator.hpp:41-42: the pairs `(k, l)` in the order of the two loops. -/
def loopPairs (n m : ℕ) : List (ℕ × ℕ) :=
  (List.range' 1 n).flatMap fun k => (List.range' 1 m).map fun l => (k, l)

/-- commutator.hpp:18-71: `commutate(x, y, c)`; the result is `c` afterwards. `n`, `m` are read at the start. -/
def commutateAliased (mul : P → P → P) (mulSign : P → ℤ → P) (anti : ω → ω → Bool) (acomm : ω → ω → P → P)
    (grow : ℕ → ℕ) (x y : Arg P ω) (c : Vec (Term P ω)) : Option (Vec (Term P ω)) :=
  match x.read c false, y.read c false with
  | some a, some b =>
    ((loopPairs a.operators.length b.operators.length).foldlM
      (aliasedStep mul mulSign anti acomm grow x y) (c, false)).map Prod.fst
  | _, _ => none

end Ieompp.Aliasing
