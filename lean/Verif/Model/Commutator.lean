import Verif.Model.Term
import Verif.Model.Prefactor

/-!
# Model of `include/ieompp/algebra/{anticommutator,commutator}.hpp`
-/

set_option autoImplicit false

namespace Ieompp

/-! ### Non-symbolic operators -/

/-- anticommutator.hpp:75-80: `anticommutates` for operators whose indices are all arithmetic. -/
def anticommutates {ι : Type*} [DecidableEq ι] (x y : Op ι) : Bool :=
  (x.creator == y.creator) || !x.sameIndices y

/-! ### Symbolic operators

An operator with `n` indices of types `α i`; `sym i` says whether the type of index `i` is non-arithmetic
(is_symbolic.hpp:32-36), `str i` converts a symbolic index to `std::string` (the implicit conversion in
`make_kronecker(idx1, idx2)`). -/

section Symbolic
variable {n : ℕ} {α : Fin n → Type*} [∀ i, DecidableEq (α i)] (sym : Fin n → Bool)

/-- anticommutator.hpp:19-42: `AnticommutatesHelper<Operator, I, N>::call` (C++ `N` is the last index,
`n - 1`; the recursion ends there, which is the same as running off the end here). -/
def anticommutatesHelper (a b : ∀ i, α i) (I : ℕ) : Bool :=
  if h : I < n then
    if sym ⟨I, h⟩ then anticommutatesHelper a b (I + 1)
    else if a ⟨I, h⟩ ≠ b ⟨I, h⟩ then true
    else anticommutatesHelper a b (I + 1)
  else false
termination_by n - I

/-- anticommutator.hpp:82-89: `anticommutates` for symbolic operators. -/
def anticommutatesSym (x y : Op (∀ i, α i)) : Bool :=
  (x.creator == y.creator) || anticommutatesHelper sym x.index y.index 0

variable {σ V : Type*} (str : ∀ i, α i → σ)

/-- anticommutator.hpp:44-72: `AnticommutatorHelper<.., I, N>::call` (the new value of `prefactor`);
`make_kronecker` is kronecker.hpp:40-43. -/
def anticommutatorHelper (a b : ∀ i, α i) (I : ℕ) (p : Prefactor V σ) : Prefactor V σ :=
  if h : I < n then
    if sym ⟨I, h⟩ then
      if a ⟨I, h⟩ ≠ b ⟨I, h⟩ then
        anticommutatorHelper a b (I + 1)
          (p.mulKronecker ⟨str ⟨I, h⟩ (a ⟨I, h⟩), str ⟨I, h⟩ (b ⟨I, h⟩)⟩)
      else anticommutatorHelper a b (I + 1) p
    else anticommutatorHelper a b (I + 1) p
  else p
termination_by n - I

/-- anticommutator.hpp:91-99: `anticommutator` for symbolic operators. -/
def anticommutatorSym (x y : Op (∀ i, α i)) (p : Prefactor V σ) : Prefactor V σ :=
  anticommutatorHelper sym str x.index y.index 0 p

end Symbolic

/-! ### commutate -/

section Commutate
variable {P ω : Type*}

/-- commutator.hpp:47: `(m * (n - k) + l - 1) % 2 ? -1 : 1`. -/
def commSign (n m k l : ℕ) : ℤ := if (m * (n - k) + l - 1) % 2 ≠ 0 then -1 else 1

/-- commutator.hpp:42-69: the body of the inner loop for `k`, `l`; the contents of `c` afterwards.
Element access outside the vectors is undefined behaviour (`none`). -/
def commutateStep (mul : P → P → P) (mulSign : P → ℤ → P) (anti : ω → ω → Bool)
    (acomm : ω → ω → P → P) (a b : Term P ω) (k l : ℕ) (c : List (Term P ω)) :
    Option (List (Term P ω)) :=
  match a.operators[k - 1]?, b.operators[l - 1]? with
  | some x, some y =>
    if anti x y then some c
    else
      let n := a.operators.length
      let m := b.operators.length
      let prefactor := mul a.prefactor b.prefactor
      let prefactor := mulSign prefactor (commSign n m k l)
      let prefactor := acomm x y prefactor
      let newOps := []
      let newOps := if k > 1 then newOps ++ a.operators.take (k - 1) else newOps
      let newOps := if l > 1 then newOps ++ b.operators.take (l - 1) else newOps
      let newOps := newOps ++ b.operators.drop l
      let newOps := newOps ++ a.operators.drop k
      some (c ++ [⟨prefactor, newOps⟩])
  | _, _ => none

/-- commutator.hpp:18-71: `commutate`, parameterised by the operations of the prefactor type and by the
overloads of `anticommutates` / `anticommutator` that overload resolution selects.  The `assert` in line 35
is a hypothesis of the theorems.  `a`, `b` are not elements of `c`; that case is `Aliasing.commutateAliased`. -/
def commutateWith (mul : P → P → P) (mulSign : P → ℤ → P) (anti : ω → ω → Bool)
    (acomm : ω → ω → P → P) (a b : Term P ω) (c : List (Term P ω)) : Option (List (Term P ω)) :=
  (List.range' 1 a.operators.length).foldlM (fun c k =>
    (List.range' 1 b.operators.length).foldlM (fun c l =>
      commutateStep mul mulSign anti acomm a b k l c) c) c

/-- `commutate` for operators with arithmetic indices; the prefactor is a number
(anticommutator.hpp:101-109: `anticommutator` does nothing). -/
def commutate {K ι : Type*} [DecidableEq ι] [Ring K] (a b : Term K (Op ι))
    (c : List (Term K (Op ι))) : Option (List (Term K (Op ι))) :=
  commutateWith (· * ·) (fun p s => p * (s : K)) anticommutates (fun _ _ p => p) a b c

/-- `commutate` for symbolic operators and symbolic prefactors. commutator.hpp:18-71. -/
def commutateSym {K σ : Type*} [Ring K] {n : ℕ} {α : Fin n → Type*} [∀ i, DecidableEq (α i)]
    (sym : Fin n → Bool) (str : ∀ i, α i → σ)
    (a b : Term (Prefactor K σ) (Op (∀ i, α i))) (c : List (Term (Prefactor K σ) (Op (∀ i, α i)))) :
    Option (List (Term (Prefactor K σ) (Op (∀ i, α i)))) :=
  commutateWith Prefactor.mul (fun p s => p.mulNumber (s : K)) (anticommutatesSym sym)
    (anticommutatorSym sym str) a b c

end Commutate

end Ieompp
