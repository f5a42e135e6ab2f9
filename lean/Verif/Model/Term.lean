import Verif.Model.Monomial

/-!
# Model of `include/ieompp/algebra/term/{term,order,list,checks}.hpp`
-/

set_option autoImplicit false

namespace Ieompp

/-- term.hpp:13-21: `struct Term` (prefactor, operators). The container is modelled as a list; `ω` is the
operator type. -/
structure Term (P ω : Type*) where
  prefactor : P
  operators : List ω
  deriving DecidableEq

namespace Term

variable {P ι : Type*} [DecidableEq ι]

/-- term.hpp:32-41: `get_conjugate`; `conjP` is `types::conjugate` on prefactors
(types/number/complex.hpp:40-52).  The in-place `conjugate()` (term.hpp:23-30) loops over `*this`, which
has no `begin()`, so it cannot be instantiated. -/
def getConjugate (conjP : P → P) (t : Term P (Op ι)) : Term P (Op ι) :=
  ⟨conjP t.prefactor, (([] : List (Op ι)) ++ t.operators.reverse).map Op.conjugate⟩

/-- term.hpp:43-49: `have_same_operators`. -/
def haveSameOperators (a b : Term P (Op ι)) : Bool :=
  if a.operators.length ≠ b.operators.length then false
  else Monomial.stdEqual a.operators b.operators

/-- term.hpp:51-57: `operator*=` for distinct objects (`a *= a` copies a vector into itself exactly as
`Monomial::operator*=`, see `Monomial.mulAssignSelf`). -/
def mulAssign {ω : Type*} [Mul P] (a b : Term P ω) : Term P ω :=
  ⟨a.prefactor * b.prefactor, a.operators ++ b.operators⟩

/-- term.hpp:59-66: `operator*`. -/
def mul {ω : Type*} [Mul P] (a b : Term P ω) : Term P ω :=
  let prod := a
  let prod := { prod with operators := prod.operators ++ b.operators }
  { prod with prefactor := prod.prefactor * b.prefactor }

/-! ### order.hpp.  `opNe`, `opLt` are the operator's `!=` and `OperatorSmaller`/`OperatorGreater`. -/

/-- term/order.hpp:21-26 (and 42-47): the loop over both operator lists. -/
def cmpLoop {ω : Type*} (opNe opLt : ω → ω → Bool) : List ω → List ω → Bool
  | [], _ => false
  | _ :: _, [] => false   -- not reached: the sizes agree
  | x :: xs, y :: ys => if opNe x y then opLt x y else cmpLoop opNe opLt xs ys

/-- term/order.hpp:10-29: `TermSmaller`. -/
def smaller {ω : Type*} (opNe opSmaller : ω → ω → Bool) (a b : Term P ω) : Bool :=
  let sizeA := a.operators.length
  let sizeB := b.operators.length
  if sizeA ≠ sizeB then decide (sizeA < sizeB)
  else cmpLoop opNe opSmaller a.operators b.operators

/-- term/order.hpp:31-50: `TermGreater`. -/
def greater {ω : Type*} (opNe opGreater : ω → ω → Bool) (a b : Term P ω) : Bool :=
  let sizeA := a.operators.length
  let sizeB := b.operators.length
  if sizeA ≠ sizeB then decide (sizeA > sizeB)
  else cmpLoop opNe opGreater a.operators b.operators

/-! ### list.hpp -/

/-- `std::lower_bound` on a list: the number of leading elements that are smaller than `t`
(the partition point; the standard requires the list to be partitioned, see the theorems). term/list.hpp:22 (library function). -/
def lowerBound {τ : Type*} (lt : τ → τ → Bool) (l : List τ) (t : τ) : ℕ :=
  (l.takeWhile (fun x => lt x t)).length

/-- term/list.hpp:21-32: one iteration of the loop.  The code calls `pos->same_operators(t)`; the class only
has `have_same_operators` (term.hpp:43), so the template cannot be instantiated as it stands; modelled with
the evident method (`same`). -/
def insertUnique {ω : Type*} [Add P] (lt : Term P ω → Term P ω → Bool)
    (same : Term P ω → Term P ω → Bool) (lst : List (Term P ω)) (t : Term P ω) : List (Term P ω) :=
  let pos := lowerBound lt lst t
  match lst[pos]? with
  | none => lst ++ [t]                                            -- pos == lst.end()
  | some p =>
    if same p t then lst.set pos { p with prefactor := p.prefactor + t.prefactor }
    else lst.take pos ++ t :: lst.drop pos                        -- lst.insert(pos, t)

/-- term/list.hpp:14-34: `copy_as_unique_terms`: the contents of `result` afterwards. -/
def copyAsUniqueTerms {ω : Type*} [Add P] (lt same : Term P ω → Term P ω → Bool)
    (original result : List (Term P ω)) : List (Term P ω) :=
  let lst := original.foldl (insertUnique lt same) []
  result ++ lst

/-! ### checks.hpp -/

/-- checks.hpp:48-60: `total_creations`. -/
def totalCreations {ω : Type*} (creator : ω → Bool) (t : Term P ω) : ℤ :=
  t.operators.foldl (fun n op => if creator op then n + 1 else n - 1) 0

/-- checks.hpp:30-46: `total_spin<Index>`; `spin` reads the boolean spin index. (The `static_assert` names
`IndexType<..>::type` where the member is `Type`, so the template cannot be instantiated as it stands.) -/
def totalSpin {ω : Type*} (creator : ω → Bool) (spin : ω → Bool) (t : Term P ω) : ℤ :=
  t.operators.foldl (fun n op =>
    if creator op then n + (if spin op then 1 else -1) else n - (if spin op then 1 else -1)) 0

/-- checks.hpp:14-28: `total_momentum<Index>`; `k` looks the momentum of the index up. -/
def totalMomentum {ω V : Type*} [Zero V] [Add V] [Sub V] (creator : ω → Bool) (k : ω → V)
    (t : Term P ω) : V :=
  t.operators.foldl (fun p op => if creator op then p + k op else p - k op) 0

end Term

end Ieompp
