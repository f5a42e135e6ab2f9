import Verif.Model.Monomial
import Mathlib.Algebra.Ring.Defs
import Mathlib.Data.List.Perm.Basic
import Mathlib.Data.List.Pairwise

/-!
# Model of `include/ieompp/algebra/kronecker.hpp` and `include/ieompp/symbolic/prefactor.hpp`

`σ` stands for `std::string`; only its equality and order are used.
-/

set_option autoImplicit false

namespace Ieompp

/-- kronecker.hpp:12-14. -/
structure Kronecker (σ : Type*) where
  a : σ
  b : σ
  deriving DecidableEq

namespace Kronecker
variable {σ : Type*}

/-- kronecker.hpp:16-19: `operator==`. -/
def eqB [DecidableEq σ] (x y : Kronecker σ) : Bool :=
  ((x.a == y.a) && (x.b == y.b)) || ((x.a == y.b) && (x.b == y.a))

/-- kronecker.hpp:20-24: `operator!=`. -/
def neB [DecidableEq σ] (x y : Kronecker σ) : Bool := !(x.eqB y)

/-- kronecker.hpp:26-31: `order()` (the new value of the object). -/
def order [LinearOrder σ] (x : Kronecker σ) : Kronecker σ := if x.a > x.b then ⟨x.b, x.a⟩ else x

end Kronecker

/-- symbolic/prefactor.hpp:17-23: `Prefactor<Value, Kronecker>`. -/
structure Prefactor (V σ : Type*) where
  value : V
  kroneckers : List (Kronecker σ)
  deriving DecidableEq

namespace Prefactor
variable {V σ : Type*}

/-- prefactor.hpp:25-29: `*= Kronecker`. -/
def mulKronecker (p : Prefactor V σ) (k : Kronecker σ) : Prefactor V σ :=
  { p with kroneckers := p.kroneckers ++ [k] }

/-- prefactor.hpp:31-35: `*= std::vector<Kronecker>`. -/
def mulKroneckers (p : Prefactor V σ) (ks : List (Kronecker σ)) : Prefactor V σ :=
  { p with kroneckers := p.kroneckers ++ ks }

/-- prefactor.hpp:37-45: `*= Prefactor` (distinct objects). -/
def mulAssign [Mul V] (p q : Prefactor V σ) : Prefactor V σ :=
  ⟨p.value * q.value, p.kroneckers ++ q.kroneckers⟩

/-- prefactor.hpp:47-52: `*= number`. -/
def mulNumber [Mul V] (p : Prefactor V σ) (x : V) : Prefactor V σ :=
  { p with value := p.value * x }

/-- prefactor.hpp:54-60: `operator*`. -/
def mul [Mul V] (p q : Prefactor V σ) : Prefactor V σ := mulAssign p q

/-- prefactor.hpp:67-76: the comparator handed to `std::sort`. -/
def krLess [LinearOrder σ] (x y : Kronecker σ) : Bool :=
  if x.a < y.a then true
  else if x.b > y.a then false
  else decide (x.b < y.b)

/-- prefactor.hpp:62-77: `order_kroneckers`, as a relation: every outcome that `std::sort` may produce
(a permutation of the ordered deltas in which no later element compares less than an earlier one). -/
def OrderKroneckers [LinearOrder σ] (p q : Prefactor V σ) : Prop :=
  q.value = p.value ∧ q.kroneckers.Perm (p.kroneckers.map Kronecker.order) ∧
  q.kroneckers.Pairwise (fun x y => krLess y x = false)

end Prefactor

end Ieompp
