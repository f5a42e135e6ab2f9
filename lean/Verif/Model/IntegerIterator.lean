import Mathlib.Data.Nat.Notation
import Mathlib.Data.Int.Notation
import Mathlib.Data.BitVec
import Verif.Model.Basic

/-!
# Model of `include/ieompp/iterators/integer_iterator.hpp`

The value type is `std::uint64_t`, the `SiteIndex` of the lattices, so `difference_type` is
`std::uint64_t` too and all arithmetic is modulo 2^64.

The post-increment and post-decrement (lines 119-124, 133-138) are those of `const_iterator = true`; for
`const_iterator = false` they do not compile. Left out: the free operators (lines 221-235), which reach a private member
without being friends and do not compile.
-/

set_option autoImplicit false

namespace Ieompp

/-- integer_iterator.hpp:43, 81-86. -/
structure IntegerIterator where
  val : BitVec 64
  deriving DecidableEq

namespace IntegerIterator

/-- integer_iterator.hpp:97-102: `*it`. -/
def deref (it : IntegerIterator) : BitVec 64 := it.val
/-- integer_iterator.hpp:104-110: `it[diff]`. -/
def at_ (it : IntegerIterator) (d : BitVec 64) : BitVec 64 := it.val + d
/-- integer_iterator.hpp:112-117: `++it` (the new state). -/
def inc (it : IntegerIterator) : IntegerIterator := ⟨it.val + 1⟩
/-- integer_iterator.hpp:126-131: `--it` (the new state). -/
def dec (it : IntegerIterator) : IntegerIterator := ⟨it.val - 1⟩
/-- integer_iterator.hpp:140-146: `it += diff`. -/
def addAssign (it : IntegerIterator) (d : BitVec 64) : IntegerIterator := ⟨it.val + d⟩
/-- integer_iterator.hpp:148-154: `it -= diff` — the code adds. -/
def subAssign (it : IntegerIterator) (d : BitVec 64) : IntegerIterator := ⟨it.val + d⟩
/-- integer_iterator.hpp:156-161: `it + diff`. -/
def add (it : IntegerIterator) (d : BitVec 64) : IntegerIterator := ⟨it.val + d⟩
/-- integer_iterator.hpp:163-168: `it - diff`. -/
def sub (it : IntegerIterator) (d : BitVec 64) : IntegerIterator := ⟨it.val - d⟩
/-- integer_iterator.hpp:170-176: `it - rhs`. -/
def diff (it rhs : IntegerIterator) : BitVec 64 := it.val - rhs.val
/-- integer_iterator.hpp:178-183. -/
def lt (it rhs : IntegerIterator) : Bool := it.val.ult rhs.val
/-- integer_iterator.hpp:185-190. -/
def gt (it rhs : IntegerIterator) : Bool := rhs.val.ult it.val
/-- integer_iterator.hpp:192-197. -/
def le (it rhs : IntegerIterator) : Bool := it.val.ule rhs.val
/-- integer_iterator.hpp:199-204. -/
def ge (it rhs : IntegerIterator) : Bool := rhs.val.ule it.val
/-- integer_iterator.hpp:206-211. -/
def eq (it rhs : IntegerIterator) : Bool := it.val == rhs.val
/-- integer_iterator.hpp:213-218. -/
def ne (it rhs : IntegerIterator) : Bool := it.val != rhs.val
/-- integer_iterator.hpp:89-94: `swap`. -/
def swap (it other : IntegerIterator) : IntegerIterator × IntegerIterator := (⟨other.val⟩, ⟨it.val⟩)

/-- What a returned `reference` refers to: the member `_val` of the iterator, or a temporary which is gone when the
operator returns. integer_iterator.hpp:33, 101, 116, 123. -/
inductive Ref where
  | member
  | temporary
  deriving DecidableEq

/-- Reading through a reference while the iterator is in the state `it`. integer_iterator.hpp:33, 97-138. -/
def Ref.read (it : IntegerIterator) : Ref → Res (BitVec 64)
  | .member => .val it.val
  | .temporary => .ub

/-- integer_iterator.hpp:97-102: the reference returned by `*it`. -/
def derefRef (_it : IntegerIterator) : Ref := .member
/-- integer_iterator.hpp:112-117: `++it`, the state and the reference returned. -/
def preInc (it : IntegerIterator) : IntegerIterator × Ref := (it.inc, .member)
/-- integer_iterator.hpp:119-124: `it++`: `_val++` is a temporary. -/
def postInc (it : IntegerIterator) : IntegerIterator × Ref := (it.inc, .temporary)
/-- integer_iterator.hpp:126-131: `--it`. -/
def preDec (it : IntegerIterator) : IntegerIterator × Ref := (it.dec, .member)
/-- integer_iterator.hpp:133-138: `it--`. -/
def postDec (it : IntegerIterator) : IntegerIterator × Ref := (it.dec, .temporary)

/-- The operations which move an iterator. integer_iterator.hpp:112-154. -/
inductive Move where
  | preInc | postInc | preDec | postDec
  | add (n : BitVec 64)
  | sub (n : BitVec 64)

/-- One move. integer_iterator.hpp:112-154. -/
def move (it : IntegerIterator) : Move → IntegerIterator
  | .preInc => it.preInc.1
  | .postInc => it.postInc.1
  | .preDec => it.preDec.1
  | .postDec => it.postDec.1
  | .add n => it.addAssign n
  | .sub n => it.subAssign n

/-- A loop `for(; it != last; ++it) visit(*it)`; `fuel` bounds the number of rounds, `none` if it is
exhausted. User code; it uses integer_iterator.hpp:97-117, 213-218. -/
def walk (last : IntegerIterator) : ℕ → IntegerIterator → Option (List (BitVec 64))
  | 0, it => if it.ne last then none else some []
  | fuel + 1, it =>
    if it.ne last then (walk last fuel it.inc).map (it.deref :: ·) else some []

end IntegerIterator

end Ieompp
