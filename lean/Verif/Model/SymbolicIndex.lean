import Verif.Model.Print

/-!
# Model of `include/ieompp/symbolic/index.hpp`, `string.hpp`, `exception.hpp`, `types/names.hpp` and of the type
descriptions in `types/description.hpp`

`std::to_string` of an `int` is a minus sign for negative numbers and the decimal digits of the absolute value.
-/

set_option autoImplicit false

namespace Ieompp
namespace Symbolic

open IO (Text)

/-- symbolic/index.hpp:11-16: the kinds of indices; `IndexTypeUnspecified` has no usable constructor but the one from a
string. -/
inductive Kind where
  | unspecified
  | space
  | momentum
  | spin
  deriving DecidableEq

/-- symbolic/index.hpp:18-29: an index is its text; the kind is part of the type. -/
structure Index (kind : Kind) where
  index : Text

/-- `std::to_string(int)`. symbolic/index.hpp:52-62. -/
def toString' (i : ℤ) : Text := (if i < 0 then ['-'] else []) ++ Nat.toDigits 10 i.natAbs

/-- The letter used by the constructors of a kind. symbolic/index.hpp:31-44. -/
def letter : Kind → Option Char
  | .unspecified => none
  | .space => some 'r'
  | .momentum => some 'k'
  | .spin => some 'σ'

/-- symbolic/index.hpp:31-44: the default constructors. -/
def Index.default (kind : Kind) : Option (Index kind) := (letter kind).map fun c => ⟨[c]⟩

/-- symbolic/index.hpp:46-49: the constructor from a string. -/
def Index.ofString (kind : Kind) (s : Text) : Index kind := ⟨s⟩

/-- symbolic/index.hpp:51-64: the constructors from a number. -/
def Index.ofInt (kind : Kind) (i : ℤ) : Option (Index kind) := (letter kind).map fun c => ⟨[c, '_'] ++ toString' i⟩

/-- symbolic/index.hpp:27: `operator==`. -/
def Index.eq {kind : Kind} (a b : Index kind) : Bool := a.index == b.index

/-- symbolic/index.hpp:28: `operator!=`. -/
def Index.ne {kind : Kind} (a b : Index kind) : Bool := a.index != b.index

/-- symbolic/index.hpp:70-74: `<<`. -/
def Index.print {kind : Kind} (a : Index kind) : Text := a.index

/-- string.hpp:9-16: `compose`: the texts of the arguments, written one after the other into a string stream. -/
def compose (ts : List Text) : Text := ts.foldl (fun strm t => strm ++ t) []

/-- exception.hpp:28-34: the message of `create_exception`. -/
def createException (file : Text) (line : ℕ) (msg : Text) : Text :=
  file ++ [':'] ++ Nat.toDigits 10 line ++ [':', ' '] ++ msg

/-- exception.hpp:14-18: `what()` is read up to the first null character. -/
def what (msg : Text) : Text := msg.takeWhile fun c => c != '\x00'

/-- The arithmetic types of types/names.hpp. -/
inductive Arith where
  | bool | u8 | u16 | u32 | u64 | i8 | i16 | i32 | i64 | float | double | longDouble
  deriving DecidableEq

/-- types/names.hpp:14-73: `type_name<T>::name`. -/
def typeName : Arith → Text
  | .bool => ['b', 'o', 'o', 'l']
  | .u8 => ['u', 'i', 'n', 't', '8', '_', 't']
  | .u16 => ['u', 'i', 'n', 't', '1', '6', '_', 't']
  | .u32 => ['u', 'i', 'n', 't', '3', '2', '_', 't']
  | .u64 => ['u', 'i', 'n', 't', '6', '4', '_', 't']
  | .i8 => ['i', 'n', 't', '8', '_', 't']
  | .i16 => ['i', 'n', 't', '1', '6', '_', 't']
  | .i32 => ['i', 'n', 't', '3', '2', '_', 't']
  | .i64 => ['i', 'n', 't', '6', '4', '_', 't']
  | .float => ['f', 'l', 'o', 'a', 't']
  | .double => ['d', 'o', 'u', 'b', 'l', 'e']
  | .longDouble => ['l', 'o', 'n', 'g', ' ', 'd', 'o', 'u', 'b', 'l', 'e']

/-- `sizeof` (bytes) on the 64 bit platforms of the project. description.hpp:16-110. -/
def sizeOf' : Arith → ℕ
  | .bool => 1 | .u8 => 1 | .u16 => 2 | .u32 => 4 | .u64 => 8 | .i8 => 1 | .i16 => 2 | .i32 => 4 | .i64 => 8
  | .float => 4 | .double => 8 | .longDouble => 16

/-- The scalar types which have a description. description.hpp:16-110. -/
inductive Scalar where
  | real (t : Arith)
  | complex (t : Arith)
  deriving DecidableEq

/-- types/description.hpp:15-118: `TypeDescription<T>::description()` as key and value texts. -/
def typeDescription : Scalar → List (Text × Text)
  | .real t => [(['t', 'y', 'p', 'e'], typeName t), (['s', 'i', 'z', 'e'], Nat.toDigits 10 (sizeOf' t))]
  | .complex t => [(['t', 'y', 'p', 'e'], compose [['c', 'o', 'm', 'p', 'l', 'e', 'x', '<'], typeName t, ['>']])]

end Symbolic
end Ieompp
