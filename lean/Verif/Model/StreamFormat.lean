import Verif.Model.Print
import Verif.Model.Number
import Verif.Model.CommutatorProgram

/-!
# The format settings of the stream to which the library prints

The overloads of `operator<<` of the library insert texts, integers and scalars one after the other into a
`std::ostream`; `FunctionMatrix` also inserts manipulators. A stream keeps its format settings from one insertion to the
next, except for the width, which every insertion of a text or number uses and sets to zero.
-/

set_option autoImplicit false

namespace Ieompp.StreamFormat
open Ieompp.IO

/-- `std::ios_base::floatfield`: how floating point numbers are printed. function_matrix.hpp:82 sets `fixed`. -/
inductive FloatField where
  | default
  | fixed
  | scientific
  | hexfloat
deriving DecidableEq

/-- The format settings of a stream; `other` stands for those the library never touches or reads (base, case, locale).
function_matrix.hpp:82. -/
structure Fmt where
  floatfield : FloatField
  precision : ℕ
  showpos : Bool
  width : ℕ
  fill : Char
  left : Bool
  other : ℕ
deriving DecidableEq

/-- A stream: the settings and what has been written. function_matrix.hpp:80. -/
structure OStream where
  fmt : Fmt
  out : Text

/-- What is inserted: a string or character, an unsigned integer, a signed integer, a scalar, or one of the three
manipulators. operator/io.hpp:52-118, function_matrix.hpp:82-88. -/
inductive Ins (S : Type*) where
  | text (t : Text)
  | unsigned (n : ℕ)
  | signed (n : ℤ)
  | scalar (x : S)
  | fixed
  | setprecision (n : ℕ)
  | showpos

/-- Padding to the width of the stream, on the right for `std::left`, else on the left. Library function, used by every
insertion in function_matrix.hpp:85-87. -/
def pad (f : Fmt) (t : Text) : Text :=
  if f.left then t ++ List.replicate (f.width - t.length) f.fill else List.replicate (f.width - t.length) f.fill ++ t

/-- An inserted text or number is padded, and the width becomes zero. Library function, operator/io.hpp:55. -/
def emit (s : OStream) (t : Text) : OStream := ⟨{ s.fmt with width := 0 }, s.out ++ pad s.fmt t⟩

/-- Decimal text of a signed integer, with `+` under `std::showpos`. Library function, operator/io.hpp:31. -/
def signedText (showpos : Bool) (n : ℤ) : Text :=
  if n < 0 then '-' :: printNat n.natAbs else if showpos then '+' :: printNat n.natAbs else printNat n.natAbs

section
variable {S : Type*} (put : Fmt → S → Text)

/-- One insertion; `put f x` is the text of the scalar `x` under the settings `f`. `showpos` has no effect on unsigned
integers. Library functions, function_matrix.hpp:82-87. -/
def insert (s : OStream) : Ins S → OStream
  | .text t => emit s t
  | .unsigned n => emit s (printNat n)
  | .signed n => emit s (signedText s.fmt.showpos n)
  | .scalar x => emit s (put s.fmt x)
  | .fixed => { s with fmt := { s.fmt with floatfield := .fixed } }
  | .setprecision n => { s with fmt := { s.fmt with precision := n } }
  | .showpos => { s with fmt := { s.fmt with showpos := true } }

/-- The insertions of one `operator<<` in order. function_matrix.hpp:80-90. -/
def insertAll (s : OStream) (l : List (Ins S)) : OStream := l.foldl (insert put) s

/-- function_matrix.hpp:84-87: one row: every element followed by a space, then the end of the line. -/
def matrixRow (m : Mat S) (row : ℕ) : List (Ins S) :=
  ((List.range m.cols).flatMap fun col => [.scalar (m.at' row col), .text [' ']]) ++ [.text ['\n']]

/-- function_matrix.hpp:79-90: `<<` of a `FunctionMatrix`. -/
def printMatrix (s : OStream) (m : Mat S) : OStream :=
  insertAll put s ([.fixed, .setprecision 1, .showpos] ++ (List.range m.rows).flatMap (matrixRow m))

/-- An index of an operator by its type. operator/io.hpp:17-34. -/
inductive Idx where
  | boolean (b : Bool)
  | unsigned (n : ℕ)
  | signed (n : ℤ)
  | string (t : Text)

/-- operator/io.hpp:16-50: the insertion made for an index: an arrow for `bool`, the index itself else. -/
def indexIns : Idx → Ins S
  | .boolean b => .text (if b then ['↑'] else ['↓'])
  | .unsigned n => .unsigned n
  | .signed n => .signed n
  | .string t => .text t

/-- The beginning of the three overloads. operator/io.hpp:55-59, 68-72, 110-114. -/
def headIns (creator : Bool) : List (Ins S) :=
  [.text ['c']] ++ (if creator then [.text ['^', '†']] else []) ++ [.text ['_', '{']]

/-- operator/io.hpp:80-103: the indices separated by commas. -/
def indicesIns : List Idx → List (Ins S)
  | [] => []
  | [i] => [indexIns i]
  | i :: j :: l => indexIns i :: .text [','] :: indicesIns (j :: l)

/-- operator/io.hpp:52-118: the insertions made by `<<` of an operator. -/
def operatorIns (creator : Bool) (idx : List Idx) : List (Ins S) :=
  headIns creator ++ indicesIns idx ++ [.text ['}']]

/-- `std::copy(begin, --end, std::ostream_iterator<T>(strm, " ")); strm << back();`, undefined for an empty container.
monomial/io.hpp:16-18, term/io.hpp:17-19. -/
def separatedIns {τ : Type*} (f : τ → List (Ins S)) (l : List τ) : Res (List (Ins S)) :=
  if h : l = [] then .ub else .val ((l.dropLast.flatMap fun x => f x ++ [.text [' ']]) ++ f (l.getLast h))

/-- monomial/io.hpp:13-20: `<<` of a monomial of operators. -/
def monomialIns (m : List (Bool × List Idx)) : Res (List (Ins S)) :=
  separatedIns (fun x => operatorIns x.1 x.2) m

/-- kronecker.hpp:34-38. -/
def kroneckerIns (k : Kronecker Text) : List (Ins S) :=
  [.text ['δ', '_', '{'], .text k.a, .text [','], .text k.b, .text ['}']]

/-- symbolic/prefactor.hpp:88-104; `isOne`, `isMinusOne` are the comparisons with `Value(1)` and `Value(-1)`. -/
def prefactorIns (isOne isMinusOne : S → Bool) (value : S) (ks : List (Kronecker Text)) : Res (List (Ins S)) :=
  if ks.isEmpty then .val [.scalar value]
  else
    let head : List (Ins S) := if isMinusOne value then [.text ['-']]
      else if isOne value then [] else [.scalar value, .text [' ', '⋅', ' ']]
    (separatedIns kroneckerIns ks).map fun l => head ++ l

/-- term/io.hpp:13-21. -/
def termIns (isOne isMinusOne : S → Bool) (value : S) (ks : List (Kronecker Text)) (ops : List (Bool × List Idx)) :
    Res (List (Ins S)) :=
  (prefactorIns isOne isMinusOne value ks).bind fun p =>
    (monomialIns ops).map fun o => p ++ [.text [' ', '⋅', ' ']] ++ o

/-- io/triplet_list.hpp:14-24: `write_triplet_list` with `binary` not set. -/
def tripletListIns (l : List (ℕ × ℕ × S)) : List (Ins S) :=
  [.unsigned l.length, .text ['\n']] ++ l.flatMap fun e =>
    [.unsigned e.1, .text ['\t'], .unsigned e.2.1, .text ['\t'], .scalar e.2.2, .text ['\n']]

/-- application_timer.hpp:20-25: the seconds since the creation of the timer, and the unit. -/
def timerIns (seconds : S) : List (Ins S) := [.scalar seconds, .text ['s']]

end
end Ieompp.StreamFormat
