import Verif.Model.HubbardBasis

/-!
# Model of the printing code: `include/ieompp/tuple.hpp`, `algebra/operator/io.hpp`, `algebra/monomial/io.hpp`,
`io/file_header.hpp`

Text is a list of characters; the UTF-8 sequences of the arrows and the dagger count as one character each.
-/

set_option autoImplicit false

namespace Ieompp.IO

/-- Text. `std::string` and what is inserted into a stream, operator/io.hpp:52-118. -/
abbrev Text := List Char

/-- tuple.hpp:12-28: `TuplePrinter<Tuple, I, N>::print`, where `N` is the index of the last component and `k = N - I` the
number of recursive instantiations to come. The components are given by their texts. -/
def tuplePrinter (t : List Text) (delimiter : Text) (N : ℕ) : ℕ → Text
  | 0 => t.getD N []
  | k + 1 => t.getD N [] ++ delimiter ++ tuplePrinter t delimiter N k

/-- tuple.hpp:31-39: `print_tuple` (for a tuple with at least one component). -/
def printTuple (t : List Text) (delimiter left right : Text) : Text :=
  left ++ tuplePrinter t delimiter (t.length - 1) (t.length - 1) ++ right

/-- An index of an operator: of type `bool`, or of another type with the text that `<<` prints. operator/io.hpp:17-34. -/
inductive IndexVal where
  | boolean (b : Bool)
  | other (text : Text)

/-- operator/io.hpp:16-50: the printer chosen for the type of the index (arrows for `bool`, else `<<`). -/
def printIndex : IndexVal → Text
  | .boolean b => if b then ['↑'] else ['↓']
  | .other text => text

/-- operator/io.hpp:82-102: `PrintHelper<Operator, I, N>::print`; `k = N - I`. -/
def printHelper (idx : List IndexVal) (I : ℕ) : ℕ → Text
  | 0 => printIndex (idx.getD I (.other []))
  | k + 1 => printIndex (idx.getD I (.other [])) ++ [','] ++ printHelper idx (I + 1) k

/-- The beginning common to the three overloads: `c`, the dagger of creators, `_{`. operator/io.hpp:55-59, 68-72, 110-114. -/
def printHead (creator : Bool) : Text := ['c'] ++ (if creator then ['^', '†'] else []) ++ ['_', '{']

/-- operator/io.hpp:52-63: `<<` for operators with one index. -/
def printOperator1 (creator : Bool) (i : IndexVal) : Text := printHead creator ++ printIndex i ++ ['}']

/-- operator/io.hpp:65-78: `<<` for operators with two indices. -/
def printOperator2 (creator : Bool) (i j : IndexVal) : Text :=
  printHead creator ++ printIndex i ++ [','] ++ printIndex j ++ ['}']

/-- operator/io.hpp:105-118: `<<` for operators with any number (at least one) of indices. -/
def printOperatorN (creator : Bool) (idx : List IndexVal) : Text :=
  printHead creator ++ printHelper idx 0 (idx.length - 1) ++ ['}']

/-- `<<` of an unsigned integer. operator/io.hpp:31. -/
def printNat (n : ℕ) : Text := Nat.toDigits 10 n

/-- The operators of the Hubbard programs, `Operator<uint64_t, bool>`. operator/io.hpp:65-78, common.hpp:19. -/
def printHOp (x : HOp) : Text := printOperator2 x.creator (.other (printNat x.index.1)) (.boolean x.index.2)

/-- monomial/io.hpp:13-20: `<<` of a monomial: all but the last operator followed by a space, then the last one. For an
empty monomial `--end()` and `back()` are undefined. -/
def printMonomial (m : HMonomial) : Res Text :=
  if h : m = [] then .ub
  else .val ((m.dropLast.map fun x => printHOp x ++ [' ']).flatten ++ printHOp (m.getLast h))

/-! ## file_header.hpp -/

/-- One entry of a description: key and value. file_header.hpp:22-26. -/
abbrev Entry := Text × Text

/-- file_header.hpp:20-28: the longest key among the entries with a value. -/
def maxKeyLen (descriptions : List (List Entry)) : ℕ :=
  descriptions.foldl (fun m d => d.foldl (fun m e => if e.2 = [] then m else max m e.1.length) m) 0

/-- `for(size_t i = from; i <= to; ++i) strm << ' ';`. file_header.hpp:33-35, 55-57. -/
def spaces (start stop : ℕ) : Text := List.replicate (stop + 1 - start) ' '

/-- file_header.hpp:43-58: what is written for one entry. -/
def headerEntry (pre : Text) (maxLen : ℕ) (e : Entry) : Text :=
  pre ++ if e.1 = [] then ['\n'] else
    [' '] ++ e.1 ++ if e.2 = [] then ['\n'] else [':'] ++ spaces e.1.length maxLen ++ e.2 ++ ['\n']

/-- file_header.hpp:38-59: the loop over the descriptions, which returns at the first empty one. -/
def headerBody (pre : Text) (maxLen : ℕ) : List (List Entry) → Text
  | [] => []
  | d :: ds => if d = [] then [] else ['#', '\n'] ++ (d.map (headerEntry pre maxLen)).flatten ++ headerBody pre maxLen ds

/-- file_header.hpp:16-61: `write_header` in text mode; `time` is the formatted time (without its final newline). -/
def writeHeader (pre time : Text) (descriptions : List (List Entry)) : Text :=
  let maxLen := maxKeyLen descriptions
  pre ++ [' ', 'C', 'r', 'e', 'a', 't', 'e', 'd', ':'] ++ spaces 7 maxLen ++ time ++ ['\n'] ++
    headerBody pre maxLen descriptions

end Ieompp.IO
