import Verif.Model.Lines
import Verif.Model.Triplet

/-!
# Model of `include/ieompp/io/triplet_list.hpp` and `include/ieompp/io/eigen/sparse.hpp`

The text that `<<` writes for a value is a parameter (`shw`), and so is what `ss >> i >> j >> val` extracts from a line
(`parse`). Column-major Eigen matrices. Integer overflow in `strtoul` is not modelled.
-/

set_option autoImplicit false

namespace Ieompp.IO

variable {V : Type*}

/-- The text `row \t column \t value \n` of one element, the common part of both writers. triplet_list.hpp:22, sparse.hpp:27. -/
def elementText (shw : V → List Char) (e : ℕ × ℕ × V) : List Char :=
  Nat.toDigits 10 e.1 ++ '\t' :: (Nat.toDigits 10 e.2.1 ++ '\t' :: (shw e.2.2 ++ ['\n']))

/-! ## triplet_list.hpp -/

/-- triplet_list.hpp:14-25, `write_triplet_list`: everything inserted into the stream. -/
def writeTripletList (shw : V → List Char) (list : List (ℕ × ℕ × V)) (binary : Bool) : List Char :=
  if binary then [] else Nat.toDigits 10 list.length ++ '\n' :: (list.map (elementText shw)).flatten

/-- Variables of the loop of `read_triplet_list`: the stream, whether its eof bit is set, and `buf`. The eof bit gets set
when `getline` reaches the end of the file, that is when the stream stops being good (see `getline`). triplet_list.hpp:28-33. -/
structure Scan where
  strm : InStream
  eof : Bool
  buf : List Char

/-- triplet_list.hpp:35-38: the body of the loop: only `getline` has an effect. -/
def scanBody (c : Scan) : Scan :=
  let r := getline c.strm c.buf
  { strm := r.1, eof := c.eof || (c.strm.good && !r.1.good), buf := r.2 }

/-- triplet_list.hpp:27-41, `read_triplet_list`: the list afterwards. `do body while(!eof)` is the body followed by a
`while` loop. -/
noncomputable def readTripletList (strm : InStream) (eof : Bool) (list : List (ℕ × ℕ × V)) (binary : Bool) :
    Res (List (ℕ × ℕ × V)) :=
  if binary then .val list
  else (whileLoop (fun c : Scan => ¬ c.eof) scanBody (scanBody ⟨strm, eof, []⟩)).map fun _ => list

/-! ## eigen/sparse.hpp -/

/-- A column-major sparse matrix: shape and, for every inner vector (column), the stored elements `(row, value)` in storage
order. sparse.hpp:47-48 (Eigen library type). -/
structure SpMatrix (V : Type*) where
  rows : ℕ
  cols : ℕ
  column : ℕ → List (ℕ × V)

/-- The stored elements in the order of the loops sparse.hpp:25-26. -/
def SpMatrix.elements (m : SpMatrix V) : List (ℕ × ℕ × V) :=
  (List.range m.cols).flatMap fun j => (m.column j).map fun e => (e.1, j, e.2)

/-- sparse.hpp:19-30, `write_matrix`. -/
def writeMatrix (shw : V → List Char) (m : SpMatrix V) : List Char := (m.elements.map (elementText shw)).flatten

/-- `\d`. sparse.hpp:36. -/
def isDigitC (c : Char) : Prop := c.isDigit

/-- sparse.hpp:36: `^\s*(\d+)\s*x\s*(\d+)\s*$`. -/
def dimensionRegex : Regex :=
  .seq (.star (.cls isSpace)) (.seq (.cls isDigitC) (.seq (.star (.cls isDigitC)) (.seq (.star (.cls isSpace))
    (.seq (.cls (· = 'x')) (.seq (.star (.cls isSpace)) (.seq (.cls isDigitC) (.seq (.star (.cls isDigitC))
      (.star (.cls isSpace)))))))))

open Classical in
/-- `std::strtoul(s, nullptr, 10)`: white space is skipped, then the longest run of digits is converted (signs, which the
caller's regular expression excludes for the dimensions, are not modelled; overflow neither).
Library function, called in sparse.hpp:45-46, 55. -/
noncomputable def strtoul (s : List Char) : ℕ :=
  Nat.ofDigitChars 10 ((s.dropWhile (fun c => decide (isSpace c))).takeWhile Char.isDigit) 0

/-- `match[2]`: what follows the `x`; `strtoul` of `match[1]` is `strtoul` of the line itself, as the first group is the
first run of digits behind the leading white space. sparse.hpp:46. -/
def secondGroup (line : List Char) : List Char := (line.dropWhile (· ≠ 'x')).drop 1

/-- `Matrix(rows, cols)` and `reserve`, sparse.hpp:47-48: no stored elements. -/
def SpMatrix.empty (rows cols : ℕ) : SpMatrix V := ⟨rows, cols, fun _ => []⟩

open Classical in
/-- `m.insert(i, j) = val`: undefined if `(i, j)` is out of range or already stored; elements of a column are kept sorted by
row. sparse.hpp:61 (Eigen library function). -/
noncomputable def SpMatrix.insert (m : SpMatrix V) (i j : ℕ) (v : V) : Res (SpMatrix V) :=
  if i < m.rows ∧ j < m.cols ∧ ∀ e ∈ m.column j, e.1 ≠ i then
    .val ⟨m.rows, m.cols, fun j' => if j' = j then
      (m.column j).takeWhile (fun e => decide (e.1 < i)) ++ (i, v) :: (m.column j).dropWhile (fun e => decide (e.1 < i))
      else m.column j'⟩
  else .ub

/-- sparse.hpp:57-61: the loop reading `n` elements. A line from which the extraction fails is undefined here (`i`, `j` and
`val` are not initialised in the first round). -/
noncomputable def readElements (parse : List Char → Option (ℕ × ℕ × V)) : ℕ → InStream → SpMatrix V → Res (SpMatrix V)
  | 0, _, m => .val m
  | n + 1, s, m => (nextLine s).bind fun r =>
    match parse r.2 with
    | none => .ub
    | some e => (m.insert e.1 e.2.1 e.2.2).bind fun m' => readElements parse n r.1 m'

open Classical in
/-- sparse.hpp:32-63, `read_matrix`; `none` = an `IOException` is thrown. -/
noncomputable def readMatrix (parse : List Char → Option (ℕ × ℕ × V)) (s : InStream) : Res (Option (SpMatrix V)) :=
  (nextLine s).bind fun r =>
    if ¬ Matches dimensionRegex r.2 then .val none
    else (nextLine r.1).bind fun r' =>
      (readElements parse (strtoul r'.2) r'.1 (.empty (strtoul r.2) (strtoul (secondGroup r.2)))).map some

end Ieompp.IO
