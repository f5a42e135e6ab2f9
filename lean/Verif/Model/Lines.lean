import Verif.Model.Basic

/-!
# Model of `include/ieompp/io/line.hpp`, of `std::getline` and of `clean_output_file`
(`src/hubbard/include/checkpoint.hpp:52-85`)

Files are lists of characters. Logging is not modelled.
-/

set_option autoImplicit false

namespace Ieompp.IO

/-! ## Regular expressions (ECMAScript, `std::regex_match`: the whole string has to match) -/

/-- The constructs used in line.hpp. `cls` is a character class. -/
inductive Regex where
  | cls (p : Char → Prop)
  | seq (a b : Regex)
  | opt (a : Regex)
  | star (a : Regex)

/-- The strings matched by a regular expression. line.hpp:13-14 (std::regex). -/
inductive Matches : Regex → List Char → Prop where
  | cls {p : Char → Prop} {c : Char} : p c → Matches (.cls p) [c]
  | seq {a b : Regex} {s t : List Char} : Matches a s → Matches b t → Matches (.seq a b) (s ++ t)
  | optNone {a : Regex} : Matches (.opt a) []
  | optSome {a : Regex} {s : List Char} : Matches a s → Matches (.opt a) s
  | starNil {a : Regex} : Matches (.star a) []
  | starCons {a : Regex} {s t : List Char} : Matches a s → Matches (.star a) t → Matches (.star a) (s ++ t)

/-- `\s` in the C locale. line.hpp:13. -/
def isSpace (c : Char) : Prop :=
  c = ' ' ∨ c = '\t' ∨ c = '\n' ∨ c = '\x0b' ∨ c = '\x0c' ∨ c = '\r'

/-- `.` in ECMAScript: everything but line terminators. line.hpp:13. -/
def isDot (c : Char) : Prop := c ≠ '\n' ∧ c ≠ '\r'

/-- line.hpp:13, `^\s*(?:#.*)?$` (the anchors are implied by `regex_match`). -/
def skippableRegex : Regex := .seq (.star (.cls isSpace)) (.opt (.seq (.cls (· = '#')) (.star (.cls isDot))))

/-- line.hpp:11-15, `is_skippable_line`. -/
def isSkippableLine (s : List Char) : Prop := Matches skippableRegex s

/-! ## Streams -/

/-- An input stream: the characters not yet extracted and whether `good()` holds (no eof or fail bit).
line.hpp:17 (library type). -/
structure InStream where
  rest : List Char
  good : Bool

/-- `std::getline(strm, buf)`: on a stream that is not good nothing is extracted and `buf` keeps its value; otherwise
`buf` is replaced by the characters up to the next newline, which is extracted and dropped, or up to the end of the file,
in which case the eof bit is set (and the fail bit if nothing was extracted). line.hpp:21, checkpoint.hpp:72 (library function). -/
def getline (s : InStream) (buf : List Char) : InStream × List Char :=
  if s.good then
    match s.rest.dropWhile (· ≠ '\n') with
    | [] => (⟨[], false⟩, s.rest.takeWhile (· ≠ '\n'))
    | _ :: r => (⟨r, true⟩, s.rest.takeWhile (· ≠ '\n'))
  else (s, buf)

/-- line.hpp:17-26, `next_line`: `do { getline; if not skippable return } while(true)`. Result: the stream and the line. -/
noncomputable def nextLine (s : InStream) : Res (InStream × List Char) :=
  whileLoop (fun p => isSkippableLine p.2) (fun p => getline p.1 p.2) (getline s [])

/-! ## File system -/

/-- Contents of the files by path. checkpoint.hpp:17-85. -/
abbrev FS := List Char → Option (List Char)

/-- Replace or create (`some`) or delete (`none`) one file. checkpoint.hpp:25, 33, 64. -/
def FS.set (fs : FS) (path : List Char) (c : Option (List Char)) : FS := fun p => if p = path then c else fs p

/-- `boost::filesystem::rename(a, b)`, which replaces `b` atomically; `none` = it throws because `a` does not exist.
checkpoint.hpp:57. -/
def FS.rename (fs : FS) (a b : List Char) : Option FS := (fs a).map fun c => (fs.set b (some c)).set a none

/-- `path + ".bak"`. checkpoint.hpp:57. -/
def bak (path : List Char) : List Char := path ++ ['.', 'b', 'a', 'k']

/-- Variables of the copying loop: the input stream, `buffer`, `counter` and everything inserted into `out_file`.
checkpoint.hpp:61-70. -/
structure Copy where
  strm : InStream
  buffer : List Char
  counter : ℕ
  out : List Char

open Classical in
/-- The body of the copying loop, checkpoint.hpp:71-77. -/
noncomputable def copyBody (c : Copy) : Copy :=
  let (strm, buffer) := getline c.strm c.buffer
  let counter := if ¬ isSkippableLine buffer then c.counter + 1 else c.counter
  { strm := strm, buffer := buffer, counter := counter, out := c.out ++ buffer }

/-- State before the copying loop: checkpoint.hpp:59-69. -/
def copyInit (content : List Char) : Copy := { strm := ⟨content, true⟩, buffer := [], counter := 0, out := [] }

/-- checkpoint.hpp:52-85, `clean_output_file`: the file system afterwards; `val none` = an exception, nothing changed. -/
noncomputable def cleanOutputFile (fs : FS) (path : List Char) (entries : ℕ) : Res (Option FS) :=
  match fs path, fs.rename path (bak path) with
  | some content, some fs' =>
    (whileLoop (fun c : Copy => c.counter < entries) copyBody (copyInit content)).map
      fun c => some (fs'.set path (some c.out))
  | _, _ => .val none

/-- The file systems that a crash during `clean_output_file` can leave behind: before the rename; after it and before
the new file is created; or with any initial part of what has been inserted into `out_file` after some number of rounds
of the loop (it is buffered). A round is executed only if the condition of the loop held in all rounds before.
checkpoint.hpp:53-85. -/
def crashStates (fs : FS) (path : List Char) (entries : ℕ) : Set FS :=
  { d | d = fs ∨ ∃ content fs', fs path = some content ∧ fs.rename path (bak path) = some fs' ∧
      (d = fs' ∨ ∃ k w, (∀ j < k, (copyBody^[j] (copyInit content)).counter < entries) ∧
        w <+: (copyBody^[k] (copyInit content)).out ∧ d = fs'.set path (some w)) }

end Ieompp.IO
