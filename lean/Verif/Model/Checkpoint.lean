import Verif.Model.Lines

/-!
# Model of `write_checkpoint_file` and `read_checkpoint_file` (`src/hubbard/include/checkpoint.hpp:14-50`)

`blaze::Archive` is abstract: `ser` is the serialisation of a vector, `deser` what reading a file gives (`none`: an
exception). `shw` is the text printed for a time. Logging is not modelled.
-/

set_option autoImplicit false

namespace Ieompp.IO

variable {V T : Type*}

/-- checkpoint.hpp:19, `prefix + std::to_string(n) + ".blaze"`. -/
def blazePath (pre : List Char) (n : ℕ) : List Char := pre ++ Nat.toDigits 10 n ++ ['.', 'b', 'l', 'a', 'z', 'e']

/-- checkpoint.hpp:28, `prefix + std::to_string(n) + ".info"`. -/
def infoPath (pre : List Char) (n : ℕ) : List Char := pre ++ Nat.toDigits 10 n ++ ['.', 'i', 'n', 'f', 'o']

/-- The file systems a crash can leave while one file is written with `std::ofstream`: opening truncates the file, the
contents arrive in order but buffered. checkpoint.hpp:25-28, 33-35. -/
def writeCrash (fs : FS) (path content : List Char) : Set FS :=
  { d | d = fs ∨ ∃ w, w <+: content ∧ d = fs.set path (some w) }

/-- checkpoint.hpp:14-38, `write_checkpoint_file`. State: the disk and the function-local static counter. -/
def writeCheckpoint (ser : V → List Char) (shw : T → List Char) (pre : List Char) (s : FS × ℕ) (c : V × T) : FS × ℕ :=
  let fs := s.1.set (blazePath pre s.2) (some (ser c.1))
  let fs := fs.set (infoPath pre s.2) (some (shw c.2 ++ ['\n']))
  (fs, s.2 + 1)

/-- The file systems a crash during `write_checkpoint_file` can leave. checkpoint.hpp:17-39. -/
def checkpointCrash (ser : V → List Char) (shw : T → List Char) (pre : List Char) (s : FS × ℕ) (c : V × T) : Set FS :=
  writeCrash s.1 (blazePath pre s.2) (ser c.1) ∪
    writeCrash (s.1.set (blazePath pre s.2) (some (ser c.1))) (infoPath pre s.2) (shw c.2 ++ ['\n'])

/-- A process: the static counter starts at zero (checkpoint.hpp:18); then the given checkpoints are written. -/
def runProcess (ser : V → List Char) (shw : T → List Char) (pre : List Char) (fs : FS) (cs : List (V × T)) : FS × ℕ :=
  cs.foldl (writeCheckpoint ser shw pre) (fs, 0)

/-- A sequence of processes, each started after the previous one ended.
checkpoint.hpp:21: the static counter begins at 0 in each of them. -/
def runProcesses (ser : V → List Char) (shw : T → List Char) (pre : List Char) (fs : FS) (ps : List (List (V × T))) : FS :=
  ps.foldl (fun fs cs => (runProcess ser shw pre fs cs).1) fs

/-- checkpoint.hpp:40-50, `read_checkpoint_file`: `none` = the file is missing or the archive is broken (exception). -/
def readCheckpoint (deser : List Char → Option V) (fs : FS) (path : List Char) : Option V := (fs path).bind deser

end Ieompp.IO
