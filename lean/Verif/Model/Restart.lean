import Verif.Model.Application
import Verif.Model.Checkpoint

/-!
# Model of `read_vector_from_checkpoint` (`src/hubbard/include/common.hpp:37-54`)

The regular expression `re_checkpoint_file` and the match `m` (lines 44-45) are not used by the code and not modelled.
-/

set_option autoImplicit false

namespace Ieompp.App

open IO

/-- common.hpp:42, the key `"checkpoint"`. -/
def checkpointName : Text := ['c', 'h', 'e', 'c', 'k', 'p', 'o', 'i', 'n', 't']

/-- common.hpp:37-54, `read_vector_from_checkpoint`: the vector and the files afterwards; `val none` = an exception (an option that is
not set makes `as<std::string>()` throw; a missing or broken checkpoint file; a failing rename in `clean_output_file`). `fs` is the
disk at the time of the call. -/
noncomputable def readVectorFromCheckpoint {V : Type*} (deser : List Char → Option V) (a : App) (fs : FS) : Res (Option (V × FS)) :=
  match a.vars.value checkpointName with
  | none => .val none
  | some c =>
    match readCheckpoint deser fs c.text with
    | none => .val none
    | some v => (cleanOutputFile fs a.outputPath 42).map fun r => r.map fun fs => (v, fs)

/-- The disk after the constructor of `Application` (application.hpp:73-92): the header has been inserted into the buffered output
file, of which any initial part has reached the disk; `flushed` is this part. -/
def App.disk (a : App) (flushed : Text) : FS := a.fs.set a.outputPath (some flushed)

end Ieompp.App
