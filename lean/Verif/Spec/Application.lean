import Verif.Model.Application
import Verif.Spec.Lines

/-! # Specification: where the parameters of a run come from -/

set_option autoImplicit false

namespace Ieompp.Spec

open IO

/-- The value given first for the option `k` in a list of options. -/
def given (ps : List App.Parsed) (k : Text) : Option Text := (ps.find? fun p => p.key = k).map fun p => p.value.headD []

/-- The default value of the option `k`. -/
def defaultOf (opts : List App.Opt) (k : Text) : Option Text := opts.findSome? fun o => if o.name = k then o.default else none

/-- The text of the parameter `k` which a program sees. -/
def parameter (a : App.App) (k : Text) : Option Text := (a.vars.value k).map fun v => v.text

end Ieompp.Spec
