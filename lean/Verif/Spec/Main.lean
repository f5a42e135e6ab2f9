import Verif.Model.Main
import Verif.Spec.Application
import Verif.Spec.Durability
import Mathlib.Algebra.Order.Floor.Defs

/-! # Specification: what a program is expected to do with its command line -/

set_option autoImplicit false

namespace Ieompp.Spec

open IO

/-- The texts of the default values of a program can be converted. -/
def DefaultsConvert (p : App.Prog) (kinds : List (Text × Main.Kind)) (conv : Main.Conv) : Prop :=
  ∀ o ∈ p.own, conv.ok (Main.kindOf kinds o.1) o.2 = true

/-- The program sees the number `n` as the value of the option `k`. -/
def NatSetting (conv : Main.Conv) (a : App.App) (k : String) (n : ℕ) : Prop :=
  ∃ t, parameter a k.toList = some t ∧ conv.nat t = some n

/-- The program sees the number `x` as the value of the option `k`. -/
def NumSetting (conv : Main.Conv) (a : App.App) (k : String) (x : ℝ) : Prop :=
  ∃ t, parameter a k.toList = some t ∧ conv.num t = some x

/-- What a program called through `main` does is what the computation `r` does: it is undefined or endless exactly if `r` is, and
when `r` ends with certain rows it ends as well, and whatever was in the output file before, and in whatever portions the stream
hands over its buffer, in the end the file consists of the header and the rows, each printed by `row`. -/
def Behaves {H O : Type} (main : Res (Main.Outcome (Durability.Traced H O))) (a : App.App) (r : Res (Sim.State H O))
    (row : ℝ → O → Text) : Prop :=
  (∀ s, r = .val s → ∃ acts, main = .val (.finished a (s, acts)) ∧
    ∃ head, a.fs a.outputPath = some head ∧ (∃ d, Durability.Run True (Durability.Disk.start (O := O) []) acts d) ∧
      ∀ old d, Durability.Run True (Durability.Disk.start old) acts d → d.file = fileText head row s.out) ∧
  (r = .ub → main = .ub) ∧ (r = .diverges → main = .diverges)

/-- How the outcome `r` of a computation on `N` sites (per direction) depends on its parameters. -/
structure OutcomeByParameters {H O : Type} (r : Res (Sim.State H O)) (N : ℕ) (dt tEnd : ℝ) (interval : ℕ) : Prop where
  /-- less than three sites: an element outside of the matrix or vector is accessed -/
  small : N < 3 → r = .ub
  /-- no positive step width: the program never ends -/
  endless : 3 ≤ N → dt ≤ 0 → 0 < tEnd → r = .diverges
  /-- no positive end time: one row -/
  short : 3 ≤ N → tEnd ≤ 0 → ∃ s, r = .val s ∧ s.out.length = 1
  /-- otherwise: one row for every `interval` steps -/
  normal : 3 ≤ N → 0 < dt → ∃ s, r = .val s ∧ s.out.length = ⌈tEnd / dt⌉₊ / max interval 1 + 1

end Ieompp.Spec
