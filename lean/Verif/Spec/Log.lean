import Verif.Model.Log

/-! # Specification: what a message with place holders says -/

set_option autoImplicit false

namespace Ieompp.Spec.Log

open IO (Text)
open Ieompp.Log (Arg)

/-- A template consists of characters and of place holders with or without specification. -/
inductive Piece where
  | lit (c : Char)
  | hole (spec : Option Text)
  deriving DecidableEq

/-- How a piece is written in a format string. -/
def Piece.source : Piece → Text
  | .lit c => if c = '{' then ['{', '{'] else if c = '}' then ['}', '}'] else [c]
  | .hole none => ['{', '}']
  | .hole (some s) => ['{', ':'] ++ s ++ ['}']

/-- A specification contains no braces. -/
def Piece.WF : Piece → Prop
  | .lit _ => True
  | .hole none => True
  | .hole (some s) => '{' ∉ s ∧ '}' ∉ s

/-- The format string of a template. -/
def source (ps : List Piece) : Text := ps.flatMap Piece.source

/-- The number of place holders. -/
def holes (ps : List Piece) : ℕ := ps.countP fun p => match p with
  | .lit _ => false
  | .hole _ => true

/-- The template with the place holders replaced by the arguments, one after the other. -/
def fill : List Piece → List Arg → Option Text
  | [], _ => some []
  | .lit c :: ps, args => (fill ps args).map (c :: ·)
  | .hole _ :: _, [] => none
  | .hole s :: ps, a :: as => (a (s.getD [])).bind fun t => (fill ps as).map (t ++ ·)

/-- The lines of the log about one measurement: at the time with the text `t`, of the observable called `name` with the
value `o`; programs without observable have only the first and the last line. -/
def measurementLines (name : Option Text) (t o : Text) : List Text :=
  ["Measuring at t=".toList ++ t] ++ (name.toList.map fun n => "  ".toList ++ n ++ "(".toList ++ t ++ ") = ".toList ++ o) ++
    ["Finish measurement at t=".toList ++ t]

/-- The lines of the log about one integration step. -/
def stepLines (t t' : Text) : List Text :=
  ["Integrate from t=".toList ++ t, "Finished integration t=".toList ++ t ++ " -> t=".toList ++ t']

/-- The lines of one logger. -/
def linesOf (l : Ieompp.Log.Logger) (ls : List Ieompp.Log.Line) : List Text := (ls.filter fun x => x.1 = l).map Prod.snd

end Ieompp.Spec.Log
