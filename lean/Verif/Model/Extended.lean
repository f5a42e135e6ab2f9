import Verif.Model.Binary64
import Verif.Model.LexicalCast
import Verif.Model.LatticeFloat

/-!
# Infinities and NaN

`double` with its infinities and NaN: the texts that stand for them, the time loops of the programs with step widths and end times that are not finite,
and the lattices at positions that are not finite. Every operation rounds with `rnd`; where `rnd` has no value (overflow), the result is an infinity. Not
modelled: the signs of zeros and NaN, floating point exceptions. The quotient of a number and zero is an infinity whose sign depends on the sign of the zero;
the model takes the sign of the dividend (the programs only convert it to an integer, which is undefined for either sign).
-/

set_option autoImplicit false

namespace Ieompp

/-- The values of `double`: parameters of has_time_interval_passed (common.hpp:57-58) and of `operator()` of the lattices (periodic_chain.hpp:242-247). -/
inductive Ext where
  | fin (x : ℝ)
  | inf (negative : Bool)
  | nan

namespace Ext

open Classical in
/-- The result of an operation with the exact value `x`. common.hpp:61. -/
noncomputable def round (rnd : ℝ → Res ℝ) (x : ℝ) : Ext :=
  match rnd x with
  | .val y => .fin y
  | _ => .inf (decide (x < 0))

/-- `-a`. common.hpp:61. -/
noncomputable def neg : Ext → Ext
  | .fin x => .fin (-x)
  | .inf s => .inf (!s)
  | .nan => .nan

/-- `a + b`. hubbard_real_1d_rk4.cpp:80, periodic_chain.hpp:250. -/
noncomputable def add (rnd : ℝ → Res ℝ) : Ext → Ext → Ext
  | .fin x, .fin y => round rnd (x + y)
  | .inf s, .inf r => if s = r then .inf s else .nan
  | .inf s, .fin _ => .inf s
  | .fin _, .inf s => .inf s
  | _, _ => .nan

/-- `a - b`. common.hpp:61, periodic_chain.hpp:253. -/
noncomputable def sub (rnd : ℝ → Res ℝ) (a b : Ext) : Ext := add rnd a (neg b)

open Classical in
/-- `a * b`. periodic_chain.hpp:116, 119. -/
noncomputable def mul (rnd : ℝ → Res ℝ) : Ext → Ext → Ext
  | .fin x, .fin y => round rnd (x * y)
  | .inf s, .inf r => .inf (s != r)
  | .inf s, .fin y => if y = 0 then .nan else .inf (s != decide (y < 0))
  | .fin x, .inf r => if x = 0 then .nan else .inf (decide (x < 0) != r)
  | _, _ => .nan

open Classical in
/-- `a / b`. common.hpp:61, periodic_chain.hpp:255. -/
noncomputable def div (rnd : ℝ → Res ℝ) : Ext → Ext → Ext
  | .fin x, .fin y => if y = 0 then (if x = 0 then .nan else .inf (decide (x < 0))) else round rnd (x / y)
  | .inf s, .fin y => .inf (s != decide (y < 0))
  | .fin _, .inf _ => .fin 0
  | _, _ => .nan

/-- `a < b`; comparisons with NaN are false. hubbard_real_1d_rk4.cpp:66, periodic_chain.hpp:249. -/
def Lt : Ext → Ext → Prop
  | .fin x, .fin y => x < y
  | .inf s, .inf r => s = true ∧ r = false
  | .inf s, .fin _ => s = true
  | .fin _, .inf r => r = false
  | _, _ => False

/-- `a >= b`. common.hpp:60. -/
def Ge : Ext → Ext → Prop
  | .fin x, .fin y => x ≥ y
  | .inf s, .inf r => s = r ∨ s = false
  | .inf s, .fin _ => s = false
  | .fin _, .inf r => r = true
  | _, _ => False

/-- The conversion of `std::round(a)` to `uint64_t`: undefined for infinities and NaN. common.hpp:61, periodic_chain.hpp:255. -/
noncomputable def toU64 : Ext → Res ℕ
  | .fin x => Sim.castU64 (Sim.cround x)
  | _ => .ub

end Ext

/-! ### The texts of options -/

namespace Main

open App Ieompp.IO

/-- `lc_iequal` of boost with the letters `l` (given in lower case): compares without regard to case. Library function, called through cli.hpp:38, 51. -/
def equalNoCase (t l : Text) : Bool := t.map Char.toLower = l

/-- `parse_inf_nan` of boost: a sign or none, then `nan`, `nan(...)`, `inf` or `infinity` in any case. `none` if the text is something else. Library function,
called through cli.hpp:38, 51. -/
def lexicalSpecial (t : Text) : Option Ext :=
  let s := takeSign t
  if equalNoCase (s.2.take 3) ['n', 'a', 'n'] then
    let r := s.2.drop 3
    if r = [] then some .nan
    else if r.length < 2 then none
    else if r.head? = some '(' ∧ r.getLast? = some ')' then some .nan else none
  else if equalNoCase s.2 ['i', 'n', 'f'] ∨ equalNoCase s.2 ['i', 'n', 'f', 'i', 'n', 'i', 't', 'y'] then some (.inf s.1)
  else none

/-- `boost::lexical_cast<double>` with all texts it accepts; compare `lexicalNum`. cli.hpp:38, 51. -/
noncomputable def lexicalExt (rnd : ℚ → ℝ) (t : Text) : Option Ext := (lexicalSpecial t).or ((lexicalNum rnd t).map .fin)

end Main

/-! ### The time loop -/

namespace Sim
variable {H O : Type}

/-- The variables of the programs; compare `State`. hubbard_real_1d_rk4.cpp:50-59. -/
structure StateX (H O : Type) where
  h : H
  t : Ext
  last : Ext
  out : List (Ext × O)

open Classical in
/-- common.hpp:57-62, `has_time_interval_passed`; compare `hasTimeIntervalPassed`. -/
noncomputable def hasTimeIntervalPassedX (rnd : ℝ → Res ℝ) (t last dt : Ext) (interval : ℕ) : Res Bool :=
  if Ext.Ge last t then .val false
  else (Ext.toU64 (Ext.div rnd (Ext.sub rnd t last) dt)).map fun n => decide (n ≥ interval)

/-- The measurement block (hubbard_real_1d_rk4.cpp:67-75 and 83-91); compare `maybeMeasureM`. -/
noncomputable def maybeMeasureX (rnd : ℝ → Res ℝ) (measure : H → Res (H × O)) (dt : Ext) (interval : ℕ) (s : StateX H O) : Res (StateX H O) :=
  (hasTimeIntervalPassedX rnd s.t s.last dt interval).bind fun b =>
    if b then (measure s.h).map fun r => { s with h := r.1, out := s.out ++ [(s.t, r.2)], last := s.t } else .val s

/-- The body of the time loop (hubbard_real_1d_rk4.cpp:66-81); compare `bodyM`. -/
noncomputable def bodyX (rnd : ℝ → Res ℝ) (step : H → Res H) (measure : H → Res (H × O)) (dt : Ext) (interval : ℕ) (s : StateX H O) : Res (StateX H O) :=
  (maybeMeasureX rnd measure dt interval s).bind fun s => (step s.h).map fun h => { s with h := h, t := Ext.add rnd s.t dt }

/-- The loop condition; after undefined behaviour the loop is considered finished. hubbard_real_1d_rk4.cpp:66. -/
def runningX (tEnd : Ext) : Res (StateX H O) → Prop
  | .val s => Ext.Lt s.t tEnd
  | .ub => False
  | .diverges => False

/-- hubbard_real_1d_rk4.cpp:54-91; compare `simulateM`. -/
noncomputable def simulateX (rnd : ℝ → Res ℝ) (step : H → Res H) (measure : H → Res (H × O)) (dt tEnd : Ext) (interval : ℕ) (h0 : H) :
    Res (StateX H O) :=
  (measure h0).bind fun r =>
  let s : StateX H O := { h := r.1, t := .fin 0, last := .fin 0, out := [(.fin 0, r.2)] }
  ((whileLoop (runningX tEnd) (fun s => s.bind (bodyX rnd step measure dt interval)) (.val s)).bind id).bind
    (maybeMeasureX rnd measure dt interval)

end Sim

/-! ### The lattices -/

/-- The two wrapping loops of `operator()` for one coordinate (periodic_chain.hpp:249-254, periodic_square_lattice.hpp:365-376); compare `wrapF`. -/
noncomputable def wrapX (rnd : ℝ → Res ℝ) (xMin xMax xLength : ℝ) (v : Ext) : Res Ext :=
  (whileLoop (fun v => Ext.Lt v (.fin xMin)) (fun v => Ext.add rnd v (.fin xLength)) v).bind fun v =>
  whileLoop (fun v => Ext.Lt (.fin xMax) v) (fun v => Ext.sub rnd v (.fin xLength)) v

/-- The index of one coordinate after the loops (periodic_chain.hpp:255, periodic_square_lattice.hpp:377-378). -/
noncomputable def coordX (rnd : ℝ → Res ℝ) (xMin dx : ℝ) (v : Ext) : Res ℕ := Ext.toU64 (Ext.div rnd (Ext.sub rnd v (.fin xMin)) (.fin dx))

/-- The two wrapping loops of `closest` (periodic_chain.hpp:109-115; periodic_square_lattice.hpp:156-169); compare `closestWrapF`. -/
noncomputable def closestWrapX (rnd : ℝ → Res ℝ) (xMin xMax xLength dx : ℝ) (v : Ext) : Res Ext :=
  let half := Ext.div rnd (.fin dx) (.fin 2)
  (whileLoop (fun v => Ext.Lt v (Ext.sub rnd (.fin xMin) half)) (fun v => Ext.add rnd v (.fin xLength)) v).bind fun v =>
  whileLoop (fun v => Ext.Lt (Ext.add rnd (.fin xMax) half) v) (fun v => Ext.sub rnd v (.fin xLength)) v

open Classical in
/-- The body of the search of `closest`: `p` is the index and the distance of the best site so far. periodic_chain.hpp:118-124,
periodic_square_lattice.hpp:173-179. -/
noncomputable def closestStepX (dist : ℕ → Ext) (p : ℕ × Ext) (i : ℕ) : ℕ × Ext := if Ext.Lt (dist i) p.2 then (i, dist i) else p

namespace Chain

/-- periodic_chain.hpp:233-240: `operator[]`; compare `posF`. -/
noncomputable def posX (rnd : ℝ → Res ℝ) (c : Chain ℝ) (i : ℕ) : Ext := Ext.add rnd (.fin c.xMin) (Ext.mul rnd (.fin i) (.fin c.dx))

/-- periodic_chain.hpp:242-256: `operator()`; compare `lookupF`. -/
noncomputable def lookupX (rnd : ℝ → Res ℝ) (c : Chain ℝ) (v : Ext) : Res ℕ :=
  (wrapX rnd c.xMin c.xMax c.xLength v).bind fun v => (coordX rnd c.xMin c.dx v).map fun i => i % c.size

/-- periodic_chain.hpp:106-126: `closest`; compare `closestF`. -/
noncomputable def closestX (rnd : ℝ → Res ℝ) (c : Chain ℝ) (v : Ext) : Res ℕ :=
  (closestWrapX rnd c.xMin c.xMax c.xLength c.dx v).map fun v =>
  let dist := fun i => Ext.mul rnd (Ext.sub rnd (c.posX rnd i) v) (Ext.sub rnd (c.posX rnd i) v)
  ((List.range' c.first (c.last + 1 - c.first)).foldl (closestStepX dist) (0, dist 0)).1

end Chain

namespace Square

/-- periodic_square_lattice.hpp:350-359: `operator[]`; compare `posF`. -/
noncomputable def posX (rnd : ℝ → Res ℝ) (s : Square ℝ) (idx : ℕ) : Ext × Ext :=
  let i := idx / s.sizeX
  let j := idx % s.sizeX
  (Ext.add rnd (.fin s.xMin) (Ext.mul rnd (.fin i) (.fin s.dx)), Ext.add rnd (.fin s.yMin) (Ext.mul rnd (.fin j) (.fin s.dy)))

/-- periodic_square_lattice.hpp:361-380: `operator()`; compare `lookupF`. -/
noncomputable def lookupX (rnd : ℝ → Res ℝ) (s : Square ℝ) (v : Ext × Ext) : Res ℕ :=
  (wrapX rnd s.xMin s.xMax s.xLength v.1).bind fun v0 =>
  (wrapX rnd s.yMin s.yMax s.yLength v.2).bind fun v1 =>
  (coordX rnd s.xMin s.dx v0).bind fun i => (coordX rnd s.yMin s.dy v1).map fun j => i * s.sizeX + j

/-- periodic_square_lattice.hpp:153-181: `closest`; compare `closestF`. -/
noncomputable def closestX (rnd : ℝ → Res ℝ) (s : Square ℝ) (v : Ext × Ext) : Res ℕ :=
  (closestWrapX rnd s.xMin s.xMax s.xLength s.dx v.1).bind fun v0 =>
  (closestWrapX rnd s.yMin s.yMax s.yLength s.dy v.2).map fun v1 =>
  let dist := fun i =>
    Ext.add rnd (Ext.mul rnd (Ext.sub rnd v0 (s.posX rnd i).1) (Ext.sub rnd v0 (s.posX rnd i).1))
      (Ext.mul rnd (Ext.sub rnd v1 (s.posX rnd i).2) (Ext.sub rnd v1 (s.posX rnd i).2))
  ((List.range' s.first (s.last + 1 - s.first)).foldl (closestStepX dist) (0, dist 0)).1

end Square

end Ieompp
