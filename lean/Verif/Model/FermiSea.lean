import Verif.Model.HubbardBasis
import Mathlib.Data.Prod.Lex
import Mathlib.Data.Bool.Basic
import Mathlib.Data.List.Sort

/-!
# Model of `include/ieompp/models/hubbard_momentum_space/excited_fermi_sea.hpp`

`std::list<Indices>` is a list of (momentum, spin) pairs. `std::find` compares for equality. `std::list::sort` sorts by
the tuple order, which is total, so its result is determined: it is modelled by insertion sort for the lexicographic
order. The dispersion is a function from momentum indices to an ordered type.
-/

set_option autoImplicit false

namespace Ieompp.MomentumSpace

/-- excited_fermi_sea.hpp:23-27: data members and their initial values. -/
structure FermiSea where
  vanishes : Bool := false
  created : List (ℕ × Bool) := []
  annihilated : List (ℕ × Bool) := []
  deriving DecidableEq

namespace FermiSea
variable {K : Type*} [LinearOrder K]

/-- The tuple order of `std::tuple<uint64_t, bool>`. excited_fermi_sea.hpp:49-50, 70-71. -/
def tupleLE (x y : ℕ × Bool) : Bool := decide (toLex x ≤ toLex y)

/-- `std::list::sort`. excited_fermi_sea.hpp:49-50, 70-71 (library function). -/
def sortList (l : List (ℕ × Bool)) : List (ℕ × Bool) := l.insertionSort (fun x y => tupleLE x y = true)

/-- excited_fermi_sea.hpp:76-82: `is_initially_occupied`. -/
def isInitiallyOccupied (disp : ℕ → K) (eF : K) (x : ℕ × Bool) : Bool := decide (disp x.1 < eF)

/-- excited_fermi_sea.hpp:84-115: `create_particle` (new state, return value). -/
def createParticle (disp : ℕ → K) (eF : K) (x : ℕ × Bool) (s : FermiSea) : FermiSea × Bool :=
  if s.vanishes then (s, false)
  else if isInitiallyOccupied disp eF x then
    if x ∉ s.annihilated then ({ s with vanishes := true }, false)
    else ({ s with annihilated := s.annihilated.erase x }, true)
  else if x ∉ s.created then ({ s with created := s.created ++ [x] }, true)
  else ({ s with vanishes := true }, false)

/-- excited_fermi_sea.hpp:117-148: `annihilate_particle`. -/
def annihilateParticle (disp : ℕ → K) (eF : K) (x : ℕ × Bool) (s : FermiSea) : FermiSea × Bool :=
  if s.vanishes then (s, false)
  else if isInitiallyOccupied disp eF x then
    if x ∉ s.annihilated then ({ s with annihilated := s.annihilated ++ [x] }, true)
    else ({ s with vanishes := true }, false)
  else if x ∉ s.created then ({ s with vanishes := true }, false)
  else ({ s with created := s.created.erase x }, true)

/-- excited_fermi_sea.hpp:37-42, 63-67: dispatch on the kind of the operator. -/
def step (disp : ℕ → K) (eF : K) (o : HOp) (s : FermiSea) : FermiSea :=
  if o.creator then (createParticle disp eF o.index s).1 else (annihilateParticle disp eF o.index s).1

/-- excited_fermi_sea.hpp:36-46: the loop over the operators in the order in which they act. -/
def loop (disp : ℕ → K) (eF : K) : List HOp → FermiSea → FermiSea
  | [], s => s
  | o :: os, s =>
    let s := step disp eF o s
    if s.vanishes then s else loop disp eF os s

/-- excited_fermi_sea.hpp:48-51, 69-72: sort both lists unless the state vanished. -/
def finish (s : FermiSea) : FermiSea :=
  if !s.vanishes then { s with created := sortList s.created, annihilated := sortList s.annihilated } else s

/-- excited_fermi_sea.hpp:29-54: `apply_monomial`. -/
def applyMonomial (disp : ℕ → K) (eF : K) (m : HMonomial) (s : FermiSea) : FermiSea × Bool :=
  if s.vanishes then (s, false)
  else
    let s := finish (loop disp eF m.reverse s)
    (s, s.vanishes)

/-- excited_fermi_sea.hpp:56-74: `apply_operator`. -/
def applyOperator (disp : ℕ → K) (eF : K) (o : HOp) (s : FermiSea) : FermiSea × Bool :=
  if s.vanishes then (s, false)
  else
    let s := finish (step disp eF o s)
    (s, s.vanishes)

/-- excited_fermi_sea.hpp:150-153: `is_initial_fermi_sea`. -/
def isInitial (s : FermiSea) : Bool := !s.vanishes && s.created.isEmpty && s.annihilated.isEmpty

end FermiSea

end Ieompp.MomentumSpace
