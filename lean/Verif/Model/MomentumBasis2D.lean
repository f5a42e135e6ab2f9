import Verif.Model.HubbardBasis
import Verif.Model.Square

/-!
# Model of the three-operator basis of `hubbard_momentum_space/basis.hpp` on a two-dimensional momentum space

The constructor is a template over the momentum space; here it is instantiated with `PeriodicSquareLattice`.
-/

set_option autoImplicit false

namespace Ieompp.MomentumSpace
variable {K : Type*} [Field K] [LinearOrder K] [FloorRing K]

/-- hubbard_momentum_space/basis.hpp:21-41: constructor of `Basis3Operator(q_idx, momentum_space)` on a square lattice. The
vectors are added and subtracted coordinate by coordinate. -/
noncomputable def basis3Square (q : ℕ) (s : Square K) : Res (List HMonomial) :=
  (collect ((List.range s.size).flatMap fun i1 => (List.range s.size).map fun i2 =>
    (s.lookup ((s.pos i1).1 + (s.pos i2).1 - (s.pos q).1, (s.pos i1).2 + (s.pos i2).2 - (s.pos q).2)).map fun i3 =>
      ([⟨true, (i1, true)⟩, ⟨true, (i2, false)⟩, ⟨false, (i3, false)⟩] : HMonomial))).map
  (fun l => [⟨true, (q, true)⟩] :: l)

end Ieompp.MomentumSpace
