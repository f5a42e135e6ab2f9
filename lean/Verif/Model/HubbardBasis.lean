import Verif.Model.Monomial
import Verif.Model.Chain
import Verif.Model.Term

/-!
# Model of `include/ieompp/models/hubbard_{real,momentum}_space/basis.hpp`

Hubbard operators carry a site and a spin (`true` = up): `Op (ℕ × Bool)`; the two-index class agrees with this
representation (`op2_agrees_with_generic`). `for(auto i : lattice)` visits `0, ..., N-1`
(`integerIterator_walk`).
-/

set_option autoImplicit false

namespace Ieompp

/-- Site and spin. operator/operator.hpp:109-162, common.hpp:19. -/
abbrev HOp := Op (ℕ × Bool)
/-- A Hubbard monomial. common.hpp:20. -/
abbrev HMonomial := Monomial (ℕ × Bool)

/-- A parallel loop `for(i = 0; i < size; ++i) v[i] = f(v[i]);` in which the iterations are executed in the order
`sched` (some interleaving of the threads; the iterations write to different elements).
hubbard_real_space/basis.hpp:39-42, 87-90. -/
def parallelModify {τ : Type*} (f : τ → τ) (sched : List ℕ) (v : List τ) : List τ :=
  sched.foldl (fun v i => v.modify i f) v

namespace RealSpace

/-- hubbard_real_space/basis.hpp:21-32: constructor of `Basis1Operator`. -/
def basis1 (N : ℕ) : List HMonomial := (List.range N).map (fun i => [⟨true, (i, true)⟩])

/-- hubbard_real_space/basis.hpp:56-75: constructor of `Basis3Operator`. -/
def basis3 (N : ℕ) : List HMonomial :=
  (List.range N).map (fun i => [⟨true, (i, true)⟩]) ++
  (List.range N).flatMap (fun i1 => (List.range N).flatMap (fun i2 => (List.range N).map (fun i3 =>
    [⟨true, (i1, true)⟩, ⟨true, (i2, false)⟩, ⟨false, (i3, false)⟩])))

/-- hubbard_real_space/basis.hpp:77-80: `get_3op_index`. -/
def get3opIndex (N i1 i2 i3 : ℕ) : ℕ :=
  let Nsquared := N * N
  N + Nsquared * i1 + N * i2 + i3

/-- hubbard_real_space/basis.hpp:34-45, 82-93: `get_conjugate` (copy, then a parallel loop). -/
def getConjugate (sched : List ℕ) (b : List HMonomial) : List HMonomial :=
  parallelModify Monomial.conjugate sched b

end RealSpace

namespace MomentumSpace
variable {K : Type*} [Field K] [LinearOrder K] [FloorRing K]

/-- Run a list of computations in order, collecting the results. The loops of hubbard_momentum_space/basis.hpp:33-40. -/
def collect {α : Type*} : List (Res α) → Res (List α)
  | [] => .val []
  | x :: xs => x.bind fun a => (collect xs).map (a :: ·)

/-- hubbard_momentum_space/basis.hpp:21-41: constructor of `Basis3Operator(q_idx, momentum_space)` on a chain. -/
noncomputable def basis3 (q : ℕ) (c : Chain K) : Res (List HMonomial) :=
  (collect ((List.range c.size).flatMap fun i1 => (List.range c.size).map fun i2 =>
    (c.lookup (c.pos i1 + c.pos i2 - c.pos q)).map fun i3 =>
      ([⟨true, (i1, true)⟩, ⟨true, (i2, false)⟩, ⟨false, (i3, false)⟩] : HMonomial))).map
  (fun l => [⟨true, (q, true)⟩] :: l)

/-- hubbard_momentum_space/basis.hpp:43-46: `get_3op_index`. -/
def get3opIndex (N i1 i2 : ℕ) : ℕ := 1 + i1 * N + i2

end MomentumSpace

end Ieompp
