import Verif.Model.ExtendedOccupation
import Verif.Model.Binary64Momentum

/-!
# The program `hubbard_momentum_1d_rk4` with infinities and NaN

The program of `Verif.Model.Binary64Momentum` with parameters that need not be finite (`Ext`), as built without assertions. The momenta and the basis depend on the number
of momenta only: they are those of that model. `std::cos` is an arbitrary function on numbers and NaN elsewhere. The static work vectors of the integrator are assigned
before they are read (rk4.hpp:43-46) and left out.
-/

set_option autoImplicit false

namespace Ieompp.MomentumSpace

section
variable (rnd : ℝ → Res ℝ) (cosF : ℝ → ℝ)

/-- `std::cos`: an infinity gives NaN. dispersion.hpp:43. -/
def cosX : Ext → Ext
  | .fin x => .fin (cosF x)
  | _ => .nan

/-- dispersion.hpp:36-49 on the chain, whose only lattice vector is `dx`; compare `IEEE.energyR`. -/
noncomputable def energyX (bz : Chain ℝ) (dx : ℝ) (J : Ext) (i : ℕ) : Ext :=
  let prefactor := Ext.mul rnd (.fin (-2)) J
  let val := Ext.add rnd (.fin 0) (cosX cosF (Ext.mul rnd (bz.posX rnd i) (.fin dx)))
  Ext.mul rnd prefactor val

/-- liouvillian.hpp:20-28, dispersion.hpp:33-51; compare `IEEE.chainDispersionR`. -/
noncomputable def chainDispersionX (bz : Chain ℝ) (J : Ext) (sched : List ℕ) : Res (List Ext) :=
  RealSpace.storeLoop (fun i => .val (energyX rnd cosF bz 1 J i)) sched (List.replicate bz.size (.fin 0))

/-- dispersion.hpp:53-56: the function object `dispersion`; compare `Program.dispersionFunction`. Where the lookup is undefined the value is 0. -/
def dispersionFunctionX (values : List Ext) (i : ℕ) : Ext := values.getD i (.fin 0)

open Classical in
/-- excited_fermi_sea.hpp:76-82: `is_initially_occupied` is the only place where the table of expectation values looks at an energy, and compares it with the Fermi energy 0. The
comparison is false for NaN. Its result is given to the model of the table as the energy -1 or 1. -/
noncomputable def occupationEnergy (eps : ℕ → Ext) (k : ℕ) : ℤ := if Ext.Lt (eps k) (.fin 0) then -1 else 1

/-- hubbard_momentum_space/blaze_sparse.hpp:38-45, 48-59; compare `IEEE.rowTripletsR`. -/
noncomputable def momentumRowX (basis : List HMonomial) (eps : ℕ → Ext) (interaction1 interaction2 : Ext) (row : ℕ) : Option (List (Triplet Ext)) :=
  if row = 0 then
    basis.head?.bind fun m => m.head?.map fun op =>
      ⟨0, 0, Ext.add rnd (eps op.index.1) interaction1⟩ :: (List.range' 1 (basis.length - 1)).map (fun i => ⟨0, i, interaction2⟩)
  else
    (RealSpace.basisSites basis row).map fun s =>
      [⟨row, 0, interaction2⟩, ⟨row, row, Ext.add rnd (Ext.sub rnd (Ext.add rnd (eps s.1) (eps s.2.1)) (eps s.2.2)) interaction1⟩]

/-- hubbard_momentum_space/blaze_sparse.hpp:22-62: `init_matrix`; compare `IEEE.momentumMatrixR`. -/
noncomputable def momentumMatrixX (basis : List HMonomial) (Nb : ℕ) (eps : ℕ → Ext) (U : Ext) (N : ℕ) : Res (Sparse Ext) :=
  let interaction1 := Ext.div rnd U (.fin 2)
  let interaction2 := Ext.div rnd U (Ext.mul rnd (.fin 2) (Ext.round rnd N))
  Sparse.fillRows (momentumRowX rnd basis eps interaction1 interaction2) (List.range basis.length)
    (Sparse.init basis.length (numberOfMatrixElements Nb))

/-- hubbard_momentum_space/particle_number.hpp:45-55: one round of the loop of `operator()`; compare `IEEE.particleStepR`. -/
noncomputable def particleStepX (vec : List ExtC) (result : ExtC) (c : Contribution ℝ) : Res ExtC :=
  if c.left = c.right then
    (vecAt vec c.left).map fun l => ⟨Ext.add rnd result.re (Ext.mul rnd (RealSpace.normX rnd l) (.fin c.value)), result.im⟩
  else
    (vecAt vec c.left).bind fun l => (vecAt vec c.right).map fun r =>
      ExtC.add rnd result (ExtC.scale rnd (.fin c.value) (RealSpace.multiplyWithConjugateX rnd l r))

/-- hubbard_momentum_space/particle_number.hpp:39-60: `operator()`; compare `IEEE.particleNumberR`. -/
noncomputable def particleNumberX (vec : List ExtC) (table : List (Contribution ℝ)) : Res Ext :=
  (table.foldl (fun (acc : Res ExtC) c => acc.bind fun r => particleStepX rnd vec r c) (.val ExtC.zero)).map ExtC.re

/-- Several calls of `integrator.step(M, h)`. hubbard_momentum_1d_rk4.cpp:59-66. -/
noncomputable def stepsX (n : ℕ) (dt : Ext) (m : Sparse ExtC) : ℕ → List ExtC → Res (List ExtC)
  | 0, h => .val h
  | k + 1, h => (ODE.stepMatrixX rnd n dt m h).bind fun h => stepsX n dt m k h

/-- hubbard_momentum_1d_rk4.cpp:40-67 (and momentum_space.hpp:9-23, liouvillian.hpp:22-29); compare `IEEE.momentum1dRk4R`. -/
noncomputable def momentum1dRk4X (p : ℝ) (conjugation energies : List ℕ) (N : ℕ) (J U dt : Ext) : Res (Ext × Ext) :=
  let kIdx := N / 2
  (IEEE.momentumR rnd p N).bind fun brillouinZone =>
  let lattice := Chain.real (K := ℝ) N 1
  (IEEE.momentumBasis3R rnd kIdx brillouinZone).bind fun basis =>
  let conjugateBasis := RealSpace.getConjugate conjugation basis
  (chainDispersionX rnd cosF brillouinZone J energies).bind fun values =>
  (momentumMatrixX rnd basis brillouinZone.size (dispersionFunctionX values) U lattice.size).bind fun m =>
  (Program.initVectorX basis.length).bind fun h =>
  (nonVanishing basis conjugateBasis (occupationEnergy (dispersionFunctionX values)) 0).bind fun table =>
  (particleNumberX rnd h table).bind fun first =>
  (stepsX rnd basis.length dt (RealSpace.timesIX rnd m) 8 h).bind fun h =>
  (particleNumberX rnd h table).map fun second => (first, second)

end

end Ieompp.MomentumSpace
