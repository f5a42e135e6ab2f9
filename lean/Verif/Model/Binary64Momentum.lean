import Verif.Model.Binary64Observables
import Verif.Model.MomentumProgramFloat

/-!
# The program `hubbard_momentum_1d_rk4` with underflow and overflow

The program of `Verif.Model.MomentumProgramFloat` once more, with the rounding `rnd : ℝ → Res ℝ` of `Verif.Model.Binary64`: the outcome `ub` means that an
infinity or a NaN came up. `std::cos` is an arbitrary function `cosF`. Integers are converted to `double` by `rnd`. The constants `Pi<double>::value` and
`TwoPi<double>::value` (constants.hpp:25-34) are `p` and `2 p`. The values of the table of expectation values are small integers and exact.
-/

set_option autoImplicit false

namespace Ieompp.IEEE

open MomentumSpace (vecAt Contribution)
open RealSpace

section
variable (rnd : ℝ → Res ℝ)

/-- The condition of a loop whose body can overflow; after an overflow the loop is considered finished. periodic_chain.hpp:249-254. -/
def runningR (cond : ℝ → Prop) : Res ℝ → Prop
  | .val v => cond v
  | .ub => False
  | .diverges => False

/-- `while(cond(v)) v = body(v);`. periodic_chain.hpp:249-254. -/
noncomputable def loopR (cond : ℝ → Prop) (body : ℝ → Res ℝ) (v : ℝ) : Res ℝ :=
  (whileLoop (runningR cond) (fun s => s.bind body) (.val v)).bind id

/-- periodic_chain.hpp:242-256: `operator()`, before `% _size`; compare `coordIndexF`. -/
noncomputable def coordIndexR (xMin xMax xLength dx v : ℝ) : Res ℕ :=
  (loopR (fun v => v < xMin) (fun v => rnd (v + xLength)) v).bind fun v =>
  (loopR (fun v => v > xMax) (fun v => rnd (v - xLength)) v).bind fun v =>
  (rnd (v - xMin)).bind fun d => (divR rnd d dx).bind fun q => toUnsigned (cround q)

/-- periodic_chain.hpp:242-256: `operator()`; compare `Chain.lookupF`. -/
noncomputable def lookupR (c : Chain ℝ) (v : ℝ) : Res ℕ :=
  (coordIndexR rnd c.xMin c.xMax c.xLength c.dx v).map (fun i => i % c.size)

/-- periodic_chain.hpp:74-81: momentum space constructor; compare `Chain.momentumF`. -/
noncomputable def momentumR (p : ℝ) (N : ℕ) : Res (Chain ℝ) :=
  (rnd N).bind fun n => (divR rnd (2 * p) n).bind fun dx => .val { Chain.momentum p N with dx := dx }

/-- hubbard_momentum_space/basis.hpp:35-37: the third momentum `momentum_space[k1] + momentum_space[k2] - momentum_space[q_idx]` and its site. -/
noncomputable def thirdR (c : Chain ℝ) (q i1 i2 : ℕ) : Res ℕ :=
  (coordinateR rnd c.xMin c.dx i1).bind fun k1 => (coordinateR rnd c.xMin c.dx i2).bind fun k2 =>
  (coordinateR rnd c.xMin c.dx q).bind fun kq => (rnd (k1 + k2)).bind fun s => (rnd (s - kq)).bind fun v => lookupR rnd c v

/-- hubbard_momentum_space/basis.hpp:21-41: constructor of `Basis3Operator(q_idx, momentum_space)`; compare `MomentumSpace.basis3F`. -/
noncomputable def momentumBasis3R (q : ℕ) (c : Chain ℝ) : Res (List HMonomial) :=
  (MomentumSpace.collect ((List.range c.size).flatMap fun i1 => (List.range c.size).map fun i2 =>
    (thirdR rnd c q i1 i2).map fun i3 =>
      ([⟨true, (i1, true)⟩, ⟨true, (i2, false)⟩, ⟨false, (i3, false)⟩] : HMonomial))).map
  (fun l => [⟨true, (q, true)⟩] :: l)

/-- dispersion.hpp:36-49 on the chain, whose only lattice vector is `dx`: `prefactor * (0. + std::cos(dot_product(k, dx)))` with `prefactor = -2 * J`; compare
`Hubbard.chainDispersionF`. -/
noncomputable def energyR (cosF : ℝ → ℝ) (bz : Chain ℝ) (dx J : ℝ) (i : ℕ) : Res ℝ :=
  (rnd (-2 * J)).bind fun prefactor => (coordinateR rnd bz.xMin bz.dx i).bind fun k => (rnd (k * dx)).bind fun a =>
  (rnd (0 + cosF a)).bind fun val => rnd (prefactor * val)

/-- liouvillian.hpp:20-28, dispersion.hpp:33-51; compare `Hubbard.chainDispersionF`. -/
noncomputable def chainDispersionR (cosF : ℝ → ℝ) (bz : Chain ℝ) (J : ℝ) (sched : List ℕ) : Res (List ℝ) :=
  storeLoop (energyR rnd cosF bz 1 J) sched (List.replicate bz.size 0)

/-- hubbard_momentum_space/blaze_sparse.hpp:38-45, 48-59; compare `MomentumSpace.rowTripletsF`. Where a row cannot be read the outcome is `ub`. -/
noncomputable def rowTripletsR (basis : List HMonomial) (eps : ℕ → ℝ) (interaction1 interaction2 : ℝ) (row : ℕ) : Res (List (Triplet ℝ)) :=
  if row = 0 then
    (vecAt basis 0).bind fun m => (vecAt m 0).bind fun op => (rnd (eps op.index.1 + interaction1)).bind fun d =>
      .val (⟨0, 0, d⟩ :: (List.range' 1 (basis.length - 1)).map (fun i => ⟨0, i, interaction2⟩))
  else
    match basisSites basis row with
    | none => .ub
    | some s => (rnd (eps s.1 + eps s.2.1)).bind fun a => (rnd (a - eps s.2.2)).bind fun b => (rnd (b + interaction1)).bind fun d =>
        .val [⟨row, 0, interaction2⟩, ⟨row, row, d⟩]

/-- hubbard_momentum_space/blaze_sparse.hpp:22-62: `init_matrix`; compare `MomentumSpace.initMatrixF`. All elements are computed before the first one is
inserted. -/
noncomputable def momentumMatrixR (basis : List HMonomial) (Nb : ℕ) (eps : ℕ → ℝ) (U : ℝ) (N : ℕ) : Res (Sparse ℝ) :=
  (rnd (U / 2)).bind fun interaction1 => (rnd N).bind fun n => (rnd (2 * n)).bind fun n2 => (divR rnd U n2).bind fun interaction2 =>
  (mapR (rowTripletsR rnd basis eps interaction1 interaction2) (List.range basis.length)).bind fun rows =>
  Sparse.fillRows (fun row => rows[row]?) (List.range basis.length) (Sparse.init basis.length (MomentumSpace.numberOfMatrixElements Nb))

/-- `result += x` with a real number `x`; compare `Program.addRealF`. hubbard_momentum_space/particle_number.hpp:49. -/
def addRealR (z : ℂ) (x : ℝ) : Res ℂ := (rnd (z.re + x)).bind fun a => .val ⟨a, z.im⟩

/-- hubbard_momentum_space/particle_number.hpp:45-55: one round of the loop of `operator()`; compare `MomentumSpace.particleStepF`. -/
def particleStepR (vec : List ℂ) (result : ℂ) (c : Contribution ℝ) : Res ℂ :=
  if c.left = c.right then
    (vecAt vec c.left).bind fun l => (normR rnd l).bind fun p => (rnd (p * c.value)).bind fun x => addRealR rnd result x
  else
    (vecAt vec c.left).bind fun l => (vecAt vec c.right).bind fun r =>
      (multiplyWithConjugateR rnd l r).bind fun z => (scaleR rnd c.value z).bind fun z => addR rnd result z

/-- hubbard_momentum_space/particle_number.hpp:39-60: `operator()`; compare `MomentumSpace.particleNumberF`. -/
def particleNumberR (vec : List ℂ) (table : List (Contribution ℝ)) : Res ℝ :=
  (table.foldl (fun (acc : Res ℂ) c => acc.bind fun r => particleStepR rnd vec r c) (.val 0)).map Complex.re

/-- Several calls of `integrator.step(M, h)`. hubbard_momentum_1d_rk4.cpp:59-66. -/
noncomputable def stepsR (n : ℕ) (dt : ℝ) (m : Sparse ℂ) : ℕ → Program.Vars → Res Program.Vars
  | 0, s => .val s
  | k + 1, s => (stepVarsR rnd n dt m s).bind fun s => stepsR n dt m k s

/-- hubbard_momentum_1d_rk4.cpp:40-67 (and momentum_space.hpp:9-23, liouvillian.hpp:22-29); compare `Program.momentum1dRk4F`. The members of the lattice
`PeriodicChain(N, 1.)` that the program does not use are not rounded. -/
noncomputable def momentum1dRk4R (cosF : ℝ → ℝ) (p : ℝ) (conjugation energies : List ℕ) (w : ODE.Work ℂ) (N : ℕ) (J U dt : ℝ) : Res (ℝ × ℝ) :=
  let kIdx := N / 2
  (momentumR rnd p N).bind fun brillouinZone =>
  let lattice := Chain.real (K := ℝ) N 1
  (momentumBasis3R rnd kIdx brillouinZone).bind fun basis =>
  let conjugateBasis := getConjugate conjugation basis
  (chainDispersionR rnd cosF brillouinZone J energies).bind fun values =>
  (momentumMatrixR rnd basis brillouinZone.size (Program.dispersionFunction values) U lattice.size).bind fun m =>
  (timesIR rnd m).bind fun m =>
  (Program.initVector basis.length).bind fun h =>
  (MomentumSpace.nonVanishing basis conjugateBasis (Program.dispersionFunction values) 0).bind fun table =>
  (particleNumberR rnd h table).bind fun first =>
  (stepsR rnd basis.length dt m 8 (0, w, h)).bind fun s =>
  (particleNumberR rnd s.2.2 table).map fun second => (first, second)

end

end Ieompp.IEEE
