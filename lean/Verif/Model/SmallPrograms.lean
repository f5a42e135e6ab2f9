import Verif.Model.RK4
import Verif.Model.KineticTheory
import Verif.Model.ExpectationValue
import Verif.Model.ParticleNumber
import Verif.Model.IntegerIterator

/-!
# Model of the programs `hubbard_trivial` and `hubbard_dispersion_1d`

`src/hubbard/hubbard_trivial.cpp:10-80`, `src/hubbard/hubbard_dispersion_1d.cpp:8-19`. The outcome of a program is the list of
the rows of the file it writes, as numbers (formatting is not modelled). Exact arithmetic. The constants of the programs are
parameters here.
-/

set_option autoImplicit false

namespace Ieompp.Program

open MomentumSpace (vecAt)

/-- hubbard_trivial.cpp:14-36: the body of the double loop for the indices `i`, `j`: the number added to `ev`.
`norm(z)` is `|z|²`. -/
noncomputable def trivialTerm (h : List ℂ) (i j : ℕ) : Res ℂ :=
  (vecAt h i).bind fun hi => (vecAt h j).bind fun hj =>
  let piInv : ℂ := ((1 / Real.pi : ℝ) : ℂ)
  .val (if i = j then
      if i < 3 then (Complex.normSq hi : ℂ) * 0.5 else (Complex.normSq hi : ℂ) * 0.25
    else if i < 3 ∧ j < 3 then hi * hj * piInv
    else if i = 0 ∨ j = 0 then hi * hj * 0.25
    else hi * hj * 0.5 * piInv)

/-- hubbard_trivial.cpp:10-38: `particle_number`. -/
noncomputable def trivialParticleNumber (h : List ℂ) : Res ℂ :=
  ((List.range 4).flatMap fun i => (List.range 4).map fun j => (i, j)).foldl
    (fun (acc : Res ℂ) p => acc.bind fun ev => (trivialTerm h p.1 p.2).map fun x => ev + x) (.val 0)

/-- hubbard_trivial.cpp:40-50: `write_state`: the numbers of a row. -/
noncomputable def trivialRow (t : ℝ) (h : List ℂ) : Res (List ℝ) :=
  (trivialParticleNumber h).bind fun n =>
  (vecAt h 0).bind fun h0 => (vecAt h 1).bind fun h1 => (vecAt h 2).bind fun h2 => (vecAt h 3).bind fun h3 =>
  .val [t, h0.re, h0.im, h1.re, h1.im, h2.re, h2.im, h3.re, h3.im, n.re, n.im]

/-- hubbard_trivial.cpp:59-63: the matrix before it is multiplied with `1i`. -/
noncomputable def trivialMatrix (J U : ℝ) (i j : ℕ) : ℝ :=
  (([[U / 2, -J, -J, U / 2], [-J, U / 2, 0, 0], [-J, 0, U / 2, 0], [U / 2, 0, 0, U / 2]] : List (List ℝ)).getD i []).getD j 0

/-- hubbard_trivial.cpp:71-75: the loop, with `steps - i` rounds left, and the last row. -/
noncomputable def trivialLoop (J U dt : ℝ) : ℕ → ℕ → ODE.Work ℂ → List ℂ → Res (List (List ℝ))
  | 0, i, _, h => (trivialRow (i * dt) h).map fun r => [r]
  | left + 1, i, w, h =>
    (trivialRow (i * dt) h).bind fun r =>
    (ODE.stepMatrix 4 (dt : ℂ) (fun i j => Complex.I * (trivialMatrix J U i j : ℂ)) w h).bind fun s =>
    (trivialLoop J U dt left (i + 1) s.1 s.2).map fun rows => r :: rows

/-- hubbard_trivial.cpp:52-80: `main` (with `J = U = 1`, `dt = 0.01`, `steps = 2000`). The vector has four zeros (the elements
of a `DynamicVector` of complex numbers are value-initialised) and `h[0] = 1`. -/
noncomputable def trivial (w : ODE.Work ℂ) (J U dt : ℝ) (steps : ℕ) : Res (List (List ℝ)) :=
  (initVector 4).bind fun h => trivialLoop J U dt steps 0 w h

/-- hubbard_dispersion_1d.cpp:8-19 (with `N = 1024`): for every site of the Brillouin zone, in the order of the iterator
(C16: the sites are 0, …, N-1), the momentum and the energy. `energies` is the order in which the parallel loop of the
constructor of the dispersion runs. -/
noncomputable def dispersion1d (energies : List ℕ) (N : ℕ) : Res (List (ℝ × ℝ)) :=
  let brillouinZone := Chain.momentum Real.pi N
  let lattice := Chain.real (K := ℝ) N 1
  (Hubbard.dispersion (fun a b => a * b) brillouinZone.size brillouinZone.pos (Hubbard.chainVectors lattice) 1
    energies).bind fun values =>
  MomentumSpace.collect ((List.range brillouinZone.size).map fun site =>
    (Hubbard.dispersionAt values site).map fun e => (brillouinZone.pos site, e))

end Ieompp.Program
