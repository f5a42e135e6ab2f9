import Verif.Props.Operator
import Verif.Props.Monomial
import Verif.Props.Commutator
import Verif.Props.Kronecker
import Verif.Props.Term
import Verif.Props.Triplet
import Verif.Props.IntegerIterator
import Verif.Props.Chain
import Verif.Props.Square
import Verif.Props.Basis
import Verif.Props.Sparse
import Verif.Props.Liouvillian
import Verif.Props.Projection
import Verif.Props.Flow
import Verif.Props.MomentumMatrix
import Verif.Props.MomentumCommutator
import Verif.Props.MomentumProjection
import Verif.Props.MatrixNo
import Verif.Model.FermiSea
import Verif.Model.Number
import Verif.Model.ParticleNumber
import Verif.Spec.Fock
import Verif.Props.FermiSea
import Verif.Props.Number
import Verif.Props.ParticleNumber
import Verif.Props.ParticleTable
import Verif.Props.ParticleReal
import Verif.Props.ParticleSort
import Verif.Props.SiteOccupation
import Verif.Props.Slater
import Verif.Props.FermiJump
import Verif.Props.ExpectationValue
import Verif.Props.ExpectationValueRect
import Verif.Props.Dispersion
import Verif.Props.RK4
import Verif.Props.RK4Order
import Verif.Props.RK4Stability
import Verif.Props.Simulation
import Verif.Props.CleanOutput
import Verif.Props.Checkpoint
import Verif.Props.KineticTheory
import Verif.Props.Program
import Verif.Props.JumpProgram
import Verif.Props.Occupation
import Verif.Props.OccupationRings
import Verif.Props.Print
import Verif.Props.EigenIO
import Verif.Props.EigenTriplet
import Verif.Model.MomentumProgram
import Verif.Spec.MomentumProgram
import Verif.Props.MomentumProgram
import Verif.Props.StarFlow
import Verif.Props.MomentumExact
import Verif.Props.MomentumRows
import Verif.Props.MomentumSharp
import Verif.Props.RK4Linear
import Verif.Model.SmallPrograms
import Verif.Spec.SmallPrograms
import Verif.Props.SmallPrograms
import Verif.Model.CommutatorProgram
import Verif.Spec.CommutatorProgram
import Verif.Props.CommutatorProgram
import Verif.Model.Application
import Verif.Spec.Application
import Verif.Props.Application
import Verif.Props.ApplicationRuns
import Verif.Props.EigenInit
import Verif.Props.SimulationFloat
import Verif.Props.OperatorIndex
import Verif.Props.SymbolicIndex
import Verif.Props.MatrixTraits
import Verif.Props.MatrixNoRows
import Verif.Props.ChainFloat
import Verif.Props.Restart
import Verif.Props.ParallelFloat
import Verif.Props.RK4Float
import Verif.Props.Platform
import Verif.Props.Threads
import Verif.Props.ThreadsLink
import Verif.Props.ConcurrentCalls
import Verif.Props.Aliasing
import Verif.Props.Width
import Verif.Props.StreamFormat
import Verif.Props.SparseExact
import Verif.Props.Durability
import Verif.Props.LatticeFloat
import Verif.Props.Main
import Verif.Props.MainOutcome
import Verif.Props.MainRuns
import Verif.Props.MomentumBasis2D
import Verif.Props.Closest
import Verif.Model.FermiFloat
import Verif.Props.FermiFloat
import Verif.Props.RepoTests
import Verif.Model.Log
import Verif.Model.LogCalls
import Verif.Spec.Log
import Verif.Props.Log
import Verif.Props.LogMessages
import Verif.Model.BlazeInsert
import Verif.Props.BlazeInsert
import Verif.Model.LexicalCast
import Verif.Spec.LexicalCast
import Verif.Props.LexicalCast
import Verif.Props.StepWidth
import Verif.Props.StepWidthExact
import Verif.Props.Symmetry
import Verif.Props.SymmetryRuns
import Verif.Props.KroneckerNumber
import Verif.Props.Convergence
import Verif.Props.ProgramDouble
import Verif.Props.OccupationShipped
import Verif.Props.JumpDouble
import Verif.Props.DispersionFloat
import Verif.Props.TheoryFloat
import Verif.Props.TrivialFloat
import Verif.Props.FormSchur
import Verif.Props.FlowPerturbation
import Verif.Props.MomentumFloat
import Verif.Props.MomentumDouble
import Verif.Props.MomentumShipped
import Verif.Props.FloatReduction
import Verif.Model.OutputText
import Verif.Spec.OutputText
import Verif.Props.OutputText
import Verif.Props.OutputFile
import Verif.Props.OutputTimes
import Verif.Props.OutputRows
import Verif.Props.OutputForm
import Verif.Props.OutputShipped
import Verif.Props.OutputLink
import Verif.Model.Binary64
import Verif.Spec.Binary64
import Verif.Props.Binary64
import Verif.Props.Binary64Time
import Verif.Props.Binary64Vector
import Verif.Props.Binary64Step
import Verif.Props.Binary64Stages
import Verif.Props.Binary64Run
import Verif.Props.Binary64Program
import Verif.Props.Binary64Nearest
import Verif.Model.Binary64Observables
import Verif.Props.Binary64Table
import Verif.Props.Binary64Occupation
import Verif.Props.Binary64Measured
import Verif.Props.Binary64Jump
import Verif.Props.Binary64JumpRun
import Verif.Props.Binary64JumpProgram
import Verif.Props.Binary64Link
import Verif.Props.Binary64Shipped
import Verif.Model.Assertions
import Verif.Props.Assertions
import Verif.Props.AssertionPrograms
import Verif.Props.AssertionImag
import Verif.Props.AssertionExact
import Verif.Model.Binary64Momentum
import Verif.Props.Binary64Grid
import Verif.Props.Binary64MomentumSetup
import Verif.Props.Binary64MomentumEnergies
import Verif.Props.Binary64MomentumMatrix
import Verif.Props.Binary64MomentumNumber
import Verif.Props.Binary64MomentumProgram
import Verif.Props.Binary64MomentumShipped
import Verif.Model.PlatformTexts
import Verif.Props.PlatformTexts
import Verif.Props.StreamText
import Verif.Props.AssertionForm
import Verif.Props.MainTimes
import Verif.Props.ConvergenceKinetic
import Verif.Props.Binary64Dispersion
import Verif.Props.Binary64TrivialRun
import Verif.Props.Binary64Theory
import Verif.Props.ExtendedText
import Verif.Props.ExtendedLattice
import Verif.Props.ExtendedRuns
import Verif.Props.ExtendedLink
import Verif.Props.Binary64Files
import Verif.Props.Binary64Texts
import Verif.Props.ExtendedOccupationLink
import Verif.Model.ExtendedJump
import Verif.Props.ExtendedJump
import Verif.Props.ExtendedJumpRuns
import Verif.Spec.ExtendedArithmetic
import Verif.Props.ExtendedArithmetic
import Verif.Props.ExtendedLatticeFinite
import Verif.Props.ExtendedJumpLink
import Verif.Model.ExtendedMomentum
import Verif.Spec.ExtendedMomentum
import Verif.Props.ExtendedStep
import Verif.Props.ExtendedMomentum
import Verif.Props.ExtendedMomentumLink
import Verif.Model.SpecialOutput
import Verif.Spec.SpecialOutput
import Verif.Props.SpecialOutput
import Verif.Props.SpecialOutputRuns
import Verif.Props.Instances
