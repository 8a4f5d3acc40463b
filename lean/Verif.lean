import Verif.Audit
import Verif.Lemmas.AddProgress
import Verif.Lemmas.AddTargets
import Verif.Lemmas.Annealed
import Verif.Lemmas.Append
import Verif.Lemmas.AverageKernel
import Verif.Lemmas.Averages
import Verif.Lemmas.Births
import Verif.Lemmas.BlockAgain
import Verif.Lemmas.BlockChain
import Verif.Lemmas.BlockKernel
import Verif.Lemmas.BlockLaw
import Verif.Lemmas.BlockProposal
import Verif.Lemmas.Blocks
import Verif.Lemmas.Cache
import Verif.Lemmas.Chain
import Verif.Lemmas.Choices
import Verif.Lemmas.Conform
import Verif.Lemmas.ConformFill
import Verif.Lemmas.ConformInit
import Verif.Lemmas.ConformMoves
import Verif.Lemmas.ConformProps
import Verif.Lemmas.ConformSites
import Verif.Lemmas.ConformVisited
import Verif.Lemmas.Consume
import Verif.Lemmas.Cooling
import Verif.Lemmas.Covariance
import Verif.Lemmas.Dict
import Verif.Lemmas.Ensemble
import Verif.Lemmas.Ergodic
import Verif.Lemmas.ErgodicKernel
import Verif.Lemmas.Extents
import Verif.Lemmas.FailingLaw
import Verif.Lemmas.FailingWhole
import Verif.Lemmas.Groups
import Verif.Lemmas.HeapBirths
import Verif.Lemmas.HeapCopy
import Verif.Lemmas.HeapFirm
import Verif.Lemmas.HeapFrame
import Verif.Lemmas.HeapFrame2
import Verif.Lemmas.HeapFrame3
import Verif.Lemmas.HeapFresh
import Verif.Lemmas.HeapHistory
import Verif.Lemmas.HeapNeighbour
import Verif.Lemmas.HeapPerturb
import Verif.Lemmas.HeapRep
import Verif.Lemmas.HeapSep
import Verif.Lemmas.HeapSim
import Verif.Lemmas.HeapTree
import Verif.Lemmas.HeapValues
import Verif.Lemmas.HeapVisits
import Verif.Lemmas.Hears
import Verif.Lemmas.HearsParts
import Verif.Lemmas.Histogram
import Verif.Lemmas.IidTape
import Verif.Lemmas.InsertDelete
import Verif.Lemmas.Instances
import Verif.Lemmas.Interp
import Verif.Lemmas.Inversion
import Verif.Lemmas.Iterate
import Verif.Lemmas.Join
import Verif.Lemmas.Levels
import Verif.Lemmas.Lift
import Verif.Lemmas.Likelihood
import Verif.Lemmas.LineOverlap
import Verif.Lemmas.Metropolis
import Verif.Lemmas.Mixture
import Verif.Lemmas.MoveReports
import Verif.Lemmas.MoveRun
import Verif.Lemmas.MoveScheme
import Verif.Lemmas.Names
import Verif.Lemmas.NearCenter
import Verif.Lemmas.NearRun
import Verif.Lemmas.NearScheme
import Verif.Lemmas.NearSites
import Verif.Lemmas.Neighbour
import Verif.Lemmas.NoiseLaw
import Verif.Lemmas.NoiseRun
import Verif.Lemmas.NoiseScheme
import Verif.Lemmas.Overlap
import Verif.Lemmas.OwnChain
import Verif.Lemmas.OwnParts
import Verif.Lemmas.Parts
import Verif.Lemmas.PathSteps
import Verif.Lemmas.PiDensity
import Verif.Lemmas.PlainAverages
import Verif.Lemmas.PlainChain
import Verif.Lemmas.PlainConverge
import Verif.Lemmas.PlainIrred
import Verif.Lemmas.PlainKernel
import Verif.Lemmas.PlainLaw
import Verif.Lemmas.PlainMoves
import Verif.Lemmas.PlainOutcome
import Verif.Lemmas.PlainPert
import Verif.Lemmas.PlainPost
import Verif.Lemmas.PlainRun
import Verif.Lemmas.PlainSample
import Verif.Lemmas.PlainSamples
import Verif.Lemmas.PlainStart
import Verif.Lemmas.PlainWhole
import Verif.Lemmas.Prefixed
import Verif.Lemmas.Prior
import Verif.Lemmas.Progress
import Verif.Lemmas.ProgressChain
import Verif.Lemmas.ProgressEval
import Verif.Lemmas.ProgressInit
import Verif.Lemmas.ProgressMoves
import Verif.Lemmas.ProgressPerturb
import Verif.Lemmas.ProgressSave
import Verif.Lemmas.Rand
import Verif.Lemmas.Realize
import Verif.Lemmas.Redraw
import Verif.Lemmas.Refresh
import Verif.Lemmas.Rejection
import Verif.Lemmas.Report
import Verif.Lemmas.Results
import Verif.Lemmas.Retry
import Verif.Lemmas.RetryLink
import Verif.Lemmas.Reversible
import Verif.Lemmas.RowConst
import Verif.Lemmas.RowHears
import Verif.Lemmas.RowJoint
import Verif.Lemmas.RowLaw
import Verif.Lemmas.RowMove
import Verif.Lemmas.RowRoam
import Verif.Lemmas.Rows
import Verif.Lemmas.SafeModels
import Verif.Lemmas.Samplers
import Verif.Lemmas.Save
import Verif.Lemmas.Select
import Verif.Lemmas.SetPerturbations
import Verif.Lemmas.Simulate
import Verif.Lemmas.SiteLaw
import Verif.Lemmas.SiteRun
import Verif.Lemmas.SiteStep
import Verif.Lemmas.Slices
import Verif.Lemmas.SpacePert
import Verif.Lemmas.Spare
import Verif.Lemmas.StartLaw
import Verif.Lemmas.StartRun
import Verif.Lemmas.StateChain
import Verif.Lemmas.Statistics
import Verif.Lemmas.Stir
import Verif.Lemmas.SwapOrder
import Verif.Lemmas.TemperingSwaps
import Verif.Lemmas.Tilt
import Verif.Lemmas.TiltSites
import Verif.Lemmas.TransD
import Verif.Lemmas.Truncated
import Verif.Lemmas.TruncatedPlane
import Verif.Lemmas.Undo
import Verif.Lemmas.Values
import Verif.Lemmas.Visited
import Verif.Lemmas.WholeAverages
import Verif.Lemmas.WholeChain
import Verif.Lemmas.WholeResults
import Verif.Lemmas.WholeRoam
import Verif.Lemmas.WholeRuns
import Verif.Lemmas.WholeStart
import Verif.Lemmas.WholeSwaps
import Verif.Lemmas.WholeTempering
import Verif.Model.AddTargets
import Verif.Model.Chain
import Verif.Model.Construct
import Verif.Model.Dict
import Verif.Model.Ensemble
import Verif.Model.Exceptions
import Verif.Model.Heap
import Verif.Model.Inversion
import Verif.Model.Likelihood
import Verif.Model.LikelihoodSetup
import Verif.Model.Moves
import Verif.Model.Names
import Verif.Model.Prior
import Verif.Model.Py
import Verif.Model.PyF
import Verif.Model.Rand
import Verif.Model.Report
import Verif.Model.Results
import Verif.Model.Samplers
import Verif.Model.Save
import Verif.Model.Select
import Verif.Model.SetPerturbations
import Verif.Model.Space
import Verif.Model.State
import Verif.Model.StateChain
import Verif.Model.StateObject
import Verif.Model.Tessellation
import Verif.Model.UserFunc
import Verif.Model.Utils1d
import Verif.Model.WholeRun
import Verif.Props.C01_C04_Iteration
import Verif.Props.C05_Statistics
import Verif.Props.C06_C07_Saving
import Verif.Props.C08_Alignment
import Verif.Props.C09_Balance
import Verif.Props.C09_OneParameter
import Verif.Props.C10_C17_Conformance
import Verif.Props.C14_C65_Rows
import Verif.Props.C16_C33_Noise
import Verif.Props.C18_C19_ValuePerturbation
import Verif.Props.C20_Values
import Verif.Props.C21_C22_BirthDeath
import Verif.Props.C23_BirthDeathBalance
import Verif.Props.C24_Plane
import Verif.Props.C24_Redrawn
import Verif.Props.C25_OneInstance
import Verif.Props.C26_Weights
import Verif.Props.C27_C31_Likelihood
import Verif.Props.C32_Cache
import Verif.Props.C34_C35_LikelihoodSetup
import Verif.Props.C36_Vanilla
import Verif.Props.C37_C38_Tempering
import Verif.Props.C39_Temperatures
import Verif.Props.C40_Ladder
import Verif.Props.C41_Swap
import Verif.Props.C42_Annealing
import Verif.Props.C43_Continue
import Verif.Props.C44_Callbacks
import Verif.Props.C45_InsertDelete
import Verif.Props.C46_C48_Interpolation
import Verif.Props.C49_C51_Extents
import Verif.Props.C52_C53_Setup
import Verif.Props.C54_Results
import Verif.Props.C55_C57_C61_Construct
import Verif.Props.C56_Groups
import Verif.Props.C58_Copy
import Verif.Props.C59_Proposals
import Verif.Props.C60_Attributes
import Verif.Props.C63_C66_Progress
import Verif.Props.C64_Visited
import Verif.Props.C67_Hyper
import Verif.Props.C68_Refinement
import Verif.Props.C69_PosteriorInvariance
import Verif.Props.C70_C71_Ensemble
import Verif.Props.C72_Convergence
import Verif.Props.C73_Averages
import Verif.Props.C74_WholeRun
import Verif.Props.C75_NeighbourBalance
import Verif.Props.C76_Hierarchical
import Verif.Props.C77_OwnPerturbations
import Verif.Props.C78_WholeInversion
import Verif.Props.C79_Iterations
import Verif.Props.C80_WholeNotPosterior
import Verif.Props.C81_Completed
import Verif.Props.C82_WholeConvergence
import Verif.Props.C83_WholeAverages
import Verif.Props.C84_WholeStart
import Verif.Props.C85_Annealed
import Verif.Props.C86_WholeResults
import Verif.Props.C87_TemperingSwaps
import Verif.Props.C88_WholeTempering
import Verif.Props.C89_Failing
import Verif.Props.C90_Names
import Verif.Props.C91_Report
import Verif.Props.C92_AddTargets
import Verif.Props.C93_Exceptions
import Verif.Props.C94_Select
import Verif.Props.C95_StateObject
import Verif.Spec.AddTargets
import Verif.Spec.Annealed
import Verif.Spec.Conform
import Verif.Spec.Densities
import Verif.Spec.Ensemble
import Verif.Spec.Exceptions
import Verif.Spec.Failing
import Verif.Spec.Gaussian
import Verif.Spec.Groups
import Verif.Spec.Heap
import Verif.Spec.HeapChain
import Verif.Spec.Hierarchical
import Verif.Spec.IidTape
import Verif.Spec.Instances
import Verif.Spec.Iterations
import Verif.Spec.Likelihood
import Verif.Spec.LogPrior
import Verif.Spec.LogProb
import Verif.Spec.Names
import Verif.Spec.Neighbour
import Verif.Spec.Noise
import Verif.Spec.PlainInversion
import Verif.Spec.PlainRun
import Verif.Spec.PlainSamples
import Verif.Spec.PlainStart
import Verif.Spec.Progress
import Verif.Spec.Report
import Verif.Spec.Reversible
import Verif.Spec.Roaming
import Verif.Spec.RowLaw
import Verif.Spec.RowMove
import Verif.Spec.Rows
import Verif.Spec.Samples
import Verif.Spec.Saved
import Verif.Spec.Schedule
import Verif.Spec.Select
import Verif.Spec.Setup
import Verif.Spec.SiteMove
import Verif.Spec.Statistics
import Verif.Spec.TemperingSwaps
import Verif.Spec.Tessellation
import Verif.Spec.TransD
import Verif.Spec.Truncated
import Verif.Spec.TruncatedPlane
import Verif.Spec.Visited
import Verif.Spec.WholeInversion
import Verif.Spec.WholeResults
import Verif.Spec.WholeStart
import Verif.Spec.WholeTempering
