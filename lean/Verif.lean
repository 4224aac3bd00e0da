import Verif.Model.Api
import Verif.Props.Sampling
import Verif.Props.Args
import Verif.Props.DensePolytope
import Verif.Props.SparsePolytope
import Verif.Props.AnyArith
import Verif.Props.DenseWeights
import Verif.Props.Constants
import Verif.Props.Centers
import Verif.Lemmas.FR
import Verif.Props.FacialReduction
import Verif.Props.FullRunCompletes
import Verif.Props.SparseWeights
import Verif.Lemmas.Stream
import Verif.Props.BallLaw
import Verif.Props.SparseBarrierLaw
import Verif.Props.SparseBallLaw
import Verif.Spec.Membership
import Verif.Lemmas.Membership
import Verif.Spec.Metric
import Verif.Lemmas.Cholesky
import Verif.Lemmas.ContMatrix
import Verif.Lemmas.DenseMH
import Verif.Lemmas.MHReverse
import Verif.Lemmas.DenseReverse
import Verif.Props.DenseProposal
import Verif.Props.DenseBarrierLaw
import Verif.Props.AcceptExact
import Verif.Spec.Completes
import Verif.Props.Completes
import Verif.Spec.Constants
import Verif.Props.ChainFacts
import Verif.Props.Stable
import Verif.Props.Queries
import Verif.Props.Ellipsoid
import Verif.Props.Examples
import Verif.Props.ExamplesRuns
import Verif.Props.ExamplesWeights
import Verif.Props.ExamplesLaws
import Verif.Props.ExamplesMore
import Verif.Props.Handed
import Verif.Model.Ctor
import Verif.Props.Defaults
import Verif.Props.HitRunReturns
import Verif.Lemmas.ChordLaw
import Verif.Lemmas.NearLaw
import Verif.Props.HitRunLaw
import Verif.Props.HitRunBias
import Verif.Lemmas.Doeblin
import Verif.Lemmas.RayMinorize
import Verif.Props.HitRunConverges
import Verif.Lemmas.Average
import Verif.Props.HitRunAverages
import Verif.Spec.WarmStart
import Verif.Spec.Rounding
import Verif.Model.Ieee
import Verif.Lemmas.Ieee
import Verif.Lemmas.Rounding
import Verif.Props.Rounding
import Verif.Lemmas.Ergodic
import Verif.Lemmas.ErgodicMean
import Verif.Lemmas.MHErgodic
import Verif.Lemmas.WalkErgodic
import Verif.Props.SparseBarrierConverges
import Verif.Props.DenseBarrierConverges
import Verif.Props.FixedConst
import Verif.Spec.Recording
import Verif.Props.Recording
import Verif.Spec.Survivors
import Verif.Props.FRExact
import Verif.Spec.ChordEnd
import Verif.Props.ChordExact
import Verif.Lemmas.LogDet
import Verif.Lemmas.Potential
import Verif.Spec.JohnWeights
import Verif.Lemmas.JohnPotential
import Verif.Lemmas.SparseJohnPotential
import Verif.Props.JohnConverges
import Verif.Props.SparseJohnConverges
import Verif.Props.JohnWeightExamples
import Verif.Lemmas.Descent
import Verif.Lemmas.LevFloor
import Verif.Spec.LSWeights
import Verif.Props.LSConverges
import Verif.Props.SparseLSConverges
import Verif.Props.LSDefaults
import Verif.Props.LSWeightExamples
import Verif.Lemmas.Sphere
import Verif.Lemmas.TwoStep
import Verif.Lemmas.UniformErgodic
import Verif.Lemmas.BallMinorize
import Verif.Lemmas.UniformRows
import Verif.Lemmas.BallMix
import Verif.Props.BallConverges
import Verif.Props.SparseBallConverges
import Verif.Lemmas.LPDuality
import Verif.Props.CentersExact
import Verif.Spec.Limit
import Verif.Lemmas.Follows
import Verif.Lemmas.Plane
import Verif.Lemmas.ParaFlow
import Verif.Lemmas.ParaStationary
import Verif.Lemmas.NotConverge
import Verif.Props.DenseNotUniform
import Verif.Lemmas.Perturb
import Verif.Lemmas.PerturbMean
import Verif.Lemmas.KernelNear
import Verif.Lemmas.MemWalk
import Verif.Lemmas.MemRows
import Verif.Lemmas.JohnMem
import Verif.Props.SparseJohnLaw
import Verif.Props.SparseUserLaw
import Verif.Props.Storage
import Verif.Props.StorageRound
import Verif.Props.Drift
import Verif.Props.DriftExamples
import Verif.Model.Python
import Verif.Lemmas.ClassSim
import Verif.Props.Python
import Verif.Props.PythonDist
import Verif.Props.PythonExamples
import Verif.Spec.EndToEnd
import Verif.Lemmas.Chart
import Verif.Lemmas.EndToEnd
import Verif.Props.EndToEnd
import Verif.Spec.RoundingOps
import Verif.Lemmas.IeeeOps
import Verif.Lemmas.ChordRound
import Verif.Lemmas.IeeeExact
import Verif.Lemmas.IeeeOrder
import Verif.Props.HitRunRounding
import Verif.Props.HitRunFinite
import Verif.Spec.KernelDraws
import Verif.Props.SparseHitRunRounding
import Verif.Props.SparseHitRunRoundingExample
import Verif.Lemmas.ChordFinite
import Verif.Props.HitRunRoundingExample
import Verif.Props.HitRunHang
import Verif.Props.HitRunHangExamples
import Verif.Spec.Tolerance
import Verif.Lemmas.FRTol
import Verif.Props.Tolerance
import Verif.Props.ToleranceRun
import Verif.Props.ToleranceExamples
import Verif.Props.Redescribe
import Verif.Props.Recombine
import Verif.Spec.Joint
import Verif.Lemmas.NearIndep
import Verif.Lemmas.JointRows
import Verif.Props.Joint
import Verif.Props.JointDrivers
import Verif.Props.HandedWide
import Verif.Props.ExamplesApplied
import Verif.Spec.StrongLaw
import Verif.Lemmas.Birkhoff
import Verif.Lemmas.StrongLaw
import Verif.Lemmas.LimitLaw
import Verif.Lemmas.StrongRows
import Verif.Props.StrongLaw
import Verif.Props.HitRunLimit
import Verif.Props.StrongDrivers
import Verif.Props.ExamplesMore
import Verif.Spec.Continue
import Verif.Lemmas.Continue
import Verif.Props.Continue
import Verif.Props.Stall
import Verif.Props.Skew
import Verif.Props.ExamplesStall
import Verif.Props.SameSeed
import Verif.Props.ExamplesContinue
import Verif.Lemmas.Concentrate
import Verif.Props.Concentrate
import Verif.Props.ConcentrateDrivers
import Verif.Props.ExamplesConcentrate
import Verif.Props.ExamplesRest
import Verif.Spec.LPCount
import Verif.Props.LPCount
import Verif.Spec.Repeat
import Verif.Lemmas.Repeat
import Verif.Props.Repeat
import Verif.Spec.SameLaw
import Verif.Lemmas.SameLaw
import Verif.Lemmas.Isometry
import Verif.Props.SameLaw
import Verif.Props.SameLawJohn
import Verif.Props.Isometry
import Verif.Props.SameLawExamples
import Verif.Props.Shear
import Verif.Spec.Renumber
import Verif.Lemmas.Renumber
import Verif.Props.Renumber
import Verif.Spec.Mirror
import Verif.Lemmas.Mirror
import Verif.Props.Mirror
import Verif.Props.Alike
import Verif.Spec.SameDriver
import Verif.Props.SameDriver
import Verif.Spec.Backwards
import Verif.Lemmas.Backwards
import Verif.Props.Backwards
import Verif.Props.BackwardsUser
import Verif.Spec.Pairs
import Verif.Lemmas.Pairs
import Verif.Props.Pairs
