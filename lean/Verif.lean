import Verif.Model.Build
import Verif.Model.Examples
import Verif.Model.Extended
import Verif.Model.Heap
import Verif.Model.HeapExt
import Verif.Model.Install
import Verif.Model.Iterators
import Verif.Model.Lists
import Verif.Model.Numpy
import Verif.Model.Root
import Verif.Model.Shared
import Verif.Model.Standard
import Verif.Model.Stateful
import Verif.Model.Subclass
import Verif.Model.Threads
import Verif.Model.Utils
import Verif.Model.Version
import Verif.Spec.Approx
import Verif.Spec.Assign
import Verif.Spec.Basic
import Verif.Spec.Batch
import Verif.Spec.Broadcast
import Verif.Spec.Build
import Verif.Spec.ByHand
import Verif.Spec.Carry
import Verif.Spec.Detectable
import Verif.Spec.Exact
import Verif.Spec.ExpSmooth
import Verif.Spec.ExtObserver
import Verif.Spec.ExtPartly
import Verif.Spec.ExtReturns
import Verif.Spec.ExtTextbook
import Verif.Spec.FixedSmooth
import Verif.Spec.Float
import Verif.Spec.Gaps
import Verif.Spec.Heap
import Verif.Spec.HeapExt
import Verif.Spec.Install
import Verif.Spec.Iterators
import Verif.Spec.Likelihood
import Verif.Spec.Lists
import Verif.Spec.MethodCalls
import Verif.Spec.MovingAverage
import Verif.Spec.NonFinite
import Verif.Spec.Observable
import Verif.Spec.Override
import Verif.Spec.Pep440
import Verif.Spec.Posterior
import Verif.Spec.Region
import Verif.Spec.Regression
import Verif.Spec.Returns
import Verif.Spec.Reverse
import Verif.Spec.Robust
import Verif.Spec.Root
import Verif.Spec.Rounding
import Verif.Spec.Sensors
import Verif.Spec.Sequential
import Verif.Spec.Stateful
import Verif.Spec.Steady
import Verif.Spec.Stochastic
import Verif.Spec.Subclass
import Verif.Spec.Subsystems
import Verif.Spec.Textbook
import Verif.Spec.Threads
import Verif.Spec.TimeAxis
import Verif.Spec.TimeVarying
import Verif.Spec.Trajectory
import Verif.Spec.TwoFilter
import Verif.Spec.Version
import Verif.Spec.WalkFloat
import Verif.Test.Binary
import Verif.Test.Conformance
import Verif.Test.Encode
import Verif.Test.ExtEncode
import Verif.Test.FixedPoint
import Verif.Test.GaussianSpace
import Verif.Test.Ieee
import Verif.Test.Pushed
import Verif.Test.QBackend
import Verif.Proofs.Accept
import Verif.Proofs.Approx
import Verif.Proofs.ApproxEps
import Verif.Proofs.ApproxExt
import Verif.Proofs.ApproxRun
import Verif.Proofs.Back
import Verif.Proofs.Batch
import Verif.Proofs.Blank
import Verif.Proofs.Broadcast
import Verif.Proofs.Build
import Verif.Proofs.BuildFile
import Verif.Proofs.Calls
import Verif.Proofs.Compact
import Verif.Proofs.Cov
import Verif.Proofs.Decay
import Verif.Proofs.Density
import Verif.Proofs.Detectable
import Verif.Proofs.Exact
import Verif.Proofs.ExactSmooth
import Verif.Proofs.ExtExact
import Verif.Proofs.ExtObserver
import Verif.Proofs.ExtRound
import Verif.Proofs.ExtRoundRun
import Verif.Proofs.ExtRoundStep
import Verif.Proofs.ExtSmoothObserver
import Verif.Proofs.ExtTransfer
import Verif.Proofs.ExtWindow
import Verif.Proofs.FixedLag
import Verif.Proofs.Float
import Verif.Proofs.Forget
import Verif.Proofs.Global
import Verif.Proofs.Heap
import Verif.Proofs.HeapApart
import Verif.Proofs.HeapExt
import Verif.Proofs.HeapExtFrame
import Verif.Proofs.HeapExtRun
import Verif.Proofs.HeapFrame
import Verif.Proofs.HeapRun
import Verif.Proofs.HeapSmooth
import Verif.Proofs.InfNoise
import Verif.Proofs.Iterators
import Verif.Proofs.IteratorsExt
import Verif.Proofs.IteratorsShared
import Verif.Proofs.IteratorsSmooth
import Verif.Proofs.LagVarying
import Verif.Proofs.Layout
import Verif.Proofs.Likelihood
import Verif.Proofs.Lists
import Verif.Proofs.ListsExt
import Verif.Proofs.MethodCalls
import Verif.Proofs.Nan
import Verif.Proofs.NonFinite
import Verif.Proofs.One
import Verif.Proofs.Override
import Verif.Proofs.Pep440
import Verif.Proofs.Posterior
import Verif.Proofs.Reverse
import Verif.Proofs.Robust
import Verif.Proofs.RoundBack
import Verif.Proofs.RoundBackVarying
import Verif.Proofs.RoundRun
import Verif.Proofs.RoundStable
import Verif.Proofs.RoundStep
import Verif.Proofs.RoundVarying
import Verif.Proofs.Rounding
import Verif.Proofs.Runs
import Verif.Proofs.Shapes
import Verif.Proofs.Skipping
import Verif.Proofs.Stateful
import Verif.Proofs.SteadyDetect
import Verif.Proofs.Stoch
import Verif.Proofs.StochBest
import Verif.Proofs.StochProb
import Verif.Proofs.StochRun
import Verif.Proofs.Structural
import Verif.Proofs.Subclass
import Verif.Proofs.Threads
import Verif.Proofs.TimeVarying
import Verif.Proofs.TimeVaryingRun
import Verif.Proofs.Trace
import Verif.Proofs.Trajectory
import Verif.Proofs.Transfer
import Verif.Proofs.TwoFilter
import Verif.Proofs.Version
import Verif.Proofs.Window
import Verif.Props.Accept
import Verif.Props.Approx
import Verif.Props.Assign
import Verif.Props.Batch
import Verif.Props.Broadcast
import Verif.Props.Build
import Verif.Props.ByHand
import Verif.Props.Calls
import Verif.Props.Carry
import Verif.Props.Control
import Verif.Props.Convergence
import Verif.Props.Counting
import Verif.Props.Covariance
import Verif.Props.DetectForget
import Verif.Props.Detectability
import Verif.Props.Equivariance
import Verif.Props.Examples
import Verif.Props.ExpSmooth
import Verif.Props.ExtCoord
import Verif.Props.ExtExact
import Verif.Props.ExtInfNoise
import Verif.Props.ExtNoDrift
import Verif.Props.ExtObservable
import Verif.Props.ExtObserver
import Verif.Props.ExtSmoother
import Verif.Props.ExtSubclass
import Verif.Props.ExtSubsystems
import Verif.Props.Extremes
import Verif.Props.Failure
import Verif.Props.FixedLag
import Verif.Props.Float
import Verif.Props.FloatVariance
import Verif.Props.Forgetting
import Verif.Props.Frames
import Verif.Props.Gaps
import Verif.Props.Heap
import Verif.Props.HeapExt
import Verif.Props.History
import Verif.Props.InfNoise
import Verif.Props.Innovation
import Verif.Props.Install
import Verif.Props.Interface
import Verif.Props.Iterators
import Verif.Props.LagDetect
import Verif.Props.LagVarying
import Verif.Props.Likelihood
import Verif.Props.Linear
import Verif.Props.Lists
import Verif.Props.MethodCalls
import Verif.Props.Monotone
import Verif.Props.MovingAverage
import Verif.Props.Nan
import Verif.Props.NoDrift
import Verif.Props.NoDriftDetect
import Verif.Props.NoDriftSmooth
import Verif.Props.NoDriftVarying
import Verif.Props.NonFinite
import Verif.Props.Observer
import Verif.Props.Override
import Verif.Props.Posterior
import Verif.Props.Region
import Verif.Props.Regression
import Verif.Props.Rejected
import Verif.Props.Reverse
import Verif.Props.Riccati
import Verif.Props.Robust
import Verif.Props.Root
import Verif.Props.Runs
import Verif.Props.ScalarNoise
import Verif.Props.Sequential
import Verif.Props.Shared
import Verif.Props.ShortSmooth
import Verif.Props.SmoothErrors
import Verif.Props.SmoothForget
import Verif.Props.SmoothOrder
import Verif.Props.Smoother
import Verif.Props.Stability
import Verif.Props.Stateful
import Verif.Props.Steady
import Verif.Props.SteadySmooth
import Verif.Props.Stochastic
import Verif.Props.Subclass
import Verif.Props.Subsystems
import Verif.Props.Superposition
import Verif.Props.Textbook
import Verif.Props.Threads
import Verif.Props.TimeAxis
import Verif.Props.TimeVarying
import Verif.Props.Trajectory
import Verif.Props.TwoFilter
import Verif.Props.Undetectable
import Verif.Props.Unobservable
import Verif.Props.Variances
import Verif.Props.Version
import Verif.Props.VersionArchive
import Verif.Props.VersionOrder
import Verif.Props.WalkFloat
import Verif.Props.ZeroControl
