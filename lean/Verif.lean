import Verif.Props.Weights
import Verif.Props.Resampling
import Verif.Props.Container
import Verif.Props.FilterResult
import Verif.Props.Filter
import Verif.Props.Particle
import Verif.Props.Config
import Verif.Props.Moments
import Verif.Props.Smoothing
import Verif.Props.Proposals
import Verif.Props.Context
import Verif.Props.ContextCopy
import Verif.Props.ContextStack
import Verif.Props.Qmc
import Verif.Props.Threshold
import Verif.Props.Jitter
import Verif.Props.Pmmh
import Verif.Props.Sequential
import Verif.Props.SequentialMoves
import Verif.Props.Unbiased
import Verif.Props.Backward
import Verif.Props.SequentialMore
import Verif.Model.KernelProposal
import Verif.Spec.KernelProposal
import Verif.Lemmas.Gaussian
import Verif.Lemmas.KernelProposal
import Verif.Lemmas.Nested
import Verif.Props.KernelProposals
import Verif.Model.Symmetric
import Verif.Spec.Symmetric
import Verif.Props.Symmetric
import Verif.Model.GaussianProposal
import Verif.Spec.GaussianProposal
import Verif.Lemmas.GaussianProposal
import Verif.Lemmas.Polynomial
import Verif.Lemmas.Spread
import Verif.Props.Gpf
import Verif.Model.Checkpoint
import Verif.Spec.Checkpoint
import Verif.Lemmas.Checkpoint
import Verif.Props.Checkpoint
import Verif.Model.Prior
import Verif.Spec.Prior
import Verif.Lemmas.Prior
import Verif.Props.Prior
import Verif.Model.PmmhFilter
import Verif.Spec.PmmhFilter
import Verif.Lemmas.PmmhFilter
import Verif.Props.PmmhExact
import Verif.Model.Multinomial
import Verif.Spec.Multinomial
import Verif.Lemmas.Multinomial
import Verif.Props.Multinomial
import Verif.Lemmas.SequentialImportance
import Verif.Props.SequentialImportance
import Verif.Model.Collectors
import Verif.Props.Collectors
import Verif.Model.Construct
import Verif.Props.Construct
import Verif.Model.Logging
import Verif.Lemmas.Logging
import Verif.Props.Logging
import Verif.Model.Plot
import Verif.Props.Plot
import Verif.Model.QuasiSample
import Verif.Spec.Quantile
import Verif.Lemmas.Quantile
import Verif.Props.QuasiLaw
import Verif.Model.Patch
import Verif.Props.Patch
import Verif.Model.ModeLegacy
import Verif.Props.ModeLegacy
import Verif.Spec.Consistency
import Verif.Lemmas.Consistency
import Verif.Lemmas.Independence
import Verif.Props.Consistency
import Verif.Lemmas.ConsistencyApf
import Verif.Props.ConsistencyApf
import Verif.Spec.Weighted
import Verif.Props.Reweighting
import Verif.Spec.Averages
import Verif.Lemmas.SystematicError
import Verif.Props.SystematicError
import Verif.Spec.Bandwidth
import Verif.Props.Bandwidth
import Verif.Spec.Copy
import Verif.Model.Copy
import Verif.Lemmas.Copy
import Verif.Props.Copy
import Verif.Props.FullyAdapted
import Verif.Lemmas.Residual
import Verif.Props.Residual
import Verif.Props.JitterSize
import Verif.Model.Pickle
import Verif.Spec.Pickle
import Verif.Lemmas.Pickle
import Verif.Props.Pickle
import Verif.Lemmas.Ergodic
import Verif.Lemmas.Converge
import Verif.Lemmas.PathLaw
import Verif.Lemmas.Averages
import Verif.Lemmas.PmmhChain
import Verif.Lemmas.PmmhRun
import Verif.Lemmas.PmmhSlot
import Verif.Model.PmmhRun
import Verif.Spec.Posterior
import Verif.Props.PmmhConverges
import Verif.Props.OnlineMove
import Verif.Lemmas.ImportanceLaw
import Verif.Lemmas.FirstUpdate
import Verif.Lemmas.SisrBound
import Verif.Spec.Efficiency
import Verif.Props.ParameterConsistency
import Verif.Model.GradientScore
import Verif.Spec.CompleteData
import Verif.Lemmas.GradientScore
import Verif.Props.GradientScore
import Verif.Props.GradientLocation
import Verif.Spec.PathAverage
import Verif.Lemmas.Lifted
import Verif.Lemmas.LiftedLaw
import Verif.Lemmas.LiftedRun
import Verif.Props.PathSmoothing
import Verif.Spec.Mutual
import Verif.Lemmas.Mutual
import Verif.Lemmas.MutualCases
import Verif.Lemmas.PiDensity
import Verif.Lemmas.TraceSlots
import Verif.Lemmas.Trajectory
import Verif.Lemmas.TrajectoryRun
import Verif.Lemmas.TrajectoryLaw
import Verif.Lemmas.TrajectoryBack
import Verif.Lemmas.TrajectoryError
import Verif.Lemmas.TrajectoryFfbs
import Verif.Props.BackwardConsistency
import Verif.Spec.Score
import Verif.Lemmas.Fisher
import Verif.Props.ScoreConsistency
import Verif.Model.ParameterPosterior
import Verif.Props.ParameterPosterior
import Verif.Model.Functorch
import Verif.Props.Functorch
import Verif.Model.Pyro
import Verif.Lemmas.Pyro
import Verif.Props.PyroFactor
import Verif.Model.PreWeight
import Verif.Props.PreWeight
import Verif.Props.ContextApply
import Verif.Lemmas.Stability
import Verif.Props.Stability
import Verif.Model.PredictPath
import Verif.Spec.PredictPath
import Verif.Lemmas.PredictPath
import Verif.Props.PredictPath
import Verif.Model.Tensor
import Verif.Lemmas.Tensor
import Verif.Spec.LinearBatch
import Verif.Lemmas.LinearBatch
import Verif.Props.LinearBatch
import Verif.Lemmas.PreWeightBatch
import Verif.Props.PreWeightBatch
import Verif.Model.TensorGaussian
import Verif.Lemmas.TensorGaussian
import Verif.Spec.TensorGaussian
import Verif.Props.TensorGaussian
import Verif.Model.TensorWeights
import Verif.Lemmas.TensorWeights
import Verif.Lemmas.TensorGaussianLinear
import Verif.Spec.TensorWeights
import Verif.Props.TensorWeights
import Verif.Props.TensorGaussianLinear
import Verif.Props.TensorSmoothing
import Verif.Props.TensorPyro
import Verif.Props.TensorGradient
import Verif.Props.TensorNested
import Verif.Props.TensorSisr
import Verif.Props.TensorMove
import Verif.Props.SharedIndex
import Verif.Props.TensorResampling
import Verif.Props.TensorRun
import Verif.Props.TensorGpf
import Verif.Props.TensorMoments
import Verif.Props.TwoModels
import Verif.Props.TensorConsistency
import Verif.Props.SmoothingModels
import Verif.Spec.SmoothingModels
import Verif.Props.Residuals
import Verif.Spec.Residuals
import Verif.Model.Residuals
