import Verif.Model.Particle

/-!
# Configuration of particle filters: construction, copying, increasing the number of particles

Covers pyfilter/filters/base.py:47-69, pyfilter/filters/particle/base.py:19-48, 72-81 and 159-174 and the
`copy` methods of the proposals.
-/

namespace Verif

/-- Configuration of a proposal: `pre_weight_func` (proposals/base.py:17-30; a name stands for the
function), `num_samples` (nested.py:15-25) and the options of linearised proposals (linearized.py:20-41). -/
structure ProposalConfig where
  kind : ProposalKind
  preWeightFunc : Option String
  numSamples : ℕ
  nSteps : ℕ
  alpha : ℝ
  useSecondOrder : Bool
  useFunctorch : Bool

/-- Default options, proposals/linearized.py:20 and proposals/base.py:17-19. -/
noncomputable def ProposalConfig.default (kind : ProposalKind) : ProposalConfig :=
  ⟨kind, none, 0, 1, 1 / 10000, false, true⟩

/-- `Proposal.copy` of every proposal: bootstrap.py:16-17, nested.py:49-50, linear.py:88-89,
linearized.py:72-73, approximate.py:33-34, 66-67 and 103-104. -/
noncomputable def ProposalConfig.copy (p : ProposalConfig) : ProposalConfig :=
  match p.kind with
  | .bootstrap => ProposalConfig.default .bootstrap
  | .nested => { ProposalConfig.default .nested with numSamples := p.numSamples }
  | .linear => ProposalConfig.default .linear
  | .linearized => { ProposalConfig.default .linearized with
      nSteps := p.nSteps, alpha := p.alpha, useSecondOrder := p.useSecondOrder,
      useFunctorch := p.useFunctorch }
  | .gaussian => ProposalConfig.default .gaussian
  | .gaussianLinearized => { ProposalConfig.default .gaussianLinearized with
      nSteps := p.nSteps, alpha := p.alpha, useSecondOrder := p.useSecondOrder }
  | .gaussianLinear => ProposalConfig.default .gaussianLinear

/-- `record_states` and `record_moments`: a Boolean or a number, filters/base.py:12. -/
inductive BoolOrInt where
  | bool (b : Bool)
  | int (n : ℤ)

/-- State of a particle filter object, filters/base.py:51-69 and particle/base.py:41-48. Functions are
given by names. -/
structure FilterConfig where
  cls : FilterKind
  modelBuilder : String
  particles : ℕ
  threshold : ℝ
  resampler : String
  proposal : ProposalConfig
  recordStates : BoolOrInt
  recordMoments : BoolOrInt
  nanStrategy : NanStrategy
  recordIntermediary : Bool
  batchShape : List ℕ

/-- `ParticleFilter.__init__`, particle/base.py:19-48 with filters/base.py:47-69, given the proposal. The
check of the strategy name is part of the type. -/
noncomputable def FilterConfig.init (cls : FilterKind) (model : String) (particles : ℕ) (resampling : String)
    (proposal : ProposalConfig) (essThreshold : ℝ) (recordStates recordMoments : BoolOrInt)
    (nanStrategy : NanStrategy) (recordIntermediary : Bool) : FilterConfig :=
  { cls := cls, modelBuilder := model, particles := particles,
    threshold := essThreshold * particles, resampler := resampling, proposal := proposal,
    recordStates := recordStates, recordMoments := recordMoments, nanStrategy := nanStrategy,
    recordIntermediary := recordIntermediary, batchShape := [] }

/-- `ParticleFilter.copy`, particle/base.py:159-174. -/
noncomputable def FilterConfig.copy (f : FilterConfig) : FilterConfig :=
  { FilterConfig.init f.cls f.modelBuilder f.particles f.resampler f.proposal.copy f.threshold f.recordStates
      f.recordMoments f.nanStrategy f.recordIntermediary with batchShape := f.batchShape }

/-- `increase_particles` with an integer factor, particle/base.py:72-81. -/
noncomputable def FilterConfig.increaseParticles (f : FilterConfig) (factor : ℕ) : FilterConfig :=
  { f with particles := factor * f.particles, threshold := f.threshold * factor }

end Verif
