import Verif.Model.Pmmh
import Verif.Model.Particle
import Verif.Model.Prior

/-!
# PMMH with a particle filter and registered priors

`Verif.Model.Pmmh` leaves open what a step of the filter and the prior compute. Here they are those of
`Verif.Model.Particle` (with `Verif.Model.Filter`) and `Verif.Model.Prior`. Every slot of the batch is a
filter of its own with its own generator state (one column of the batch).
-/

namespace Verif.Mcmc

variable {d : ℕ} {Y Ω : Type}

/-- The number of state particles of the filter of a slot, pyfilter/filters/particle/base.py:41. -/
def Slot.particles : Slot d Y Ω → ℕ
  | .start n _ _ => n
  | .step s _ _ _ => s.particles

/-- A particle filter: its kind and configuration, and what `model_builder` makes of the parameters
(constrained values), for any number `n` of particles: `init` draws the initial particles, `hidden` moves
them, `sample` and `preWeight` are the proposal on the model.
Used for pyfilter/filters/base.py:42-83 and pyfilter/filters/particle/base.py:26-103. -/
structure Builder (Θ : Type) (e : ℕ) (V Y Ω : Type) where
  /-- The class of the filter. -/
  kind : FilterKind
  /-- Options, filters/base.py:62-69, and `observe_every_step` of the model. -/
  opt : FilterOptions
  /-- Bound on the rounds of the loop in filters/base.py:204. -/
  fuel : ℕ
  /-- Lowest finite number of the dtype (see `nanToNum`). -/
  lo : ℝ
  /-- `_resample_threshold`, particle/base.py:42. -/
  threshold : ℕ → ℝ
  /-- `_resampler`, particle/base.py:43. -/
  resampler : (n : ℕ) → {b : ℕ} → (Fin n → Fin b → XF) → Bool → Ω → (Fin n → Fin b → Fin n) × Ω
  /-- Kind of the proposal. -/
  proposal : ProposalKind
  /-- `y.isnan().all()`, filters/base.py:213. -/
  missing : Y → Bool
  /-- `initial_sample`, particle/base.py:91 (stochproc). -/
  init : (n : ℕ) → Θ → Ω → (Fin n → Fin 1 → Fin e → V) × Ω
  /-- `hidden.propagate` (stochproc). -/
  hidden : (n : ℕ) → Θ → TS n 1 e V → Ω → (Fin n → Fin 1 → Fin e → V) × Ω
  /-- `proposal.sample_and_weight`, proposals/base.py:52-67. -/
  sample : (n : ℕ) → Θ → Y → PPred n 1 e V → Ω → ((Fin n → Fin 1 → Fin e → V) × (Fin n → Fin 1 → XF)) × Ω
  /-- `proposal.pre_weight`, proposals/base.py:69-85. -/
  preWeight : (n : ℕ) → Θ → Y → TS n 1 e V → Fin n → Fin 1 → XF

/-- The filter with the model for parameters `θ`, pyfilter/filters/base.py:83 and
pyfilter/filters/particle/base.py:83-85. -/
def Builder.model {Θ : Type} {e : ℕ} {V Y Ω : Type} (f : Builder Θ e V Y Ω) (n : ℕ) (θ : Θ) :
    ParticleModel n 1 e V Y Ω where
  lo := f.lo
  threshold := f.threshold n
  resampler := f.resampler n
  propagateValues := f.hidden n θ
  kind := f.proposal
  sampleValues := f.sample n θ
  preWeight := f.preWeight n θ
  allNan := f.missing

namespace Builder

variable {e : ℕ} {V : Type} {c : Priors.Registry}

/-- One call of `filter.filter`, pyfilter/filters/base.py:188-221, with the model of `m`: the correction, the
corrections appended to the result, and the generator state. -/
noncomputable def move (f : Builder (∀ i, Fin (c.numel i) → ℝ) e V Y Ω) (n : ℕ) (m : Mdl c.dim) (y : Y)
    (s : PCorr n 1 e V × Ω) : Option (PCorr n 1 e V × List (PCorr n 1 e V) × Ω) :=
  (f.kind.ops (f.model n (c.unstack m.built false))).filter f.opt f.fuel y s.1 s.2

/-- The latest correction of a slot and the generator state after computing it,
pyfilter/filters/base.py:152-156. The generator state is passed on from the start, so later entries of the
random outcomes are not used. -/
noncomputable def state (f : Builder (∀ i, Fin (c.numel i) → ℝ) e V Y Ω) :
    (s : Slot c.dim Y Ω) → Option (PCorr s.particles 1 e V × Ω)
  | .start n m ω =>
    some (initializeFilter f.lo (f.init n (c.unstack m.built false) ω).1,
      (f.init n (c.unstack m.built false) ω).2)
  | .step s m y _ =>
    (f.state s).bind fun q => (f.move s.particles m y q).map fun r => (r.1, r.2.2)

/-- What one call of `filter.filter` adds to `FilterResult.loglikelihood`, pyfilter/filters/base.py:204-219
and pyfilter/filters/result.py:119-133: the log-likelihoods of the appended corrections. `nan` stands for a
loop that does not end within the bound. -/
noncomputable def inc (f : Builder (∀ i, Fin (c.numel i) → ℝ) e V Y Ω) (s : Slot c.dim Y Ω)
    (m : Mdl c.dim) (y : Y) (_ω : Ω) : XF :=
  match (f.state s).bind (f.move s.particles m y) with
  | none => .nan
  | some r => (r.2.1.map fun k => k.ll 0).sum

/-- What `run_pmmh` uses, pyfilter/inference/batch/mcmc/utils.py:54-60, for this filter and these priors. -/
noncomputable def env (f : Builder (∀ i, Fin (c.numel i) → ℝ) e V Y Ω) (lo eps : ℝ) : Env c.dim Y Ω where
  inc := f.inc
  logPrior := c.logPrior
  lo := lo
  eps := eps

end Builder

end Verif.Mcmc
