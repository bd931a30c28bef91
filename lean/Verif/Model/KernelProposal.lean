import Verif.Model.Particle
import Verif.Model.Proposals

/-!
# Proposals that draw from a kernel: `pyfilter/filters/particle/proposals/{base,linear,linearized}.py`

`N` particles, `B` parallel filters, `d` components of a state, as in `Verif.Model.Particle`.
-/

namespace Verif

open Matrix

variable {N B d m : ℕ} {V Y Ω : Type}

/-- `Proposal._weight_with_kernel`, pyfilter/filters/particle/proposals/base.py:45-50. `obsLog` is
`build_density(x_new).log_prob(y)` (stochproc, not in /repo), `xDist` and `kernel` are the `log_prob` of the
distributions that are passed, applied to all particles. -/
def weightWithKernel (obsLog : Y → TS N B d V → Fin N → Fin B → XF)
    (xDist kernel : (Fin N → Fin B → Fin d → V) → Fin N → Fin B → XF) (y : Y) (xNew : TS N B d V) :
    Fin N → Fin B → XF := fun i b =>
  obsLog y xNew i b + xDist xNew.value i b - kernel xNew.value i b

/-- `sample_and_weight` of `LinearGaussianObservations`, pyfilter/filters/particle/proposals/linear.py:38-55, and
`Linearized`, linearized.py:52-70, without the clock (which `ParticleModel.sampleAndWeight` advances):
`kernelDraw` is `kernel.sample` and `kernelLog` is `kernel.log_prob` of the kernel built from the predicted state,
`xDist` is the `log_prob` of the transition density from the predicted state. -/
def kernelSample (obsLog : Y → TS N B d V → Fin N → Fin B → XF)
    (xDist : TS N B d V → (Fin N → Fin B → Fin d → V) → Fin N → Fin B → XF)
    (kernelDraw : Y → TS N B d V → Ω → (Fin N → Fin B → Fin d → V) × Ω)
    (kernelLog : Y → TS N B d V → (Fin N → Fin B → Fin d → V) → Fin N → Fin B → XF) (y : Y)
    (p : PPred N B d V) (ω : Ω) : ((Fin N → Fin B → Fin d → V) × (Fin N → Fin B → XF)) × Ω :=
  let x := p.prevX
  let (v, ω) := kernelDraw y x ω
  let xResult : TS N B d V := ⟨v, x.time + 1⟩
  ((xResult.value, weightWithKernel obsLog (xDist x) (kernelLog y x) y xResult), ω)

/-- A normal kernel (PyTorch `Normal`, `Normal(..).to_event(1)` and `MultivariateNormal`, not in /repo): for the first
two, `tril` is the diagonal matrix of the scales.
Used for pyfilter/filters/particle/proposals/utils.py:150-156 and 264-267. -/
structure GaussKernel (d : ℕ) where
  loc : Fin d → ℝ
  tril : Matrix (Fin d) (Fin d) ℝ

/-- `kernel.sample` (PyTorch, not in /repo): `loc + tril @ eps` with standard normal `eps`.
Used for pyfilter/filters/particle/proposals/linear.py:53 and linearized.py:68. -/
def GaussKernel.sample (k : GaussKernel d) (eps : Fin d → ℝ) : Fin d → ℝ := k.loc + k.tril *ᵥ eps

/-- `kernel.log_prob` (PyTorch, not in /repo). Used for pyfilter/filters/particle/proposals/base.py:50. -/
noncomputable def GaussKernel.logProb (k : GaussKernel d) (x : Fin d → ℝ) : ℝ :=
  mvnLogProb k.loc (k.tril * k.trilᵀ) x

/-- `sample_and_weight` with a normal kernel for every particle, pyfilter/filters/particle/proposals/linear.py:38-55 and
linearized.py:52-70: particle `i` of filter `b` is drawn from `kernel y b t x`, where `x` is its value and `t` the time of
the predicted state. `noise` draws the standard normal numbers of all particles. -/
noncomputable def gaussSample (noise : Ω → (ℕ × ℕ → Fin d → ℝ) × Ω)
    (kernel : Y → Fin B → ℕ → (Fin d → ℝ) → GaussKernel d)
    (logg : Fin B → Y → ℕ → (Fin d → ℝ) → ℝ) (logp : Fin B → ℕ → (Fin d → ℝ) → (Fin d → ℝ) → ℝ) :
    Y → PPred N B d ℝ → Ω → ((Fin N → Fin B → Fin d → ℝ) × (Fin N → Fin B → XF)) × Ω :=
  kernelSample (fun y x i b => XF.fin (logg b y x.time (x.value i b)))
    (fun x v i b => XF.fin (logp b x.time (x.value i b) (v i b)))
    (fun y x ω => (fun i b => (kernel y b x.time (x.value i b)).sample ((noise ω).1 (i, b)), (noise ω).2))
    (fun y x v i b => XF.fin ((kernel y b x.time (x.value i b)).logProb (v i b)))

/-- The kernel returned by `find_optimal_density`, pyfilter/filters/particle/proposals/utils.py:219-267. `chol` is
`cholesky_ex(..)[0]` (PyTorch, not in /repo). -/
noncomputable def optimalKernel (chol : Matrix (Fin d) (Fin d) ℝ → Matrix (Fin d) (Fin d) ℝ) (hiddenIs1d : Bool)
    (y : Fin m → ℝ) (loc hVarInv : Fin d → ℝ) (oVarInv : Fin m → ℝ) (c : Matrix (Fin m) (Fin d) ℝ) : GaussKernel d :=
  let mean := optimalMean y loc hVarInv oVarInv c
  let cov := optimalCov hVarInv oVarInv c
  if hiddenIs1d then ⟨mean, diagonal fun e => Real.sqrt (cov e e)⟩ else ⟨mean, chol cov⟩

/-- The kernel of `LinearGaussianObservations.sample_and_weight` for a particle with value `x`,
pyfilter/filters/particle/proposals/linear.py:41-52. -/
noncomputable def LinearModel.kernel (L : LinearModel d m)
    (chol : Matrix (Fin d) (Fin d) ℝ → Matrix (Fin d) (Fin d) ℝ) (hiddenIs1d : Bool) (y : Fin m → ℝ) (x : Fin d → ℝ) :
    GaussKernel d :=
  let mean := (L.meanScale x).1
  let scale := (L.meanScale x).2
  let hVarInv := fun e => (scale e ^ 2)⁻¹
  let oVarInv := fun j => (L.s j ^ 2)⁻¹
  optimalKernel chol hiddenIs1d (y - L.b) mean hVarInv oVarInv L.a

/-- `hidden.propagate` for a process with normal increments (stochproc, not in /repo): `mean + scale * eps`.
Used for pyfilter/filters/particle/state.py:39. -/
def affinePropagate (noise : Ω → (ℕ × ℕ → Fin d → ℝ) × Ω)
    (meanScale : Fin B → ℕ → (Fin d → ℝ) → (Fin d → ℝ) × (Fin d → ℝ)) (x : TS N B d ℝ) (ω : Ω) :
    (Fin N → Fin B → Fin d → ℝ) × Ω :=
  (fun i b e => (meanScale b x.time (x.value i b)).1 e + (meanScale b x.time (x.value i b)).2 e * (noise ω).1 (i, b) e,
    (noise ω).2)

/-- The linear model with the latent process at time `t`: `mean_scale` of stochproc reads the time of the state, the
parameters `a`, `b` and `s` are constant. Used for pyfilter/filters/particle/proposals/linear.py:41-49. -/
def LinearModel.atTime (L : LinearModel d m) (meanScale : ℕ → (Fin d → ℝ) → (Fin d → ℝ) × (Fin d → ℝ)) (t : ℕ) :
    LinearModel d m := { L with meanScale := meanScale t }

/-- A particle filter with `LinearGaussianObservations`, pyfilter/filters/particle/base.py:41-48 and
proposals/linear.py:13-89, for one linear model per parallel filter. `preWeight` is only called by the APF. -/
noncomputable def linearModelFilter (lo threshold : ℝ)
    (resampler : {b : ℕ} → (Fin N → Fin b → XF) → Bool → Ω → (Fin N → Fin b → Fin N) × Ω)
    (noise : Ω → (ℕ × ℕ → Fin d → ℝ) × Ω) (L : Fin B → LinearModel d m)
    (meanScale : Fin B → ℕ → (Fin d → ℝ) → (Fin d → ℝ) × (Fin d → ℝ))
    (chol : Matrix (Fin d) (Fin d) ℝ → Matrix (Fin d) (Fin d) ℝ) (hiddenIs1d : Bool)
    (preWeight : (Fin m → ℝ) → TS N B d ℝ → Fin N → Fin B → XF) (allNan : (Fin m → ℝ) → Bool) :
    ParticleModel N B d ℝ (Fin m → ℝ) Ω where
  lo := lo
  threshold := threshold
  resampler := resampler
  propagateValues := affinePropagate noise meanScale
  kind := .linear
  sampleValues := gaussSample noise (fun y b t x => ((L b).atTime (meanScale b) t).kernel chol hiddenIs1d y x)
    (fun b y _ x => (L b).obsLogProb x y) (fun b t x x' => ((L b).atTime (meanScale b) t).transLogProb x x')
  preWeight := preWeight
  allNan := allNan

/-- `LinearGaussianObservations.pre_weight` of all particles, pyfilter/filters/particle/proposals/linear.py:57-86. With a
scalar observation of a vector state the code returns a tensor of another shape (see C42), with which it goes on; that is
not modelled, the value put here is not used. -/
noncomputable def linearPreWeights (L : Fin B → LinearModel d m)
    (meanScale : Fin B → ℕ → (Fin d → ℝ) → (Fin d → ℝ) × (Fin d → ℝ)) (obsIs1d : Bool) (y : Fin m → ℝ) (x : TS N B d ℝ) :
    Fin N → Fin B → XF := fun i b =>
  match ((L b).atTime (meanScale b) x.time).preWeight obsIs1d y (x.value i b) with
  | .single r => .fin r
  | .perComponent _ => .nan

/-- A particle filter with `Linearized`, pyfilter/filters/particle/base.py:41-48 and proposals/linearized.py:7-73. `kernel`
is what the mode finder returns (proposals/utils.py:99-156 or 158-216) for an observation, a filter, the time of the
predicted state and the value of a particle. `preWeight` is only called by the APF. -/
noncomputable def linearizedModel (lo threshold : ℝ)
    (resampler : {b : ℕ} → (Fin N → Fin b → XF) → Bool → Ω → (Fin N → Fin b → Fin N) × Ω)
    (propagateValues : TS N B d ℝ → Ω → (Fin N → Fin B → Fin d → ℝ) × Ω) (noise : Ω → (ℕ × ℕ → Fin d → ℝ) × Ω)
    (kernel : Y → Fin B → ℕ → (Fin d → ℝ) → GaussKernel d)
    (logg : Fin B → Y → ℕ → (Fin d → ℝ) → ℝ) (logp : Fin B → ℕ → (Fin d → ℝ) → (Fin d → ℝ) → ℝ)
    (preWeight : Y → TS N B d ℝ → Fin N → Fin B → XF) (allNan : Y → Bool) : ParticleModel N B d ℝ Y Ω where
  lo := lo
  threshold := threshold
  resampler := resampler
  propagateValues := propagateValues
  kind := .linearized
  sampleValues := gaussSample noise kernel logg logp
  preWeight := preWeight
  allNan := allNan

/-- `NestedProposal.sample_and_weight`, pyfilter/filters/particle/proposals/nested.py:27-47, without the clock. `inner` is
`hidden_density.sample(num_samples)` (line 30), `obsLog` is `build_density(..).log_prob(y)` (line 34), which is applied to
every inner sample, `categorical` is `Categorical(probs).sample()` (line 40). -/
noncomputable def nestedSample (lo : ℝ) {M : ℕ}
    (inner : TS N B d V → Ω → (Fin M → Fin N → Fin B → Fin d → V) × Ω)
    (obsLog : Y → TS N B d V → Fin N → Fin B → XF)
    (categorical : (Fin N → Fin B → Fin M → XF) → Ω → (Fin N → Fin B → Fin M) × Ω) (y : Y)
    (p : PPred N B d V) (ω : Ω) : ((Fin N → Fin B → Fin d → V) × (Fin N → Fin B → XF)) × Ω :=
  let (samples, ω) := inner p.prevX ω
  let logProb := fun i b j => obsLog y ⟨samples j, p.prevX.time + 1⟩ i b
  let probs := fun i b => nestedProbs lo (logProb i b)
  let (bestSample, ω) := categorical probs ω
  let bestParticle := fun i b => samples (bestSample i b) i b
  ((bestParticle, fun i b => nestedWeight lo (logProb i b)), ω)

/-- A particle filter with `NestedProposal`, pyfilter/filters/particle/base.py:41-48 and proposals/nested.py:7-50.
`preWeight` is only called by the APF. -/
noncomputable def nestedModel (lo threshold : ℝ)
    (resampler : {b : ℕ} → (Fin N → Fin b → XF) → Bool → Ω → (Fin N → Fin b → Fin N) × Ω)
    (propagateValues : TS N B d V → Ω → (Fin N → Fin B → Fin d → V) × Ω) {M : ℕ}
    (inner : TS N B d V → Ω → (Fin M → Fin N → Fin B → Fin d → V) × Ω)
    (obsLog : Y → TS N B d V → Fin N → Fin B → XF)
    (categorical : (Fin N → Fin B → Fin M → XF) → Ω → (Fin N → Fin B → Fin M) × Ω)
    (preWeight : Y → TS N B d V → Fin N → Fin B → XF) (allNan : Y → Bool) : ParticleModel N B d V Y Ω where
  lo := lo
  threshold := threshold
  resampler := resampler
  propagateValues := propagateValues
  kind := .nested
  sampleValues := nestedSample lo inner obsLog categorical
  preWeight := preWeight
  allNan := allNan

end Verif
