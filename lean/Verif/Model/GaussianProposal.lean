import Verif.Model.KernelProposal
import Verif.Model.Moments

/-!
# The Gaussian proposals: `pyfilter/filters/particle/proposals/approximate.py`

`N` particles, `B` parallel filters, `d` components of a state. `d = 1` is the scalar state (`n_dim == 0`); a vector state
with a single component is in `Model/TensorGaussian` (line 63 of particle/utils.py drops the dimension of its mean).
-/

namespace Verif

open Matrix

variable {N B d m : ℕ} {Y Ω : Type}

/-- `MultivariateNormal(mean, covariance_matrix=var)` (PyTorch, not in /repo): refused if the matrix has no Cholesky factor,
which `cholEx` tells by its flag. A scalar state has `Normal(mean, var.sqrt())`, which is refused if the scale is not positive.
Used for pyfilter/filters/particle/state.py:66-69. -/
noncomputable def normalOfCov (cholEx : Matrix (Fin d) (Fin d) ℝ → Matrix (Fin d) (Fin d) ℝ × Bool) (mean : Fin d → ℝ)
    (cov : Matrix (Fin d) (Fin d) ℝ) : Except PyErr (GaussKernel d) :=
  if h : d = 1 then
    let scale := Real.sqrt (cov ⟨0, by omega⟩ ⟨0, by omega⟩)
    if 0 < scale then .ok ⟨mean, diagonal fun _ => scale⟩ else .error .valueError
  else if (cholEx cov).2 then .error .valueError else .ok ⟨mean, (cholEx cov).1⟩

open Classical in
/-- The distributions of all parallel filters: one tensor of means and one of covariances is passed, and the constructor
refuses if one of them is refused (PyTorch, not in /repo). Used for pyfilter/filters/particle/state.py:62-69. -/
noncomputable def normals (cholEx : Matrix (Fin d) (Fin d) ℝ → Matrix (Fin d) (Fin d) ℝ × Bool) (mean : Fin B → Fin d → ℝ)
    (cov : Fin B → Matrix (Fin d) (Fin d) ℝ) : Except PyErr (Fin B → GaussKernel d) :=
  if h : ∀ b, ∃ k, normalOfCov cholEx (mean b) (cov b) = .ok k then .ok fun b => (h b).choose else .error .valueError

/-- `ParticleFilterPrediction.get_predictive_density(model, approximate=True)`,
pyfilter/filters/particle/state.py:59-69. -/
noncomputable def predictiveDensity (cholEx : Matrix (Fin d) (Fin d) ℝ → Matrix (Fin d) (Fin d) ℝ × Bool)
    (propagate : TS N B d ℝ → Ω → (Fin N → Fin B → Fin d → ℝ) × Ω) (p : PPred N B d ℝ) (ω : Ω) :
    Except PyErr (Fin B → GaussKernel d) × Ω :=
  let (xNew, ω) := propagate p.prevX ω
  let w := fun i b => weightVal (p.nw i b)
  let mean := filterMean xNew w
  let var := filterCov xNew w
  (normals cholEx mean fun b => of (var b), ω)

/-- The result of a sampler. Used for pyfilter/filters/particle/proposals/base.py:54. -/
abbrev Sampled (N B d : ℕ) (Ω : Type) := Except PyErr (((Fin N → Fin B → Fin d → ℝ) × (Fin N → Fin B → XF)) × Ω)

/-- `GaussianProposal.sample_and_weight`, pyfilter/filters/particle/proposals/approximate.py:18-31. `noise` draws standard
normal numbers, `logg` is the observation log-density (stochproc, not in /repo) for filter, observation, time and value. -/
noncomputable def gaussianSample (cholEx : Matrix (Fin d) (Fin d) ℝ → Matrix (Fin d) (Fin d) ℝ × Bool)
    (propagate : TS N B d ℝ → Ω → (Fin N → Fin B → Fin d → ℝ) × Ω) (noise : Ω → (ℕ × ℕ → Fin d → ℝ) × Ω)
    (logg : Fin B → Y → ℕ → (Fin d → ℝ) → ℝ) (y : Y) (p : PPred N B d ℝ) (ω : Ω) : Sampled N B d Ω :=
  let (predictive, ω) := predictiveDensity cholEx propagate p ω
  match predictive with
  | .error e => .error e
  | .ok predictive =>
    let (eps, ω) := noise ω
    let xResult : TS N B d ℝ := ⟨fun i b => (predictive b).sample (eps (i, b)), p.prevX.time⟩
    let w := fun i b => XF.fin (logg b y xResult.time (xResult.value i b))
    .ok ((xResult.value, w), ω)

/-- `GaussianLinearized.sample_and_weight`, pyfilter/filters/particle/proposals/approximate.py:42-64. `findMode` is
`find_mode_legacy` (proposals/utils.py:158-216) for filter, predictive density, initial value, its time, scale and
observation; it takes any kernel (see C44 and C45 for its steps). -/
noncomputable def gaussianLinearizedSample (cholEx : Matrix (Fin d) (Fin d) ℝ → Matrix (Fin d) (Fin d) ℝ × Bool)
    (propagate : TS N B d ℝ → Ω → (Fin N → Fin B → Fin d → ℝ) × Ω) (noise : Ω → (ℕ × ℕ → Fin d → ℝ) × Ω)
    (meanScale : Fin B → ℕ → (Fin d → ℝ) → (Fin d → ℝ) × (Fin d → ℝ))
    (findMode : Fin B → GaussKernel d → (Fin d → ℝ) → ℕ → (Fin d → ℝ) → Y → GaussKernel d)
    (logg : Fin B → Y → ℕ → (Fin d → ℝ) → ℝ) (y : Y) (p : PPred N B d ℝ) (ω : Ω) : Sampled N B d Ω :=
  let x := p.prevX
  let w := fun i b => weightVal (p.nw i b)
  let predictiveMean := filterMean x.value w
  let predictiveVariance := filterVar x.value w
  let mean := fun b => (meanScale b x.time (predictiveMean b)).1
  let std := fun b e => Real.sqrt (predictiveVariance b e + (meanScale b x.time (predictiveMean b)).2 e ^ 2)
  let (predictive, ω) := predictiveDensity cholEx propagate p ω
  match predictive with
  | .error e => .error e
  | .ok predictive =>
    let kernel := fun b => findMode b (predictive b) (mean b) (x.time + 1) (std b) y
    let (eps, ω) := noise ω
    let xResult : TS N B d ℝ := ⟨fun i b => (kernel b).sample (eps (i, b)), x.time⟩
    .ok ((xResult.value, weightWithKernel (fun y x i b => XF.fin (logg b y x.time (x.value i b)))
      (fun v i b => XF.fin ((predictive b).logProb (v i b))) (fun v i b => XF.fin ((kernel b).logProb (v i b))) y xResult), ω)

/-- `GaussianLinear.sample_and_weight`, pyfilter/filters/particle/proposals/approximate.py:76-101, for one linear model per
parallel filter. `chol` is `cholesky_ex(..)[0]` in `find_optimal_density`. -/
noncomputable def gaussianLinearSample (cholEx : Matrix (Fin d) (Fin d) ℝ → Matrix (Fin d) (Fin d) ℝ × Bool)
    (propagate : TS N B d ℝ → Ω → (Fin N → Fin B → Fin d → ℝ) × Ω) (noise : Ω → (ℕ × ℕ → Fin d → ℝ) × Ω)
    (L : Fin B → LinearModel d m) (chol : Matrix (Fin d) (Fin d) ℝ → Matrix (Fin d) (Fin d) ℝ)
    (meanScale : Fin B → ℕ → (Fin d → ℝ) → (Fin d → ℝ) × (Fin d → ℝ))
    (y : Fin m → ℝ) (p : PPred N B d ℝ) (ω : Ω) : Sampled N B d Ω :=
  let x := p.prevX
  let w := fun i b => weightVal (p.nw i b)
  let predictiveMean := filterMean x.value w
  let predictiveVariance := filterVar x.value w
  let mean := fun b => (meanScale b x.time (predictiveMean b)).1
  let scale := fun b => (meanScale b x.time (predictiveMean b)).2
  let hVarInv := fun b e => (scale b e ^ 2 + predictiveVariance b e)⁻¹
  let oVarInv := fun b j => ((L b).s j ^ 2)⁻¹
  let kernel := fun b =>
    optimalKernel chol (decide (d = 1)) (y - (L b).b) (mean b) (hVarInv b) (oVarInv b) (L b).a
  let (eps, ω) := noise ω
  let xResult : TS N B d ℝ := ⟨fun i b => (kernel b).sample (eps (i, b)), x.time + 1⟩
  let (predictive, ω) := predictiveDensity cholEx propagate p ω
  match predictive with
  | .error e => .error e
  | .ok predictive =>
    .ok ((xResult.value, weightWithKernel (fun y x i b => XF.fin ((L b).obsLogProb (x.value i b) y))
      (fun v i b => XF.fin ((predictive b).logProb (v i b))) (fun v i b => XF.fin ((kernel b).logProb (v i b))) y xResult), ω)

/-- The Gaussian particle filter with one of these proposals, pyfilter/filters/particle/gpf.py:17-24 and base.py:41-48. If the
sampler raises the code stops, see `gpfMove`; the values put here are not used. Resampler, threshold and pre-weights are not
read by GPF. -/
noncomputable def gpfModel (lo : ℝ) (kind : ProposalKind)
    (propagate : TS N B d ℝ → Ω → (Fin N → Fin B → Fin d → ℝ) × Ω) (allNan : Y → Bool)
    (sample : Y → PPred N B d ℝ → Ω → Sampled N B d Ω) : ParticleModel N B d ℝ Y Ω where
  lo := lo
  threshold := 0
  resampler := fun _ _ ω => (fun i _ => i, ω)
  propagateValues := propagate
  kind := kind
  sampleValues y p ω := match sample y p ω with
    | .ok r => r
    | .error _ => ((p.prevX.value, fun _ _ => .nan), ω)
  preWeight _ _ _ _ := .fin 0
  allNan := allNan

/-- `GPF.predict` and `GPF.correct`, pyfilter/filters/particle/gpf.py:26-34, on an observed step; an exception of the sampler
is passed on. -/
noncomputable def gpfMove (lo : ℝ) (kind : ProposalKind)
    (propagate : TS N B d ℝ → Ω → (Fin N → Fin B → Fin d → ℝ) × Ω) (allNan : Y → Bool)
    (sample : Y → PPred N B d ℝ → Ω → Sampled N B d Ω) (y : Y) (s : PCorr N B d ℝ) (ω : Ω) :
    Except PyErr (PCorr N B d ℝ × Ω) :=
  let M := gpfModel lo kind propagate allNan sample
  let (p, ω) := M.gpfPredict s ω
  match sample y p ω with
  | .error e => .error e
  | .ok _ => .ok (M.gpfCorrect y p ω)

end Verif
