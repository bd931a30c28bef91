import Verif.Model.XFloat
import Mathlib.Analysis.SpecialFunctions.Trigonometric.Basic

/-!
# `pyfilter/inference/batch/mcmc`

`run_pmmh`, `PMMH`, `PMMHResult` and the random walk and gradient proposals. A batch of `P` parameter
vectors is a function on `Fin P`; a parameter vector is a row of the stacked unconstrained parameters.
Stacking and unstacking in unconstrained space are inverse to each other (C49), so the parameters of a
context are identified with their stacked matrix. The random outcomes are arguments.
-/

namespace Verif.Mcmc

/-- One row of `stack_parameters(constrained=False)`, pyfilter/inference/context.py:193-215. -/
abbrev Row (d : ℕ) := Fin d → ℝ

/-- The model that a filter uses, pyfilter/filters/base.py:75-83 (`initialize_model`). A model refers to the
parameter tensors of its context (`live`; they are changed in place by the context) and to tensors that the
model builder computed from them when it was called (`built`). -/
structure Mdl (d : ℕ) where
  live : Row d
  built : Row d

/-- The filter result in one slot of the batch, as a record of how it was computed: `filter.initialize` with
a number of state particles (pyfilter/filters/base.py:121-127), then `filter.filter` for one observation
after the other (base.py:188-210). `Ω` is what the random number generator returned. -/
inductive Slot (d : ℕ) (Y Ω : Type) where
  | start (particles : ℕ) (m : Mdl d) (noise : Ω)
  | step (prev : Slot d Y Ω) (m : Mdl d) (y : Y) (noise : Ω)

/-- What the code calls without defining it: `inc` is the log-likelihood of one filter step, `logPrior`
is `eval_priors(constrained=False)`, pyfilter/inference/context.py:245-253. `lo` is the lowest finite
floating point number, `eps` is `EPS`, pyfilter/constants.py:8. -/
structure Env (d : ℕ) (Y Ω : Type) where
  inc : Slot d Y Ω → Mdl d → Y → Ω → XF
  logPrior : Row d → XF
  lo : ℝ
  eps : ℝ

/-- `FilterResult.loglikelihood` of a slot, pyfilter/filters/result.py:34, 43-48 and 130, and C17. -/
def Env.loglik {d : ℕ} {Y Ω : Type} (env : Env d Y Ω) : Slot d Y Ω → XF
  | .start _ _ _ => 0
  | .step s m y o => env.loglik s + env.inc s m y o

/-- `filter.batch_filter`, pyfilter/filters/base.py:140-158, in one slot; `noise 0` is used for the initial
state and `noise (t + 1)` for observation `t`. -/
def batchFilter {d : ℕ} {Y Ω : Type} (particles : ℕ) (m : Mdl d) (ys : List Y) (noise : ℕ → Ω) :
    Slot d Y Ω :=
  (ys.zipIdx).foldl (fun s y => .step s m y.1 (noise (y.2 + 1))) (.start particles m (noise 0))

/-- A proposal object, pyfilter/inference/batch/mcmc/proposals/base.py:11-48: `build` makes a kernel from the
parameters of a context, the filter results and the log-weights of the state, `logProb` is its
`log_prob` in every slot, `exchange` the in-place exchange. -/
structure Proposal (P d : ℕ) (Y Ω K : Type) where
  build : (Fin P → Row d) → (Fin P → Slot d Y Ω) → (Fin P → XF) → K
  logProb : K → Fin P → Row d → XF
  exchange : K → K → (Fin P → Bool) → K

/-- A batch of normal distributions, `Normal(loc, scale).to_event(1)` (pyro).
Used for pyfilter/inference/batch/mcmc/proposals/random_walk.py:32. -/
structure Gauss (P d : ℕ) where
  loc : Fin P → Row d
  scale : Fin P → Row d

/-- Log-density of the normal distribution (pyro).
Used for pyfilter/inference/batch/mcmc/utils.py:64. -/
noncomputable def logNormal (loc scale x : ℝ) : ℝ :=
  -((x - loc) ^ 2) / (2 * scale ^ 2) - Real.log scale - Real.log (2 * Real.pi) / 2

/-- `log_prob` of `Gauss` (pyro): the event dimension is summed.
Used for pyfilter/inference/batch/mcmc/utils.py:64. -/
noncomputable def Gauss.logProb {P d : ℕ} (g : Gauss P d) (i : Fin P) (x : Row d) : XF :=
  .fin (∑ j, logNormal (g.loc i j) (g.scale i j) (x j))

/-- `RandomWalk`, pyfilter/inference/batch/mcmc/proposals/random_walk.py:19-36. A scalar scale is the
constant vector; `latest.mean[mask] = candidate.mean[mask]` writes into the location in place. -/
noncomputable def randomWalk {P d : ℕ} {Y Ω : Type} (scale : Row d) : Proposal P d Y Ω (Gauss P d) where
  build params _ _ := ⟨params, fun _ => scale⟩
  logProb := Gauss.logProb
  exchange latest candidate mask :=
    ⟨fun i => if mask i then candidate.loc i else latest.loc i,
      fun i => if mask i then candidate.scale i else latest.scale i⟩

/-- What `run_pmmh` changes: the parameters of the context, the filter results of the state, the kernel,
the parameters of the proposal context, and the parameters that the proposal filter's model was built
from. `particles` is the number of state particles of the proposal filter.
Used for pyfilter/inference/batch/mcmc/utils.py:45-77. -/
structure Chain (P d : ℕ) (Y Ω K : Type) where
  params : Fin P → Row d
  res : Fin P → Slot d Y Ω
  kernel : K
  sub : Fin P → Row d
  subBuilt : Fin P → Row d
  particles : ℕ

/-- Random outcomes of one call of `run_pmmh`: the sample of the kernel, the noise of the filter and the
uniform draws. Used for pyfilter/inference/batch/mcmc/utils.py:48,55,68. -/
structure Draws (P d : ℕ) (Ω : Type) where
  rvs : Fin P → Row d
  noise : Fin P → ℕ → Ω
  u : Fin P → ℝ

/-- Filter results of the candidates, pyfilter/inference/batch/mcmc/utils.py:47-55: the parameters are
written to the proposal context, the model is built and the filter is run. -/
def candidates {P d : ℕ} {Y Ω : Type} (particles : ℕ) (ys : List Y) (r : Draws P d Ω) :
    Fin P → Slot d Y Ω :=
  fun i => batchFilter particles ⟨r.rvs i, r.rvs i⟩ ys (r.noise i)

/-- `log_acc_prob`, utils.py:57-67. `replicated` are the log-weights of `state.replicate(new_res)`. -/
def logAcc {P d : ℕ} {Y Ω K : Type} (env : Env d Y Ω) (prop : Proposal P d Y Ω K) (c : Chain P d Y Ω K)
    (ys : List Y) (r : Draws P d Ω) (replicated : Fin P → XF) (i : Fin P) : XF :=
  let newRes := candidates c.particles ys r
  let diffLogl := env.loglik (newRes i) - env.loglik (c.res i)
  let diffPrior := env.logPrior (r.rvs i) - env.logPrior (c.params i)
  let newKernel := prop.build r.rvs newRes replicated
  let diffProp := prop.logProb newKernel i (c.params i) - prop.logProb c.kernel i (r.rvs i)
  diffProp + diffPrior + diffLogl

/-- Accepted slots, utils.py:68: `uniform_().log() < log_acc_prob`. -/
noncomputable def accepted {P d : ℕ} {Y Ω K : Type} (env : Env d Y Ω) (prop : Proposal P d Y Ω K)
    (c : Chain P d Y Ω K) (ys : List Y) (r : Draws P d Ω) (replicated : Fin P → XF) (i : Fin P) : Bool :=
  open Classical in
  decide (XF.lt (XF.log (.fin (r.u i))) (logAcc env prop c ys r replicated i))

/-- `run_pmmh`, pyfilter/inference/batch/mcmc/utils.py:14-77. `filter_state.exchange` and
`context.exchange` take the accepted slots from the candidate (C20, C51). -/
noncomputable def runPmmh {P d : ℕ} {Y Ω K : Type} (env : Env d Y Ω) (prop : Proposal P d Y Ω K)
    (mutateKernel : Bool) (replicated : Fin P → XF) (c : Chain P d Y Ω K) (ys : List Y) (r : Draws P d Ω) :
    Chain P d Y Ω K × (Fin P → Bool) :=
  let newRes := candidates c.particles ys r
  let newKernel := prop.build r.rvs newRes replicated
  let acc := accepted env prop c ys r replicated
  ({ c with
      params := fun i => if acc i then r.rvs i else c.params i
      res := fun i => if acc i then newRes i else c.res i
      kernel := if mutateKernel then prop.exchange c.kernel newKernel acc else c.kernel
      sub := r.rvs
      subBuilt := r.rvs }, acc)

/-! ### `PMMH` -/

/-- A stored sample: a tensor of its own (`clone`, `torch.cat`), or a view of the live parameters.
Used for pyfilter/inference/batch/mcmc/state.py:26,38. -/
inductive Stored (P : ℕ) (V : Type) where
  | copy (x : Fin P → V)
  | view

/-- Reading a stored sample, given the live values.
Used for pyfilter/inference/batch/mcmc/state.py:26,38. -/
def Stored.read {P : ℕ} {V : Type} (live : Fin P → V) : Stored P V → Fin P → V
  | .copy x => x
  | .view => live

/-- State of `PMMH.fit`: the chains and `PMMHResult.samples` by parameter name, pyfilter/inference/batch/
mcmc/state.py:25-26. -/
structure Fit (P d : ℕ) (Y Ω K Name V : Type) where
  chain : Chain P d Y Ω K
  samples : Name → List (Stored P V)

/-- Values of a named parameter in all slots.
Used for pyfilter/inference/batch/mcmc/pmmh.py:101. -/
def valuesOf {P d : ℕ} {Name V : Type} (get : Name → Row d → V) (params : Fin P → Row d) (n : Name) :
    Fin P → V := fun i => get n (params i)

/-- `PMMH.initialize`, pyfilter/inference/batch/mcmc/pmmh.py:59-74, for the initialiser "mean", and
the beginning of `fit`, pmmh.py:76-88: `drawn` are the parameters created when the model was built, which
are then overwritten by `mean` (the Monte Carlo mean of the priors, one vector for all chains) without
building the model again; `subDrawn` are the parameters of the proposal context. `get` reads a named
parameter (its constrained value) off a row. -/
def fitInit {P d : ℕ} {Y Ω K Name V : Type} (prop : Proposal P d Y Ω K) (get : Name → Row d → V)
    (particles : ℕ) (ys : List Y) (drawn : Fin P → Row d) (mean : Row d) (noise : Fin P → ℕ → Ω)
    (subDrawn : Fin P → Row d) : Fit P d Y Ω K Name V :=
  let params : Fin P → Row d := fun _ => mean
  let res : Fin P → Slot d Y Ω := fun i => batchFilter particles ⟨mean, drawn i⟩ ys (noise i)
  { chain :=
      { params := params
        res := res
        kernel := prop.build params res fun _ => 0
        sub := subDrawn
        subBuilt := subDrawn
        particles := particles }
    samples := fun n => [.copy (valuesOf get params n)] }

/-- `PMMHResult.update_chain`, state.py:28-38: `torch.cat` copies the old samples and the clone of the
current values. -/
def updateChain {P d : ℕ} {Y Ω K Name V : Type} (get : Name → Row d → V) (f : Fit P d Y Ω K Name V) :
    Fit P d Y Ω K Name V :=
  { f with
    samples := fun n =>
      (f.samples n).map (fun s => .copy (s.read (valuesOf get f.chain.params n))) ++
        [.copy (valuesOf get f.chain.params n)] }

/-- One iteration of `PMMH.fit`, pmmh.py:90-102. A `FilterAlgorithmState` has no weights
(pyfilter/inference/state.py:29-37). -/
noncomputable def fitStep {P d : ℕ} {Y Ω K Name V : Type} (env : Env d Y Ω) (prop : Proposal P d Y Ω K)
    (get : Name → Row d → V) (ys : List Y) (f : Fit P d Y Ω K Name V) (r : Draws P d Ω) :
    Fit P d Y Ω K Name V :=
  updateChain get { f with chain := (runPmmh env prop true (fun _ => 0) f.chain ys r).1 }

/-- The loop of `PMMH.fit`, pmmh.py:90-104. -/
noncomputable def fitLoop {P d : ℕ} {Y Ω K Name V : Type} (env : Env d Y Ω) (prop : Proposal P d Y Ω K)
    (get : Name → Row d → V) (ys : List Y) (f : Fit P d Y Ω K Name V) (rs : List (Draws P d Ω)) :
    Fit P d Y Ω K Name V :=
  rs.foldl (fitStep env prop get ys) f

/-- Values recorded for a parameter. Used for pyfilter/inference/batch/mcmc/state.py:28-38. -/
def Fit.recorded {P d : ℕ} {Y Ω K Name V : Type} (get : Name → Row d → V) (f : Fit P d Y Ω K Name V)
    (n : Name) : List (Fin P → V) :=
  (f.samples n).map fun s => s.read (valuesOf get f.chain.params n)

/-! ### The gradient-based proposal -/

/-- What `GradientBasedProposal.build` reads and writes of one parameter in one slot,
pyfilter/inference/batch/mcmc/proposals/gradient.py:65-97: the constrained value and `.grad`
(`none` before the first `backward`). -/
structure GradParam where
  value : ℝ
  grad : Option ℝ

/-- `logl.backward(...)`, gradient.py:83: PyTorch adds to an existing `.grad`. -/
noncomputable def GradParam.backward (p : GradParam) (g : ℝ) : GradParam :=
  { p with grad := some (match p.grad with
      | some old => old + g
      | none => g) }

/-- `GradientBasedProposal.build`, gradient.py:65-97, for one scalar parameter in one slot: `score` is
the gradient of the log-likelihood of lines 12-34 at a value, `toU` the map to unconstrained space, `eps`
the step size of line 61. Returns the parameter afterwards (`detach_` keeps `.grad`) and the location. -/
noncomputable def gradBuild (score toU : ℝ → ℝ) (eps : ℝ) (p : GradParam) : GradParam × ℝ :=
  let p := p.backward (score p.value)
  (p, toU p.value + eps * (p.grad.getD 0))

/-- Writing a new value into a parameter (`update_values_`, `exchange`), pyfilter/inference/parameter.py:
`copy_` leaves `.grad` alone. Used for pyfilter/inference/parameter.py:87. -/
def GradParam.write (p : GradParam) (v : ℝ) : GradParam := { p with value := v }

/-- Locations of successive builds on one context, the parameter being set to the given values before
each (PMMH writes each candidate to the proposal context before building on it, utils.py:49 and 61). -/
noncomputable def gradBuilds (score toU : ℝ → ℝ) (eps : ℝ) : GradParam → List ℝ → List ℝ
  | _, [] => []
  | p, v :: vs =>
    let r := gradBuild score toU eps (p.write v)
    r.2 :: gradBuilds score toU eps r.1 vs

end Verif.Mcmc
