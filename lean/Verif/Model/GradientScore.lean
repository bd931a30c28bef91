import Verif.Model.Smoothing
import Verif.Model.Prior

/-!
# `pyfilter/inference/batch/mcmc/proposals/gradient.py`: what is differentiated, and the resulting location

Along the time dimension tensors are lists, so that the slices of lines 20-21 and the broadcasting of lines 27 and
32 are those of the code; each parallel filter (one row of parameters) is treated on its own. Automatic
differentiation is "returns the gradient". Accumulation of `.grad` over several builds is in `Verif.Model.Pmmh`
(C73); here the build is the first one on its context. Time indices are taken to be numbers; for models whose
densities read the time of a state, torch would have to align the shape `(timesteps,)` of line 20 with
`(timesteps, particles, batch)`.
-/

namespace Verif.GradientScore

open Verif Verif.Priors

/-- The log-densities of a state space model (stochproc, not in /repo): of the initial state, of the next state given
time and value of a state, of an observation given time and value of a state.
Used for pyfilter/inference/batch/mcmc/proposals/gradient.py:24-25,30. -/
structure Densities (X Y : Type) where
  init : X → XF
  hidden : ℕ → X → X → XF
  obs : ℕ → X → Y → XF

/-- Broadcasting of two tensors along the first dimension (PyTorch, not in /repo): equal lengths are matched, a
length of one is repeated, everything else raises.
Used for pyfilter/inference/batch/mcmc/proposals/gradient.py:32. -/
def broadcast {α β γ : Type} (f : α → β → γ) : List α → List β → Except PyErr (List γ)
  | [a], bs => .ok (bs.map (f a))
  | as, [b] => .ok (as.map (f · b))
  | as, bs => if as.length = bs.length then .ok (List.zipWith f as bs) else .error .runtimeError

/-- `.mean(0)` over the paths (PyTorch, not in /repo).
Used for pyfilter/inference/batch/mcmc/proposals/gradient.py:30-32. -/
noncomputable def mean {N : ℕ} (v : Fin N → XF) : XF := (∑ i, v i) / XF.fin (N : ℝ)

/-- `_model_likelihood`, pyfilter/inference/batch/mcmc/proposals/gradient.py:9-33, for one parallel filter: `base` is
the time of `state`, `x` are the smoothed values of all paths, `prior` is `context.eval_priors(constrained=False)`. -/
noncomputable def modelLikelihood {N : ℕ} {X Y : Type} (D : Densities X Y) (prior : XF) (base : ℕ) (time : List ℕ)
    (x : List (Fin N → X)) (y : List Y) : Except PyErr XF := do
  let xtm1 := x.dropLast.zip (time.dropLast.map (base + ·))
  let xt := (x.drop 1).zip ((time.drop 1).map (base + ·))
  let x0 ← match x with
    | [] => .error .indexError
    | a :: _ => .ok a
  let hidden := List.zipWith (fun s v i => D.hidden s.2 (s.1 i) (v.1 i)) xtm1 xt
  let obs ← broadcast (fun s y i => D.obs s.2 (s.1 i) y) xt y
  let both ← broadcast (fun a b i => a i + b i) hidden obs
  .ok (mean (fun i => D.init (x0 i)) + prior + mean fun i => (both.map (· i)).sum)

/-- The number that `GradientBasedProposal.build` differentiates,
pyfilter/inference/batch/mcmc/proposals/gradient.py:65-82: the recorded states are smoothed by backward sampling (the
default method), and `_model_likelihood` is called with the time of the first recorded state. -/
noncomputable def target {N B d : ℕ} {V Y Ω : Type} (M : ParticleModel N B d V Y Ω) (K : Backward N B d V Ω)
    (D : Fin B → Densities (Fin d → V) Y) (prior : Fin B → XF) (states : List (PCorr N B d V)) (ys : List Y) (ω : Ω) :
    Except PyErr (Fin B → Except PyErr XF) := do
  let (smoothed, _) ← smooth M K states ['f', 'f', 'b', 's'] ω
  let time := states.map fun s => s.x.time
  let first ← match states with
    | [] => .error .indexError
    | s :: _ => .ok s
  .ok fun b => modelLikelihood (D b) (prior b) first.x.time time (smoothed.map fun v i => v i b) ys

/-- The location of the kernel, pyfilter/inference/batch/mcmc/proposals/gradient.py:88-96, for one row of parameters:
`x` are the constrained values, `grad` is `.grad` of every parameter, the columns are concatenated in the order of the
parameters. -/
noncomputable def location (c : Registry) (eps : ℝ) (x grad : ∀ i, Fin (c.numel i) → ℝ) : Fin c.dim → ℝ := fun k =>
  let p := finSigmaFinEquiv.symm k
  (c.prior p.1).getUnconstrained (x p.1) p.2 + eps * grad p.1 p.2

/-- `self._eps`, pyfilter/inference/batch/mcmc/proposals/gradient.py:62. -/
noncomputable def stepSize (scale : ℝ) : ℝ := scale ^ 2 / 2

end Verif.GradientScore
