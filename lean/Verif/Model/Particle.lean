import Verif.Model.Utils
import Verif.Model.Filter

/-!
# Particle filters: `pyfilter/filters/particle/{state,utils,sisr,apf,gpf}.py`

`N` particles, `B` parallel filters, `d` components of a state. A filter without batch shape is the case
`B = 1`, a scalar state the case `d = 1` (PyTorch drops these dimensions, the numbers are the same).
Random numbers come from a generator state `Ω` that is passed through.
-/

namespace Verif

variable {N B d : ℕ} {V Y Ω : Type}

/-- `TimeseriesState` of stochproc (not in /repo): values of all particles and the time index.
Used for pyfilter/filters/particle/base.py:91. -/
structure TS (N B d : ℕ) (V : Type) where
  value : Fin N → Fin B → Fin d → V
  time : ℕ

/-- `ParticleFilterCorrection`, pyfilter/filters/particle/state.py:72-95, without mean and variance (see
`Verif.Model.Moments`). -/
structure PCorr (N B d : ℕ) (V : Type) where
  x : TS N B d V
  w : Fin N → Fin B → XF
  ll : Fin B → XF
  prev : Fin N → Fin B → Fin N

/-- `ParticleFilterPrediction`, pyfilter/filters/particle/state.py:14-36. `APF.correct` passes `None` for
the indices of its inner prediction (apf.py:37-39); no proposal reads them, the model passes the selected
ones. -/
structure PPred (N B d : ℕ) (V : Type) where
  prevX : TS N B d V
  w : Fin N → Fin B → XF
  nw : Fin N → Fin B → XF
  idx : Fin N → Fin B → Fin N

/-- `ParticleFilterCorrection.__init__`, pyfilter/filters/particle/state.py:77-95: line 95 normalises the
weights, which cleans the stored tensor in place. -/
noncomputable def PCorr.mk' (lo : ℝ) (x : TS N B d V) (w : Fin N → Fin B → XF) (ll : Fin B → XF)
    (prev : Fin N → Fin B → Fin N) : PCorr N B d V :=
  ⟨x, (normalize2 lo w).1, ll, prev⟩

/-- `log_likelihood`, pyfilter/filters/particle/utils.py:7-22, one value per parallel filter. Without
`weights` the factor is `1 / N`. -/
noncomputable def logLikelihood (v : Fin N → Fin B → XF) (weights : Option (Fin N → Fin B → XF)) :
    Fin B → XF := fun b =>
  let maxW := XF.vmax fun i => v i b
  let temp := fun i => XF.exp (v i b - maxW)
  let weights := fun i => match weights with
    | none => XF.fin (1 / (N : ℝ))
    | some W => W i b
  maxW + XF.log (∑ i, weights i * temp i)

/-- The number of selected positions that precede position `k` of a flattened (row major) tensor of
shape `(N, B, d)` when the mask depends on the middle dimension only (PyTorch `masked_scatter`, not in
/repo). Used for pyfilter/filters/particle/sisr.py:32,43. -/
def scatterRank (mask : Fin B → Bool) (d k : ℕ) : ℕ :=
  ((List.range k).filter fun p => if h : p / d % B < B then mask ⟨p / d % B, h⟩ else false).length

/-- `self.masked_scatter(mask, source)` for a tensor of shape `(N, B, d)`, a mask that depends on the
middle dimension only and a source given in row major order (PyTorch, not in /repo): selected positions
take the elements of the source in order. PyTorch raises when the source is too short; here the old
value is kept, and the lemmas show that this does not happen.
Used for pyfilter/filters/particle/sisr.py:32,43. -/
def maskedScatter {α : Type} (self : Fin N → Fin B → Fin d → α) (mask : Fin B → Bool) (source : List α) :
    Fin N → Fin B → Fin d → α := fun i b e =>
  if mask b then (source[scatterRank mask d ((i * B + b) * d + e)]?).getD (self i b e) else self i b e

/-- Row major enumeration of a tensor of shape `(N, m, d)` (PyTorch, not in /repo).
Used for pyfilter/filters/particle/sisr.py:38. -/
def flatten {α : Type} {m : ℕ} (t : Fin N → Fin m → Fin d → α) : List α :=
  (List.finRange N).flatMap fun i => (List.finRange m).flatMap fun j => (List.finRange d).map fun e => t i j e

/-- The columns selected by a mask, in order (PyTorch boolean indexing, not in /repo).
Used for pyfilter/filters/particle/sisr.py:29. -/
def maskCols (mask : Fin B → Bool) : List (Fin B) := (List.finRange B).filter mask

/-- Which proposal a filter uses, pyfilter/filters/particle/proposals. `LocalLinearization` cannot be
constructed (local_linearization.py:40 raises) and is left out. -/
inductive ProposalKind where
  | bootstrap
  | nested
  | linear
  | linearized
  | gaussianLinear
  | gaussian
  | gaussianLinearized

/-- Time steps between the predicted state and the sampled state. `propagate` and `propagate_from` add
one (proposals/bootstrap.py:11, nested.py:31, linear.py:53, linearized.py:68, approximate.py:97), `copy`
adds nothing (approximate.py:26 and 62). -/
def ProposalKind.increment : ProposalKind → ℕ
  | bootstrap => 1
  | nested => 1
  | linear => 1
  | linearized => 1
  | gaussianLinear => 1
  | gaussian => 0
  | gaussianLinearized => 0

/-- What a particle filter is made of: pyfilter/filters/particle/base.py:41-48 together with the model. The
distributions of the model are given by functions of the generator state. -/
structure ParticleModel (N B d : ℕ) (V Y Ω : Type) where
  /-- Lowest finite number of the dtype (see `nanToNum`). -/
  lo : ℝ
  /-- `_resample_threshold`, base.py:42. -/
  threshold : ℝ
  /-- `_resampler`, base.py:43. The second argument is `normalized`. Selected indices are taken to be
  valid, which is C07 for the provided resampler. -/
  resampler : {b : ℕ} → (Fin N → Fin b → XF) → Bool → Ω → (Fin N → Fin b → Fin N) × Ω
  /-- Values drawn by `hidden.propagate` (stochproc, not in /repo). -/
  propagateValues : TS N B d V → Ω → (Fin N → Fin B → Fin d → V) × Ω
  /-- Kind of the proposal. -/
  kind : ProposalKind
  /-- Values and importance log-weights of `proposal.sample_and_weight`, proposals/base.py:52-67. -/
  sampleValues : Y → PPred N B d V → Ω → ((Fin N → Fin B → Fin d → V) × (Fin N → Fin B → XF)) × Ω
  /-- `proposal.pre_weight`, proposals/base.py:69-85. -/
  preWeight : Y → TS N B d V → Fin N → Fin B → XF
  /-- `y.isnan().all()`, filters/base.py:213. -/
  allNan : Y → Bool

namespace ParticleModel

variable (M : ParticleModel N B d V Y Ω)

/-- `hidden.propagate` (stochproc, not in /repo): new values, time index plus one.
Used for pyfilter/filters/particle/state.py:39. -/
def propagateTS (x : TS N B d V) (ω : Ω) : TS N B d V × Ω :=
  let (v, ω) := M.propagateValues x ω
  (⟨v, x.time + 1⟩, ω)

/-- `proposal.sample_and_weight`, pyfilter/filters/particle/proposals/base.py:52-67 and its overrides. -/
def sampleAndWeight (y : Y) (p : PPred N B d V) (ω : Ω) :
    (TS N B d V × (Fin N → Fin B → XF)) × Ω :=
  let ((v, w), ω) := M.sampleValues y p ω
  ((⟨v, p.prevX.time + M.kind.increment⟩, w), ω)

/-- `create_state_from_prediction`, pyfilter/filters/particle/state.py:38-42. -/
noncomputable def createState (p : PPred N B d V) (ω : Ω) : PCorr N B d V × Ω :=
  let (x, ω) := M.propagateTS p.prevX ω
  (PCorr.mk' M.lo x p.w (fun _ => XF.fin 0) p.idx, ω)

open Classical in
/-- `SISR.predict`, pyfilter/filters/particle/sisr.py:14-48. `state.weights` is read after line 16 has
cleaned it in place. -/
noncomputable def sisrPredict (s : PCorr N B d V) (ω : Ω) : PPred N B d V × Ω :=
  let (weights, nw) := normalize2 M.lo s.w
  let ess := (getEss2 M.lo nw true).2
  let mask : Fin B → Bool := fun b => decide (XF.lt (ess b) (XF.fin M.threshold))
  let tsState := s.x
  let prevInds := s.prev
  if ∀ b, mask b = false then (⟨tsState, weights, nw, prevInds⟩, ω)
  else
    let cols := maskCols mask
    let (sub, ω) := M.resampler (b := cols.length) (fun i j => nw i (cols.get j)) true ω
    let resampledIndices := fun i b =>
      maskedScatter (d := 1) (fun i b _ => prevInds i b) mask (flatten (d := 1) fun i j _ => sub i j) i b 0
    let resampledWeights := fun i b => if mask b then XF.fin 0 else weights i b
    let nw := fun i b => if mask b then XF.fin (1 / (N : ℝ)) else nw i b
    let tempResampled := flatten fun i (j : Fin cols.length) e => tsState.value (sub i j) (cols.get j) e
    let resampledX := maskedScatter tsState.value mask tempResampled
    (⟨⟨resampledX, tsState.time⟩, resampledWeights, nw, resampledIndices⟩, ω)

/-- `SISR.correct`, pyfilter/filters/particle/sisr.py:50-56. -/
noncomputable def sisrCorrect (y : Y) (p : PPred N B d V) (ω : Ω) : PCorr N B d V × Ω :=
  let ((x, weights), ω) := M.sampleAndWeight y p ω
  let newWeights := fun i b => weights i b + p.w i b
  (PCorr.mk' M.lo x newWeights (logLikelihood weights (some p.nw)) p.idx, ω)

/-- `APF.predict`, pyfilter/filters/particle/apf.py:16-23. -/
noncomputable def apfPredict (s : PCorr N B d V) (ω : Ω) : PPred N B d V × Ω :=
  let (weights, nw) := normalize2 M.lo s.w
  (⟨s.x, weights, nw, fun i _ => i⟩, ω)

/-- `APF.correct`, pyfilter/filters/particle/apf.py:25-46; `batched_gather` and `gather` along the
particle dimension are the selections by `indices`. -/
noncomputable def apfCorrect (y : Y) (p : PPred N B d V) (ω : Ω) : PCorr N B d V × Ω :=
  let preWeights := M.preWeight y p.prevX
  let resampleWeights := fun i b => preWeights i b + p.w i b
  let (indices, ω) := M.resampler resampleWeights false ω
  let resampledX : TS N B d V := ⟨fun i b => p.prevX.value (indices i b) b, p.prevX.time⟩
  let inner : PPred N B d V := ⟨resampledX, fun _ _ => XF.fin 0, fun _ _ => XF.fin (1 / (N : ℝ)), indices⟩
  let ((x, weights), ω) := M.sampleAndWeight y inner ω
  let weights := fun i b => weights i b - preWeights (indices i b) b
  let ll := fun b => logLikelihood weights none b + XF.log (∑ i, p.nw i b * XF.exp (preWeights i b))
  (PCorr.mk' M.lo x weights ll indices, ω)

/-- `GPF.predict`, pyfilter/filters/particle/gpf.py:26-29. -/
noncomputable def gpfPredict (s : PCorr N B d V) (ω : Ω) : PPred N B d V × Ω :=
  let (weights, nw) := normalize2 M.lo s.w
  (⟨s.x, weights, nw, s.prev⟩, ω)

/-- `GPF.correct`, pyfilter/filters/particle/gpf.py:31-34. -/
noncomputable def gpfCorrect (y : Y) (p : PPred N B d V) (ω : Ω) : PCorr N B d V × Ω :=
  let ((x, weights), ω) := M.sampleAndWeight y p ω
  (PCorr.mk' M.lo x weights (logLikelihood weights none) p.idx, ω)

end ParticleModel

/-- The particle filters, pyfilter/filters/particle/__init__.py.
Used for pyfilter/filters/particle/__init__.py:2-5. -/
inductive FilterKind where
  | sisr
  | apf
  | gpf

/-- The filter as a set of methods, pyfilter/filters/particle/{sisr,apf,gpf}.py.
Used for pyfilter/filters/particle/sisr.py:14-56, apf.py:16-46, gpf.py:26-34. -/
noncomputable def FilterKind.ops (k : FilterKind) (M : ParticleModel N B d V Y Ω) :
    FilterOps (PCorr N B d V) (PPred N B d V) Y Ω where
  predict := match k with
    | sisr => M.sisrPredict
    | apf => M.apfPredict
    | gpf => M.gpfPredict
  propagate := M.createState
  correct := match k with
    | sisr => M.sisrCorrect
    | apf => M.apfCorrect
    | gpf => M.gpfCorrect
  time p := p.prevX.time
  allNan := M.allNan

/-- `initialize`, pyfilter/filters/particle/base.py:87-103, given the initial sample. -/
noncomputable def initializeFilter (lo : ℝ) (x : Fin N → Fin B → Fin d → V) : PCorr N B d V :=
  PCorr.mk' lo ⟨x, 0⟩ (fun _ _ => XF.fin 0) (fun _ => XF.fin 0) (fun i _ => i)

end Verif
