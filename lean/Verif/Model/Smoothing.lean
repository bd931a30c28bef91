import Verif.Model.Particle
import Verif.Model.Resampling

/-!
# Smoothing: `pyfilter/filters/particle/base.py:105-157` and the pyro interface 176-229
-/

namespace Verif

variable {N B d : ℕ} {V Y Ω : Type}

/-- Values of all particles, `timeseries_state.value`.
Used for pyfilter/filters/particle/base.py:107. -/
abbrev Vals (N B d : ℕ) (V : Type) := Fin N → Fin B → Fin d → V

/-- `batched_gather(x, indices, dim=0)`, pyfilter/filters/utils.py:4-21, for a tensor of values. -/
def gatherVals (x : Vals N B d V) (idx : Fin N → Fin B → Fin N) : Vals N B d V :=
  fun i b e => x (idx i b) b e

/-- The loop of `_do_sample_fl`, pyfilter/filters/particle/base.py:141-144, over the remaining states, newest
first. -/
def flLoop (latest : PCorr N B d V) (prevInds : Fin N → Fin B → Fin N) :
    List (PCorr N B d V) → List (Vals N B d V)
  | [] => []
  | s :: rest =>
    let prevInds := fun i b => latest.prev (prevInds i b) b
    gatherVals s.x.value prevInds :: flLoop s prevInds rest

/-- `_do_sample_fl`, pyfilter/filters/particle/base.py:130-146. -/
def smoothFl (states : List (PCorr N B d V)) : Except PyErr (List (Vals N B d V)) :=
  match states.reverse with
  | [] => .error (.exception "StopIteration")
  | latest :: rest => .ok (latest.x.value :: flLoop latest (fun i _ => i) rest).reverse

/-- What backward sampling needs besides the states: the transition log-density of the latent process,
`hidden.build_density(state).log_prob(x)` (stochproc, not in /repo), and a draw of `Categorical`
(PyTorch, not in /repo). Used for pyfilter/filters/particle/base.py:111-120. -/
structure Backward (N B d : ℕ) (V Ω : Type) where
  logDensity : TS N B d V → Fin N → Fin B → (Fin d → V) → XF
  categorical : (Fin N → Fin B → Fin N → XF) → Ω → (Fin N → Fin B → Fin N) × Ω

/-- The logits of line 114-118 of pyfilter/filters/particle/base.py: one row over the candidates `j` for every
path `i` and filter `b`. Used for pyfilter/filters/particle/base.py:114-118. -/
def Backward.logits (K : Backward N B d V Ω) (s : PCorr N B d V) (next : Vals N B d V) :
    Fin N → Fin B → Fin N → XF :=
  fun i b j => s.w j b + K.logDensity s.x j b (next i b)

/-- The loop of `_do_sample_ffbs`, pyfilter/filters/particle/base.py:110-126, newest state first. -/
def ffbsLoop (K : Backward N B d V Ω) (next : Vals N B d V) :
    List (PCorr N B d V) → Ω → List (Vals N B d V) × Ω
  | [], ω => ([], ω)
  | s :: rest, ω =>
    let (indices, ω) := K.categorical (K.logits s next) ω
    let resampled := gatherVals s.x.value indices
    let (more, ω) := ffbsLoop K resampled rest ω
    (resampled :: more, ω)

/-- `_do_sample_ffbs`, pyfilter/filters/particle/base.py:105-128. -/
def smoothFfbs (M : ParticleModel N B d V Y Ω) (K : Backward N B d V Ω) (states : List (PCorr N B d V))
    (ω : Ω) : Except PyErr (List (Vals N B d V) × Ω) :=
  match states.reverse with
  | [] => .error .indexError
  | latest :: rest =>
    let (idx, ω) := M.resampler latest.w false ω
    let first := gatherVals latest.x.value idx
    let (more, ω) := ffbsLoop K first rest ω
    .ok ((first :: more).reverse, ω)

/-- `str.lower` on the characters that matter here (Python, not in /repo): only ASCII capitals change. No
other character is lowered to one of the letters of the method names.
Used for pyfilter/filters/particle/base.py:150. -/
def lowerChars (s : List Char) : List Char := s.map Char.toLower

/-- `smooth`, pyfilter/filters/particle/base.py:149-157. -/
def smooth (M : ParticleModel N B d V Y Ω) (K : Backward N B d V Ω) (states : List (PCorr N B d V))
    (method : List Char) (ω : Ω) : Except PyErr (List (Vals N B d V) × Ω) :=
  if lowerChars method = ['f', 'f', 'b', 's'] then smoothFfbs M K states ω
  else if method = ['f', 'l'] then (smoothFl states).map fun r => (r, ω)
  else .error .notImplementedError

/-- `l[0::k]` for a positive step (Python slicing, not in /repo).
Used for pyfilter/filters/particle/base.py:193-194. -/
def strideFrom {α : Type} (k : ℕ) : ℕ → List α → List α
  | _, [] => []
  | 0, a :: l => a :: strideFrom k (k - 1) l
  | n + 1, _ :: l => strideFrom k n l

/-- `l[1::k]`, pyfilter/filters/particle/base.py:193-194. -/
def slice1 {α : Type} (k : ℕ) (l : List α) : List α := strideFrom k 0 (l.drop 1)

end Verif
