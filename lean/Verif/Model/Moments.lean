import Verif.Model.Particle
import Verif.Model.Resampling

/-!
# Filter moments: `pyfilter/filters/particle/utils.py:26-65` and `particle/state.py:112-137`

Values and normalised weights are real numbers here (normalised weights of usable particles are, see C01).
-/

namespace Verif

variable {N B d : ℕ}

/-- The mean of `get_filter_mean_and_variance`, pyfilter/filters/particle/utils.py:42-47. A scalar state is the
case `d = 1` (line 43-44 adds that dimension). -/
noncomputable def filterMean (x : Fin N → Fin B → Fin d → ℝ) (w : Fin N → Fin B → ℝ) :
    Fin B → Fin d → ℝ := fun b e => ∑ i, w i b * x i b e

/-- The variance of `get_filter_mean_and_variance` without covariance, pyfilter/filters/particle/utils.py:51-54.
`keep_dim` only adds or removes a dimension of size one. -/
noncomputable def filterVar (x : Fin N → Fin B → Fin d → ℝ) (w : Fin N → Fin B → ℝ) :
    Fin B → Fin d → ℝ :=
  let mean := filterMean x w
  let centered := fun i b e => x i b e - mean b e
  fun b e => ∑ i, w i b * centered i b e ^ 2

/-- The covariance of `get_filter_mean_and_variance`, pyfilter/filters/particle/utils.py:51 and 58-60, used for
the Gaussian approximation of the predictive density (state.py:60). -/
noncomputable def filterCov (x : Fin N → Fin B → Fin d → ℝ) (w : Fin N → Fin B → ℝ) :
    Fin B → Fin d → Fin d → ℝ :=
  let mean := filterMean x w
  let centered := fun i b e => x i b e - mean b e
  let covariances := fun i b e e' => centered i b e * centered i b e'
  fun b e e' => ∑ i, w i b * covariances i b e e'

/-- A normalised weight as a number. Not in /repo. Normalised weights are numbers (C01).
Used for pyfilter/filters/particle/state.py:60 and 114. -/
def weightVal : XF → ℝ
  | .fin r => r
  | _ => 0

/-- Mean and variance stored by `ParticleFilterCorrection.__init__`, pyfilter/filters/particle/state.py:95 and
112-116, from values and log-weights. -/
noncomputable def storedMoments (lo : ℝ) (x : Fin N → Fin B → Fin d → ℝ) (w : Fin N → Fin B → XF) :
    (Fin B → Fin d → ℝ) × (Fin B → Fin d → ℝ) :=
  let normalized := fun i b => weightVal ((normalize2 lo w).2 i b)
  (filterMean x normalized, filterVar x normalized)

/-- Element `j` of a dimension of size `n` under broadcasting (PyTorch, not in /repo).
Used for pyfilter/filters/particle/state.py:131. -/
noncomputable def bcast {n : ℕ} (f : Fin n → ℝ) (j : ℕ) : ℝ :=
  if h : j < n then f ⟨j, h⟩ else if h : n = 1 then f ⟨0, by omega⟩ else 0

/-- A square matrix of some size. Used for pyfilter/filters/particle/state.py:118-137. -/
structure SqMatrix where
  size : ℕ
  entry : Fin size → Fin size → ℝ

/-- `ParticleFilterCorrection.get_covariance` for a filter without batch shape and a vector state with `d`
components, pyfilter/filters/particle/state.py:118-137. `w` has shape `(N)` and `x` shape `(N, d)`: in line 131
the *particle* dimension of `w` is broadcast against the *state* dimension of `x`, which PyTorch refuses
unless the sizes agree or one of them is one. With a batch shape `(B)` the same line broadcasts
`(N, B)` against `(N, B, d)`; that case is in `Verif.Model.TensorMoments`. -/
noncomputable def getCovariance (w : Fin N → ℝ) (x : Fin N → Fin d → ℝ) : Except PyErr SqMatrix :=
  if N = d ∨ N = 1 ∨ d = 1 then
    let size := if d = 1 then N else d
    let mean : ℕ → ℝ := fun j => ∑ i, bcast w j * bcast (x i) j
    let centralized : Fin N → ℕ → ℝ := fun i j => bcast (x i) j - mean j
    .ok ⟨size, fun j k => ∑ i, w i * (centralized i j * centralized i k)⟩
  else .error (.runtimeError)

end Verif
