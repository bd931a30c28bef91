import Mathlib.Analysis.SpecialFunctions.Pow.Real
import Mathlib.Data.Fin.Tuple.Sort
import Mathlib.Algebra.BigOperators.Fin
import Mathlib.Data.Fintype.Lattice

/-!
# `pyfilter/inference/sequential/kernels/jittering.py` and `kernels/online.py`

Parameters are the rows of a matrix (unconstrained space), weights are normalised. Numbers are reals.
-/

namespace Verif.Jitter

/-- What the modelled code raises. Used for pyfilter/inference/sequential/kernels/jittering.py:128-132. -/
inductive Err where
  | attribute
  | shape
  | value
deriving DecidableEq

/-- `argmin` of a non-empty vector (PyTorch): some position of the minimum; ties are not specified.
Used for pyfilter/inference/sequential/kernels/jittering.py:65-66. -/
noncomputable def argmin {n : ℕ} [NeZero n] (f : Fin n → ℝ) : Fin n := (Finite.exists_min f).choose

/-- `silverman`, jittering.py:25-34. -/
noncomputable def silverman (n : ℕ) (ess : ℝ) : ℝ := (ess * (n + 2) / 4) ^ (-1 / ((n : ℝ) + 4))

/-- `scott`, jittering.py:37-46. -/
noncomputable def scott (n : ℕ) (ess : ℝ) : ℝ := 1059 / 1000 * ess ^ (-1 / ((n : ℝ) + 4))

/-- Weighted mean, jittering.py:74, 152 and 198. -/
noncomputable def wmean {n d : ℕ} (x : Fin n → Fin d → ℝ) (w : Fin n → ℝ) : Fin d → ℝ :=
  fun j => ∑ i, w i * x i j

/-- Cumulative weights in the order of column `j`, jittering.py:62-63. -/
noncomputable def cumWeights {n d : ℕ} (x : Fin n → Fin d → ℝ) (w : Fin n → ℝ) (j : Fin d) : Fin n → ℝ :=
  fun i => ∑ k ∈ Finset.Iic i, w (Tuple.sort (fun i => x i j) k)

/-- `iqr ** 2` of column `j`, jittering.py:62-69 (the diagonal of line 68 picks column `j` in row
`high_indices[j]`). -/
noncomputable def iqr2 {n d : ℕ} [NeZero n] (x : Fin n → Fin d → ℝ) (w : Fin n → ℝ) (j : Fin d) : ℝ :=
  let sorted := fun i => x (Tuple.sort (fun i => x i j) i) j
  let low := argmin fun i => |cumWeights x w j i - 0.25|
  let high := argmin fun i => |cumWeights x w j i - 0.75|
  ((sorted high - sorted low) / 1.349) ^ 2

open Classical in
/-- `robust_var`, pyfilter/inference/sequential/kernels/jittering.py:49-83. -/
noncomputable def robustVar {n d : ℕ} [NeZero n] (x : Fin n → Fin d → ℝ) (w : Fin n → ℝ)
    (mean : Option (Fin d → ℝ)) : Fin d → ℝ :=
  let mean := match mean with
    | some m => m
    | none => wmean x w
  let var := fun j => ∑ i, w i * (x i j - mean j) ^ 2
  fun j => if iqr2 x w j ≤ var j then iqr2 x w j else var j

/-- A scale as the kernels return it: a Python float or a tensor with one entry per column.
Used for pyfilter/inference/sequential/kernels/jittering.py:102-113,211. -/
inductive Scale (d : ℕ) where
  | float (s : ℝ)
  | tensor (s : Fin d → ℝ)

/-- The jittering kernels, jittering.py:140-225. `liuWest` holds `a` and `_bw_fac`. -/
inductive Kernel (d : ℕ) where
  | shrinking
  | nonShrinking
  | liuWest (a bwFac : ℝ)
  | constant (scale : Scale d)

/-- `LiuWestShrinkage.__init__`, jittering.py:184-195: `math.sqrt` raises for negative arguments. -/
noncomputable def Kernel.mkLiuWest {d : ℕ} (a : ℝ) : Except Err (Kernel d) :=
  open Classical in
  if 1 - a ^ 2 < 0 then .error .value else .ok (.liuWest a (Real.sqrt (1 - a ^ 2)))

/-- `get_ess(w, normalized=True)`, jittering.py:136-137 and pyfilter/utils.py:8-20. -/
noncomputable def ess {n : ℕ} (w : Fin n → ℝ) : ℝ := 1 / ∑ i, w i * w i

/-- The bandwidth factor, jittering.py:149-150 and 167-168; `eps` is `EPS` of constants.py:8. -/
noncomputable def bwFac (eps : ℝ) {n : ℕ} (w : Fin n → ℝ) : ℝ :=
  min (max (1.59 * ess w ^ (-(1 : ℝ) / 3)) eps) (1 - eps)

/-- `fit` of the kernels: `ShrinkingKernel` jittering.py:148-158, `NonShrinkingKernel` 166-173,
`LiuWestShrinkage` 197-203, `ConstantKernel` 222-225. -/
noncomputable def Kernel.fit {n d : ℕ} [NeZero n] (eps : ℝ) (k : Kernel d) (x : Fin n → Fin d → ℝ)
    (w : Fin n → ℝ) {m : ℕ} (indices : Fin m → Fin n) : (Fin m → Fin d → ℝ) × Scale d :=
  match k with
  | .shrinking =>
    let bw := bwFac eps w
    let mean := wmean x w
    let var := robustVar x w (some mean)
    let beta := Real.sqrt (1 - bw ^ 2)
    (fun i j => mean j + beta * (x (indices i) j - mean j), .tensor fun j => bw * Real.sqrt (var j))
  | .nonShrinking =>
    let bw := bwFac eps w
    let var := robustVar x w none
    (fun i => x (indices i), .tensor fun j => bw * Real.sqrt (var j))
  | .liuWest a bw =>
    let mean := wmean x w
    let var := robustVar x w (some mean)
    (fun i j => x (indices i) j * a + (1 - a) * mean j, .tensor fun j => bw * Real.sqrt (var j))
  | .constant s => (fun i => x (indices i), s)

/-- `scale.clamp(self._min_std, INFTY)`, jittering.py:132; a Python float has no `clamp`. -/
noncomputable def Scale.clamp {d : ℕ} (minStd : ℝ) : Scale d → Except Err (Fin d → ℝ)
  | .float _ => .error .attribute
  | .tensor s => .ok fun j => max (s j) minStd

/-- `JitterKernel.jitter`, jittering.py:117-134, with `_jitter`, jittering.py:11-22; `noise` is the outcome
of `normal_()`. -/
noncomputable def Kernel.jitter {n d : ℕ} [NeZero n] (eps minStd : ℝ) (k : Kernel d) (x : Fin n → Fin d → ℝ)
    (w : Fin n → ℝ) {m : ℕ} (indices : Fin m → Fin n) (noise : Fin m → Fin d → ℝ) :
    Except Err (Fin m → Fin d → ℝ) :=
  if m ≠ n then .error .shape
  else
    match (k.fit eps x w indices).2.clamp minStd with
    | .error e => .error e
    | .ok std => .ok fun i j => (k.fit eps x w indices).1 i j + std j * noise i j

/-- What an online update changes: unconstrained parameters, filter result per slot, parameters that the
model was built from, log-weights. Used for pyfilter/inference/sequential/kernels/online.py:26-53. -/
structure Online (n d : ℕ) (R : Type) where
  params : Fin n → Fin d → ℝ
  res : Fin n → R
  built : Fin n → Fin d → ℝ
  w : Fin n → ℝ

/-- `OnlineKernel.update`, pyfilter/inference/sequential/kernels/online.py:26-53. `indices` is the outcome
of the resampler (line 30), `noise` that of the jittering, `coins` that of `bernoulli_` (line 40, zeros and
ones), `normalized` the normalised weights of line 27. Stacking and unstacking (lines 29 and 46) in
unconstrained space are inverse to each other, see C49; `filter_state.resample` (line 35) takes the results
of the ancestors, see C19. -/
noncomputable def Online.update {n d : ℕ} [NeZero n] {R : Type} (eps minStd : ℝ) (k : Kernel d)
    (discrete : Bool) (s : Online n d R) (normalized : Fin n → ℝ) (indices : Fin n → Fin n)
    (noise : Fin n → Fin d → ℝ) (coins : Fin n → Bool) : Except Err (Online n d R) :=
  let stacked := s.params
  match k.jitter eps minStd stacked normalized indices noise with
  | .error e => .error e
  | .ok jittered =>
    let resampled : Online n d R :=
      { s with params := fun i => s.params (indices i), res := fun i => s.res (indices i) }
    let toJitter : Fin n → ℝ := fun i => if coins i then 1 else 0
    let jittered := if discrete
      then fun i j => (1 - toJitter i) * stacked (indices i) j + toJitter i * jittered i j
      else jittered
    .ok { resampled with params := jittered, built := jittered, w := fun _ => 0 }

end Verif.Jitter
