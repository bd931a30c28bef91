import Verif.Model.Resampling
import Verif.Model.Particle

/-!
# `multinomial` and `residual` as resampling functions: `pyfilter/resampling.py`
-/

namespace Verif

variable {N : ℕ} {Ω : Type}

/-- `torch.multinomial(p, k, replacement=True)` on the rows of `p` (PyTorch, not in /repo): the `k` indices drawn
for every row are the first `k` entries of a sequence, the later entries mean nothing. How the draws are
distributed is a hypothesis of the theorems (`Spec.DrawsMultinomial`).
Used for pyfilter/resampling.py:65,103. -/
abbrev TorchMultinomial (N : ℕ) (Ω : Type) :=
  {b : ℕ} → ℕ → (Fin b → Fin N → XF) → Ω → (Fin b → ℕ → Fin N) × Ω

/-- `multinomial(w, normalized)` on a two-dimensional tensor with one column per parallel filter, through
`_wrapper`, pyfilter/resampling.py:8-21 and 55-65. -/
noncomputable def multinomial2 (lo : ℝ) (mult : TorchMultinomial N Ω) {b : ℕ} (w : Fin N → Fin b → XF)
    (normalized : Bool) (ω : Ω) : (Fin N → Fin b → Fin N) × Ω :=
  let w := if normalized then w else (normalize2 lo w).2
  let newW : Fin b → Fin N → XF := fun c i => w i c
  let (result, ω) := mult N newW ω
  (fun i c => result c i, ω)

/-- `multinomial(w, normalized)` on a one-dimensional tensor, through `_wrapper`, pyfilter/resampling.py:8-14 and
55-65. -/
noncomputable def multinomial1 (lo : ℝ) (mult : TorchMultinomial N Ω) (w : Fin N → XF) (normalized : Bool)
    (ω : Ω) : (Fin N → Fin N) × Ω :=
  let w := if normalized then w else (normalize1 lo w).2
  let (result, ω) := mult N (fun _ : Fin 1 => w) ω
  (fun i => result 0 i, ω)

/-- The number behind a finite weight. After `normalize` all weights are finite (C01), so that the other case does
not matter. Used for pyfilter/resampling.py:83. -/
def XF.toReal : XF → ℝ
  | .fin r => r
  | _ => 0

open Classical in
/-- `residual(w, normalized)` on a one-dimensional tensor, through `_wrapper`, pyfilter/resampling.py:8-14 and
68-105: `residual1` with the outcome of `torch.multinomial`, which is called only if indices are missing
(lines 100-103). -/
noncomputable def residualCall1 (lo : ℝ) (mult : TorchMultinomial N Ω) (w : Fin N → XF) (normalized : Bool)
    (ω : Ω) : Except PyErr (List (Fin N)) × Ω :=
  let w : Fin N → ℝ := fun i => ((if normalized then w else (normalize1 lo w).2) i).toReal
  if ∑ i, ⌊(N : ℝ) * w i⌋ = N then (residual1 w [], ω)
  else
    let (draw, ω) := mult (residualDraws w) (fun _ : Fin 1 => fun i => XF.fin (residualProbs w i)) ω
    (residual1 w ((List.range (residualDraws w)).map (draw 0)), ω)

/-- `residual` as `resampling_func` of the APF without batch dimension, pyfilter/resampling.py:68-105 through
pyfilter/filters/particle/apf.py:31, where the weights are one-dimensional: the model of the filter has one
column then. Weights with several columns are refused (`residual2`); the theorems only use one column, and the
other case is filled with the identity. `l.getD i` is position `i` of the tensor of indices. -/
noncomputable def residualResampler (lo : ℝ) (mult : TorchMultinomial N Ω) {b : ℕ} (w : Fin N → Fin b → XF)
    (normalized : Bool) (ω : Ω) : (Fin N → Fin b → Fin N) × Ω :=
  if h : b = 1 then
    match residualCall1 lo mult (fun i => w i (h ▸ 0)) normalized ω with
    | (.ok l, ω) => (fun i _ => l.getD i i, ω)
    | (.error _, ω) => (fun i _ => i, ω)
  else (fun i _ => i, ω)

/-- A tensor of weights of `n` particles: of one dimension for a single filter without batch dimension, of two for
`b` parallel filters. Used for pyfilter/resampling.py:13. -/
inductive WeightTensor (n : ℕ) where
  | vector (w : Fin n → XF)
  | matrix (b : ℕ) (w : Fin n → Fin b → XF)

/-- `weights[..., mask]`, pyfilter/filters/particle/sisr.py:28. The mask of a single filter has no dimension;
indexing with it adds a dimension of length one, or of length zero if it is false (PyTorch). -/
def WeightTensor.select {n : ℕ} : WeightTensor n → (ℕ → Bool) → WeightTensor n
  | .vector w, mask => if mask 0 then .matrix 1 (fun i _ => w i) else .matrix 0 (fun _ j => j.elim0)
  | .matrix b w, mask =>
      let cols := (List.finRange b).filter fun (c : Fin b) => mask (c : ℕ)
      .matrix cols.length fun i j => w i (cols.get j)

/-- The resampling functions of pyfilter/resampling.py:24,56,69. -/
inductive Scheme where
  | systematic
  | multinomial
  | residual

/-- Calling a resampling function on normalised weights of either shape, `_wrapper` of pyfilter/resampling.py:8-21
around lines 24-105: the indices, as a table with one column for one-dimensional weights. Only the checks that
raise and the shape are modelled; `rand` and `mult` provide the draws. -/
noncomputable def Scheme.call (s : Scheme) (lo : ℝ) (rand : Ω → (ℕ → ℝ) × Ω) (mult : TorchMultinomial N Ω) :
    WeightTensor N → Ω → Except PyErr (Σ b : ℕ, Fin N → Fin b → ℕ)
  | .vector w, ω => match s with
    | .systematic => do
        let r ← systematic1 lo w true [] (fun _ => (rand ω).1 0)
        return ⟨1, fun i _ => r i⟩
    | .multinomial => .ok ⟨1, fun i _ => (multinomial1 lo mult w true ω).1 i⟩
    | .residual => do
        let l ← (residualCall1 lo mult w true ω).1
        return ⟨1, fun i _ => l.getD i i⟩
  | .matrix b w, ω => match s with
    | .systematic => do
        let r ← systematic2 lo w true [] (fun c => (rand ω).1 c)
        return ⟨b, r⟩
    | .multinomial => .ok ⟨b, fun i c => (multinomial2 lo mult w true ω).1 i c⟩
    | .residual => do
        let r ← residual2 fun i c => (w i c).toReal
        return ⟨b, r⟩

end Verif
