import Verif.Model.Sequential

/-!
# `pyfilter/inference/sequential/collectors.py`

`MeanCollector` and `Standardizer`. What the filters computed is an argument.
-/

namespace Verif.Seq

open Mcmc

variable {P d : ℕ} {Y Ω : Type}

/-- `tensor_tuples[name]` of what collectors added, pyfilter/container.py:80-86. -/
def lookupExtra {V : Type} (name : String) : List (String × List V) → Option (List V)
  | [] => none
  | (n, vs) :: rest => if n = name then some vs else lookupExtra name rest

/-- `MeanCollector`, collectors.py:46-58: the weights of the state are normalised, which cleans them in place
(state.py:53-54), and multiplied with the means of the filters, here with `e` coordinates. `mean` is
`filter_state.latest_state.get_mean()` of a slot. -/
noncomputable def meanCollector {e : ℕ} (name : ℕ) (lo : ℝ) (mean : Slot d Y Ω → Fin e → XF) :
    Callback P d Y Ω (Fin e → XF) :=
  collector name "filter_means" fun _ _ obj =>
    (fun j => ∑ p, (normalize1 lo obj.w).2 p * mean (obj.res p) j, (normalize1 lo obj.w).1)

/-- What `Standardizer` raises: the sizes of a matrix product do not agree (PyTorch),
pyfilter/inference/sequential/collectors.py:86. -/
inductive SizeErr where
  | mismatch
deriving DecidableEq

/-- `a @ b` for vectors (PyTorch).
Used for pyfilter/inference/sequential/collectors.py:86. -/
noncomputable def dot {m n : ℕ} (a : Fin m → XF) (b : Fin n → XF) : Except SizeErr XF :=
  if h : m = n then .ok (∑ i, a i * b (Fin.cast h i)) else .error .mismatch

/-- `Standardizer._fun`, collectors.py:79-86, for filters that are no particle filters: one residual per parameter
particle. `W` are the normalised weights of the state. The observation has no dimensions. The residuals
(lines 66-77, `Verif.Model.Residuals`) are an argument. -/
noncomputable def standardize (W residuals : Fin P → XF) : Except SizeErr XF := dot W residuals

/-- `Standardizer._fun`, collectors.py:79-86, for particle filters: weights and residuals have a row per state
particle and a column per parameter particle. -/
noncomputable def standardizeParticles {N : ℕ} (W : Fin P → XF) (w residuals : Fin N → Fin P → XF) :
    Except SizeErr XF :=
  dot W fun i => ∑ p, w i p * residuals i p

end Verif.Seq
