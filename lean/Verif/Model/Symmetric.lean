import Verif.Model.Sequential
import Verif.Model.KernelProposal

/-!
# `SymmetricMH`, pyfilter/inference/batch/mcmc/proposals/symmetric_mh.py, and pyfilter/inference/utils.py
-/

namespace Verif.Mcmc

open Matrix

variable {P d : ℕ}

/-- `MeanChol`, pyfilter/inference/utils.py:10-13. -/
structure MeanChol (d : ℕ) where
  mean : Fin d → ℝ
  chol : Matrix (Fin d) (Fin d) ℝ

/-- `calc_mean_chol`, pyfilter/inference/utils.py:42-56. `cholEx` is `cholesky_ex` (PyTorch, not in /repo): the factor and
whether `info > 0`. -/
noncomputable def calcMeanChol (cholEx : Matrix (Fin d) (Fin d) ℝ → Matrix (Fin d) (Fin d) ℝ × Bool)
    (x : Matrix (Fin P) (Fin d) ℝ) (w : Fin P → ℝ) : MeanChol d :=
  let mean := w ᵥ* x
  let centralized : Matrix (Fin P) (Fin d) ℝ := of fun i e => x i e - mean e
  let cov := (of fun e i => w i * centralizedᵀ e i) * centralized
  let cholesky := cholEx cov
  ⟨mean, if cholesky.2 then diagonal fun e => Real.sqrt (cov e e) else cholesky.1⟩

open Classical in
/-- `construct_mvn`, pyfilter/inference/utils.py:59-76, without the quasi-random engine (which changes how samples are drawn,
not the density). The constructor of the distribution (PyTorch, not in /repo) refuses a `scale_tril` that is not lower
triangular with positive diagonal. -/
noncomputable def constructMvn (cholEx : Matrix (Fin d) (Fin d) ℝ → Matrix (Fin d) (Fin d) ℝ × Bool)
    (x : Matrix (Fin P) (Fin d) ℝ) (w : Fin P → ℝ) (scale : ℝ) : Except PyErr (GaussKernel d) :=
  let meanChol := calcMeanChol cholEx x w
  let scaleTril := scale • meanChol.chol
  if (∀ e, 0 < scaleTril e e) ∧ ∀ e f, e < f → scaleTril e f = 0 then .ok ⟨meanChol.mean, scaleTril⟩
  else .error .valueError

/-- `SymmetricMH`, pyfilter/inference/batch/mcmc/proposals/symmetric_mh.py:8-26. The kernel is an exception if the
distribution cannot be constructed; the code has then stopped and `log_prob` is never called. The normalised weights are
read as numbers; they are, if some weight is usable (C01). -/
noncomputable def symmetricMh {Y Ω : Type} (lo : ℝ)
    (cholEx : Matrix (Fin d) (Fin d) ℝ → Matrix (Fin d) (Fin d) ℝ × Bool) :
    Proposal P d Y Ω (Except PyErr (GaussKernel d)) where
  build params _ w := constructMvn cholEx (of params) (fun i => Seq.val ((normalize1 lo w).2 i)) (11 / 10)
  logProb k _ x := match k with
    | .ok k => .fin (k.logProb x)
    | .error _ => .nan
  exchange latest _ _ := latest

end Verif.Mcmc
