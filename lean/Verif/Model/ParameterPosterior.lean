import Verif.Model.Collectors

/-!
# `pyfilter/inference/sequential/collectors.py`: `ParameterPosterior`
-/

namespace Verif.Seq

open Mcmc

variable {P d : ℕ} {Y Ω : Type}

/-- `ParameterPosterior`, pyfilter/inference/sequential/collectors.py:92-111: `stack` is `concat_parameters` of the model (stochproc,
not in /repo), with one row per parameter particle and `e` columns. The weights of the state are normalised, which cleans them in
place. -/
noncomputable def parameterPosterior {e : ℕ} (name : ℕ) (lo : ℝ) (stack : (constrained : Bool) → Sys P d → Fin P → Fin e → XF)
    (constrained : Bool) : Callback P d Y Ω (Fin e → XF) :=
  collector name "parameter_means" fun sys _ obj =>
    (fun j => ∑ p, (normalize1 lo obj.w).2 p * stack constrained sys p j, (normalize1 lo obj.w).1)

end Verif.Seq
