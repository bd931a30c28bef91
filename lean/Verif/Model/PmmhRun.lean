import Verif.Model.Pmmh

/-!
# Random numbers of `PMMH.fit`

`Verif.Model.Pmmh` takes the sample of the proposal kernel as an argument. Here it is computed from standard
normal draws, so that a whole run is a function of independent random numbers.
-/

namespace Verif.Mcmc

/-- Random numbers of one iteration in every slot: standard normals for the kernel
(pyfilter/inference/batch/mcmc/utils.py:48), the generator of the filter (utils.py:55), the uniform draw
(utils.py:68). -/
abbrev Source (P d : ℕ) (Ω : Type) := Fin P → Row d × (ℕ → Ω) × ℝ

/-- `proposal_kernel.sample(size)`, pyfilter/inference/batch/mcmc/utils.py:48, for a normal distribution
(PyTorch `Normal.sample`: `torch.normal(loc, scale)`, a standard normal draw scaled and moved), together with
the other draws. -/
def walkDraws {P d : ℕ} {Ω : Type} (g : Gauss P d) (e : Source P d Ω) : Draws P d Ω :=
  ⟨fun i j => g.loc i j + (e i).1 j * g.scale i j, fun i => (e i).2.1, fun i => (e i).2.2⟩

/-- The loop of `PMMH.fit` with the random walk, pyfilter/inference/batch/mcmc/pmmh.py:90-102, on given random
numbers: the kernel that `run_pmmh` mutates is the one that is sampled in the next iteration. -/
noncomputable def fitRun {P d : ℕ} {Y Ω Name V : Type} (env : Env d Y Ω) (scale : Row d)
    (get : Name → Row d → V) (ys : List Y) (f : Fit P d Y Ω (Gauss P d) Name V) (es : List (Source P d Ω)) :
    Fit P d Y Ω (Gauss P d) Name V :=
  es.foldl (fun f e => fitStep env (randomWalk scale) get ys f (walkDraws f.chain.kernel e)) f

end Verif.Mcmc
