import Mathlib.Data.Fin.Tuple.Basic
import Verif.Model.Particle

/-!
# Predicted paths (pyfilter/filters/particle/state.py)
-/

namespace Verif

variable {N B d : ℕ} {V Y Ω : Type}

namespace ParticleModel

/-- The states of the latent process in `StateSpaceModel.sample_states(num_steps, x_0)` (stochproc, not in /repo), called in
pyfilter/filters/particle/state.py:174: every state is propagated from the one before, the first one from `x_0`, which is not
itself part of the path. The observations that stochproc draws along the path are left out. -/
def sampleStates (M : ParticleModel N B d V Y Ω) : (n : ℕ) → TS N B d V → Ω → (Fin n → TS N B d V) × Ω
  | 0, _, ω => (fun k => k.elim0, ω)
  | n + 1, x, ω =>
    let (x, ω) := M.propagateTS x ω
    let (xs, ω) := M.sampleStates n x ω
    (Fin.cons x xs, ω)

/-- `ParticleFilterCorrection.predict_path`, pyfilter/filters/particle/state.py:173-174 (documented in
pyfilter/filters/state.py:87-94): the particles of the state are moved on, whatever their weights. -/
def predictPath (M : ParticleModel N B d V Y Ω) (c : PCorr N B d V) (n : ℕ) (ω : Ω) : (Fin n → TS N B d V) × Ω :=
  M.sampleStates n c.x ω

end ParticleModel

end Verif
