import Verif.Model.Particle
import Verif.Model.Resampling

/-!
# The bootstrap proposal: `pyfilter/filters/particle/proposals/bootstrap.py`
-/

namespace Verif

variable {N B d : ℕ} {V Y Ω : Type}

/-- `Bootstrap.sample_and_weight`, pyfilter/filters/particle/proposals/bootstrap.py:10-14, without the clock
(which `ParticleModel.sampleAndWeight` advances): values drawn from the latent process, weighted by the
observation log-density `logProb` (`build_density(new_x).log_prob(y)`, stochproc, not in /repo). -/
def bootstrapSample (propagateValues : TS N B d V → Ω → (Fin N → Fin B → Fin d → V) × Ω)
    (logProb : Y → TS N B d V → Fin N → Fin B → XF) (y : Y) (p : PPred N B d V) (ω : Ω) :
    ((Fin N → Fin B → Fin d → V) × (Fin N → Fin B → XF)) × Ω :=
  let (v, ω) := propagateValues p.prevX ω
  let newX : TS N B d V := ⟨v, p.prevX.time + 1⟩
  ((newX.value, logProb y newX), ω)

/-- A particle filter with the bootstrap proposal, pyfilter/filters/particle/base.py:41-48 and
pyfilter/filters/particle/proposals/bootstrap.py:4-17. `preWeight` is `Proposal.pre_weight`,
proposals/base.py:69-85, which only the APF calls. -/
def bootstrapModel (lo threshold : ℝ)
    (resampler : {b : ℕ} → (Fin N → Fin b → XF) → Bool → Ω → (Fin N → Fin b → Fin N) × Ω)
    (propagateValues : TS N B d V → Ω → (Fin N → Fin B → Fin d → V) × Ω)
    (logProb : Y → TS N B d V → Fin N → Fin B → XF) (preWeight : Y → TS N B d V → Fin N → Fin B → XF)
    (allNan : Y → Bool) : ParticleModel N B d V Y Ω where
  lo := lo
  threshold := threshold
  resampler := resampler
  propagateValues := propagateValues
  kind := .bootstrap
  sampleValues := bootstrapSample propagateValues logProb
  preWeight := preWeight
  allNan := allNan

/-- `systematic` as `resampling_func` of a particle filter, pyfilter/resampling.py:24-52 through
particle/base.py:43, called with two-dimensional weights and no `u`. `rand` draws the uniforms of
resampling.py:41. An index out of range, which does not occur for uniforms in `[0, 1)` (C06), would raise
in PyTorch; here it is replaced by the position itself. -/
noncomputable def systematicResampler (lo : ℝ) (rand : Ω → (ℕ → ℝ) × Ω) {b : ℕ} (w : Fin N → Fin b → XF)
    (normalized : Bool) (ω : Ω) : (Fin N → Fin b → Fin N) × Ω :=
  let (u, ω) := rand ω
  match systematic2 lo w normalized [] (fun c => u c) with
  | .ok r => (fun i c => if h : r i c < N then ⟨r i c, h⟩ else i, ω)
  | .error _ => (fun i _ => i, ω)

end Verif
