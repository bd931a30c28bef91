import Verif.Model.PmmhFilter
import Verif.Spec.Likelihood

/-!
# Specification: a filter for a family of state space models
-/

namespace Verif.Spec

open MeasureTheory ProbabilityTheory Verif.Mcmc
open scoped ENNReal

variable {Θ Y Ω V : Type} {e : ℕ} [MeasurableSpace Θ] [MeasurableSpace Ω] [MeasurableSpace V]

/-- The filter `f` with `n` particles is one for the state space models with initial distribution `μ θ`,
transition kernels `K θ` and observation log-densities `logg θ`: it draws from them, its proposal corrects for
the difference to the model, and everything depends measurably on the parameters. `P` is the law of the
generator state. -/
structure FiltersModels (P : Measure Ω) (f : Builder Θ e V Y Ω) (n : ℕ) (μ : Θ → Measure (Fin e → V))
    (K : Θ → ℕ → Kernel (Fin e → V) (Fin e → V)) (logg : Θ → Y → ℕ → (Fin e → V) → ℝ) : Prop where
  measurable_init : Measurable fun q : Θ × Ω => f.init n q.1 q.2
  draws_init : ∀ θ, DrawsInitial P (f.init n θ) fun _ => μ θ
  measurable_hidden : ∀ t, Measurable fun q : Θ × (Fin n → Fin 1 → Fin e → V) × Ω =>
    f.hidden n q.1 ⟨q.2.1, t⟩ q.2.2
  draws_hidden : ∀ θ, DrawsTransitions P (f.hidden n θ) fun _ => K θ
  measurable_logg : ∀ θ y t, Measurable (logg θ y t)
  proper : ∀ y t, ∃ S : Θ × (Fin n → Fin 1 → Fin e → V) × Ω →
      ((Fin n → Fin 1 → Fin e → V) × (Fin n → Fin 1 → ℝ)) × Ω, Measurable S ∧
    (∀ θ p ω, p.prevX.time = t → f.sample n θ y p ω = (((S (θ, p.prevX.value, ω)).1.1,
      fun i b => XF.fin ((S (θ, p.prevX.value, ω)).1.2 i b)), (S (θ, p.prevX.value, ω)).2)) ∧
    ∀ θ x, ∃ ν, Draws P (fun ω => S (θ, x, ω)) ν ∧ ∀ i b (φ : (Fin e → V) → ℝ≥0∞), Measurable φ →
      ∫⁻ q, ENNReal.ofReal (Real.exp (q.2 i b)) * φ (q.1 i b) ∂ν
        = ∫⁻ x', ENNReal.ofReal (Real.exp (logg θ y (t + 1) x')) * φ x' ∂(K θ t (x i b))

omit [MeasurableSpace Ω] in
/-- The pre-weights of the filter are finite and depend measurably on parameters and particles. -/
def FinitePreWeights (f : Builder Θ e V Y Ω) (n : ℕ) : Prop :=
  ∀ y t, ∃ pre : Θ × (Fin n → Fin 1 → Fin e → V) → Fin n → Fin 1 → ℝ, Measurable pre ∧
    ∀ θ x i b, f.preWeight n θ y ⟨x, t⟩ i b = XF.fin (pre (θ, x) i b)

omit [MeasurableSpace Ω] [MeasurableSpace Θ] in
/-- The likelihood of the parameters: of the observations under the state space model for `θ`, the state
being observed every `k` time steps. -/
noncomputable def likelihood (k : ℕ) (missing : Y → Bool) (μ : Θ → Measure (Fin e → V))
    (K : Θ → ℕ → Kernel (Fin e → V) (Fin e → V)) (logg : Θ → Y → ℕ → (Fin e → V) → ℝ) (ys : List Y)
    (θ : Θ) : ℝ≥0∞ :=
  ∫⁻ x, lik (K θ) (fun y t x => ENNReal.ofReal (Real.exp (logg θ y t x))) (slots k missing ys) 0 x ∂(μ θ)

end Verif.Spec
