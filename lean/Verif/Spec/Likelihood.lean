import Verif.Model.Particle
import Verif.Spec.Weights
import Mathlib.Probability.Kernel.MeasurableLIntegral
import Mathlib.MeasureTheory.Measure.Prod
import Mathlib.MeasureTheory.Constructions.BorelSpace.Real

/-!
# The likelihood of a state space model, and random draws
-/

namespace Verif.Spec

open MeasureTheory ProbabilityTheory
open scoped ENNReal

variable {X Y Ω α : Type}

/-- What is observed at each time step when every `k`-th step is observed, starting with the first:
nothing between the observations, and nothing where an observation is missing. -/
def slots (k : ℕ) (missing : Y → Bool) : List Y → List (Option Y)
  | [] => []
  | y :: ys => (if missing y then none else some y) ::
      ys.flatMap fun y => List.replicate (k - 1) none ++ [if missing y then none else some y]

/-- Likelihood of the observations in the time steps after `t`, given the state `x` at time `t`, for a
Markov process with transition kernel `K t` from time `t` to `t + 1` and observation density `g`. -/
noncomputable def lik [MeasurableSpace X] (K : ℕ → Kernel X X) (g : Y → ℕ → X → ℝ≥0∞) :
    List (Option Y) → ℕ → X → ℝ≥0∞
  | [], _, _ => 1
  | none :: os, t, x => ∫⁻ x', lik K g os (t + 1) x' ∂(K t x)
  | some y :: os, t, x => ∫⁻ x', g y (t + 1) x' * lik K g os (t + 1) x' ∂(K t x)

/-- `f` draws from `ν`: run on a generator state with law `P`, its result has law `ν` and is independent
of the new generator state, which has law `P` again. -/
structure Draws [MeasurableSpace Ω] [MeasurableSpace α] (P : Measure Ω) (f : Ω → α × Ω) (ν : Measure α) :
    Prop where
  measurable : Measurable f
  prob : IsProbabilityMeasure ν
  law : P.map f = ν.prod P

/-- An unbiased resampler: given normalised weights it draws ancestors such that particle `k` of filter
`j` is selected `N * p k j` times on average. The drawn ancestors depend measurably on weights and
generator state. -/
structure UnbiasedResampler [MeasurableSpace Ω] (P : Measure Ω) {N : ℕ}
    (r : {b : ℕ} → (Fin N → Fin b → XF) → Bool → Ω → (Fin N → Fin b → Fin N) × Ω) : Prop where
  measurable : ∀ b : ℕ, Measurable fun q : (Fin N → Fin b → ℝ) × Ω =>
    r (fun i j => XF.fin (q.1 i j)) true q.2
  draws : ∀ (b : ℕ) (p : Fin N → Fin b → ℝ), (∀ j, IsProb fun i => p i j) →
    ∃ ν, Draws P (r (fun i j => XF.fin (p i j)) true) ν ∧
      ∀ j k, ∑ i, ν {a | a i j = k} = N * ENNReal.ofReal (p k j)

/-- The same for a resampler that is given unnormalised log-weights. -/
structure UnbiasedLogResampler [MeasurableSpace Ω] (P : Measure Ω) {N : ℕ}
    (r : {b : ℕ} → (Fin N → Fin b → XF) → Bool → Ω → (Fin N → Fin b → Fin N) × Ω) : Prop where
  measurable : ∀ b : ℕ, Measurable fun q : (Fin N → Fin b → ℝ) × Ω =>
    r (fun i j => XF.fin (q.1 i j)) false q.2
  draws : ∀ (b : ℕ) (w : Fin N → Fin b → ℝ),
    ∃ ν, Draws P (r (fun i j => XF.fin (w i j)) false) ν ∧
      ∀ j k, ∑ i, ν {a | a i j = k} = N * ENNReal.ofReal (Real.exp (w k j) / ∑ i, Real.exp (w i j))

variable {N B d : ℕ} {V : Type} [MeasurableSpace Ω] [MeasurableSpace V]

/-- The sampler of the latent process draws the new value of every particle from the transition kernel,
given its value: particle `i` of filter `b` from `K b t`. How the draws of different particles depend on
each other does not matter. -/
structure DrawsTransitions (P : Measure Ω)
    (propagate : TS N B d V → Ω → (Fin N → Fin B → Fin d → V) × Ω)
    (K : Fin B → ℕ → Kernel (Fin d → V) (Fin d → V)) : Prop where
  measurable : ∀ t, Measurable fun q : (Fin N → Fin B → Fin d → V) × Ω => propagate ⟨q.1, t⟩ q.2
  draws : ∀ x, ∃ ν, Draws P (propagate x) ν ∧ ∀ i b, ν.map (fun v => v i b) = K b x.time (x.value i b)

/-- The initial sampler draws every particle from the initial distribution. -/
def DrawsInitial (P : Measure Ω) (init : Ω → (Fin N → Fin B → Fin d → V) × Ω)
    (μ : Fin B → Measure (Fin d → V)) : Prop :=
  ∃ ν, Draws P init ν ∧ ∀ i b, ν.map (fun v => v i b) = μ b

/-- The proposal draws particles and finite importance log-weights from the predicted particles (and
nothing else), and weighting by the importance weights corrects for the difference to the model: the
weighted average of any function `φ` of the new particle is the one of the model. -/
structure ProperProposal (P : Measure Ω)
    (sample : Y → PPred N B d V → Ω → ((Fin N → Fin B → Fin d → V) × (Fin N → Fin B → XF)) × Ω)
    (K : Fin B → ℕ → Kernel (Fin d → V) (Fin d → V)) (logg : Fin B → Y → ℕ → (Fin d → V) → ℝ) : Prop where
  sample : ∀ y t, ∃ S : (Fin N → Fin B → Fin d → V) × Ω →
      ((Fin N → Fin B → Fin d → V) × (Fin N → Fin B → ℝ)) × Ω, Measurable S ∧
    (∀ p ω, p.prevX.time = t → sample y p ω = (((S (p.prevX.value, ω)).1.1,
      fun i b => XF.fin ((S (p.prevX.value, ω)).1.2 i b)), (S (p.prevX.value, ω)).2)) ∧
    ∀ x, ∃ ν, Draws P (fun ω => S (x, ω)) ν ∧ ∀ i b (φ : (Fin d → V) → ℝ≥0∞), Measurable φ →
      ∫⁻ q, ENNReal.ofReal (Real.exp (q.2 i b)) * φ (q.1 i b) ∂ν
        = ∫⁻ x', ENNReal.ofReal (Real.exp (logg b y (t + 1) x')) * φ x' ∂(K b t (x i b))

/-- Draws from categorical distributions given by probabilities: entry `i`, `b` is `k` with probability `p i b k`. -/
structure DrawsFrom {M : ℕ} (P : Measure Ω)
    (categorical : (Fin N → Fin B → Fin M → XF) → Ω → (Fin N → Fin B → Fin M) × Ω) : Prop where
  measurable : Measurable fun q : (Fin N → Fin B → Fin M → ℝ) × Ω => categorical (fun i b k => XF.fin (q.1 i b k)) q.2
  draws : ∀ p : Fin N → Fin B → Fin M → ℝ, (∀ i b, IsProb (p i b)) →
    ∃ ν, Draws P (categorical fun i b k => XF.fin (p i b k)) ν ∧ ∀ i b k, ν {a | a i b = k} = ENNReal.ofReal (p i b k)

/-- Several candidates for the next value of every particle are drawn, each from the transition kernel given the value of
the particle. How the draws depend on each other does not matter. -/
structure DrawsInner {M : ℕ} (P : Measure Ω)
    (inner : TS N B d V → Ω → (Fin M → Fin N → Fin B → Fin d → V) × Ω)
    (K : Fin B → ℕ → Kernel (Fin d → V) (Fin d → V)) : Prop where
  measurable : ∀ t, Measurable fun q : (Fin N → Fin B → Fin d → V) × Ω => inner ⟨q.1, t⟩ q.2
  draws : ∀ x, ∃ ν, Draws P (inner x) ν ∧ ∀ j i b, ν.map (fun v => v j i b) = K b x.time (x.value i b)

end Verif.Spec
