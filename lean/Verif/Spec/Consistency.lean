import Verif.Spec.Likelihood
import Verif.Spec.Multinomial

/-!
# Independent draws, and averages over the filtered state
-/

namespace Verif.Spec

open MeasureTheory ProbabilityTheory
open scoped ENNReal

variable {X Y Ω : Type}

/-- Likelihood of the observations in the time steps after `t` times `φ` of the last state, on average, given the state `x`
at time `t`. With `φ = 1` it is `lik`. -/
noncomputable def likAvg [MeasurableSpace X] (K : ℕ → Kernel X X) (g : Y → ℕ → X → ℝ≥0∞) (φ : X → ℝ≥0∞) :
    List (Option Y) → ℕ → X → ℝ≥0∞
  | [], _, x => φ x
  | none :: os, t, x => ∫⁻ x', likAvg K g φ os (t + 1) x' ∂(K t x)
  | some y :: os, t, x => ∫⁻ x', g y (t + 1) x' * likAvg K g φ os (t + 1) x' ∂(K t x)

/-- The average of `φ` over the last state given the observations (Bayes). -/
noncomputable def filterAvg [MeasurableSpace X] (K : ℕ → Kernel X X) (g : Y → ℕ → X → ℝ≥0∞) (μ : Measure X) (φ : X → ℝ≥0∞)
    (os : List (Option Y)) : ℝ≥0∞ :=
  (∫⁻ x, likAvg K g φ os 0 x ∂μ) / ∫⁻ x, lik K g os 0 x ∂μ

/-- The product of bounds of the observation densities. -/
noncomputable def boundOf (c : Y → ℝ) : List (Option Y) → ℝ
  | [] => 1
  | none :: os => boundOf c os
  | some y :: os => Real.exp (c y) * boundOf c os

variable [MeasurableSpace Ω] {N B d : ℕ} {V : Type} [MeasurableSpace V]

/-- A resampler that, given normalised weights, draws the ancestors of different particles of one filter independently: each of
them is particle `k` of filter `j` with probability `p k j`. -/
structure IndependentResampler (P : Measure Ω) {N : ℕ}
    (r : {b : ℕ} → (Fin N → Fin b → XF) → Bool → Ω → (Fin N → Fin b → Fin N) × Ω) : Prop where
  measurable : ∀ b : ℕ, Measurable fun q : (Fin N → Fin b → ℝ) × Ω =>
    r (fun i j => XF.fin (q.1 i j)) true q.2
  draws : ∀ (b : ℕ) (p : Fin N → Fin b → ℝ), (∀ j, IsProb fun i => p i j) →
    ∃ ν, Draws P (r (fun i j => XF.fin (p i j)) true) ν ∧
      (∀ i j k, ν {a | a i j = k} = ENNReal.ofReal (p k j)) ∧
      ∀ i i' j, i ≠ i' → ∀ k k', ν {a | a i j = k ∧ a i' j = k'} = ENNReal.ofReal (p k j) * ENNReal.ofReal (p k' j)

/-- The same for a resampler that is given unnormalised log-weights. -/
structure IndependentLogResampler (P : Measure Ω) {N : ℕ}
    (r : {b : ℕ} → (Fin N → Fin b → XF) → Bool → Ω → (Fin N → Fin b → Fin N) × Ω) : Prop where
  measurable : ∀ b : ℕ, Measurable fun q : (Fin N → Fin b → ℝ) × Ω =>
    r (fun i j => XF.fin (q.1 i j)) false q.2
  draws : ∀ (b : ℕ) (w : Fin N → Fin b → ℝ),
    ∃ ν, Draws P (r (fun i j => XF.fin (w i j)) false) ν ∧
      (∀ i j k, ν {a | a i j = k} = ENNReal.ofReal (Real.exp (w k j) / ∑ i, Real.exp (w i j))) ∧
      ∀ i i' j, i ≠ i' → ∀ k k', ν {a | a i j = k ∧ a i' j = k'}
        = ENNReal.ofReal (Real.exp (w k j) / ∑ i, Real.exp (w i j)) *
          ENNReal.ofReal (Real.exp (w k' j) / ∑ i, Real.exp (w i j))

/-- A resampler of unnormalised log-weights that is unbiased and steady: sums of a function `g` with values up to `H` over the
ancestors of one filter have a variance of at most `N * H ^ 2`. -/
structure SteadyLogResampler (P : Measure Ω) {N : ℕ}
    (r : {b : ℕ} → (Fin N → Fin b → XF) → Bool → Ω → (Fin N → Fin b → Fin N) × Ω) : Prop where
  measurable : ∀ b : ℕ, Measurable fun q : (Fin N → Fin b → ℝ) × Ω =>
    r (fun i j => XF.fin (q.1 i j)) false q.2
  draws : ∀ (b : ℕ) (w : Fin N → Fin b → ℝ),
    ∃ ν, Draws P (r (fun i j => XF.fin (w i j)) false) ν ∧
      (∀ j k, ∑ i, ν {a | a i j = k} = N * ENNReal.ofReal (Real.exp (w k j) / ∑ i, Real.exp (w i j))) ∧
      ∀ j (g : Fin N → ℝ≥0∞) (H : ℝ≥0∞), (∀ k, g k ≤ H) →
        ∫⁻ a, (∑ i, g (a i j)) ^ 2 ∂ν
          ≤ (N * ∑ k, ENNReal.ofReal (Real.exp (w k j) / ∑ i, Real.exp (w i j)) * g k) ^ 2 + N * H ^ 2

/-- The sampler of the latent process draws the new values of different particles of one filter independently from the
transition kernel. -/
structure IndependentTransitions (P : Measure Ω)
    (propagate : TS N B d V → Ω → (Fin N → Fin B → Fin d → V) × Ω)
    (K : Fin B → ℕ → Kernel (Fin d → V) (Fin d → V)) : Prop where
  measurable : ∀ t, Measurable fun q : (Fin N → Fin B → Fin d → V) × Ω => propagate ⟨q.1, t⟩ q.2
  draws : ∀ x, ∃ ν, Draws P (propagate x) ν ∧ (∀ i b, ν.map (fun v => v i b) = K b x.time (x.value i b)) ∧
    ∀ i i' b, i ≠ i' → ν.map (fun v => (v i b, v i' b)) = (K b x.time (x.value i b)).prod (K b x.time (x.value i' b))

/-- The initial sampler draws different particles of one filter independently from the initial distribution. -/
def IndependentInitial (P : Measure Ω) (init : Ω → (Fin N → Fin B → Fin d → V) × Ω)
    (μ : Fin B → Measure (Fin d → V)) : Prop :=
  ∃ ν, Draws P init ν ∧ (∀ i b, ν.map (fun v => v i b) = μ b) ∧
    ∀ i i' b, i ≠ i' → ν.map (fun v => (v i b, v i' b)) = (μ b).prod (μ b)

/-- A proper proposal (`ProperProposal`) that treats different particles of one filter independently, with importance
log-weights bounded by `c`. -/
structure IndependentProposal (P : Measure Ω)
    (sample : Y → PPred N B d V → Ω → ((Fin N → Fin B → Fin d → V) × (Fin N → Fin B → XF)) × Ω)
    (K : Fin B → ℕ → Kernel (Fin d → V) (Fin d → V)) (logg : Fin B → Y → ℕ → (Fin d → V) → ℝ) (c : Y → ℝ) : Prop where
  sample : ∀ y t, ∃ S : (Fin N → Fin B → Fin d → V) × Ω →
      ((Fin N → Fin B → Fin d → V) × (Fin N → Fin B → ℝ)) × Ω, Measurable S ∧
    (∀ p ω, p.prevX.time = t → sample y p ω = (((S (p.prevX.value, ω)).1.1,
      fun i b => XF.fin ((S (p.prevX.value, ω)).1.2 i b)), (S (p.prevX.value, ω)).2)) ∧
    (∀ z i b, (S z).1.2 i b ≤ c y) ∧
    ∀ x, ∃ ν, Draws P (fun ω => S (x, ω)) ν ∧
      (∀ i b (φ : (Fin d → V) → ℝ≥0∞), Measurable φ →
        ∫⁻ q, ENNReal.ofReal (Real.exp (q.2 i b)) * φ (q.1 i b) ∂ν
          = ∫⁻ x', ENNReal.ofReal (Real.exp (logg b y (t + 1) x')) * φ x' ∂(K b t (x i b))) ∧
      ∀ i i' b, i ≠ i' → ν.map (fun q => ((q.1 i b, q.2 i b), (q.1 i' b, q.2 i' b)))
        = (ν.map fun q => (q.1 i b, q.2 i b)).prod (ν.map fun q => (q.1 i' b, q.2 i' b))

/-- Contract of `torch.multinomial(p, k, replacement=True)` as in `DrawsMultinomial`, where moreover different draws for one
row are independent. -/
structure IndependentMultinomial {N : ℕ} (P : Measure Ω) (mult : TorchMultinomial N Ω) : Prop where
  measurable : ∀ b k : ℕ, Measurable fun q : (Fin b → Fin N → ℝ) × Ω => mult k (fun j i => XF.fin (q.1 j i)) q.2
  draws : ∀ (b k : ℕ) (p : Fin b → Fin N → ℝ), (∀ j, (∀ i, 0 ≤ p j i) ∧ 0 < ∑ i, p j i) →
    ∃ ν, Draws P (mult k fun j i => XF.fin (p j i)) ν ∧
      (∀ j l, l < k → ∀ i, ν {a | a j l = i} = ENNReal.ofReal (p j i / ∑ i, p j i)) ∧
      ∀ j l l', l < k → l' < k → l ≠ l' → ∀ i i', ν {a | a j l = i ∧ a j l' = i'}
        = ENNReal.ofReal (p j i / ∑ i, p j i) * ENNReal.ofReal (p j i' / ∑ i, p j i)

end Verif.Spec
