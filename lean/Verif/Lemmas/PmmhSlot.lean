import Verif.Lemmas.PmmhRun

/-!
# Convergence of one slot of PMMH
-/

namespace Verif.Mcmc

open MeasureTheory ProbabilityTheory Filter Set Verif.Ergodic Verif.Converge Verif.Unbiased
open scoped ENNReal Topology

section

variable {P d : ℕ} {Ω : Type} [MeasurableSpace Ω] {p : Row d → ℝ} {R : Row d × (ℕ → Ω) → ℝ} {scale : Row d}
  (law : Measure (ℕ → Ω)) [IsProbabilityMeasure law] (i : Fin P) (ρ : Measure (Source P d Ω))
  [IsProbabilityMeasure ρ] (hρ : ρ.map (fun e => e i) = slotDraws d law)

/-- The move of the slot on the random numbers of the whole batch. -/
noncomputable def batchMove (p : Row d → ℝ) (R : Row d × (ℕ → Ω) → ℝ) (scale : Row d) (i : Fin P)
    (q : (Row d × ℝ) × Source P d Ω) : Row d × ℝ := slotMove p R scale (q.1, q.2 i)

theorem measurable_batchMove (hp : Measurable p) (hR : Measurable R) :
    Measurable (batchMove p R scale i) := by
  have h : Measurable fun q : (Row d × ℝ) × Source P d Ω => (q.1, q.2 i) :=
    measurable_fst.prodMk ((measurable_pi_apply i).comp measurable_snd)
  exact (measurable_slotMove hp hR).comp h

include hρ in
theorem noise_slot (hp : Measurable p) (hp0 : ∀ θ, 0 ≤ p θ) (hR : Measurable R) (hscale : ∀ j, 0 < scale j) :
    noiseKernel ρ (batchMove p R scale i) = (slot_flow law hp hp0 hR hscale).kernel := by
  ext1 x
  have hm : Measurable fun e : Row d × (ℕ → Ω) × ℝ => slotMove p R scale (x, e) :=
    (measurable_slotMove hp hR).comp measurable_prodMk_left
  rw [noiseKernel_apply ρ (measurable_batchMove i hp hR), ← slot_kernel law hp hp0 hR hscale x, ← hρ,
    Measure.map_map hm (measurable_pi_apply i)]
  rfl

variable (h0 : ∫⁻ x, ENNReal.ofReal (slotT p x) ∂slotM R law ≠ 0)
  (h1 : ∫⁻ x, ENNReal.ofReal (slotT p x) ∂slotM R law ≠ ∞)

/-- The target of one slot, normalised. -/
noncomputable def slotTarget (p : Row d → ℝ) (R : Row d × (ℕ → Ω) → ℝ) (law : Measure (ℕ → Ω)) :
    Measure (Row d × ℝ) := target (slotM R law) fun x => ENNReal.ofReal (slotT p x)

include hρ h0 h1

theorem slot_converges (hp : Measurable p) (hp0 : ∀ θ, 0 ≤ p θ) (hR : Measurable R) (hscale : ∀ j, 0 < scale j)
    {x : Row d × ℝ} (hx : slotT p x ≠ 0) :
    ∀ ε > (0 : ℝ), ∃ N, ∀ n ≥ N, ∀ F : Row d × ℝ → ℝ, Measurable F → (∀ x, 0 ≤ F x) → (∀ x, F x ≤ 1) →
      |∫ ξ, F (path (batchMove p R scale i) n x ξ) ∂streamLaw ρ - ∫ x, F x ∂slotTarget p R law| ≤ ε := by
  have hg := measurable_batchMove (scale := scale) i hp hR
  set Fl := slot_flow law hp hp0 hR hscale with hFl
  have hK := noise_slot law i ρ hρ hp hp0 hR hscale
  have hTx : ENNReal.ofReal (slotT p x) ≠ 0 :=
    (ENNReal.ofReal_pos.2 (lt_of_le_of_ne (slotT_nonneg hp0 x) (Ne.symm hx))).ne'
  have hprob : IsProbabilityMeasure (slotTarget p R law) := target_prob h0 h1
  have hmark := noise_markov ρ hg
  have htv := tv_of_point (π := slotTarget p R law) (K := noiseKernel ρ (batchMove p R scale i))
    (by rw [hK]; exact Fl.reversible h0 h1) (by rw [hK]; exact Fl.ac h0 h1) (Fl.move_ac x h1)
    (Fl.leaves x hTx h0) (by rw [hK]; exact Fl.kernel_eq x)
    (μ := fun n => lawAt ρ (batchMove p R scale i) n x) (lawAt_zero ρ x) (fun n => lawAt_succ ρ hg n x)
  intro ε hε
  obtain ⟨N, hN⟩ := htv ε hε
  refine ⟨N, fun n hn F hF hF0 hF1 => ?_⟩
  have := hN n hn F hF hF0 hF1
  rwa [integral_lawAt ρ hg n x hF] at this

theorem slot_averages (hp : Measurable p) (hp0 : ∀ θ, 0 ≤ p θ) (hR : Measurable R) (hscale : ∀ j, 0 < scale j)
    {x : Row d × ℝ} (hx : slotT p x ≠ 0) {f : Row d × ℝ → ℝ} (hf : Measurable f) {C : ℝ} (hC : ∀ x, |f x| ≤ C) :
    Tendsto (fun n : ℕ => ∫ ξ, ((∑ k ∈ Finset.range n, f (path (batchMove p R scale i) k x ξ)) / n
      - ∫ x, f x ∂slotTarget p R law) ^ 2 ∂streamLaw ρ) atTop (𝓝 0) := by
  have hg := measurable_batchMove (scale := scale) i hp hR
  set Fl := slot_flow law hp hp0 hR hscale with hFl
  have hK := noise_slot law i ρ hρ hp hp0 hR hscale
  have hTx : ENNReal.ofReal (slotT p x) ≠ 0 :=
    (ENNReal.ofReal_pos.2 (lt_of_le_of_ne (slotT_nonneg hp0 x) (Ne.symm hx))).ne'
  have hprob : IsProbabilityMeasure (slotTarget p R law) := target_prob h0 h1
  have hmark := noise_markov ρ hg
  exact averages (π := slotTarget p R law) ρ hg (by rw [hK]; exact Fl.reversible h0 h1) (by rw [hK]; exact Fl.ac h0 h1) (Fl.move_ac x h1)
    (Fl.leaves x hTx h0) (by rw [hK]; exact Fl.kernel_eq x) hf hC

end

end Verif.Mcmc
