import Verif.Lemmas.SequentialImportance

/-!
# C96: before the first update the weights are those of importance sampling
-/

namespace Verif.Props

open Verif Verif.Spec Verif.Mcmc Verif.Seq Verif.SeqImportance Verif.PmmhFilter Verif.Unbiased XF MeasureTheory ProbabilityTheory
open scoped ENNReal

section
variable {c : Priors.Registry} {e S : ℕ} {E Y Ω K W : Type} [MeasurableSpace E] [MeasurableSpace Ω] [NeZero S]
variable {P : Measure Ω} [IsProbabilityMeasure P] {f : Builder (∀ i, Fin (c.numel i) → ℝ) e E Y Ω} {n : ℕ}
  {μ : (∀ i, Fin (c.numel i) → ℝ) → Measure (Fin e → E)}
  {kernel : (∀ i, Fin (c.numel i) → ℝ) → ℕ → Kernel (Fin e → E) (Fin e → E)}
  {logg : (∀ i, Fin (c.numel i) → ℝ) → Y → ℕ → (Fin e → E) → ℝ}

theorem finite_likelihoods (hs : PmmhSetup P f n μ kernel logg) (lo eps : ℝ) :
    FiniteLikelihoods (f.env lo eps) n := by
  intro u ys ω
  obtain ⟨R, -, h1, -⟩ := loglik_estimate hs lo eps ys
  rw [h1]
  trivial

/-- C96: as long as no update has happened, the log-weight of a parameter particle is a finite number that depends
on its parameters and its own random numbers only, and for fixed parameters the expectation of its exponential is
the likelihood of all observations so far. No other particle, no callback and no random number of a step that did
not happen plays a role. -/
theorem C96_weights (hs : PmmhSetup P f n μ kernel logg) (lo eps : ℝ) (ys : List Y) :
    ∃ R : (∀ i, Fin (c.numel i) → ℝ) × Ω → ℝ, Measurable R ∧
      (∀ θ, ∫⁻ ω, ENNReal.ofReal (Real.exp (R (θ, ω))) ∂P
        = likelihood f.opt.observeEveryStep f.missing μ kernel logg ys θ) ∧
      ∀ (cbs : List (Callback S c.dim Y Ω W)), (∀ cb ∈ cbs, Benign cb) → (∀ cb ∈ cbs, KeepsFinite cb) →
      ∀ (algo : Algo S c.dim Y Ω K) (drawn : Fin S → Row c.dim) (noise : Fin S → Ω)
        (xs : List (Y × StepDraws S c.dim Ω)), xs.map Prod.fst = ys →
        let a := run (f.env lo eps) cbs (init (f.env lo eps) algo n drawn none noise) xs
        a.2.2.2 = none → (∀ e ∈ a.2.2.1, e = .kept) →
        ∀ i, a.1.sys.params i = drawn i ∧ a.1.obj.w i = fin (R (c.unstack (drawn i) false, noise i)) := by
  obtain ⟨R, hR, h1, h2⟩ := loglik_estimate hs lo eps ys
  refine ⟨R, hR, h2, fun cbs hb hk algo drawn noise xs hxs => ?_⟩
  intro a h he i
  have hu := untouched_run (f.env lo eps) cbs hb hk (finite_likelihoods hs lo eps) algo drawn noise xs h he
  obtain ⟨ω, h0, hω⟩ := hu.res i
  refine ⟨congrFun (congrArg Sys.params hu.sys) i, ?_⟩
  show (run (f.env lo eps) cbs (init (f.env lo eps) algo n drawn none noise) xs).1.obj.w i = _
  rw [hu.weight, hω, hxs, h1, h0]

/-- **C96.** The parameter particles are drawn from the prior. While no update has happened, weighting a function
of the parameters by the exponential of the log-weight gives, in expectation, the integral of this function against
prior times likelihood: every particle is properly weighted for the posterior, and its mean weight is the evidence.
The random outcomes are those of any probability space in which parameters and random numbers of particle `i` have
the right joint law; how particles depend on each other does not matter. -/
theorem C96_proper (hs : PmmhSetup P f n μ kernel logg) (lo eps : ℝ) (ys : List Y)
    (cbs : List (Callback S c.dim Y Ω W)) (hb : ∀ cb ∈ cbs, Benign cb) (hk : ∀ cb ∈ cbs, KeepsFinite cb)
    (algo : Algo S c.dim Y Ω K) {Ξ : Type} [MeasurableSpace Ξ] (law : Measure Ξ) (drawn : Ξ → Fin S → Row c.dim)
    (noise : Ξ → Fin S → Ω) (draws : Ξ → List (Y × StepDraws S c.dim Ω)) (hys : ∀ ξ, (draws ξ).map Prod.fst = ys)
    (hkept : ∀ᵐ ξ ∂law,
      (run (f.env lo eps) cbs (init (f.env lo eps) algo n (drawn ξ) none (noise ξ)) (draws ξ)).2.2.2 = none ∧
      ∀ e ∈ (run (f.env lo eps) cbs (init (f.env lo eps) algo n (drawn ξ) none (noise ξ)) (draws ξ)).2.2.1, e = .kept)
    (i : Fin S) (hmeas : Measurable fun ξ => (c.unstack (drawn ξ i) false, noise ξ i))
    (hlaw : law.map (fun ξ => (c.unstack (drawn ξ i) false, noise ξ i))
      = ((volume.restrict (space c)).withDensity (jointPrior c)).prod P)
    (φ : (∀ i, Fin (c.numel i) → ℝ) → ℝ≥0∞) (hφ : Measurable φ) :
    ∫⁻ ξ, ENNReal.ofReal (expMass ((run (f.env lo eps) cbs
        (init (f.env lo eps) algo n (drawn ξ) none (noise ξ)) (draws ξ)).1.obj.w i))
        * φ (c.unstack (drawn ξ i) false) ∂law
      = ∫⁻ θ in space c, jointPrior c θ *
          (likelihood f.opt.observeEveryStep f.missing μ kernel logg ys θ * φ θ) := by
  obtain ⟨R, hR, h2, hw⟩ := C96_weights (S := S) (K := K) (W := W) hs lo eps ys
  have hexp : Measurable fun q : (∀ i, Fin (c.numel i) → ℝ) × Ω => ENNReal.ofReal (Real.exp (R q)) :=
    (Real.measurable_exp.comp hR).ennreal_ofReal
  have hg : Measurable fun q : (∀ i, Fin (c.numel i) → ℝ) × Ω =>
      ENNReal.ofReal (Real.exp (R q)) * φ q.1 := hexp.mul (hφ.comp measurable_fst)
  have e1 : ∫⁻ ξ, ENNReal.ofReal (expMass ((run (f.env lo eps) cbs
        (init (f.env lo eps) algo n (drawn ξ) none (noise ξ)) (draws ξ)).1.obj.w i))
        * φ (c.unstack (drawn ξ i) false) ∂law
      = ∫⁻ ξ, ENNReal.ofReal (Real.exp (R (c.unstack (drawn ξ i) false, noise ξ i)))
          * φ (c.unstack (drawn ξ i) false) ∂law := by
    refine lintegral_congr_ae (hkept.mono fun ξ h => ?_)
    have := (hw cbs hb hk algo (drawn ξ) (noise ξ) (draws ξ) (hys ξ) h.1 h.2 i).2
    simp only [this, expMass]
  have hprior : Measurable (jointPrior c) := by
    unfold jointPrior
    exact Finset.measurable_prod _ fun i _ => ((hs.measurable_prior i).comp (measurable_pi_apply i)).ennreal_ofReal
  rw [e1, ← lintegral_map hg hmeas, hlaw, lintegral_prod _ hg.aemeasurable]
  have e2 : ∀ θ, ∫⁻ ω, ENNReal.ofReal (Real.exp (R (θ, ω))) * φ θ ∂P
      = likelihood f.opt.observeEveryStep f.missing μ kernel logg ys θ * φ θ := by
    intro θ
    have hm : Measurable fun ω => ENNReal.ofReal (Real.exp (R (θ, ω))) := hexp.comp measurable_prodMk_left
    rw [lintegral_mul_const _ hm, h2]
  simp only [e2]
  have hlik : Measurable fun θ => likelihood f.opt.observeEveryStep f.missing μ kernel logg ys θ := by
    simp only [← h2]
    exact hexp.lintegral_prod_right'
  exact lintegral_withDensity_eq_lintegral_mul _ hprior (hlik.mul hφ)

/-- C96: the average of the weights is an unbiased estimate of the evidence. -/
theorem C96_evidence (hs : PmmhSetup P f n μ kernel logg) (lo eps : ℝ) (ys : List Y)
    (cbs : List (Callback S c.dim Y Ω W)) (hb : ∀ cb ∈ cbs, Benign cb) (hk : ∀ cb ∈ cbs, KeepsFinite cb)
    (algo : Algo S c.dim Y Ω K) {Ξ : Type} [MeasurableSpace Ξ] (law : Measure Ξ) (drawn : Ξ → Fin S → Row c.dim)
    (noise : Ξ → Fin S → Ω) (draws : Ξ → List (Y × StepDraws S c.dim Ω)) (hys : ∀ ξ, (draws ξ).map Prod.fst = ys)
    (hkept : ∀ᵐ ξ ∂law,
      (run (f.env lo eps) cbs (init (f.env lo eps) algo n (drawn ξ) none (noise ξ)) (draws ξ)).2.2.2 = none ∧
      ∀ e ∈ (run (f.env lo eps) cbs (init (f.env lo eps) algo n (drawn ξ) none (noise ξ)) (draws ξ)).2.2.1, e = .kept)
    (hmeas : ∀ i, Measurable fun ξ => (c.unstack (drawn ξ i) false, noise ξ i))
    (hlaw : ∀ i, law.map (fun ξ => (c.unstack (drawn ξ i) false, noise ξ i))
      = ((volume.restrict (space c)).withDensity (jointPrior c)).prod P) :
    ∫⁻ ξ, (∑ i, ENNReal.ofReal (expMass ((run (f.env lo eps) cbs
        (init (f.env lo eps) algo n (drawn ξ) none (noise ξ)) (draws ξ)).1.obj.w i))) / S ∂law
      = ∫⁻ θ in space c, jointPrior c θ * likelihood f.opt.observeEveryStep f.missing μ kernel logg ys θ := by
  obtain ⟨R, hR, h2, hw⟩ := C96_weights (S := S) (K := K) (W := W) hs lo eps ys
  have hexp : Measurable fun q : (∀ i, Fin (c.numel i) → ℝ) × Ω => ENNReal.ofReal (Real.exp (R q)) :=
    (Real.measurable_exp.comp hR).ennreal_ofReal
  have hp := fun i => C96_proper hs lo eps ys cbs hb hk algo law drawn noise draws hys hkept i (hmeas i) (hlaw i)
    (fun _ => 1) measurable_const
  simp only [mul_one] at hp
  have e1 : ∀ᵐ ξ ∂law, ∀ i, ENNReal.ofReal (expMass ((run (f.env lo eps) cbs
        (init (f.env lo eps) algo n (drawn ξ) none (noise ξ)) (draws ξ)).1.obj.w i))
      = ENNReal.ofReal (Real.exp (R (c.unstack (drawn ξ i) false, noise ξ i))) :=
    hkept.mono fun ξ h i => by
      have := (hw cbs hb hk algo (drawn ξ) (noise ξ) (draws ξ) (hys ξ) h.1 h.2 i).2
      simp only [this, expMass]
  have hp' : ∀ i, ∫⁻ ξ, ENNReal.ofReal (Real.exp (R (c.unstack (drawn ξ i) false, noise ξ i))) ∂law
      = ∫⁻ θ in space c, jointPrior c θ * likelihood f.opt.observeEveryStep f.missing μ kernel logg ys θ := by
    intro i
    rw [← hp i]
    exact lintegral_congr_ae (e1.mono fun ξ h => (h i).symm)
  have e2 : ∫⁻ ξ, (∑ i, ENNReal.ofReal (expMass ((run (f.env lo eps) cbs
        (init (f.env lo eps) algo n (drawn ξ) none (noise ξ)) (draws ξ)).1.obj.w i))) / S ∂law
      = ∫⁻ ξ, (∑ i, ENNReal.ofReal (Real.exp (R (c.unstack (drawn ξ i) false, noise ξ i)))) / S ∂law :=
    lintegral_congr_ae (e1.mono fun ξ h => by simp only [h])
  have hm : ∀ i, Measurable fun ξ => ENNReal.ofReal (Real.exp (R (c.unstack (drawn ξ i) false, noise ξ i))) :=
    fun i => hexp.comp (hmeas i)
  rw [e2]
  simp only [div_eq_mul_inv]
  rw [lintegral_mul_const _ (Finset.measurable_fun_sum _ fun i _ => hm i), lintegral_finsetSum _ fun i _ => hm i]
  simp only [hp', Finset.sum_const, Finset.card_univ, Fintype.card_fin, nsmul_eq_mul]
  rw [mul_comm (S : ℝ≥0∞), mul_assoc, ENNReal.mul_inv_cancel (Nat.cast_ne_zero.2 (NeZero.ne S))
    (ENNReal.natCast_ne_top S), mul_one]

/-- C96: an algorithm without reason to update does not: NESS with a threshold of at most one particle, SMC2 with a
threshold that never demands more than one particle, fixed-width NESS before the end of its first block, and
combinations of these. So the condition of the other theorems can be met with certainty. -/
theorem C96_quiet (hs : PmmhSetup P f n μ kernel logg) (lo eps : ℝ)
    (cbs : List (Callback S c.dim Y Ω W)) (hb : ∀ cb ∈ cbs, Benign cb) (hk : ∀ cb ∈ cbs, KeepsFinite cb)
    (algo : Algo S c.dim Y Ω K) (drawn : Fin S → Row c.dim) (noise : Fin S → Ω)
    (xs : List (Y × StepDraws S c.dim Ω)) (hq : Quiet S algo xs.length) :
    (run (f.env lo eps) cbs (init (f.env lo eps) algo n drawn none noise) xs).2.2.2 = none ∧
      ∀ e ∈ (run (f.env lo eps) cbs (init (f.env lo eps) algo n drawn none noise) xs).2.2.1, e = .kept :=
  quiet_run (f.env lo eps) cbs hb hk (finite_likelihoods hs lo eps) algo drawn noise xs hq

/-- C96: drawing rows of unconstrained parameters with the density that MCMC uses means drawing the parameters from
their prior. -/
theorem C96_prior (c : Priors.Registry) (hv : ValidSupports c) (hp : ProperLogProb c)
    (hm : ∀ i, Measurable fun x => expMass ((c.prior i).logProb x)) :
    (volume.withDensity fun u : Row c.dim => ENNReal.ofReal (expMass (c.logPrior u))).map
        (fun u => c.unstack u false)
      = (volume.restrict (space c)).withDensity (jointPrior c) := by
  ext A hA
  rw [Measure.map_apply (measurable_unstack c) hA, withDensity_apply _ ((measurable_unstack c) hA),
    withDensity_apply _ hA, ← lintegral_indicator ((measurable_unstack c) hA), ← lintegral_indicator hA]
  have h := C92_change_of_variables c hv hp (A.indicator fun _ => 1)
  have e1 : ∀ u : Row c.dim, ((fun u => c.unstack u false) ⁻¹' A).indicator
        (fun u => ENNReal.ofReal (expMass (c.logPrior u))) u
      = ENNReal.ofReal (expMass (c.logPrior u)) * A.indicator (fun _ => 1) (c.unstack u false) := by
    intro u
    by_cases hu : c.unstack u false ∈ A
    · rw [Set.indicator_of_mem hu, mul_one]
      exact Set.indicator_of_mem (show u ∈ (fun u => c.unstack u false) ⁻¹' A from hu) _
    · rw [Set.indicator_of_notMem hu, mul_zero]
      exact Set.indicator_of_notMem (show u ∉ (fun u => c.unstack u false) ⁻¹' A from hu) _
  have e2 : ∀ θ, A.indicator (jointPrior c) θ = jointPrior c θ * A.indicator (fun _ => 1) θ := by
    intro θ
    by_cases hθ : θ ∈ A <;> simp [hθ]
  simp only [e1, e2]
  exact h

end

/-! ### A case: the autoregressive process of C93 -/

/-- NESSMC2 with low thresholds: SMC2 for two observations, then NESS. -/
noncomputable def quietAlgo : Algo 3 priorDemo.dim ℝ (ℕ → DemoEntry) (Gauss 3 priorDemo.dim) :=
  .combined 2 false (.smc2 ⟨.constant (1 / 10), randomWalk fun _ => 2, 1, none, 1 / 5, 5⟩ 0)
    (.ness (1 / 2) ⟨.constant (.tensor fun _ => 1), 0, false⟩)

theorem quietAlgo_quiet (k : ℕ) : Quiet 3 quietAlgo k := by
  refine ⟨fun j => ?_, ?_⟩
  · show max _ _ * _ ≤ _
    norm_num [Threshold.Thresholder.mutate, Threshold.Thresholder.min]
  · show (1 / 2 : ℝ) ≤ 1
    norm_num

/-- Draws of the steps: those of the filters come from the generator state, the others are not used. -/
noncomputable def quietDraws (ω : ℕ → DemoEntry) : StepDraws 3 priorDemo.dim (ℕ → DemoEntry) where
  noise _ := ω
  inds i := i
  jitter _ _ := 0
  coins _ := true
  subDrawn _ _ := 0
  pmmh _ := ⟨fun _ _ => 0, fun _ _ => ω, fun _ => 1 / 2⟩
  rerun _ _ := ω

/-- Three parameter particles of which the second is drawn. -/
noncomputable def quietDrawn (ξ : Row priorDemo.dim × (ℕ → DemoEntry)) (i : Fin 3) : Row priorDemo.dim :=
  if i = 1 then ξ.1 else fun _ => i

/-- The observations with their draws. -/
noncomputable def quietSteps (ξ : Row priorDemo.dim × (ℕ → DemoEntry)) :
    List (ℝ × StepDraws 3 priorDemo.dim (ℕ → DemoEntry)) :=
  [3, 1, 2, 7].map fun y => (y, quietDraws ξ.2)

/-- The weight of the particle that is drawn from the prior. -/
example (kind : FilterKind) (h : kind = .sisr ∨ kind = .apf)
    (φ : (∀ i, Fin (priorDemo.numel i) → ℝ) → ℝ≥0∞) (hφ : Measurable φ) :
    ∫⁻ ξ : Row priorDemo.dim × (ℕ → DemoEntry), ENNReal.ofReal (expMass
        ((run ((exactFilter kind).env (-1000) (1 / 1000)) ([] : List (Callback _ _ _ _ Unit))
          (init ((exactFilter kind).env (-1000) (1 / 1000)) quietAlgo 100 (quietDrawn ξ) none fun _ => ξ.2)
          (quietSteps ξ)).1.obj.w 1)) * φ (priorDemo.unstack (quietDrawn ξ 1) false)
        ∂((volume.withDensity fun u => ENNReal.ofReal (expMass (priorDemo.logPrior u))).prod (streamLaw demoEntryLaw))
      = ∫⁻ θ in space priorDemo, jointPrior priorDemo θ * (likelihood 2 (fun _ => false)
          (fun _ => (gaussianReal 0 1).map fun z _ => z)
          (fun θ t => noiseKernel (gaussianReal 0 1) (exactMove θ 0 t)) exactLogg [3, 1, 2, 7] θ * φ θ) := by
  have h1 : ∀ ξ, quietDrawn ξ 1 = ξ.1 := fun ξ => if_pos rfl
  have hm : Measurable fun ξ : Row priorDemo.dim × (ℕ → DemoEntry) =>
      (priorDemo.unstack (quietDrawn ξ 1) false, ξ.2) := by
    simp only [h1]
    exact ((measurable_unstack priorDemo).comp measurable_fst).prodMk measurable_snd
  refine C96_proper (exact_setup kind h 100 (by norm_num)) (-1000) (1 / 1000) [3, 1, 2, 7] [] (by simp) (by simp) quietAlgo _
    quietDrawn (fun ξ _ => ξ.2) quietSteps (fun ξ => ?_)
    (Filter.Eventually.of_forall fun ξ => C96_quiet (exact_setup kind h 100 (by norm_num)) (-1000) (1 / 1000) [] (by simp) (by simp)
      quietAlgo _ _ _ (quietAlgo_quiet _)) 1 hm ?_ φ hφ
  · simp [quietSteps]
  · simp only [h1]
    have h2 := C96_prior priorDemo priorDemo_valid priorDemo_proper (exact_setup kind h 100 (by norm_num)).measurable_prior
    rw [← h2]
    have h3 := Measure.map_prod_map
      (volume.withDensity fun u : Row priorDemo.dim => ENNReal.ofReal (expMass (priorDemo.logPrior u)))
      (streamLaw demoEntryLaw) (measurable_unstack priorDemo) measurable_id
    rw [Measure.map_id] at h3
    exact h3.symm

/-- Three parameter particles with the same parameters. -/
def quietShared (ξ : Row priorDemo.dim × (ℕ → DemoEntry)) (_i : Fin 3) : Row priorDemo.dim := ξ.1

/-- The evidence, from particles that share their draws. -/
example (kind : FilterKind) (h : kind = .sisr ∨ kind = .apf) :
    ∫⁻ ξ : Row priorDemo.dim × (ℕ → DemoEntry), (∑ i, ENNReal.ofReal (expMass
        ((run ((exactFilter kind).env (-1000) (1 / 1000)) ([] : List (Callback _ _ _ _ Unit))
          (init ((exactFilter kind).env (-1000) (1 / 1000)) quietAlgo 100 (quietShared ξ) none fun _ => ξ.2)
          (quietSteps ξ)).1.obj.w i))) / (3 : ℕ)
        ∂((volume.withDensity fun u => ENNReal.ofReal (expMass (priorDemo.logPrior u))).prod (streamLaw demoEntryLaw))
      = ∫⁻ θ in space priorDemo, jointPrior priorDemo θ * likelihood 2 (fun _ => false)
          (fun _ => (gaussianReal 0 1).map fun z _ => z)
          (fun θ t => noiseKernel (gaussianReal 0 1) (exactMove θ 0 t)) exactLogg [3, 1, 2, 7] θ := by
  have hm : Measurable fun ξ : Row priorDemo.dim × (ℕ → DemoEntry) => (priorDemo.unstack (quietShared ξ 1) false, ξ.2) :=
    ((measurable_unstack priorDemo).comp measurable_fst).prodMk measurable_snd
  refine C96_evidence (exact_setup kind h 100 (by norm_num)) (-1000) (1 / 1000) [3, 1, 2, 7] [] (by simp) (by simp) quietAlgo _
    quietShared (fun ξ _ => ξ.2) quietSteps (fun ξ => by simp [quietSteps])
    (Filter.Eventually.of_forall fun ξ => C96_quiet (exact_setup kind h 100 (by norm_num)) (-1000) (1 / 1000) [] (by simp) (by simp)
      quietAlgo _ _ _ (quietAlgo_quiet _))
    (fun _ => hm) fun _ => ?_
  have h2 := C96_prior priorDemo priorDemo_valid priorDemo_proper (exact_setup kind h 100 (by norm_num)).measurable_prior
  rw [← h2]
  have h3 := Measure.map_prod_map
    (volume.withDensity fun u : Row priorDemo.dim => ENNReal.ofReal (expMass (priorDemo.logPrior u)))
    (streamLaw demoEntryLaw) (measurable_unstack priorDemo) measurable_id
  rw [Measure.map_id] at h3
  exact h3.symm

end Verif.Props
