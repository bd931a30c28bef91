import Verif.Lemmas.PmmhSlot
import Verif.Props.PmmhExact
import Verif.Spec.Posterior

/-!
# C123, C124: the samples of `PMMH.fit` converge to the posterior
-/

namespace Verif.Props

open Verif Verif.Spec Verif.Mcmc Verif.PmmhFilter Verif.Unbiased Verif.Ergodic Verif.Converge XF MeasureTheory
open ProbabilityTheory Filter
open scoped ENNReal Topology

section
variable {c : Priors.Registry} {e : ℕ} {V Y Ω : Type} [MeasurableSpace V] [MeasurableSpace Ω]
  {P : Measure Ω} [IsProbabilityMeasure P] {f : Builder (∀ i, Fin (c.numel i) → ℝ) e V Y Ω} {n : ℕ}
  {μ : (∀ i, Fin (c.numel i) → ℝ) → Measure (Fin e → V)}
  {K : (∀ i, Fin (c.numel i) → ℝ) → ℕ → Kernel (Fin e → V) (Fin e → V)}
  {logg : (∀ i, Fin (c.numel i) → ℝ) → Y → ℕ → (Fin e → V) → ℝ}

/-- The target of the slot, in terms of parameters, is the posterior. -/
theorem slotTarget_posterior (hs : PmmhSetup P f n μ K logg) (lo eps : ℝ) (ys : List Y) (law : Measure (ℕ → Ω))
    [IsProbabilityMeasure law] (hlaw : law.map (fun ω => ω 0) = P) {R : Row c.dim × (ℕ → Ω) → ℝ} (hR : Measurable R)
    (h1 : ∀ u noise, (f.env lo eps).loglik (Mcmc.batchFilter n ⟨u, u⟩ ys noise) = fin (R (u, noise))) :
    (∫⁻ x, ENNReal.ofReal (slotT (fun u => expMass (c.logPrior u)) x) ∂slotM R law
      = evidence c (likelihood f.opt.observeEveryStep f.missing μ K logg ys)) ∧
    (slotTarget (fun u => expMass (c.logPrior u)) R law).map (fun z => c.unstack z.1 false)
      = posterior c (likelihood f.opt.observeEveryStep f.missing μ K logg ys) := by
  have hp := measurable_logPrior c hs.supports hs.proper hs.measurable_prior
  have hT := (measurable_slotT hp).ennreal_ofReal
  have hun : Measurable fun z : Row c.dim × ℝ => c.unstack z.1 false := (measurable_unstack c).comp measurable_fst
  have hpair : Measurable fun x : Row c.dim × (ℕ → Ω) => ((x.1, R x) : Row c.dim × ℝ) := measurable_fst.prodMk hR
  have hset : ∀ A, MeasurableSet A → ∫⁻ x in (fun z : Row c.dim × ℝ => c.unstack z.1 false) ⁻¹' A,
      ENNReal.ofReal (slotT (fun u => expMass (c.logPrior u)) x) ∂slotM R law
      = ∫⁻ θ in space c ∩ A, jointPrior c θ * likelihood f.opt.observeEveryStep f.missing μ K logg ys θ := by
    intro A hA
    rw [← pmmh_marginal hs lo eps ys law hlaw hA]
    unfold slotM
    have hA' : MeasurableSet {x : Pt c.dim Ω | c.unstack x.1 false ∈ A} :=
      ((measurable_unstack c).comp measurable_fst) hA
    rw [setLIntegral_map (hun hA) hT hpair, withDensity_apply _ hA']
    refine lintegral_congr fun x => ?_
    unfold slotT pmmhTarget Pt.slot
    rw [h1]
    rfl
  have hZ : ∫⁻ x, ENNReal.ofReal (slotT (fun u => expMass (c.logPrior u)) x) ∂slotM R law
      = evidence c (likelihood f.opt.observeEveryStep f.missing μ K logg ys) := by
    have := hset Set.univ MeasurableSet.univ
    rw [Set.preimage_univ, setLIntegral_univ, Set.inter_univ] at this
    exact this
  refine ⟨hZ, ?_⟩
  ext A hA
  unfold slotTarget posterior
  rw [Measure.map_apply hun hA, target_apply (hun hA), hset A hA, hZ, Measure.smul_apply, smul_eq_mul,
    withDensity_apply _ hA, Measure.restrict_restrict hA, Set.inter_comm]

/-- The beginning of `fit`, in one slot. -/
theorem fitInit_at (hs : PmmhSetup P f n μ K logg) (lo eps : ℝ) (ys : List Y) {S : ℕ} (i : Fin S)
    (scale : Row c.dim) {Name W : Type} (get : Name → Row c.dim → W) (drawn : Fin S → Row c.dim)
    (start : Row c.dim) (noise : Fin S → ℕ → Ω) (subDrawn : Fin S → Row c.dim)
    (hstart : expMass (c.logPrior start) ≠ 0) :
    ∃ l, At (f.env lo eps) scale n i (fitInit (randomWalk scale) get n ys drawn start noise subDrawn).chain
      (start, l) := by
  obtain ⟨R, -, h1, -⟩ := loglik_estimate hs lo eps ys
  exact ⟨_, rfl, h1 start (drawn i) (noise i), rfl, rfl, rfl, hstart⟩

/-- The prior density that the chain uses. -/
noncomputable def priorMass (c : Priors.Registry) (u : Row c.dim) : ℝ := expMass (c.logPrior u)

theorem priorMass_nonneg (u : Row c.dim) : 0 ≤ priorMass c u := by
  unfold priorMass
  cases c.logPrior u <;> simp [expMass, Real.exp_nonneg]

/-- A chain of `fit` is a path of `batchMove`, whose target is the posterior. -/
theorem pmmh_path (hs : PmmhSetup P f n μ K logg) (lo eps : ℝ) (ys : List Y) (law : Measure (ℕ → Ω))
    [IsProbabilityMeasure law] (hlaw : law.map (fun ω => ω 0) = P) {S : ℕ} (i : Fin S)
    (scale : Row c.dim) {Name W : Type} (get : Name → Row c.dim → W)
    (drawn : Fin S → Row c.dim) (start : Row c.dim) (noise : Fin S → ℕ → Ω) (subDrawn : Fin S → Row c.dim)
    (hstart : expMass (c.logPrior start) ≠ 0) :
    ∃ (R : Row c.dim × (ℕ → Ω) → ℝ) (l : ℝ), Measurable R ∧ slotT (priorMass c) (start, l) ≠ 0 ∧
      (∫⁻ x, ENNReal.ofReal (slotT (priorMass c) x) ∂slotM R law
        = evidence c (likelihood f.opt.observeEveryStep f.missing μ K logg ys)) ∧
      (slotTarget (priorMass c) R law).map (fun z => c.unstack z.1 false)
        = posterior c (likelihood f.opt.observeEveryStep f.missing μ K logg ys) ∧
      ∀ ξ k, (fitRun (f.env lo eps) scale get ys (fitInit (randomWalk scale) get n ys drawn start noise subDrawn)
        ((List.range k).map ξ)).chain.params i = (path (batchMove (priorMass c) R scale i) k (start, l) ξ).1 := by
  obtain ⟨R, hR, h1, -⟩ := loglik_estimate hs lo eps ys
  set R' : Row c.dim × (ℕ → Ω) → ℝ := fun q => R (c.unstack q.1 false, q.2 0) with hR'
  have hmR : Measurable R' := hR.comp (((measurable_unstack c).comp measurable_fst).prodMk
    ((measurable_pi_apply 0).comp measurable_snd))
  have hpr : ∀ θ, (f.env lo eps).logPrior θ ≠ .nan ∧ (f.env lo eps).logPrior θ ≠ .pinf :=
    fun θ => C92_defined c hs.supports hs.proper θ
  obtain ⟨hZ, hpost⟩ := slotTarget_posterior hs lo eps ys law hlaw hmR (fun u ω => h1 u u ω)
  obtain ⟨l, hat⟩ := fitInit_at hs lo eps ys i scale get drawn start noise subDrawn hstart
  refine ⟨R', l, hmR, mul_ne_zero (Real.exp_pos _).ne' hstart, hZ, hpost, fun ξ k => ?_⟩
  exact (hat.run (R := R') (fun u ω => h1 u u ω) hpr get ξ k).params

/-- The likelihood is positive, so prior times likelihood has positive mass if the prior has. -/
theorem evidence_ne_zero (hs : PmmhSetup P f n μ K logg) (ys : List Y)
    (h0 : ∫⁻ θ in space c, jointPrior c θ ≠ 0) :
    evidence c (likelihood f.opt.observeEveryStep f.missing μ K logg ys) ≠ 0 := by
  obtain ⟨R, hR, -, h2⟩ := loglik_estimate hs 0 0 ys
  have hmR : Measurable fun q : (∀ i, Fin (c.numel i) → ℝ) × Ω => ENNReal.ofReal (Real.exp (R q)) :=
    (Real.measurable_exp.comp hR).ennreal_ofReal
  have hl : Measurable (likelihood f.opt.observeEveryStep f.missing μ K logg ys) := by
    rw [← funext h2]
    exact hmR.lintegral_prod_right'
  have hj : Measurable (jointPrior c) := by
    unfold jointPrior
    exact Finset.measurable_prod _ fun i _ => ((hs.measurable_prior i).comp (measurable_pi_apply i)).ennreal_ofReal
  have hpos : ∀ θ, likelihood f.opt.observeEveryStep f.missing μ K logg ys θ ≠ 0 := by
    intro θ h
    have hm : Measurable fun ω => ENNReal.ofReal (Real.exp (R (θ, ω))) := hmR.comp measurable_prodMk_left
    rw [← h2, lintegral_eq_zero_iff hm] at h
    have : ∀ᵐ _ω ∂P, False := by
      filter_upwards [h] with ω hω
      exact (ENNReal.ofReal_pos.2 (Real.exp_pos (R (θ, ω)))).ne' hω
    rw [Filter.eventually_false_iff_eq_bot, ae_eq_bot] at this
    exact IsProbabilityMeasure.ne_zero P this
  intro h
  refine h0 ?_
  unfold evidence at h
  have hm : Measurable fun θ => jointPrior c θ * likelihood f.opt.observeEveryStep f.missing μ K logg ys θ := hj.mul hl
  rw [lintegral_eq_zero_iff hm] at h
  rw [lintegral_eq_zero_iff hj]
  filter_upwards [h] with θ hθ
  exact (mul_eq_zero.1 hθ).resolve_right (hpos θ)

/-- **C123.** `PMMH.fit` with the random walk proposal and a particle filter converges to the posterior: the
distribution of the parameters of a chain after `k` iterations differs from the posterior by at most `ε` on every
measurable set, once `k` is large enough. This holds for any number of particles and from any starting value with
positive prior density. `ρ` is the law of the random numbers of an iteration; in slot `i` they are standard
normals, the generator of the filter and a uniform draw. -/
theorem C123_converges (hs : PmmhSetup P f n μ K logg) (lo eps : ℝ) (ys : List Y) (law : Measure (ℕ → Ω))
    [IsProbabilityMeasure law] (hlaw : law.map (fun ω => ω 0) = P) {S : ℕ} (i : Fin S)
    (scale : Row c.dim) (hscale : ∀ j, 0 < scale j) {Name W : Type} (get : Name → Row c.dim → W)
    (drawn : Fin S → Row c.dim) (start : Row c.dim) (noise : Fin S → ℕ → Ω) (subDrawn : Fin S → Row c.dim)
    (hstart : expMass (c.logPrior start) ≠ 0) (ρ : Measure (Source S c.dim Ω)) [IsProbabilityMeasure ρ]
    (hρ : ρ.map (fun e => e i) = slotDraws c.dim law)
    (h0 : ∫⁻ θ in space c, jointPrior c θ ≠ 0)
    (hfin : evidence c (likelihood f.opt.observeEveryStep f.missing μ K logg ys) ≠ ∞) :
    let fit := fun (ξ : ℕ → Source S c.dim Ω) k => fitRun (f.env lo eps) scale get ys
      (fitInit (randomWalk scale) get n ys drawn start noise subDrawn) ((List.range k).map ξ)
    ∀ ε > (0 : ℝ), ∃ N, ∀ k ≥ N, ∀ A, MeasurableSet A →
      |(streamLaw ρ).real {ξ | c.unstack ((fit ξ k).chain.params i) false ∈ A}
        - (posterior c (likelihood f.opt.observeEveryStep f.missing μ K logg ys)).real A| ≤ ε := by
  intro fit
  obtain ⟨R, l, hR, hx, hZ, hpost, hpath⟩ :=
    pmmh_path hs lo eps ys law hlaw i scale get drawn start noise subDrawn hstart
  have hp : Measurable (priorMass c) := measurable_logPrior c hs.supports hs.proper hs.measurable_prior
  have hconv := slot_converges law i ρ hρ (by rw [hZ]; exact evidence_ne_zero hs ys h0) (by rw [hZ]; exact hfin) hp priorMass_nonneg hR
    hscale hx
  intro ε hε
  obtain ⟨N, hN⟩ := hconv ε hε
  refine ⟨N, fun k hk A hA => ?_⟩
  have hun : Measurable fun z : Row c.dim × ℝ => c.unstack z.1 false := (measurable_unstack c).comp measurable_fst
  set F : Row c.dim × ℝ → ℝ := ((fun z : Row c.dim × ℝ => c.unstack z.1 false) ⁻¹' A).indicator 1 with hF
  have hFm : Measurable F := measurable_one.indicator (hun hA)
  have := hN k hk F hFm (fun x => Set.indicator_nonneg (fun _ _ => zero_le_one) x)
    (fun x => Set.indicator_le_self' (fun _ _ => zero_le_one) x)
  have hm := measurable_path_right (measurable_batchMove (scale := scale) i hp hR) k (start, l)
  have e1 : ∫ ξ, F (path (batchMove (priorMass c) R scale i) k (start, l) ξ) ∂streamLaw ρ
      = (streamLaw ρ).real {ξ | c.unstack ((fit ξ k).chain.params i) false ∈ A} := by
    have hset : {ξ | c.unstack ((fit ξ k).chain.params i) false ∈ A}
        = (path (batchMove (priorMass c) R scale i) k (start, l)) ⁻¹'
          ((fun z : Row c.dim × ℝ => c.unstack z.1 false) ⁻¹' A) := by
      ext ξ
      show c.unstack ((fit ξ k).chain.params i) false ∈ A ↔ c.unstack (path _ k (start, l) ξ).1 false ∈ A
      rw [hpath]
    rw [hset, ← integral_indicator_one (hm (hun hA))]
    rfl
  have e2 : ∫ x, F x ∂slotTarget (priorMass c) R law
      = (posterior c (likelihood f.opt.observeEveryStep f.missing μ K logg ys)).real A := by
    rw [← hpost, map_measureReal_apply hun hA, ← integral_indicator_one (hun hA)]
  rwa [e1, e2] at this

/-- What is recorded in a run: the parameters after 0, 1, …, k iterations. -/
theorem fitRun_recorded {S d : ℕ} {Name W : Type} (env : Env d Y Ω) (scale : Row d) (get : Name → Row d → W)
    (ys : List Y) (drawn : Fin S → Row d) (start : Row d) (noise : Fin S → ℕ → Ω) (subDrawn : Fin S → Row d)
    (ξ : ℕ → Source S d Ω) (k : ℕ) (nm : Name) :
    let f := fitInit (randomWalk scale) get n ys drawn start noise subDrawn
    (fitRun env scale get ys f ((List.range k).map ξ)).recorded get nm = (List.range (k + 1)).map fun j i =>
      get nm ((fitRun env scale get ys f ((List.range j).map ξ)).chain.params i) := by
  intro f
  rw [fitRun_eq]
  refine (C71_record env (randomWalk scale) get n ys drawn start noise subDrawn
    (drawsOf env scale get ys f ((List.range k).map ξ)) nm).trans ?_
  rw [drawsOf_length, List.length_map, List.length_range]
  refine List.map_congr_left fun j hj => ?_
  have hj' : j ≤ k := Nat.lt_succ_iff.1 (List.mem_range.1 hj)
  funext i
  rw [fitRun_eq, fitLoop_chain, drawsOf_take, ← List.map_take, List.take_range, min_eq_left hj']

/-- **C124.** Averages over the recorded samples of a chain converge in mean square to the expectation under the
posterior: of any bounded measurable function `φ` of a parameter `nm`, whose value `get` reads off the row. -/
theorem C124_averages (hs : PmmhSetup P f n μ K logg) (lo eps : ℝ) (ys : List Y) (law : Measure (ℕ → Ω))
    [IsProbabilityMeasure law] (hlaw : law.map (fun ω => ω 0) = P) {S : ℕ} (i : Fin S)
    (scale : Row c.dim) (hscale : ∀ j, 0 < scale j) {Name W : Type} (get : Name → Row c.dim → W)
    (drawn : Fin S → Row c.dim) (start : Row c.dim) (noise : Fin S → ℕ → Ω) (subDrawn : Fin S → Row c.dim)
    (hstart : expMass (c.logPrior start) ≠ 0) (ρ : Measure (Source S c.dim Ω)) [IsProbabilityMeasure ρ]
    (hρ : ρ.map (fun e => e i) = slotDraws c.dim law)
    (h0 : ∫⁻ θ in space c, jointPrior c θ ≠ 0)
    (hfin : evidence c (likelihood f.opt.observeEveryStep f.missing μ K logg ys) ≠ ∞)
    (nm : Name) (val : (∀ i, Fin (c.numel i) → ℝ) → W) (hval : ∀ u, get nm u = val (c.unstack u false))
    (φ : W → ℝ) (hφ : Measurable fun θ => φ (val θ)) (C : ℝ) (hC : ∀ v, |φ v| ≤ C) :
    let samples := fun (ξ : ℕ → Source S c.dim Ω) k => (fitRun (f.env lo eps) scale get ys
      (fitInit (randomWalk scale) get n ys drawn start noise subDrawn) ((List.range k).map ξ)).recorded get nm
    Tendsto (fun k => ∫ ξ, (((samples ξ k).map fun v => φ (v i)).sum / (samples ξ k).length
      - ∫ θ, φ (val θ) ∂posterior c (likelihood f.opt.observeEveryStep f.missing μ K logg ys)) ^ 2 ∂streamLaw ρ)
      atTop (𝓝 0) := by
  intro samples
  obtain ⟨R, l, hR, hx, hZ, hpost, hpath⟩ :=
    pmmh_path hs lo eps ys law hlaw i scale get drawn start noise subDrawn hstart
  have hp : Measurable (priorMass c) := measurable_logPrior c hs.supports hs.proper hs.measurable_prior
  have hun : Measurable fun z : Row c.dim × ℝ => c.unstack z.1 false := (measurable_unstack c).comp measurable_fst
  have hg : Measurable fun z : Row c.dim × ℝ => φ (val (c.unstack z.1 false)) := hφ.comp hun
  have havg := slot_averages law i ρ hρ (by rw [hZ]; exact evidence_ne_zero hs ys h0) (by rw [hZ]; exact hfin) hp priorMass_nonneg hR
    hscale hx hg (fun z => hC _)
  refine ((tendsto_add_atTop_iff_nat 1).2 havg).congr fun k => ?_
  rw [← hpost, integral_map hun.aemeasurable hφ.aestronglyMeasurable]
  refine integral_congr_ae (Eventually.of_forall fun ξ => ?_)
  dsimp only
  have e1 : samples ξ k = (List.range (k + 1)).map fun j i' => get nm ((fitRun (f.env lo eps) scale get ys
      (fitInit (randomWalk scale) get n ys drawn start noise subDrawn) ((List.range j).map ξ)).chain.params i') :=
    fitRun_recorded (f.env lo eps) scale get ys drawn start noise subDrawn ξ k nm
  have e2 : ((samples ξ k).map fun v => φ (v i)).sum = ∑ j ∈ Finset.range (k + 1),
      φ (val (c.unstack (path (batchMove (priorMass c) R scale i) j (start, l) ξ).1 false)) := by
    rw [e1, List.map_map, ← List.sum_toFinset _ List.nodup_range, List.toFinset_range]
    refine Finset.sum_congr rfl fun j _ => ?_
    simp only [Function.comp_apply]
    rw [hval, hpath]
  have e3 : (samples ξ k).length = k + 1 := by rw [e1, List.length_map, List.length_range]
  rw [e2, e3]

end

/-! ### A case -/

theorem lik_le_one {X Y : Type} [MeasurableSpace X] {K : ℕ → Kernel X X} [∀ t, IsMarkovKernel (K t)]
    {g : Y → ℕ → X → ℝ≥0∞} (hg : ∀ y t x, g y t x ≤ 1) : ∀ (os : List (Option Y)) (t : ℕ) (x : X),
    lik K g os t x ≤ 1
  | [], _, _ => le_refl _
  | none :: os, t, x => by
    rw [lik]
    refine (lintegral_mono fun x' => lik_le_one hg os (t + 1) x').trans ?_
    simp
  | some y :: os, t, x => by
    rw [lik]
    refine (lintegral_mono (g := fun _ => (1 : ℝ≥0∞)) fun x' => ?_).trans (by simp)
    exact mul_le_one' (hg _ _ _) (lik_le_one hg os (t + 1) x')

/-- The likelihood of the demo. -/
noncomputable abbrev demoLik : (∀ i, Fin (priorDemo.numel i) → ℝ) → ℝ≥0∞ :=
  likelihood 2 (fun _ => false) (fun _ => (gaussianReal 0 1).map fun z _ => z)
    (fun θ t => noiseKernel (gaussianReal 0 1) (exactMove θ 0 t)) exactLogg [3, 1]

theorem demoLik_le (θ : ∀ i, Fin (priorDemo.numel i) → ℝ) : demoLik θ ≤ 1 := by
  have h1 : ∀ t, IsMarkovKernel (noiseKernel (gaussianReal 0 1) (exactMove θ 0 t)) := fun t =>
    noise_markov _ (by unfold exactMove; fun_prop)
  have h2 : IsProbabilityMeasure ((gaussianReal 0 1).map fun z (_ : Fin 1) => z) :=
    Measure.isProbabilityMeasure_map (by fun_prop)
  unfold demoLik likelihood
  refine (lintegral_mono fun x => lik_le_one (fun y t x => ?_) _ 0 x).trans (by simp)
  rw [ENNReal.ofReal_le_one, Real.exp_le_one_iff]
  unfold exactLogg
  have := sq_nonneg (y - x 0 - θ (0 : Fin 3) (0 : Fin 2))
  linarith

theorem priorDemo_positive (u : Row priorDemo.dim) : 0 < expMass (priorDemo.logPrior u) := by
  rw [logPrior_eq priorDemo priorDemo_valid u, (expMass_sum Finset.univ _ _ fun i => priorDemo_proper i _).1]
  refine mul_pos (Real.exp_pos _) (Finset.prod_pos fun i _ => ?_)
  match i with
  | ⟨0, _⟩ => exact Real.exp_pos _
  | ⟨1, _⟩ => exact Real.exp_pos _
  | ⟨2, _⟩ => exact Real.exp_pos _

/-- The prior of the demo is a probability density. -/
theorem priorDemo_total : ∫⁻ θ in space priorDemo, jointPrior priorDemo θ = 1 := by
  classical
  set k0 : ℝ → ℝ := fun x => Real.exp (-(1 / 2) * x ^ 2) with hk0
  set k1 : ℝ → ℝ := (Set.Ioi 0).indicator fun x => Real.exp (-x) with hk1
  set k2 : ℝ → ℝ := (Set.Ioo (-1) 1).indicator fun _ => Real.exp (-Real.log 2) with hk2
  have i0 : Integrable fun x : Fin 2 → ℝ => ∏ j, k0 (x j) :=
    Integrable.fintype_prod fun _ => integrable_exp_neg_mul_sq (by norm_num)
  have i1 : Integrable fun x : Fin 1 → ℝ => ∏ j, k1 (x j) :=
    Integrable.fintype_prod fun _ => (integrable_indicator_iff measurableSet_Ioi).2 (integrableOn_exp_neg_Ioi 0)
  have i2 : Integrable fun x : Fin 1 → ℝ => ∏ j, k2 (x j) :=
    Integrable.fintype_prod fun _ => (integrable_indicator_iff measurableSet_Ioo).2
      (integrableOn_const (by simp))
  let h : ∀ i : Fin priorDemo.m, (Fin (priorDemo.numel i) → ℝ) → ℝ := fun i => match i with
    | ⟨0, _⟩ => fun x : Fin 2 → ℝ => Real.exp (-Real.log (2 * Real.pi)) * ∏ j, k0 (x j)
    | ⟨1, _⟩ => fun x : Fin 1 → ℝ => ∏ j, k1 (x j)
    | ⟨2, _⟩ => fun x : Fin 1 → ℝ => ∏ j, k2 (x j)
  have hint : ∀ i, Integrable (h i) := fun i => match i with
    | ⟨0, _⟩ => i0.const_mul _
    | ⟨1, _⟩ => i1
    | ⟨2, _⟩ => i2
  have hprod : Integrable fun x : ∀ i, Fin (priorDemo.numel i) → ℝ => ∏ i, h i (x i) :=
    Integrable.fintype_prod_dep hint
  have hle : ∀ x ∈ space priorDemo, jointPrior priorDemo x = ENNReal.ofReal (∏ i, h i (x i)) := by
    intro x hx
    unfold jointPrior
    have hnn : ∀ i, expMass ((priorDemo.prior i).logProb (x i)) = h i (x i) := fun i => match i with
      | ⟨0, _⟩ => by
        show Real.exp (-(x (0 : Fin 3) (0 : Fin 2)) ^ 2 / 2 - (x (0 : Fin 3) (1 : Fin 2)) ^ 2 / 2
          - Real.log (2 * Real.pi)) = Real.exp _ * ∏ j : Fin 2, k0 (x (0 : Fin 3) j)
        rw [Fin.prod_univ_two, hk0, ← Real.exp_add, ← Real.exp_add]
        congr 1
        ring
      | ⟨1, _⟩ => by
        show Real.exp (-x (1 : Fin 3) (0 : Fin 1)) = ∏ j : Fin 1, k1 (x (1 : Fin 3) j)
        rw [Fin.prod_univ_one, hk1, Set.indicator_of_mem (show x (1 : Fin 3) (0 : Fin 1) ∈ Set.Ioi (0 : ℝ) from
          hx (1 : Fin 3) (0 : Fin 1))]
      | ⟨2, _⟩ => by
        show Real.exp (-Real.log 2) = ∏ j : Fin 1, k2 (x (2 : Fin 3) j)
        rw [Fin.prod_univ_one, hk2, Set.indicator_of_mem (show x (2 : Fin 3) (0 : Fin 1) ∈ Set.Ioo (-1 : ℝ) 1 from
          hx (2 : Fin 3) (0 : Fin 1))]
    rw [← ENNReal.ofReal_prod_of_nonneg]
    · exact congrArg _ (Finset.prod_congr rfl fun i _ => hnn i)
    · intro i _
      cases (priorDemo.prior i).logProb (x i) <;> simp [expMass, Real.exp_nonneg]
  have hspace : MeasurableSet (space priorDemo) := by
    have : space priorDemo = Set.univ.pi fun i => Set.univ.pi fun j => points ((priorDemo.prior i).support j) := by
      ext x
      simp [space, Set.mem_pi]
    rw [this]
    refine MeasurableSet.univ_pi fun i => MeasurableSet.univ_pi fun j => ?_
    cases (priorDemo.prior i).support j
    · exact MeasurableSet.univ
    · exact measurableSet_Ioi
    · exact measurableSet_Iio
    · exact measurableSet_Ioo
  have hout : ∀ x, x ∉ space priorDemo → ENNReal.ofReal (∏ i, h i (x i)) = 0 := by
    intro x hx
    have : ∏ i, h i (x i) = 0 := by
      by_contra hne
      replace hne := Finset.prod_ne_zero_iff.1 hne
      refine hx fun i j => ?_
      match i, j with
      | ⟨0, _⟩, _ => exact trivial
      | ⟨1, _⟩, j =>
        have h1 : (∏ j : Fin 1, k1 (x (1 : Fin 3) j)) ≠ 0 := hne (1 : Fin 3) (Finset.mem_univ _)
        have h2 := Finset.prod_ne_zero_iff.1 h1 j (Finset.mem_univ _)
        by_contra hj
        exact h2 (Set.indicator_of_notMem hj _)
      | ⟨2, _⟩, j =>
        have h1 : (∏ j : Fin 1, k2 (x (2 : Fin 3) j)) ≠ 0 := hne (2 : Fin 3) (Finset.mem_univ _)
        have h2 := Finset.prod_ne_zero_iff.1 h1 j (Finset.mem_univ _)
        by_contra hj
        exact h2 (Set.indicator_of_notMem hj _)
    rw [this, ENNReal.ofReal_zero]
  have hnn : ∀ i x, 0 ≤ h i x := fun i => match i with
    | ⟨0, _⟩ => fun x => mul_nonneg (Real.exp_pos _).le (Finset.prod_nonneg fun j _ => (Real.exp_pos _).le)
    | ⟨1, _⟩ => fun x => Finset.prod_nonneg fun j _ => Set.indicator_nonneg (fun _ _ => (Real.exp_pos _).le) _
    | ⟨2, _⟩ => fun x => Finset.prod_nonneg fun j _ => Set.indicator_nonneg (fun _ _ => (Real.exp_pos _).le) _
  have t0 : ∫ x : Fin 2 → ℝ, Real.exp (-Real.log (2 * Real.pi)) * ∏ j, k0 (x j) = 1 := by
    rw [integral_const_mul, integral_fintype_prod_volume_eq_pow, integral_gaussian, Fintype.card_fin,
      Real.sq_sqrt (by positivity), Real.exp_neg, Real.exp_log (by positivity)]
    field_simp
  have t1 : ∫ x : Fin 1 → ℝ, ∏ j, k1 (x j) = 1 := by
    rw [integral_fintype_prod_volume_eq_pow, integral_indicator measurableSet_Ioi, integral_exp_neg_Ioi_zero, one_pow]
  have t2 : ∫ x : Fin 1 → ℝ, ∏ j, k2 (x j) = 1 := by
    rw [integral_fintype_prod_volume_eq_pow, integral_indicator measurableSet_Ioo, setIntegral_const,
      Real.exp_neg, Real.exp_log two_pos]
    norm_num
  have ht : ∀ i, ∫ x, h i x = 1 := fun i => match i with
    | ⟨0, _⟩ => t0
    | ⟨1, _⟩ => t1
    | ⟨2, _⟩ => t2
  rw [setLIntegral_congr_fun hspace hle, ← lintegral_indicator hspace]
  have hind : ∀ x, (space priorDemo).indicator (fun x => ENNReal.ofReal (∏ i, h i (x i))) x
      = ENNReal.ofReal (∏ i, h i (x i)) := by
    intro x
    by_cases hx : x ∈ space priorDemo
    · rw [Set.indicator_of_mem hx]
    · rw [Set.indicator_of_notMem hx, hout x hx]
  simp only [hind]
  rw [← ofReal_integral_eq_lintegral_ofReal hprod (Filter.Eventually.of_forall fun x =>
    Finset.prod_nonneg fun i _ => hnn i _), integral_fintype_prod_volume_eq_prod]
  simp only [ht, Finset.prod_const_one, ENNReal.ofReal_one]

theorem priorDemo_mass : ∫⁻ θ in space priorDemo, jointPrior priorDemo θ ≠ 0 := by
  rw [priorDemo_total]
  exact one_ne_zero

theorem priorDemo_finite : ∫⁻ θ in space priorDemo, jointPrior priorDemo θ ≠ ∞ := by
  rw [priorDemo_total]
  exact ENNReal.one_ne_top

theorem demo_evidence : evidence priorDemo demoLik ≠ ∞ := by
  refine ne_top_of_le_ne_top priorDemo_finite (lintegral_mono fun θ => ?_)
  exact mul_le_of_le_one_right' (demoLik_le θ)

/-- Random numbers of two chains. -/
noncomputable def demoSource : Measure (Source 2 priorDemo.dim (ℕ → DemoEntry)) :=
  Measure.pi fun _ => slotDraws priorDemo.dim (Measure.infinitePi fun _ => streamLaw demoEntryLaw)

instance : IsProbabilityMeasure (slotDraws priorDemo.dim (Measure.infinitePi fun _ : ℕ => streamLaw demoEntryLaw)) := by
  have hu : IsProbabilityMeasure (volume.restrict (Set.Ico (0 : ℝ) 1)) := ⟨by simp⟩
  unfold slotDraws
  infer_instance

instance : IsProbabilityMeasure demoSource := by unfold demoSource; infer_instance

/-- Two chains with SISR or APF, 10 particles, started at 0 (in unconstrained space) while the first model was
built from the parameters 1: the coefficient in (-1, 1) is positive with the posterior probability, up to `ε`. -/
example (kind : FilterKind) (h : kind = .sisr ∨ kind = .apf) :
    ∀ ε > (0 : ℝ), ∃ N, ∀ k ≥ N,
      |(streamLaw demoSource).real {ξ | 0 < priorDemo.unstack ((fitRun ((exactFilter kind).env (-1000) (1 / 1000))
          (fun _ => 1 / 5) (fun (_ : Unit) u => priorDemo.unstack u false (2 : Fin 3) (0 : Fin 1)) [3, 1]
          (fitInit (randomWalk fun _ => 1 / 5) (fun _ u => priorDemo.unstack u false (2 : Fin 3) (0 : Fin 1)) 10 [3, 1]
            (fun _ _ => 1) (fun _ => 0) (fun _ _ _ => ((0, fun _ => 0) : DemoEntry)) fun _ _ => 2)
          ((List.range k).map ξ)).chain.params 1) false (2 : Fin 3) (0 : Fin 1)}
        - (posterior priorDemo demoLik).real {θ | 0 < θ (2 : Fin 3) (0 : Fin 1)}| ≤ ε := by
  intro ε hε
  obtain ⟨N, hN⟩ := C123_converges (exact_setup kind h 10 (by norm_num)) (-1000) (1 / 1000) [3, 1] _
    (measurePreserving_eval_infinitePi (fun _ => streamLaw demoEntryLaw) 0).map_eq (1 : Fin 2) (fun _ => 1 / 5)
    (fun _ => by norm_num) (fun (_ : Unit) u => priorDemo.unstack u false (2 : Fin 3) (0 : Fin 1)) (fun _ _ => 1)
    (fun _ => 0) (fun _ _ _ => ((0, fun _ => 0) : DemoEntry)) (fun _ _ => 2) (priorDemo_positive _).ne' demoSource
    (measurePreserving_eval _ 1).map_eq priorDemo_mass demo_evidence ε hε
  refine ⟨N, fun k hk => hN k hk {θ | 0 < θ (2 : Fin 3) (0 : Fin 1)} ?_⟩
  exact measurableSet_lt measurable_const ((measurable_pi_apply _).comp (measurable_pi_apply _))

/-- The average of the coefficient (which is bounded) over the record of the second chain. -/
example (kind : FilterKind) (h : kind = .sisr ∨ kind = .apf) :
    let get := fun (_ : Unit) (u : Row priorDemo.dim) => priorDemo.unstack u false (2 : Fin 3) (0 : Fin 1)
    let samples := fun ξ k => (fitRun ((exactFilter kind).env (-1000) (1 / 1000)) (fun _ => 1 / 5) get [3, 1]
      (fitInit (randomWalk fun _ => 1 / 5) get 10 [3, 1] (fun _ _ => 1) (fun _ => 0)
        (fun (_ : Fin 2) _ _ => ((0, fun _ => 0) : DemoEntry)) fun _ _ => 2) ((List.range k).map ξ)).recorded get ()
    Tendsto (fun k => ∫ ξ, (((samples ξ k).map fun v => max (-1) (min 1 (v 1))).sum / (samples ξ k).length
      - ∫ θ, max (-1) (min 1 (θ (2 : Fin 3) (0 : Fin 1))) ∂posterior priorDemo demoLik) ^ 2 ∂streamLaw demoSource)
      atTop (𝓝 0) := by
  intro get samples
  exact C124_averages (exact_setup kind h 10 (by norm_num)) (-1000) (1 / 1000) [3, 1] _
    (measurePreserving_eval_infinitePi (fun _ => streamLaw demoEntryLaw) 0).map_eq (1 : Fin 2) (fun _ => 1 / 5)
    (fun _ => by norm_num) get (fun _ _ => 1)
    (fun _ => 0) (fun _ _ _ => ((0, fun _ => 0) : DemoEntry)) (fun _ _ => 2) (priorDemo_positive _).ne' demoSource
    (measurePreserving_eval _ 1).map_eq priorDemo_mass demo_evidence ()
    (fun θ => θ (2 : Fin 3) (0 : Fin 1)) (fun _ => rfl) (fun v => max (-1) (min 1 v))
    (measurable_const.max (measurable_const.min ((measurable_pi_apply _).comp (measurable_pi_apply _)))) 1
    (fun v => abs_le.2 ⟨le_max_left _ _, max_le (by norm_num) (min_le_left _ _)⟩)

end Verif.Props
