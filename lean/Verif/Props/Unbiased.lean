import Verif.Lemmas.Unbiased
import Verif.Lemmas.RunSlots
import Verif.Lemmas.Stream
import Mathlib.Probability.Distributions.Gaussian.Real

/-!
# Properties C30 and C31: unbiased likelihood estimates
-/

namespace Verif.Props

open Verif Verif.Spec Verif.Unbiased XF MeasureTheory ProbabilityTheory
open scoped ENNReal

variable {N B d : ℕ} {V Y Ω : Type} [MeasurableSpace V] [MeasurableSpace Ω]

/-- Elementary steps of SISR. -/
theorem sisr_totalP (P : Measure Ω) [IsProbabilityMeasure P] (hN : 0 < N) (M : ParticleModel N B d V Y Ω)
    (hinc : M.kind.increment = 1) (hr : UnbiasedResampler P M.resampler)
    {K : Fin B → ℕ → Kernel (Fin d → V) (Fin d → V)} (hK : DrawsTransitions P M.propagateValues K)
    {logg : Fin B → Y → ℕ → (Fin d → V) → ℝ} (hlogg : ∀ b y t, Measurable (logg b y t))
    (hS : ProperProposal P M.sampleValues K logg) (b : Fin B) : ∀ (os : List (Option Y)) (t : ℕ),
    EstP P b t ((FilterKind.sisr.ops M).totalP (fun c => c.ll b) os)
      (lik (K b) (fun y t x => ENNReal.ofReal (Real.exp (logg b y t x))) os t)
  | [], t => by
    refine ⟨fun _ => 0, measurable_const, fun _ _ _ _ => rfl, fun x w => ?_⟩
    simp only [Real.exp_zero, ENNReal.ofReal_one, lintegral_const, measure_univ, mul_one, lik]
    rw [← ENNReal.ofReal_sum_of_nonneg fun i _ => sm_nonneg w b i, (sm_isProb w b hN).2, ENNReal.ofReal_one]
  | none :: os, t => est_createState P hK
      (measurable_lik _ _ (fun y t => (Real.measurable_exp.comp (hlogg b y t)).ennreal_ofReal) os (t + 1))
      (est_sisrPredict P hN hr (sisr_totalP P hN M hinc hr hK hlogg hS b os (t + 1)))
  | some y :: os, t => est_sisrCorrect P hinc hS hN y
      (measurable_lik _ _ (fun y t => (Real.measurable_exp.comp (hlogg b y t)).ennreal_ofReal) os (t + 1))
      (est_sisrPredict P hN hr (sisr_totalP P hN M hinc hr hK hlogg hS b os (t + 1)))

/-- Elementary steps of the APF. -/
theorem apf_totalP (P : Measure Ω) [IsProbabilityMeasure P] (hN : 0 < N) (M : ParticleModel N B d V Y Ω)
    (hinc : M.kind.increment = 1) (hr : UnbiasedLogResampler P M.resampler)
    {K : Fin B → ℕ → Kernel (Fin d → V) (Fin d → V)} (hK : DrawsTransitions P M.propagateValues K)
    {logg : Fin B → Y → ℕ → (Fin d → V) → ℝ} (hlogg : ∀ b y t, Measurable (logg b y t))
    (hS : ProperProposal P M.sampleValues K logg)
    (pre : Y → ℕ → (Fin N → Fin B → Fin d → V) → Fin N → Fin B → ℝ) (hpre : ∀ y t, Measurable (pre y t))
    (hpe : ∀ y x i b, M.preWeight y x i b = fin (pre y x.time x.value i b)) (b : Fin B) :
    ∀ (os : List (Option Y)) (t : ℕ),
    EstP P b t ((FilterKind.apf.ops M).totalP (fun c => c.ll b) os)
      (lik (K b) (fun y t x => ENNReal.ofReal (Real.exp (logg b y t x))) os t)
  | [], t => by
    refine ⟨fun _ => 0, measurable_const, fun _ _ _ _ => rfl, fun x w => ?_⟩
    simp only [Real.exp_zero, ENNReal.ofReal_one, lintegral_const, measure_univ, mul_one, lik]
    rw [← ENNReal.ofReal_sum_of_nonneg fun i _ => sm_nonneg w b i, (sm_isProb w b hN).2, ENNReal.ofReal_one]
  | none :: os, t => est_createState P hK
      (measurable_lik _ _ (fun y t => (Real.measurable_exp.comp (hlogg b y t)).ennreal_ofReal) os (t + 1))
      (est_apfPredict P (apf_totalP P hN M hinc hr hK hlogg hS pre hpre hpe b os (t + 1)))
  | some y :: os, t => est_apfCorrect P hinc hS hr hN y (pre y t) (hpre y t)
      (fun x i b => hpe y ⟨x, t⟩ i b)
      (measurable_lik _ _ (fun y t => (Real.measurable_exp.comp (hlogg b y t)).ennreal_ofReal) os (t + 1))
      (est_apfPredict P (apf_totalP P hN M hinc hr hK hlogg hS pre hpre hpe b os (t + 1)))

/-- From elementary steps to the run of a filter. -/
theorem run_unbiased (P : Measure Ω) [IsProbabilityMeasure P] (hN : 0 < N) (M : ParticleModel N B d V Y Ω)
    (hinc : M.kind.increment = 1) (fk : FilterKind) (b : Fin B) (μ : Fin B → Measure (Fin d → V))
    (init : Ω → (Fin N → Fin B → Fin d → V) × Ω) (hinit : DrawsInitial P init μ)
    (opt : FilterOptions) (hk : 0 < opt.observeEveryStep) (fuel : ℕ) (hfuel : opt.observeEveryStep - 1 ≤ fuel)
    (ys : List Y) (h : (Fin d → V) → ℝ≥0∞) (hh : Measurable h)
    (hest : Est P b 0 (fun c ω => (fk.ops M).totalP (fun c => c.ll b)
      (slots opt.observeEveryStep M.allNan ys) ((fk.ops M).predict c ω).1 ((fk.ops M).predict c ω).2) h) :
    ∃ run : Ω → PCorr N B d V × List (PCorr N B d V) × Ω,
      (∀ ω, (fk.ops M).filterAll opt fuel ys (initializeFilter M.lo (init ω).1) (init ω).2 = some (run ω)) ∧
      (∀ ω, ∃ r, ((run ω).2.1.map fun c => c.ll b).sum = fin r) ∧
      ∫⁻ ω, ENNReal.ofReal (expOf ((run ω).2.1.map fun c => c.ll b).sum) ∂P = ∫⁻ x, h x ∂(μ b) := by
  have hrun := fun ω => FilterOps.filterAll_total (ticks fk M hinc) (fun c => c.ll b) (fun _ _ => rfl) opt hk
    fuel hfuel ys 0 (initializeFilter M.lo (init ω).1) (init ω).2 rfl
  have hslots : (fk.ops M).slotsFrom opt.observeEveryStep 0 ys = slots opt.observeEveryStep M.allNan ys :=
    FilterOps.slotsFrom_zero _ _ _
  rw [hslots] at hrun
  choose run hrun hs using hrun
  obtain ⟨h1, h2⟩ := est_initial P hN hinit hh hest M.lo
  refine ⟨run, hrun, fun ω => ?_, ?_⟩
  · obtain ⟨r, hr⟩ := h1 ω
    exact ⟨r, (hs ω).trans hr⟩
  · simp only [hs]
    exact h2

/-! ## C30 -/

/-- C30: for the SISR filter with bootstrap proposal, the exponential of the estimated log-likelihood (the
sum of the log-likelihoods of all steps) has the likelihood of the observations as expectation, for every
number of particles, every threshold, every list of observations (some of which may be missing), every
observation frequency, every unbiased resampler, every model with positive observation densities. -/
theorem C30_sisr_unbiased (P : Measure Ω) [IsProbabilityMeasure P] (hN : 0 < N) (lo threshold : ℝ)
    (resampler : {b : ℕ} → (Fin N → Fin b → XF) → Bool → Ω → (Fin N → Fin b → Fin N) × Ω)
    (hr : UnbiasedResampler P resampler)
    (K : Fin B → ℕ → Kernel (Fin d → V) (Fin d → V)) (μ : Fin B → Measure (Fin d → V))
    (logg : Fin B → Y → ℕ → (Fin d → V) → ℝ) (hlogg : ∀ b y t, Measurable (logg b y t))
    (init : Ω → (Fin N → Fin B → Fin d → V) × Ω) (hinit : DrawsInitial P init μ)
    (propagate : TS N B d V → Ω → (Fin N → Fin B → Fin d → V) × Ω) (hK : DrawsTransitions P propagate K)
    (preWeight : Y → TS N B d V → Fin N → Fin B → XF) (missing : Y → Bool)
    (opt : FilterOptions) (hk : 0 < opt.observeEveryStep) (fuel : ℕ) (hfuel : opt.observeEveryStep - 1 ≤ fuel)
    (ys : List Y) (b : Fin B) :
    ∃ run : Ω → PCorr N B d V × List (PCorr N B d V) × Ω,
      (∀ ω, (FilterKind.sisr.ops (bootstrapModel lo threshold resampler propagate
          (fun y x i b => fin (logg b y x.time (x.value i b))) preWeight missing)).filterAll opt fuel ys
          (initializeFilter lo (init ω).1) (init ω).2 = some (run ω)) ∧
      (∀ ω, ∃ r, ((run ω).2.1.map fun c => c.ll b).sum = fin r) ∧
      ∫⁻ ω, ENNReal.ofReal (expOf ((run ω).2.1.map fun c => c.ll b).sum) ∂P
        = ∫⁻ x, lik (K b) (fun y t x => ENNReal.ofReal (Real.exp (logg b y t x)))
            (slots opt.observeEveryStep missing ys) 0 x ∂(μ b) :=
  run_unbiased P hN (bootstrapModel lo threshold resampler propagate
    (fun y x i b => fin (logg b y x.time (x.value i b))) preWeight missing) rfl .sisr b μ init hinit opt hk fuel
    hfuel ys _
    (measurable_lik _ _ (fun y t => (Real.measurable_exp.comp (hlogg b y t)).ennreal_ofReal) _ 0)
    (est_sisrPredict P hN hr (sisr_totalP P hN _ rfl hr hK hlogg (bootstrap_proper P hK logg hlogg) b _ 0))

/-- C30, beyond the bootstrap proposal: every proposal whose importance weights correct for the difference
between proposal and model gives an unbiased estimate. -/
theorem C30_proper_proposals (P : Measure Ω) [IsProbabilityMeasure P] (hN : 0 < N)
    (M : ParticleModel N B d V Y Ω) (hkind : M.kind.increment = 1) (hr : UnbiasedResampler P M.resampler)
    (K : Fin B → ℕ → Kernel (Fin d → V) (Fin d → V)) (μ : Fin B → Measure (Fin d → V))
    (logg : Fin B → Y → ℕ → (Fin d → V) → ℝ) (hlogg : ∀ b y t, Measurable (logg b y t))
    (init : Ω → (Fin N → Fin B → Fin d → V) × Ω) (hinit : DrawsInitial P init μ)
    (hK : DrawsTransitions P M.propagateValues K) (hM : ProperProposal P M.sampleValues K logg)
    (opt : FilterOptions) (hk : 0 < opt.observeEveryStep) (fuel : ℕ) (hfuel : opt.observeEveryStep - 1 ≤ fuel)
    (ys : List Y) (b : Fin B) :
    ∃ run : Ω → PCorr N B d V × List (PCorr N B d V) × Ω,
      (∀ ω, (FilterKind.sisr.ops M).filterAll opt fuel ys (initializeFilter M.lo (init ω).1) (init ω).2
        = some (run ω)) ∧
      (∀ ω, ∃ r, ((run ω).2.1.map fun c => c.ll b).sum = fin r) ∧
      ∫⁻ ω, ENNReal.ofReal (expOf ((run ω).2.1.map fun c => c.ll b).sum) ∂P
        = ∫⁻ x, lik (K b) (fun y t x => ENNReal.ofReal (Real.exp (logg b y t x)))
            (slots opt.observeEveryStep M.allNan ys) 0 x ∂(μ b) :=
  run_unbiased P hN M hkind .sisr b μ init hinit opt hk fuel hfuel ys _
    (measurable_lik _ _ (fun y t => (Real.measurable_exp.comp (hlogg b y t)).ennreal_ofReal) _ 0)
    (est_sisrPredict P hN hr (sisr_totalP P hN _ hkind hr hK hlogg hM b _ 0))

/-! ## C31 -/

/-- C31: the same for the APF with bootstrap proposal, for every finite pre-weighting function. -/
theorem C31_apf_unbiased (P : Measure Ω) [IsProbabilityMeasure P] (hN : 0 < N) (lo threshold : ℝ)
    (resampler : {b : ℕ} → (Fin N → Fin b → XF) → Bool → Ω → (Fin N → Fin b → Fin N) × Ω)
    (hr : UnbiasedLogResampler P resampler)
    (K : Fin B → ℕ → Kernel (Fin d → V) (Fin d → V)) (μ : Fin B → Measure (Fin d → V))
    (logg : Fin B → Y → ℕ → (Fin d → V) → ℝ) (hlogg : ∀ b y t, Measurable (logg b y t))
    (init : Ω → (Fin N → Fin B → Fin d → V) × Ω) (hinit : DrawsInitial P init μ)
    (propagate : TS N B d V → Ω → (Fin N → Fin B → Fin d → V) × Ω) (hK : DrawsTransitions P propagate K)
    (pre : Y → ℕ → (Fin N → Fin B → Fin d → V) → Fin N → Fin B → ℝ) (hpre : ∀ y t, Measurable (pre y t))
    (missing : Y → Bool)
    (opt : FilterOptions) (hk : 0 < opt.observeEveryStep) (fuel : ℕ) (hfuel : opt.observeEveryStep - 1 ≤ fuel)
    (ys : List Y) (b : Fin B) :
    ∃ run : Ω → PCorr N B d V × List (PCorr N B d V) × Ω,
      (∀ ω, (FilterKind.apf.ops (bootstrapModel lo threshold resampler propagate
          (fun y x i b => fin (logg b y x.time (x.value i b)))
          (fun y x i b => fin (pre y x.time x.value i b)) missing)).filterAll opt fuel ys
          (initializeFilter lo (init ω).1) (init ω).2 = some (run ω)) ∧
      (∀ ω, ∃ r, ((run ω).2.1.map fun c => c.ll b).sum = fin r) ∧
      ∫⁻ ω, ENNReal.ofReal (expOf ((run ω).2.1.map fun c => c.ll b).sum) ∂P
        = ∫⁻ x, lik (K b) (fun y t x => ENNReal.ofReal (Real.exp (logg b y t x)))
            (slots opt.observeEveryStep missing ys) 0 x ∂(μ b) :=
  run_unbiased P hN (bootstrapModel lo threshold resampler propagate
    (fun y x i b => fin (logg b y x.time (x.value i b)))
    (fun y x i b => fin (pre y x.time x.value i b)) missing) rfl .apf b μ init hinit opt hk fuel hfuel ys _
    (measurable_lik _ _ (fun y t => (Real.measurable_exp.comp (hlogg b y t)).ennreal_ofReal) _ 0)
    (est_apfPredict P (apf_totalP P hN _ rfl hr hK hlogg (bootstrap_proper P hK logg hlogg) pre hpre
      (fun _ _ _ _ => rfl) b _ 0))

/-- C31, beyond the bootstrap proposal. -/
theorem C31_proper_proposals (P : Measure Ω) [IsProbabilityMeasure P] (hN : 0 < N)
    (M : ParticleModel N B d V Y Ω) (hkind : M.kind.increment = 1) (hr : UnbiasedLogResampler P M.resampler)
    (K : Fin B → ℕ → Kernel (Fin d → V) (Fin d → V)) (μ : Fin B → Measure (Fin d → V))
    (logg : Fin B → Y → ℕ → (Fin d → V) → ℝ) (hlogg : ∀ b y t, Measurable (logg b y t))
    (init : Ω → (Fin N → Fin B → Fin d → V) × Ω) (hinit : DrawsInitial P init μ)
    (hK : DrawsTransitions P M.propagateValues K) (hM : ProperProposal P M.sampleValues K logg)
    (pre : Y → ℕ → (Fin N → Fin B → Fin d → V) → Fin N → Fin B → ℝ) (hpre : ∀ y t, Measurable (pre y t))
    (hMpre : ∀ y x i b, M.preWeight y x i b = fin (pre y x.time x.value i b))
    (opt : FilterOptions) (hk : 0 < opt.observeEveryStep) (fuel : ℕ) (hfuel : opt.observeEveryStep - 1 ≤ fuel)
    (ys : List Y) (b : Fin B) :
    ∃ run : Ω → PCorr N B d V × List (PCorr N B d V) × Ω,
      (∀ ω, (FilterKind.apf.ops M).filterAll opt fuel ys (initializeFilter M.lo (init ω).1) (init ω).2
        = some (run ω)) ∧
      (∀ ω, ∃ r, ((run ω).2.1.map fun c => c.ll b).sum = fin r) ∧
      ∫⁻ ω, ENNReal.ofReal (expOf ((run ω).2.1.map fun c => c.ll b).sum) ∂P
        = ∫⁻ x, lik (K b) (fun y t x => ENNReal.ofReal (Real.exp (logg b y t x)))
            (slots opt.observeEveryStep M.allNan ys) 0 x ∂(μ b) :=
  run_unbiased P hN M hkind .apf b μ init hinit opt hk fuel hfuel ys _
    (measurable_lik _ _ (fun y t => (Real.measurable_exp.comp (hlogg b y t)).ennreal_ofReal) _ 0)
    (est_apfPredict P (apf_totalP P hN _ hkind hr hK hlogg hM pre hpre hMpre b _ 0))

/-! ## With the resampler of the code -/

/-- C30 with systematic resampling, the default of pyfilter/filters/particle/base.py:23, on any generator
whose `rand` draws independent uniforms. -/
theorem C30_systematic (P : Measure Ω) [IsProbabilityMeasure P] (hN : 0 < N) (lo threshold : ℝ)
    (rand : Ω → (ℕ → ℝ) × Ω) (hrand : Draws P rand unifs)
    (K : Fin B → ℕ → Kernel (Fin d → V) (Fin d → V)) (μ : Fin B → Measure (Fin d → V))
    (logg : Fin B → Y → ℕ → (Fin d → V) → ℝ) (hlogg : ∀ b y t, Measurable (logg b y t))
    (init : Ω → (Fin N → Fin B → Fin d → V) × Ω) (hinit : DrawsInitial P init μ)
    (propagate : TS N B d V → Ω → (Fin N → Fin B → Fin d → V) × Ω) (hK : DrawsTransitions P propagate K)
    (preWeight : Y → TS N B d V → Fin N → Fin B → XF) (missing : Y → Bool)
    (opt : FilterOptions) (hk : 0 < opt.observeEveryStep) (fuel : ℕ) (hfuel : opt.observeEveryStep - 1 ≤ fuel)
    (ys : List Y) (b : Fin B) :
    ∃ run : Ω → PCorr N B d V × List (PCorr N B d V) × Ω,
      (∀ ω, (FilterKind.sisr.ops (bootstrapModel lo threshold (systematicResampler lo rand) propagate
          (fun y x i b => fin (logg b y x.time (x.value i b))) preWeight missing)).filterAll opt fuel ys
          (initializeFilter lo (init ω).1) (init ω).2 = some (run ω)) ∧
      (∀ ω, ∃ r, ((run ω).2.1.map fun c => c.ll b).sum = fin r) ∧
      ∫⁻ ω, ENNReal.ofReal (expOf ((run ω).2.1.map fun c => c.ll b).sum) ∂P
        = ∫⁻ x, lik (K b) (fun y t x => ENNReal.ofReal (Real.exp (logg b y t x)))
            (slots opt.observeEveryStep missing ys) 0 x ∂(μ b) :=
  C30_sisr_unbiased P hN lo threshold _ (systematic_unbiased lo hrand).1 K μ logg hlogg init hinit propagate hK
    preWeight missing opt hk fuel hfuel ys b

/-- C31 with systematic resampling. -/
theorem C31_systematic (P : Measure Ω) [IsProbabilityMeasure P] (hN : 0 < N) (lo threshold : ℝ)
    (rand : Ω → (ℕ → ℝ) × Ω) (hrand : Draws P rand unifs)
    (K : Fin B → ℕ → Kernel (Fin d → V) (Fin d → V)) (μ : Fin B → Measure (Fin d → V))
    (logg : Fin B → Y → ℕ → (Fin d → V) → ℝ) (hlogg : ∀ b y t, Measurable (logg b y t))
    (init : Ω → (Fin N → Fin B → Fin d → V) × Ω) (hinit : DrawsInitial P init μ)
    (propagate : TS N B d V → Ω → (Fin N → Fin B → Fin d → V) × Ω) (hK : DrawsTransitions P propagate K)
    (pre : Y → ℕ → (Fin N → Fin B → Fin d → V) → Fin N → Fin B → ℝ) (hpre : ∀ y t, Measurable (pre y t))
    (missing : Y → Bool)
    (opt : FilterOptions) (hk : 0 < opt.observeEveryStep) (fuel : ℕ) (hfuel : opt.observeEveryStep - 1 ≤ fuel)
    (ys : List Y) (b : Fin B) :
    ∃ run : Ω → PCorr N B d V × List (PCorr N B d V) × Ω,
      (∀ ω, (FilterKind.apf.ops (bootstrapModel lo threshold (systematicResampler lo rand) propagate
          (fun y x i b => fin (logg b y x.time (x.value i b)))
          (fun y x i b => fin (pre y x.time x.value i b)) missing)).filterAll opt fuel ys
          (initializeFilter lo (init ω).1) (init ω).2 = some (run ω)) ∧
      (∀ ω, ∃ r, ((run ω).2.1.map fun c => c.ll b).sum = fin r) ∧
      ∫⁻ ω, ENNReal.ofReal (expOf ((run ω).2.1.map fun c => c.ll b).sum) ∂P
        = ∫⁻ x, lik (K b) (fun y t x => ENNReal.ofReal (Real.exp (logg b y t x)))
            (slots opt.observeEveryStep missing ys) 0 x ∂(μ b) :=
  C31_apf_unbiased P hN lo threshold _ (systematic_unbiased lo hrand).2 K μ logg hlogg init hinit propagate hK
    pre hpre missing opt hk fuel hfuel ys b

/-! ## A concrete case -/

/-- One entry of the generator: uniforms for the resampler and normal noise for the particles. -/
abbrev DemoEntry := (ℕ → ℝ) × (ℕ × ℕ → ℝ)

/-- Law of an entry. -/
noncomputable def demoEntryLaw : Measure DemoEntry :=
  unifs.prod (Measure.infinitePi fun _ => gaussianReal 0 1)

instance : IsProbabilityMeasure demoEntryLaw := by unfold demoEntryLaw; infer_instance

theorem demo_rand : Draws (streamLaw demoEntryLaw) (fun ω => ((next ω).1.1, (next ω).2)) unifs := by
  have := draws_map (next_draws demoEntryLaw) measurable_fst
  have h : demoEntryLaw.map Prod.fst = unifs := by
    rw [demoEntryLaw, Measure.map_fst_prod]; simp
  rwa [h] at this

theorem demo_noise : Draws (streamLaw demoEntryLaw) (fun ω => ((next ω).1.2, (next ω).2))
    (Measure.infinitePi fun _ => gaussianReal 0 1) := by
  have := draws_map (next_draws demoEntryLaw) measurable_snd
  have h : demoEntryLaw.map Prod.snd = Measure.infinitePi fun _ => gaussianReal 0 1 := by
    rw [demoEntryLaw, Measure.map_snd_prod]; simp
  rwa [h] at this

/-- Autoregressive processes, one for each of two parallel filters. -/
noncomputable def demoMove (b : Fin 2) (_t : ℕ) (q : (Fin 1 → ℝ) × ℝ) : Fin 1 → ℝ :=
  fun i => (if b = 0 then 1 / 2 else -1) * q.1 i + q.2

theorem measurable_demoMove (b : Fin 2) (t : ℕ) : Measurable (demoMove b t) := by
  unfold demoMove
  fun_prop

/-- A case for C30 and C31: autoregressive processes observed with normal noise. -/
example (N : ℕ) : Draws (streamLaw demoEntryLaw) (fun ω => ((next ω).1.1, (next ω).2)) unifs ∧
    DrawsInitial (N := N) (streamLaw demoEntryLaw)
      (fun ω => (fun i b => fun _ : Fin 1 => (next ω).1.2 ((i : ℕ), (b : ℕ)), (next ω).2))
      (fun _ : Fin 2 => (gaussianReal 0 1).map fun z _ => z) ∧
    DrawsTransitions (streamLaw demoEntryLaw)
      (noisePropagate (N := N) (fun ω => ((next ω).1.2, (next ω).2)) demoMove)
      (fun b t => noiseKernel (gaussianReal 0 1) (demoMove b t)) ∧
    ∀ (y : ℝ), Measurable fun x : Fin 1 → ℝ => -(y - x 0) ^ 2 / 2 - Real.log (2 * Real.pi) / 2 :=
  ⟨demo_rand, noise_initial _ demo_noise (f := fun _ z _ => z) fun _ => by fun_prop,
    noise_transitions _ demo_noise measurable_demoMove, fun y => by fun_prop⟩

/-- The proposal of the case is proper, as C30 and C31 ask of other proposals. -/
example (N : ℕ) : ProperProposal (streamLaw demoEntryLaw)
    (bootstrapSample (noisePropagate (N := N) (fun ω => ((next ω).1.2, (next ω).2)) demoMove)
      fun (y : ℝ) x i b => fin (-(y - x.value i b 0) ^ 2 / 2))
    (fun b t => noiseKernel (gaussianReal 0 1) (demoMove b t)) fun _ y _ x => -(y - x 0) ^ 2 / 2 :=
  bootstrap_proper _ (noise_transitions _ demo_noise measurable_demoMove)
    (fun _ y _ x => -(y - x 0) ^ 2 / 2) fun _ _ _ => by fun_prop

end Verif.Props
