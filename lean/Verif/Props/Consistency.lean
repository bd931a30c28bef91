import Verif.Lemmas.Independence
import Verif.Props.KernelProposals

/-!
# Properties C109 and C110: the errors of SISR vanish as the number of particles grows
-/

namespace Verif.Props

open Verif Verif.Spec Verif.Unbiased XF MeasureTheory ProbabilityTheory
open scoped ENNReal

variable {N B d : ℕ} {V Y Ω : Type} [MeasurableSpace V] [MeasurableSpace Ω]

/-- First and second moment of the estimated likelihood times the average of `φ` over the last state. -/
theorem sisr_moments (P : Measure Ω) [IsProbabilityMeasure P] (hN : 0 < N) (M : ParticleModel N B d V Y Ω)
    (hinc : M.kind.increment = 1) (hr : IndependentResampler P M.resampler) (hthr : 0 < M.threshold)
    {K : Fin B → ℕ → Kernel (Fin d → V) (Fin d → V)} {μ : Fin B → Measure (Fin d → V)}
    {logg : Fin B → Y → ℕ → (Fin d → V) → ℝ} (hlogg : ∀ b y t, Measurable (logg b y t))
    {init : Ω → (Fin N → Fin B → Fin d → V) × Ω} (hinit : IndependentInitial P init μ)
    (hK : IndependentTransitions P M.propagateValues K) {c : Y → ℝ} (hS : IndependentProposal P M.sampleValues K logg c)
    (opt : FilterOptions) (hk : 0 < opt.observeEveryStep) (fuel : ℕ) (hfuel : opt.observeEveryStep - 1 ≤ fuel)
    (ys : List Y) (b : Fin B) {φ : (Fin d → V) → ℝ≥0∞} (hφ : Measurable φ) (hφ1 : ∀ x, φ x ≤ 1) :
    ∃ run : Ω → PCorr N B d V × List (PCorr N B d V) × Ω,
      (∀ ω, (FilterKind.sisr.ops M).filterAll opt fuel ys (initializeFilter M.lo (init ω).1) (init ω).2 = some (run ω)) ∧
      (∀ ω, ∃ r, ((run ω).2.1.map fun c => c.ll b).sum = fin r ∧
        ∃ w' : Fin N → Fin B → ℝ, (run ω).1.w = fun i b => fin (w' i b)) ∧
      Measurable (fun ω => ENNReal.ofReal (expOf ((run ω).2.1.map fun c => c.ll b).sum) * stateAvg M.lo b φ (run ω).1) ∧
      ∫⁻ ω, ENNReal.ofReal (expOf ((run ω).2.1.map fun c => c.ll b).sum) * stateAvg M.lo b φ (run ω).1 ∂P
        = ∫⁻ x, likAvg (K b) (fun y t x => ENNReal.ofReal (Real.exp (logg b y t x))) φ
            (slots opt.observeEveryStep M.allNan ys) 0 x ∂(μ b) ∧
      ∫⁻ ω, (ENNReal.ofReal (expOf ((run ω).2.1.map fun c => c.ll b).sum) * stateAvg M.lo b φ (run ω).1) ^ 2 ∂P
        ≤ (∫⁻ x, likAvg (K b) (fun y t x => ENNReal.ofReal (Real.exp (logg b y t x))) φ
            (slots opt.observeEveryStep M.allNan ys) 0 x ∂(μ b)) ^ 2
          + ENNReal.ofReal ((2 * (slots opt.observeEveryStep M.allNan ys).length + 1) *
            boundOf c (slots opt.observeEveryStep M.allNan ys) ^ 2 / min M.threshold N) := by
  have hN' : (0 : ℝ) < N := by exact_mod_cast hN
  have hmin : 0 < min M.threshold (N : ℝ) := lt_min hthr hN'
  have hδN : ENNReal.ofReal (1 / (N : ℝ)) ≤ ENNReal.ofReal (1 / min M.threshold (N : ℝ)) :=
    ENNReal.ofReal_le_ofReal (one_div_le_one_div_of_le hmin (min_le_right _ _))
  have hδt : ENNReal.ofReal (1 / M.threshold) ≤ ENNReal.ofReal (1 / min M.threshold (N : ℝ)) :=
    ENNReal.ofReal_le_ofReal (one_div_le_one_div_of_le hmin (min_le_left _ _))
  have hrun := fun ω => FilterOps.filterAll_run (ticks .sisr M hinc) (fun c => c.ll b) (fun _ _ => rfl) opt hk
    fuel hfuel ys 0 (initializeFilter M.lo (init ω).1) (init ω).2 rfl
  have hslots : (FilterKind.sisr.ops M).slotsFrom opt.observeEveryStep 0 ys = slots opt.observeEveryStep M.allNan ys :=
    FilterOps.slotsFrom_zero _ _ _
  rw [hslots] at hrun
  choose run hrun hs using hrun
  have hgm : ∀ (y : Y) (t : ℕ), Measurable fun x => ENNReal.ofReal (Real.exp (logg b y t x)) :=
    fun y t => (Real.measurable_exp.comp (hlogg b y t)).ennreal_ofReal
  generalize slots opt.observeEveryStep M.allNan ys = os at hs ⊢
  obtain ⟨U, hU, h1, h2, h3⟩ := estV_initial P hN hinit
    (measurable_likAvg (K b) (fun y t x => ENNReal.ofReal (Real.exp (logg b y t x))) hgm hφ os 0)
    (likAvg_le P hN hK hlogg hS b hφ hφ1 os 0)
    (sisr_runO P hN M hinc hr hthr hK hlogg hS b hδN hδt hφ hφ1 os 0) M.lo
  have hsum : ∀ ω, ((run ω).2.1.map fun c => c.ll b).sum
      = ((FilterKind.sisr.ops M).runO (fun c => c.ll b) os (initializeFilter M.lo (init ω).1) (init ω).2).1 :=
    fun ω => congrArg Prod.fst (hs ω)
  have hlast : ∀ ω, (run ω).1
      = ((FilterKind.sisr.ops M).runO (fun c => c.ll b) os (initializeFilter M.lo (init ω).1) (init ω).2).2 :=
    fun ω => congrArg Prod.snd (hs ω)
  have hUe : ∀ ω, ENNReal.ofReal (expOf ((run ω).2.1.map fun c => c.ll b).sum) * stateAvg M.lo b φ (run ω).1 = U ω := by
    intro ω
    obtain ⟨r, hr1, -, hr2⟩ := h1 ω
    rw [hsum, hlast, hr1]
    exact hr2
  refine ⟨run, hrun, fun ω => ?_, by simpa only [hUe] using hU, by simpa only [hUe] using h2,
    le_trans (by simpa only [hUe] using h3) (add_le_add le_rfl ?_)⟩
  · obtain ⟨r, hr1, hr3, -⟩ := h1 ω
    exact ⟨r, (hsum ω).trans hr1, by rw [hlast]; exact hr3⟩
  · have hb := boundOf_pos c os
    calc 2 * (os.length : ℝ≥0∞) * ENNReal.ofReal (boundOf c os) ^ 2 * ENNReal.ofReal (1 / min M.threshold (N : ℝ))
          + ENNReal.ofReal (boundOf c os) ^ 2 * ENNReal.ofReal (1 / (N : ℝ))
        ≤ 2 * (os.length : ℝ≥0∞) * ENNReal.ofReal (boundOf c os) ^ 2 * ENNReal.ofReal (1 / min M.threshold (N : ℝ))
          + ENNReal.ofReal (boundOf c os) ^ 2 * ENNReal.ofReal (1 / min M.threshold (N : ℝ)) :=
          add_le_add le_rfl (mul_le_mul' le_rfl hδN)
      _ = (2 * os.length + 1) * ENNReal.ofReal (boundOf c os) ^ 2 * ENNReal.ofReal (1 / min M.threshold (N : ℝ)) := by ring
      _ = ENNReal.ofReal ((2 * os.length + 1) * boundOf c os ^ 2 / min M.threshold (N : ℝ)) := by
          have e : (2 * (os.length : ℝ≥0∞) + 1) = ENNReal.ofReal (2 * (os.length : ℝ) + 1) := by
            rw [ENNReal.ofReal_add (by positivity) one_pos.le, ENNReal.ofReal_mul (by norm_num), ENNReal.ofReal_natCast,
              ENNReal.ofReal_ofNat, ENNReal.ofReal_one]
          rw [e, ← ENNReal.ofReal_pow hb.le, ← ENNReal.ofReal_mul (by positivity),
            ← ENNReal.ofReal_mul (by positivity), mul_one_div]
      _ ≤ _ := le_rfl

omit [MeasurableSpace V] in
theorem stateAvg_one (lo : ℝ) (b : Fin B) (hN : 0 < N) (c : PCorr N B d V) (w' : Fin N → Fin B → ℝ)
    (hw : c.w = fun i b => fin (w' i b)) : stateAvg lo b (fun _ => 1) c = 1 := by
  unfold stateAvg
  simp only [hw, colProb_fin, mul_one]
  rw [← ENNReal.ofReal_sum_of_nonneg fun i _ => sm_nonneg w' b i, (sm_isProb w' b hN).2, ENNReal.ofReal_one]

theorem likAvg_one_lintegral {X : Type} [MeasurableSpace X] (K : ℕ → Kernel X X) (g : Y → ℕ → X → ℝ≥0∞) (μ : Measure X)
    (os : List (Option Y)) : ∫⁻ x, likAvg K g (fun _ => 1) os 0 x ∂μ = ∫⁻ x, lik K g os 0 x ∂μ := by
  rw [likAvg_one]

/-! ## C109 -/

/-- C109: with independent draws and importance weights bounded by `exp (c y)`, the mean squared error of the estimated
likelihood (the exponential of the sum of the log-likelihoods) of SISR is at most `(2 T + 1) C² / min threshold N`,
where `T` is the number of time steps and `C` the product of the bounds. -/
theorem C109_likelihood_error (P : Measure Ω) [IsProbabilityMeasure P] (hN : 0 < N) (M : ParticleModel N B d V Y Ω)
    (hkind : M.kind.increment = 1) (hr : IndependentResampler P M.resampler) (hthr : 0 < M.threshold)
    (K : Fin B → ℕ → Kernel (Fin d → V) (Fin d → V)) (μ : Fin B → Measure (Fin d → V))
    (logg : Fin B → Y → ℕ → (Fin d → V) → ℝ) (hlogg : ∀ b y t, Measurable (logg b y t))
    (init : Ω → (Fin N → Fin B → Fin d → V) × Ω) (hinit : IndependentInitial P init μ)
    (hK : IndependentTransitions P M.propagateValues K) (c : Y → ℝ) (hM : IndependentProposal P M.sampleValues K logg c)
    (opt : FilterOptions) (hk : 0 < opt.observeEveryStep) (fuel : ℕ) (hfuel : opt.observeEveryStep - 1 ≤ fuel)
    (ys : List Y) (b : Fin B) :
    ∃ run : Ω → PCorr N B d V × List (PCorr N B d V) × Ω,
      (∀ ω, (FilterKind.sisr.ops M).filterAll opt fuel ys (initializeFilter M.lo (init ω).1) (init ω).2 = some (run ω)) ∧
      (∀ ω, ∃ r, ((run ω).2.1.map fun c => c.ll b).sum = fin r) ∧
      ∫⁻ ω, ENNReal.ofReal ((expOf ((run ω).2.1.map fun c => c.ll b).sum
          - (∫⁻ x, lik (K b) (fun y t x => ENNReal.ofReal (Real.exp (logg b y t x)))
            (slots opt.observeEveryStep M.allNan ys) 0 x ∂(μ b)).toReal) ^ 2) ∂P
        ≤ ENNReal.ofReal ((2 * (slots opt.observeEveryStep M.allNan ys).length + 1) *
            boundOf c (slots opt.observeEveryStep M.allNan ys) ^ 2 / min M.threshold N) := by
  obtain ⟨run, h1, h2, h3, h4, h5⟩ := sisr_moments P hN M hkind hr hthr hlogg hinit hK hM opt hk fuel hfuel ys b
    (φ := fun _ => 1) measurable_const fun _ => le_rfl
  have hone : ∀ ω, stateAvg M.lo b (fun _ => 1) (run ω).1 = 1 := fun ω => by
    obtain ⟨r, -, w', hw⟩ := h2 ω
    exact stateAvg_one M.lo b hN _ w' hw
  simp only [hone, mul_one] at h3 h4 h5
  rw [likAvg_one_lintegral] at h4 h5
  refine ⟨run, h1, fun ω => ?_, mse_of_moments P (fun ω => ?_) h3 ?_ h4 h5⟩
  · obtain ⟨r, hr, -⟩ := h2 ω
    exact ⟨r, hr⟩
  · obtain ⟨r, hr, -⟩ := h2 ω
    rw [hr]
    exact (Real.exp_pos r).le
  · obtain ⟨ν, hν, hm, -⟩ := hinit
    have := hν.prob
    have hp : IsProbabilityMeasure (μ b) := by
      rw [← hm ⟨0, hN⟩ b]
      exact Measure.isProbabilityMeasure_map ((measurable_pi_apply b).comp (measurable_pi_apply _)).aemeasurable
    rw [← likAvg_one_lintegral]
    refine ne_top_of_le_ne_top ?_ (lintegral_mono fun x => likAvg_le P hN hK hlogg hM b measurable_const
      (fun _ => le_rfl) _ 0 x)
    rw [lintegral_const, measure_univ, mul_one]
    exact ENNReal.ofReal_ne_top

/-- C109 with the bootstrap proposal, multinomial resampling and a relative threshold `τ` as in
pyfilter/filters/particle/base.py:42: the error is at most a constant divided by the number of particles. -/
theorem C109_bootstrap (P : Measure Ω) [IsProbabilityMeasure P] (hN : 0 < N) (lo τ : ℝ) (hτ : 0 < τ) (hτ1 : τ ≤ 1)
    (mult : TorchMultinomial N Ω) (hmult : IndependentMultinomial P mult)
    (K : Fin B → ℕ → Kernel (Fin d → V) (Fin d → V)) (μ : Fin B → Measure (Fin d → V))
    (logg : Fin B → Y → ℕ → (Fin d → V) → ℝ) (hlogg : ∀ b y t, Measurable (logg b y t)) (c : Y → ℝ)
    (hc : ∀ b y t x, logg b y t x ≤ c y)
    (init : Ω → (Fin N → Fin B → Fin d → V) × Ω) (hinit : IndependentInitial P init μ)
    (propagate : TS N B d V → Ω → (Fin N → Fin B → Fin d → V) × Ω) (hK : IndependentTransitions P propagate K)
    (preWeight : Y → TS N B d V → Fin N → Fin B → XF) (missing : Y → Bool)
    (opt : FilterOptions) (hk : 0 < opt.observeEveryStep) (fuel : ℕ) (hfuel : opt.observeEveryStep - 1 ≤ fuel)
    (ys : List Y) (b : Fin B) :
    ∃ run : Ω → PCorr N B d V × List (PCorr N B d V) × Ω,
      (∀ ω, (FilterKind.sisr.ops (bootstrapModel lo (τ * N) (multinomial2 lo mult) propagate
          (fun y x i b => fin (logg b y x.time (x.value i b))) preWeight missing)).filterAll opt fuel ys
          (initializeFilter lo (init ω).1) (init ω).2 = some (run ω)) ∧
      (∀ ω, ∃ r, ((run ω).2.1.map fun c => c.ll b).sum = fin r) ∧
      ∫⁻ ω, ENNReal.ofReal ((expOf ((run ω).2.1.map fun c => c.ll b).sum
          - (∫⁻ x, lik (K b) (fun y t x => ENNReal.ofReal (Real.exp (logg b y t x)))
            (slots opt.observeEveryStep missing ys) 0 x ∂(μ b)).toReal) ^ 2) ∂P
        ≤ ENNReal.ofReal ((2 * (slots opt.observeEveryStep missing ys).length + 1) *
            boundOf c (slots opt.observeEveryStep missing ys) ^ 2 / (τ * N)) := by
  have hN' : (0 : ℝ) < N := by exact_mod_cast hN
  have h := C109_likelihood_error P hN (bootstrapModel lo (τ * N) (multinomial2 lo mult) propagate
    (fun y x i b => fin (logg b y x.time (x.value i b))) preWeight missing) rfl
    (multinomial_independent lo hmult) (mul_pos hτ hN') K μ logg hlogg init hinit hK c
    (bootstrap_independent hK logg hlogg c hc) opt hk fuel hfuel ys b
  have e : min (τ * N) (N : ℝ) = τ * N := min_eq_left (mul_le_of_le_one_left hN'.le hτ1)
  simpa only [bootstrapModel, e] using h

/-- C109, the limit: as the number of particles grows, the mean squared error of the estimated likelihood tends to zero. -/
theorem C109_consistent (P : Measure Ω) [IsProbabilityMeasure P] (lo τ : ℝ) (hτ : 0 < τ) (hτ1 : τ ≤ 1)
    (mult : ∀ N, TorchMultinomial (N + 1) Ω) (hmult : ∀ N, IndependentMultinomial P (mult N))
    (K : Fin B → ℕ → Kernel (Fin d → V) (Fin d → V)) (μ : Fin B → Measure (Fin d → V))
    (logg : Fin B → Y → ℕ → (Fin d → V) → ℝ) (hlogg : ∀ b y t, Measurable (logg b y t)) (c : Y → ℝ)
    (hc : ∀ b y t x, logg b y t x ≤ c y)
    (init : ∀ N, Ω → (Fin (N + 1) → Fin B → Fin d → V) × Ω) (hinit : ∀ N, IndependentInitial P (init N) μ)
    (propagate : ∀ N, TS (N + 1) B d V → Ω → (Fin (N + 1) → Fin B → Fin d → V) × Ω)
    (hK : ∀ N, IndependentTransitions P (propagate N) K)
    (preWeight : ∀ N, Y → TS (N + 1) B d V → Fin (N + 1) → Fin B → XF) (missing : Y → Bool)
    (opt : FilterOptions) (hk : 0 < opt.observeEveryStep) (fuel : ℕ) (hfuel : opt.observeEveryStep - 1 ≤ fuel)
    (ys : List Y) (b : Fin B) (run : ∀ N, Ω → PCorr (N + 1) B d V × List (PCorr (N + 1) B d V) × Ω)
    (hrun : ∀ N ω, (FilterKind.sisr.ops (bootstrapModel lo (τ * ((N + 1 : ℕ) : ℝ)) (multinomial2 lo (mult N)) (propagate N)
          (fun y x i b => fin (logg b y x.time (x.value i b))) (preWeight N) missing)).filterAll opt fuel ys
          (initializeFilter lo (init N ω).1) (init N ω).2 = some (run N ω)) :
    Filter.Tendsto (fun N => ∫⁻ ω, ENNReal.ofReal ((expOf ((run N ω).2.1.map fun c => c.ll b).sum
          - (∫⁻ x, lik (K b) (fun y t x => ENNReal.ofReal (Real.exp (logg b y t x)))
            (slots opt.observeEveryStep missing ys) 0 x ∂(μ b)).toReal) ^ 2) ∂P) Filter.atTop (nhds 0) := by
  refine tendsto_of_tendsto_of_tendsto_of_le_of_le (g := fun _ => 0)
    (h := fun N : ℕ => ENNReal.ofReal ((2 * (slots opt.observeEveryStep missing ys).length + 1) *
      boundOf c (slots opt.observeEveryStep missing ys) ^ 2 / (τ * ((N + 1 : ℕ) : ℝ)))) tendsto_const_nhds ?_
    (fun _ => zero_le) fun N => ?_
  · rw [← ENNReal.ofReal_zero]
    refine (ENNReal.continuous_ofReal.tendsto 0).comp ?_
    have h1 : Filter.Tendsto (fun N : ℕ => τ * ((N + 1 : ℕ) : ℝ)) Filter.atTop Filter.atTop :=
      (tendsto_natCast_atTop_atTop.comp (Filter.tendsto_add_atTop_nat 1)).const_mul_atTop hτ
    exact h1.const_div_atTop _
  · obtain ⟨run', h1, -, h3⟩ := C109_bootstrap P (Nat.succ_pos N) lo τ hτ hτ1 (mult N) (hmult N) K μ logg hlogg c hc
      (init N) (hinit N) (propagate N) (hK N) (preWeight N) missing opt hk fuel hfuel ys b
    have e : run' = run N := funext fun ω => Option.some.inj ((h1 ω).symm.trans (hrun N ω))
    rw [← e]
    exact h3

/-! ## C110 -/

/-- C110: averages of a function `φ` with values between 0 and 1 over the particles of the last state, weighted by the
normalised weights of the code, have a mean squared error of at most `4 (2 T + 1) (C / L)² / min threshold N` as estimates
of the average of `φ` over the last state given the observations, where `L` is the likelihood. -/
theorem C110_filter_error (P : Measure Ω) [IsProbabilityMeasure P] (hN : 0 < N) (M : ParticleModel N B d V Y Ω)
    (hkind : M.kind.increment = 1) (hr : IndependentResampler P M.resampler) (hthr : 0 < M.threshold)
    (K : Fin B → ℕ → Kernel (Fin d → V) (Fin d → V)) (μ : Fin B → Measure (Fin d → V))
    (logg : Fin B → Y → ℕ → (Fin d → V) → ℝ) (hlogg : ∀ b y t, Measurable (logg b y t))
    (init : Ω → (Fin N → Fin B → Fin d → V) × Ω) (hinit : IndependentInitial P init μ)
    (hK : IndependentTransitions P M.propagateValues K) (c : Y → ℝ) (hM : IndependentProposal P M.sampleValues K logg c)
    (opt : FilterOptions) (hk : 0 < opt.observeEveryStep) (fuel : ℕ) (hfuel : opt.observeEveryStep - 1 ≤ fuel)
    (ys : List Y) (b : Fin B) (φ : (Fin d → V) → ℝ) (hφ : Measurable φ) (hφ0 : ∀ x, 0 ≤ φ x) (hφ1 : ∀ x, φ x ≤ 1) :
    ∃ (run : Ω → PCorr N B d V × List (PCorr N B d V) × Ω) (avg : Ω → ℝ),
      (∀ ω, (FilterKind.sisr.ops M).filterAll opt fuel ys (initializeFilter M.lo (init ω).1) (init ω).2 = some (run ω)) ∧
      (∀ ω, ∑ i, (normalize2 M.lo (run ω).1.w).2 i b * fin (φ ((run ω).1.x.value i b)) = fin (avg ω)) ∧
      ∫⁻ ω, ENNReal.ofReal ((avg ω - (filterAvg (K b) (fun y t x => ENNReal.ofReal (Real.exp (logg b y t x))) (μ b)
            (fun x => ENNReal.ofReal (φ x)) (slots opt.observeEveryStep M.allNan ys)).toReal) ^ 2) ∂P
        ≤ ENNReal.ofReal (4 * ((2 * (slots opt.observeEveryStep M.allNan ys).length + 1) *
            (boundOf c (slots opt.observeEveryStep M.allNan ys) /
              (∫⁻ x, lik (K b) (fun y t x => ENNReal.ofReal (Real.exp (logg b y t x)))
                (slots opt.observeEveryStep M.allNan ys) 0 x ∂(μ b)).toReal) ^ 2 / min M.threshold N)) := by
  have hφ' : Measurable fun x => ENNReal.ofReal (φ x) := hφ.ennreal_ofReal
  have hφ1' : ∀ x, ENNReal.ofReal (φ x) ≤ 1 := fun x => by
    rw [← ENNReal.ofReal_one]; exact ENNReal.ofReal_le_ofReal (hφ1 x)
  obtain ⟨run, h1, h2, h3, h4, h5⟩ := sisr_moments P hN M hkind hr hthr hlogg hinit hK hM opt hk fuel hfuel ys b hφ' hφ1'
  obtain ⟨run', g1, g2, g3⟩ := C109_likelihood_error P hN M hkind hr hthr K μ logg hlogg init hinit hK c hM opt hk fuel
    hfuel ys b
  have e : run' = run := funext fun ω => Option.some.inj ((g1 ω).symm.trans (h1 ω))
  subst e
  have hp : IsProbabilityMeasure (μ b) := by
    obtain ⟨ν, hν, hm, -⟩ := hinit
    have := hν.prob
    rw [← hm ⟨0, hN⟩ b]
    exact Measure.isProbabilityMeasure_map ((measurable_pi_apply b).comp (measurable_pi_apply _)).aemeasurable
  have hlm := measurable_lik (K b) (fun y t x => ENNReal.ofReal (Real.exp (logg b y t x)))
    (fun y t => (Real.measurable_exp.comp (hlogg b y t)).ennreal_ofReal) (slots opt.observeEveryStep M.allNan ys) 0
  have hlp := lik_pos P hN hK hlogg b (slots opt.observeEveryStep M.allNan ys) 0
  have hle := likAvg_le P hN hK hlogg hM b (φ := fun _ => 1) measurable_const (fun _ => le_rfl)
    (slots opt.observeEveryStep M.allNan ys) 0
  have hle' := likAvg_le P hN hK hlogg hM b hφ' hφ1' (slots opt.observeEveryStep M.allNan ys) 0
  simp only [likAvg_one] at hle
  unfold filterAvg
  generalize slots opt.observeEveryStep M.allNan ys = os at *
  have hL1 : ∫⁻ x, lik (K b) (fun y t x => ENNReal.ofReal (Real.exp (logg b y t x))) os 0 x ∂(μ b) ≠ ⊤ := by
    refine ne_top_of_le_ne_top ?_ (lintegral_mono hle)
    rw [lintegral_const, measure_univ, mul_one]
    exact ENNReal.ofReal_ne_top
  have hLφ : ∫⁻ x, likAvg (K b) (fun y t x => ENNReal.ofReal (Real.exp (logg b y t x)))
      (fun x => ENNReal.ofReal (φ x)) os 0 x ∂(μ b) ≠ ⊤ := by
    refine ne_top_of_le_ne_top ?_ (lintegral_mono hle')
    rw [lintegral_const, measure_univ, mul_one]
    exact ENNReal.ofReal_ne_top
  have hL0 : 0 < ∫⁻ x, lik (K b) (fun y t x => ENNReal.ofReal (Real.exp (logg b y t x))) os 0 x ∂(μ b) := by
    rw [lintegral_pos_iff_support hlm]
    have : Function.support (lik (K b) (fun y t x => ENNReal.ofReal (Real.exp (logg b y t x))) os 0) = Set.univ := by
      ext u
      simp [(hlp u).ne']
    rw [this, measure_univ]
    exact one_pos
  generalize hGdef : (∫⁻ x, lik (K b) (fun y t x => ENNReal.ofReal (Real.exp (logg b y t x))) os 0 x ∂(μ b)) = G1 at *
  generalize hGφdef : (∫⁻ x, likAvg (K b) (fun y t x => ENNReal.ofReal (Real.exp (logg b y t x)))
      (fun x => ENNReal.ofReal (φ x)) os 0 x ∂(μ b)) = Gφ at *
  choose r hr1 w' hw' using h2
  have hb := boundOf_pos c os
  -- the average over the particles
  have havg : ∀ ω, stateAvg M.lo b (fun x => ENNReal.ofReal (φ x)) (run' ω).1
      = ENNReal.ofReal (∑ i, sm (w' ω) b i * φ ((run' ω).1.x.value i b)) := by
    intro ω
    unfold stateAvg
    simp only [hw', colProb_fin]
    rw [ENNReal.ofReal_sum_of_nonneg fun i _ => mul_nonneg (sm_nonneg _ b i) (hφ0 _)]
    exact Finset.sum_congr rfl fun i _ => (ENNReal.ofReal_mul (sm_nonneg _ b i)).symm
  have ha0 : ∀ ω, 0 ≤ ∑ i, sm (w' ω) b i * φ ((run' ω).1.x.value i b) :=
    fun ω => Finset.sum_nonneg fun i _ => mul_nonneg (sm_nonneg _ b i) (hφ0 _)
  have ha1 : ∀ ω, ∑ i, sm (w' ω) b i * φ ((run' ω).1.x.value i b) ≤ 1 := by
    intro ω
    calc ∑ i, sm (w' ω) b i * φ ((run' ω).1.x.value i b) ≤ ∑ i, sm (w' ω) b i * 1 :=
          Finset.sum_le_sum fun i _ => mul_le_mul_of_nonneg_left (hφ1 _) (sm_nonneg _ b i)
      _ = 1 := by simp only [mul_one]; exact (sm_isProb (w' ω) b hN).2
  refine ⟨run', fun ω => ∑ i, sm (w' ω) b i * φ ((run' ω).1.x.value i b), h1, fun ω => ?_, ?_⟩
  · rw [hw', normalize2_fin]
    simp only [fin_mul]
    exact sum_fin _ _
  · obtain ⟨A, hA⟩ : ∃ A : Ω → ℝ, ∀ ω, ∑ i, sm (w' ω) b i * φ ((run' ω).1.x.value i b) = A ω := ⟨_, fun _ => rfl⟩
    simp only [hA] at havg ha0 ha1 ⊢
    have hexp : ∀ ω, expOf ((run' ω).2.1.map fun c => c.ll b).sum = Real.exp (r ω) := fun ω => by rw [hr1]; rfl
    have hmul : ∀ ω, ENNReal.ofReal (Real.exp (r ω)) * ENNReal.ofReal (A ω) = ENNReal.ofReal (Real.exp (r ω) * A ω) :=
      fun ω => (ENNReal.ofReal_mul (Real.exp_pos _).le).symm
    simp only [hexp, havg, hmul] at h3 h4 h5 g3
    have q1 := mse_of_moments P (fun ω => mul_nonneg (Real.exp_pos (r ω)).le (ha0 ω)) h3 hLφ h4 h5
    have hL : 0 < G1.toReal := ENNReal.toReal_pos hL0.ne' hL1
    have hpt : ∀ ω, ENNReal.ofReal ((A ω - (Gφ / G1).toReal) ^ 2) ≤ ENNReal.ofReal (2 / G1.toReal ^ 2) *
        (ENNReal.ofReal ((Real.exp (r ω) * A ω - Gφ.toReal) ^ 2) + ENNReal.ofReal ((Real.exp (r ω) - G1.toReal) ^ 2)) := by
      intro ω
      rw [← ENNReal.ofReal_add (sq_nonneg _) (sq_nonneg _), ← ENNReal.ofReal_mul (by positivity)]
      refine ENNReal.ofReal_le_ofReal ?_
      rw [ENNReal.toReal_div]
      generalize Real.exp (r ω) = u
      have h0 := ha0 ω
      have h1 := ha1 ω
      generalize A ω = a at *
      generalize Gφ.toReal = v
      generalize G1.toReal = l at *
      have e1 : a - v / l = ((u * a - v) - a * (u - l)) / l := by field_simp; ring
      rw [e1, div_pow, div_mul_eq_mul_div]
      refine div_le_div_of_nonneg_right ?_ (by positivity)
      have e2 : (a * (u - l)) ^ 2 ≤ (u - l) ^ 2 := by
        rw [mul_pow]
        exact mul_le_of_le_one_left (sq_nonneg _) (pow_le_one₀ h0 h1)
      nlinarith [sq_nonneg ((u * a - v) + a * (u - l))]
    refine (lintegral_mono hpt).trans ?_
    have hm1 : Measurable fun ω => ENNReal.ofReal ((Real.exp (r ω) * A ω - Gφ.toReal) ^ 2) := by
      have h6 : Measurable fun ω => (ENNReal.ofReal (Real.exp (r ω) * A ω)).toReal := h3.ennreal_toReal
      have h7 : (fun ω => (ENNReal.ofReal (Real.exp (r ω) * A ω)).toReal) = fun ω => Real.exp (r ω) * A ω :=
        funext fun ω => ENNReal.toReal_ofReal (mul_nonneg (Real.exp_pos _).le (ha0 ω))
      rw [h7] at h6
      exact ((h6.sub_const _).pow_const 2).ennreal_ofReal
    rw [lintegral_const_mul' _ _ ENNReal.ofReal_ne_top, lintegral_add_left hm1]
    refine (mul_le_mul' le_rfl (add_le_add q1 g3)).trans ?_
    have hmin : 0 < min M.threshold (N : ℝ) := lt_min hthr (by exact_mod_cast hN)
    rw [← ENNReal.ofReal_add (by positivity) (by positivity), ← ENNReal.ofReal_mul (by positivity)]
    refine ENNReal.ofReal_le_ofReal (le_of_eq ?_)
    field_simp
    ring

/-- C110 with the bootstrap proposal, multinomial resampling and a relative threshold `τ`. -/
theorem C110_bootstrap (P : Measure Ω) [IsProbabilityMeasure P] (hN : 0 < N) (lo τ : ℝ) (hτ : 0 < τ) (hτ1 : τ ≤ 1)
    (mult : TorchMultinomial N Ω) (hmult : IndependentMultinomial P mult)
    (K : Fin B → ℕ → Kernel (Fin d → V) (Fin d → V)) (μ : Fin B → Measure (Fin d → V))
    (logg : Fin B → Y → ℕ → (Fin d → V) → ℝ) (hlogg : ∀ b y t, Measurable (logg b y t)) (c : Y → ℝ)
    (hc : ∀ b y t x, logg b y t x ≤ c y)
    (init : Ω → (Fin N → Fin B → Fin d → V) × Ω) (hinit : IndependentInitial P init μ)
    (propagate : TS N B d V → Ω → (Fin N → Fin B → Fin d → V) × Ω) (hK : IndependentTransitions P propagate K)
    (preWeight : Y → TS N B d V → Fin N → Fin B → XF) (missing : Y → Bool)
    (opt : FilterOptions) (hk : 0 < opt.observeEveryStep) (fuel : ℕ) (hfuel : opt.observeEveryStep - 1 ≤ fuel)
    (ys : List Y) (b : Fin B) (φ : (Fin d → V) → ℝ) (hφ : Measurable φ) (hφ0 : ∀ x, 0 ≤ φ x) (hφ1 : ∀ x, φ x ≤ 1) :
    ∃ (run : Ω → PCorr N B d V × List (PCorr N B d V) × Ω) (avg : Ω → ℝ),
      (∀ ω, (FilterKind.sisr.ops (bootstrapModel lo (τ * N) (multinomial2 lo mult) propagate
          (fun y x i b => fin (logg b y x.time (x.value i b))) preWeight missing)).filterAll opt fuel ys
          (initializeFilter lo (init ω).1) (init ω).2 = some (run ω)) ∧
      (∀ ω, ∑ i, (normalize2 lo (run ω).1.w).2 i b * fin (φ ((run ω).1.x.value i b)) = fin (avg ω)) ∧
      ∫⁻ ω, ENNReal.ofReal ((avg ω - (filterAvg (K b) (fun y t x => ENNReal.ofReal (Real.exp (logg b y t x))) (μ b)
            (fun x => ENNReal.ofReal (φ x)) (slots opt.observeEveryStep missing ys)).toReal) ^ 2) ∂P
        ≤ ENNReal.ofReal (4 * ((2 * (slots opt.observeEveryStep missing ys).length + 1) *
            (boundOf c (slots opt.observeEveryStep missing ys) /
              (∫⁻ x, lik (K b) (fun y t x => ENNReal.ofReal (Real.exp (logg b y t x)))
                (slots opt.observeEveryStep missing ys) 0 x ∂(μ b)).toReal) ^ 2 / (τ * N))) := by
  have hN' : (0 : ℝ) < N := by exact_mod_cast hN
  have h := C110_filter_error P hN (bootstrapModel lo (τ * N) (multinomial2 lo mult) propagate
    (fun y x i b => fin (logg b y x.time (x.value i b))) preWeight missing) rfl
    (multinomial_independent lo hmult) (mul_pos hτ hN') K μ logg hlogg init hinit hK c
    (bootstrap_independent hK logg hlogg c hc) opt hk fuel hfuel ys b φ hφ hφ0 hφ1
  have e : min (τ * N) (N : ℝ) = τ * N := min_eq_left (mul_le_of_le_one_left hN'.le hτ1)
  simpa only [bootstrapModel, e] using h

/-- C110, the limit: as the number of particles grows, the mean squared error of filter averages tends to zero. -/
theorem C110_consistent (P : Measure Ω) [IsProbabilityMeasure P] (lo τ : ℝ) (hτ : 0 < τ) (hτ1 : τ ≤ 1)
    (mult : ∀ N, TorchMultinomial (N + 1) Ω) (hmult : ∀ N, IndependentMultinomial P (mult N))
    (K : Fin B → ℕ → Kernel (Fin d → V) (Fin d → V)) (μ : Fin B → Measure (Fin d → V))
    (logg : Fin B → Y → ℕ → (Fin d → V) → ℝ) (hlogg : ∀ b y t, Measurable (logg b y t)) (c : Y → ℝ)
    (hc : ∀ b y t x, logg b y t x ≤ c y)
    (init : ∀ N, Ω → (Fin (N + 1) → Fin B → Fin d → V) × Ω) (hinit : ∀ N, IndependentInitial P (init N) μ)
    (propagate : ∀ N, TS (N + 1) B d V → Ω → (Fin (N + 1) → Fin B → Fin d → V) × Ω)
    (hK : ∀ N, IndependentTransitions P (propagate N) K)
    (preWeight : ∀ N, Y → TS (N + 1) B d V → Fin (N + 1) → Fin B → XF) (missing : Y → Bool)
    (opt : FilterOptions) (hk : 0 < opt.observeEveryStep) (fuel : ℕ) (hfuel : opt.observeEveryStep - 1 ≤ fuel)
    (ys : List Y) (b : Fin B) (φ : (Fin d → V) → ℝ) (hφ : Measurable φ) (hφ0 : ∀ x, 0 ≤ φ x) (hφ1 : ∀ x, φ x ≤ 1)
    (run : ∀ N, Ω → PCorr (N + 1) B d V × List (PCorr (N + 1) B d V) × Ω)
    (hrun : ∀ N ω, (FilterKind.sisr.ops (bootstrapModel lo (τ * ((N + 1 : ℕ) : ℝ)) (multinomial2 lo (mult N)) (propagate N)
          (fun y x i b => fin (logg b y x.time (x.value i b))) (preWeight N) missing)).filterAll opt fuel ys
          (initializeFilter lo (init N ω).1) (init N ω).2 = some (run N ω))
    (avg : ℕ → Ω → ℝ)
    (havg : ∀ N ω, ∑ i, (normalize2 lo (run N ω).1.w).2 i b * fin (φ ((run N ω).1.x.value i b)) = fin (avg N ω)) :
    Filter.Tendsto (fun N => ∫⁻ ω, ENNReal.ofReal ((avg N ω - (filterAvg (K b)
            (fun y t x => ENNReal.ofReal (Real.exp (logg b y t x))) (μ b)
            (fun x => ENNReal.ofReal (φ x)) (slots opt.observeEveryStep missing ys)).toReal) ^ 2) ∂P)
      Filter.atTop (nhds 0) := by
  refine tendsto_of_tendsto_of_tendsto_of_le_of_le (g := fun _ => 0)
    (h := fun N : ℕ => ENNReal.ofReal (4 * ((2 * (slots opt.observeEveryStep missing ys).length + 1) *
            (boundOf c (slots opt.observeEveryStep missing ys) /
              (∫⁻ x, lik (K b) (fun y t x => ENNReal.ofReal (Real.exp (logg b y t x)))
                (slots opt.observeEveryStep missing ys) 0 x ∂(μ b)).toReal) ^ 2 / (τ * ((N + 1 : ℕ) : ℝ)))))
    tendsto_const_nhds ?_ (fun _ => zero_le) fun N => ?_
  · rw [← ENNReal.ofReal_zero]
    refine (ENNReal.continuous_ofReal.tendsto 0).comp ?_
    have h1 : Filter.Tendsto (fun N : ℕ => τ * ((N + 1 : ℕ) : ℝ)) Filter.atTop Filter.atTop :=
      (tendsto_natCast_atTop_atTop.comp (Filter.tendsto_add_atTop_nat 1)).const_mul_atTop hτ
    have h2 := (h1.const_div_atTop ((2 * ((slots opt.observeEveryStep missing ys).length : ℝ) + 1) *
            (boundOf c (slots opt.observeEveryStep missing ys) /
              (∫⁻ x, lik (K b) (fun y t x => ENNReal.ofReal (Real.exp (logg b y t x)))
                (slots opt.observeEveryStep missing ys) 0 x ∂(μ b)).toReal) ^ 2)).const_mul 4
    rw [mul_zero] at h2
    exact h2
  · obtain ⟨run', avg', h1, h2, h3⟩ := C110_bootstrap P (Nat.succ_pos N) lo τ hτ hτ1 (mult N) (hmult N) K μ logg hlogg c hc
      (init N) (hinit N) (propagate N) (hK N) (preWeight N) missing opt hk fuel hfuel ys b φ hφ hφ0 hφ1
    have e : run' = run N := funext fun ω => Option.some.inj ((h1 ω).symm.trans (hrun N ω))
    subst e
    have e2 : avg' = avg N := funext fun ω => XF.fin.inj ((h2 ω).symm.trans (havg N ω))
    rw [← e2]
    exact h3

/-! ## A concrete case -/

/-- Autoregressive processes, one for each of two parallel filters, moved by the first entry of the noise. -/
noncomputable def kernelMove (b : Fin 2) (_t : ℕ) (q : (Fin 1 → ℝ) × (Fin 2 → ℝ)) : Fin 1 → ℝ :=
  fun i => (if b = 0 then 1 / 2 else -1) * q.1 i + q.2 0

theorem measurable_kernelMove (b : Fin 2) (t : ℕ) : Measurable (kernelMove b t) := by
  unfold kernelMove
  fun_prop

/-- A case for C109 and C110: autoregressive processes observed with normal noise, particles drawn independently and
resampled by inversion of independent uniforms; the densities (up to a constant) are at most 1 and the function is an
indicator. -/
example (n : ℕ) : IndependentMultinomial (streamLaw kernelEntryLaw)
      (multinomialBy (Nat.succ_pos n) fun ω => ((next ω).1.2.1, (next ω).2)) ∧
    IndependentInitial (N := n + 1) (streamLaw kernelEntryLaw)
      (fun ω => (fun i b => (fun z _ => z 0 : (Fin 2 → ℝ) → Fin 1 → ℝ) ((next ω).1.2.2.1 ((i : ℕ), (b : ℕ))), (next ω).2))
      (fun _ : Fin 2 => (Measure.pi fun _ : Fin 2 => gaussianReal 0 1).map fun z _ => z 0) ∧
    IndependentTransitions (streamLaw kernelEntryLaw)
      (noisePropagate (N := n + 1) (fun ω => ((next ω).1.2.2.1, (next ω).2)) kernelMove)
      (fun b t => noiseKernel (Measure.pi fun _ : Fin 2 => gaussianReal 0 1) (kernelMove b t)) ∧
    (∀ y : ℝ, Measurable fun x : Fin 1 → ℝ => -(y - x 0) ^ 2 / 2) ∧
    (∀ (y : ℝ) (x : Fin 1 → ℝ), -(y - x 0) ^ 2 / 2 ≤ 0) ∧
    Measurable (Set.indicator {x : Fin 1 → ℝ | 0 ≤ x 0} fun _ => (1 : ℝ)) :=
  ⟨multinomialBy_independent _ kernel_rand2,
    noise_initial_independent _ kernel_noise (f := fun _ z _ => z 0) fun _ => by fun_prop,
    noise_independent _ kernel_noise measurable_kernelMove, fun y => by fun_prop,
    fun y x => by nlinarith [sq_nonneg (y - x 0)],
    measurable_const.indicator (measurableSet_le measurable_const (by fun_prop))⟩

/-- The resampler and the proposal of the case are independent, as C109 and C110 ask of others. -/
example (n : ℕ) (lo : ℝ) : IndependentResampler (N := n + 1) (streamLaw kernelEntryLaw)
      (multinomial2 lo (multinomialBy (Nat.succ_pos n) fun ω => ((next ω).1.2.1, (next ω).2))) ∧
    IndependentProposal (streamLaw kernelEntryLaw)
    (bootstrapSample (noisePropagate (N := n + 1) (fun ω => ((next ω).1.2.2.1, (next ω).2)) kernelMove)
      fun (y : ℝ) x i b => fin (-(y - x.value i b 0) ^ 2 / 2))
    (fun b t => noiseKernel (Measure.pi fun _ : Fin 2 => gaussianReal 0 1) (kernelMove b t))
    (fun _ y _ x => -(y - x 0) ^ 2 / 2) fun _ => 0 :=
  ⟨multinomial_independent lo (multinomialBy_independent _ kernel_rand2),
    bootstrap_independent (noise_independent _ kernel_noise measurable_kernelMove)
      (fun _ y _ x => -(y - x 0) ^ 2 / 2) (fun _ _ _ => by fun_prop) _ fun _ y _ x => by nlinarith [sq_nonneg (y - x 0)]⟩

end Verif.Props
