import Verif.Lemmas.LiftedRun
import Verif.Props.ConsistencyApf

/-!
# Property C129: averages over smoothed paths are consistent when they are weighted with the final weights
-/

namespace Verif.Props

open Verif Verif.Spec Verif.Unbiased Verif.Lifted XF MeasureTheory ProbabilityTheory
open scoped ENNReal

variable {N B d : ℕ} {V Y Ω : Type} [MeasurableSpace V] [MeasurableSpace Ω]

/-- C129 for APF: the paths that fixed-lag smoothing returns, averaged with the weights of the last state, have a mean squared
error of order `1 / N` against the smoothing distribution, for functions `Φ` of the whole path. `_partial`: the weights of the
last state are needed and `smooth` does not apply them, see `C129_negation`. -/
theorem C129_apf_partial (P : Measure Ω) [IsProbabilityMeasure P] (hN : 0 < N) (hB : 0 < B) (M : ParticleModel N B d V Y Ω)
    (hkind : M.kind.increment = 1) (hr : SteadyLogResampler P M.resampler)
    (K : Fin B → ℕ → Kernel (Fin d → V) (Fin d → V)) (μ : Fin B → Measure (Fin d → V))
    (logg : Fin B → Y → ℕ → (Fin d → V) → ℝ) (hlogg : ∀ b y t, Measurable (logg b y t))
    (init : Ω → (Fin N → Fin B → Fin d → V) × Ω) (hinit : IndependentInitial P init μ)
    (hK : IndependentTransitions P M.propagateValues K) (c₁ c₂ : Y → ℝ)
    (hM : IndependentProposal P M.sampleValues K logg fun y => c₁ y + c₂ y)
    (logp : Fin B → Y → ℕ → (Fin d → V) → ℝ) (hlogp : ∀ b y t, Measurable (logp b y t))
    (hpre : ∀ y x i b, M.preWeight y x i b = fin (logp b y x.time (x.value i b)))
    (hc1 : ∀ y p ω i b, ∃ r, (M.sampleValues y p ω).1.2 i b = fin r ∧
      r ≤ logp b y p.prevX.time (p.prevX.value i b) + c₁ y)
    (hc2 : ∀ b y t x, logp b y t x ≤ c₂ y)
    (opt : FilterOptions) (hk : 0 < opt.observeEveryStep)
    (hrec : opt.recordIntermediary = true ∨ opt.observeEveryStep = 1) (fuel : ℕ) (hfuel : opt.observeEveryStep - 1 ≤ fuel)
    (ys : List Y) (b : Fin B) (Φ : (Fin ((slots opt.observeEveryStep M.allNan ys).length + 1) → Fin d → V) → ℝ)
    (hΦ : Measurable Φ) (hΦ0 : ∀ x, 0 ≤ Φ x) (hΦ1 : ∀ x, Φ x ≤ 1) :
    ∃ (run : Ω → PCorr N B d V × List (PCorr N B d V) × Ω)
      (paths : Ω → Fin ((slots opt.observeEveryStep M.allNan ys).length + 1) → Vals N B d V) (avg : Ω → ℝ),
      (∀ ω, (FilterKind.apf.ops M).filterAll opt fuel ys (initializeFilter M.lo (init ω).1) (init ω).2 = some (run ω)) ∧
      (∀ ω, smoothFl (initializeFilter M.lo (init ω).1 :: (run ω).2.1) = .ok (List.ofFn (paths ω))) ∧
      (∀ ω, ∑ i, (normalize2 M.lo (run ω).1.w).2 i b * fin (Φ fun n => paths ω n i b) = fin (avg ω)) ∧
      ∫⁻ ω, ENNReal.ofReal ((avg ω - (smoothingAvg (K b) (fun y t x => ENNReal.ofReal (Real.exp (logg b y t x))) (μ b)
            (slots opt.observeEveryStep M.allNan ys) fun p => ENNReal.ofReal (Φ p)).toReal) ^ 2) ∂P
        ≤ ENNReal.ofReal (4 * ((2 * (slots opt.observeEveryStep M.allNan ys).length + 1) *
            boundOf (fun y => c₁ y + c₂ y) (slots opt.observeEveryStep M.allNan ys) ^ 2 / N /
              (∫⁻ x, lik (K b) (fun y t x => ENNReal.ofReal (Real.exp (logg b y t x)))
                (slots opt.observeEveryStep M.allNan ys) 0 x ∂(μ b)).toReal ^ 2)) := by
  have hmk : ∀ b t, IsMarkovKernel (K b t) := markov_of_draws hN hK
  have hg : ∀ b y t, Measurable fun x => ENNReal.ofReal (Real.exp (logg b y t x)) :=
    fun b y t => (Real.measurable_exp.comp (hlogg b y t)).ennreal_ofReal
  obtain ⟨run, avg, h1, h2, h3⟩ := C112_filter_error P hN (lifted M) hkind hr (fun b => liftK (K b)) _
    (fun b y t p => logg b y t (present t p)) (fun b y t => (hlogg b y t).comp (measurable_present t)) _
    (lifted_initial hinit) (lifted_transitions hN hK) c₁ c₂ (lifted_proposal hkind hmk hlogg hM)
    (fun b y t p => logp b y t (present t p)) (fun b y t => (hlogp b y t).comp (measurable_present t))
    (fun y x i b => hpre y (now x) i b) (fun y p ω i b => hc1 y (nowP p) ω i b) (fun b y t x => hc2 b y t _) opt hk fuel hfuel
    ys b (fun p => Φ fun n e => p e n) (hΦ.comp (by fun_prop)) (fun _ => hΦ0 _) (fun _ => hΦ1 _)
  refine ⟨fun ω => (nowC (run ω).1, (run ω).2.1.map nowC, (run ω).2.2), fun ω n i b e => (run ω).1.x.value i b e n, avg,
    fun ω => ?_, fun ω => apf_paths M hkind hN hB opt hk hrec fuel hfuel ys _ _ _ (h1 ω), h2, ?_⟩
  · rw [← initialize_now, filterAll_now M .apf]
    rw [show (FilterKind.apf.ops (lifted M)).filterAll opt fuel ys (initializeFilter M.lo (constant (init ω).1)) (init ω).2
      = some (run ω) from h1 ω]
    rfl
  · have e1 := filterAvg_lifted (hmk b) (hg b) (μ b) (slots opt.observeEveryStep M.allNan ys)
      (Φ := fun p => ENNReal.ofReal (Φ p)) hΦ.ennreal_ofReal
    have e2 := lik_lifted_initial (hmk b) (hg b) (μ b) (slots opt.observeEveryStep M.allNan ys)
    rw [← e1, ← e2]
    exact h3

/-- C129 for SISR: the paths are those of the ancestry of the final particles, and what fixed-lag smoothing returns when
the filter resamples in every step. -/
theorem C129_sisr_partial (P : Measure Ω) [IsProbabilityMeasure P] (hN : 0 < N) (hB : 0 < B) (M : ParticleModel N B d V Y Ω)
    (hkind : M.kind.increment = 1) (hr : IndependentResampler P M.resampler) (hthr : 0 < M.threshold)
    (K : Fin B → ℕ → Kernel (Fin d → V) (Fin d → V)) (μ : Fin B → Measure (Fin d → V))
    (logg : Fin B → Y → ℕ → (Fin d → V) → ℝ) (hlogg : ∀ b y t, Measurable (logg b y t))
    (init : Ω → (Fin N → Fin B → Fin d → V) × Ω) (hinit : IndependentInitial P init μ)
    (hK : IndependentTransitions P M.propagateValues K) (c : Y → ℝ) (hM : IndependentProposal P M.sampleValues K logg c)
    (opt : FilterOptions) (hk : 0 < opt.observeEveryStep)
    (hrec : opt.recordIntermediary = true ∨ opt.observeEveryStep = 1) (fuel : ℕ) (hfuel : opt.observeEveryStep - 1 ≤ fuel)
    (ys : List Y) (b : Fin B) (Φ : (Fin ((slots opt.observeEveryStep M.allNan ys).length + 1) → Fin d → V) → ℝ)
    (hΦ : Measurable Φ) (hΦ0 : ∀ x, 0 ≤ Φ x) (hΦ1 : ∀ x, Φ x ≤ 1) :
    ∃ (run : Ω → PCorr N B d V × List (PCorr N B d V) × Ω)
      (paths : Ω → Fin ((slots opt.observeEveryStep M.allNan ys).length + 1) → Vals N B d V) (avg : Ω → ℝ),
      (∀ ω, (FilterKind.sisr.ops M).filterAll opt fuel ys (initializeFilter M.lo (init ω).1) (init ω).2 = some (run ω)) ∧
      (∀ ω, Lineage (SisrStep M) (Initial M.lo) (initializeFilter M.lo (init ω).1 :: (run ω).2.1).reverse
        fun i b => (List.ofFn fun n => paths ω n i b).reverse) ∧
      ((N : ℝ) < M.threshold →
        ∀ ω, smoothFl (initializeFilter M.lo (init ω).1 :: (run ω).2.1) = .ok (List.ofFn (paths ω))) ∧
      (∀ ω, ∑ i, (normalize2 M.lo (run ω).1.w).2 i b * fin (Φ fun n => paths ω n i b) = fin (avg ω)) ∧
      ∫⁻ ω, ENNReal.ofReal ((avg ω - (smoothingAvg (K b) (fun y t x => ENNReal.ofReal (Real.exp (logg b y t x))) (μ b)
            (slots opt.observeEveryStep M.allNan ys) fun p => ENNReal.ofReal (Φ p)).toReal) ^ 2) ∂P
        ≤ ENNReal.ofReal (4 * ((2 * (slots opt.observeEveryStep M.allNan ys).length + 1) *
            (boundOf c (slots opt.observeEveryStep M.allNan ys) /
              (∫⁻ x, lik (K b) (fun y t x => ENNReal.ofReal (Real.exp (logg b y t x)))
                (slots opt.observeEveryStep M.allNan ys) 0 x ∂(μ b)).toReal) ^ 2 / min M.threshold N)) := by
  have hmk : ∀ b t, IsMarkovKernel (K b t) := markov_of_draws hN hK
  have hg : ∀ b y t, Measurable fun x => ENNReal.ofReal (Real.exp (logg b y t x)) :=
    fun b y t => (Real.measurable_exp.comp (hlogg b y t)).ennreal_ofReal
  obtain ⟨run, avg, h1, h2, h3⟩ := C110_filter_error P hN (lifted M) hkind hr hthr (fun b => liftK (K b)) _
    (fun b y t p => logg b y t (present t p)) (fun b y t => (hlogg b y t).comp (measurable_present t)) _
    (lifted_initial hinit) (lifted_transitions hN hK) c (lifted_proposal hkind hmk hlogg hM) opt hk fuel hfuel
    ys b (fun p => Φ fun n e => p e n) (hΦ.comp (by fun_prop)) (fun _ => hΦ0 _) (fun _ => hΦ1 _)
  have hl := fun ω => sisr_paths M hkind hN opt hk hrec fuel hfuel ys _ _ _ (h1 ω)
  refine ⟨fun ω => (nowC (run ω).1, (run ω).2.1.map nowC, (run ω).2.2), fun ω n i b e => (run ω).1.x.value i b e n, avg,
    fun ω => ?_, hl, fun ht ω => ?_, h2, ?_⟩
  · rw [← initialize_now, filterAll_now M .sisr]
    rw [show (FilterKind.sisr.ops (lifted M)).filterAll opt fuel ys (initializeFilter M.lo (constant (init ω).1)) (init ω).2
      = some (run ω) from h1 ω]
    rfl
  · obtain ⟨s, h4, h5⟩ := C37_sisr_always_resampling M hN ht _ _ (hl ω)
      (initializeFilter M.lo (init ω).1 :: (run ω).2.1.map nowC).length (by simp)
    rw [List.take_of_length_le (by simp), List.reverse_reverse] at h4
    refine h4.trans (congrArg _ (eq_ofFn s _ hN hB fun i b => ?_))
    rw [h5 i b, List.take_of_length_le, List.reverse_reverse]
    rw [lineage_length (hl ω) i b, List.length_reverse]
  · have e1 := filterAvg_lifted (hmk b) (hg b) (μ b) (slots opt.observeEveryStep M.allNan ys)
      (Φ := fun p => ENNReal.ofReal (Φ p)) hΦ.ennreal_ofReal
    have e2 := lik_lifted_initial (hmk b) (hg b) (μ b) (slots opt.observeEveryStep M.allNan ys)
    rw [← e1, ← e2]
    exact h3

/-- C129 with the bootstrap proposal, multinomial resampling and bounded pre-weights. -/
theorem C129_bootstrap_partial (P : Measure Ω) [IsProbabilityMeasure P] (hN : 0 < N) (hB : 0 < B) (lo threshold : ℝ)
    (mult : TorchMultinomial N Ω) (hmult : IndependentMultinomial P mult)
    (K : Fin B → ℕ → Kernel (Fin d → V) (Fin d → V)) (μ : Fin B → Measure (Fin d → V))
    (logg : Fin B → Y → ℕ → (Fin d → V) → ℝ) (hlogg : ∀ b y t, Measurable (logg b y t))
    (logp : Fin B → Y → ℕ → (Fin d → V) → ℝ) (hlogp : ∀ b y t, Measurable (logp b y t)) (c c₀ c₂ : Y → ℝ)
    (hc : ∀ b y t x, logg b y t x ≤ c y) (hc0 : ∀ b y t x, c₀ y ≤ logp b y t x) (hc2 : ∀ b y t x, logp b y t x ≤ c₂ y)
    (init : Ω → (Fin N → Fin B → Fin d → V) × Ω) (hinit : IndependentInitial P init μ)
    (propagate : TS N B d V → Ω → (Fin N → Fin B → Fin d → V) × Ω) (hK : IndependentTransitions P propagate K)
    (missing : Y → Bool)
    (opt : FilterOptions) (hk : 0 < opt.observeEveryStep)
    (hrec : opt.recordIntermediary = true ∨ opt.observeEveryStep = 1) (fuel : ℕ) (hfuel : opt.observeEveryStep - 1 ≤ fuel)
    (ys : List Y) (b : Fin B) (Φ : (Fin ((slots opt.observeEveryStep missing ys).length + 1) → Fin d → V) → ℝ)
    (hΦ : Measurable Φ) (hΦ0 : ∀ x, 0 ≤ Φ x) (hΦ1 : ∀ x, Φ x ≤ 1) :
    ∃ (run : Ω → PCorr N B d V × List (PCorr N B d V) × Ω)
      (paths : Ω → Fin ((slots opt.observeEveryStep missing ys).length + 1) → Vals N B d V) (avg : Ω → ℝ),
      (∀ ω, (FilterKind.apf.ops (bootstrapModel lo threshold (multinomial2 lo mult) propagate
          (fun y x i b => fin (logg b y x.time (x.value i b))) (fun y x i b => fin (logp b y x.time (x.value i b)))
          missing)).filterAll opt fuel ys (initializeFilter lo (init ω).1) (init ω).2 = some (run ω)) ∧
      (∀ ω, smoothFl (initializeFilter lo (init ω).1 :: (run ω).2.1) = .ok (List.ofFn (paths ω))) ∧
      (∀ ω, ∑ i, (normalize2 lo (run ω).1.w).2 i b * fin (Φ fun n => paths ω n i b) = fin (avg ω)) ∧
      ∫⁻ ω, ENNReal.ofReal ((avg ω - (smoothingAvg (K b) (fun y t x => ENNReal.ofReal (Real.exp (logg b y t x))) (μ b)
            (slots opt.observeEveryStep missing ys) fun p => ENNReal.ofReal (Φ p)).toReal) ^ 2) ∂P
        ≤ ENNReal.ofReal (4 * ((2 * (slots opt.observeEveryStep missing ys).length + 1) *
            boundOf (fun y => (c y - c₀ y) + c₂ y) (slots opt.observeEveryStep missing ys) ^ 2 / N /
              (∫⁻ x, lik (K b) (fun y t x => ENNReal.ofReal (Real.exp (logg b y t x)))
                (slots opt.observeEveryStep missing ys) 0 x ∂(μ b)).toReal ^ 2)) := by
  have hS : IndependentProposal P (bootstrapSample propagate fun y x i b => fin (logg b y x.time (x.value i b))) K logg
      fun y => (c y - c₀ y) + c₂ y := bootstrap_independent hK logg hlogg _ fun b y t x => by
    have h1 := hc b y t x
    have h2 := hc0 b y t x
    have h3 := hc2 b y t x
    linarith
  exact C129_apf_partial P hN hB (bootstrapModel lo threshold (multinomial2 lo mult) propagate
    (fun y x i b => fin (logg b y x.time (x.value i b))) (fun y x i b => fin (logp b y x.time (x.value i b))) missing) rfl
    (IndependentLogResampler.steady (multinomial_log_independent lo hN hmult)) K μ logg hlogg init hinit hK (fun y => c y - c₀ y) c₂ hS logp hlogp
    (fun _ _ _ _ => rfl) (fun y p ω i b => ⟨_, rfl, by
      have h1 := hc b y (p.prevX.time + 1) ((propagate p.prevX ω).1 i b)
      have h2 := hc0 b y p.prevX.time (p.prevX.value i b)
      dsimp only
      linarith⟩) hc2 opt hk hrec fuel hfuel ys b Φ hΦ hΦ0 hΦ1

/-- C129, the limit: as the number of particles grows, the mean squared error of the weighted averages over the smoothed paths
tends to zero. -/
theorem C129_consistent_partial (P : Measure Ω) [IsProbabilityMeasure P] (hB : 0 < B) (lo : ℝ) (threshold : ℕ → ℝ)
    (mult : ∀ N, TorchMultinomial (N + 1) Ω) (hmult : ∀ N, IndependentMultinomial P (mult N))
    (K : Fin B → ℕ → Kernel (Fin d → V) (Fin d → V)) (μ : Fin B → Measure (Fin d → V))
    (logg : Fin B → Y → ℕ → (Fin d → V) → ℝ) (hlogg : ∀ b y t, Measurable (logg b y t))
    (logp : Fin B → Y → ℕ → (Fin d → V) → ℝ) (hlogp : ∀ b y t, Measurable (logp b y t)) (c c₀ c₂ : Y → ℝ)
    (hc : ∀ b y t x, logg b y t x ≤ c y) (hc0 : ∀ b y t x, c₀ y ≤ logp b y t x) (hc2 : ∀ b y t x, logp b y t x ≤ c₂ y)
    (init : ∀ N, Ω → (Fin (N + 1) → Fin B → Fin d → V) × Ω) (hinit : ∀ N, IndependentInitial P (init N) μ)
    (propagate : ∀ N, TS (N + 1) B d V → Ω → (Fin (N + 1) → Fin B → Fin d → V) × Ω)
    (hK : ∀ N, IndependentTransitions P (propagate N) K) (missing : Y → Bool)
    (opt : FilterOptions) (hk : 0 < opt.observeEveryStep)
    (hrec : opt.recordIntermediary = true ∨ opt.observeEveryStep = 1) (fuel : ℕ) (hfuel : opt.observeEveryStep - 1 ≤ fuel)
    (ys : List Y) (b : Fin B) (Φ : (Fin ((slots opt.observeEveryStep missing ys).length + 1) → Fin d → V) → ℝ)
    (hΦ : Measurable Φ) (hΦ0 : ∀ x, 0 ≤ Φ x) (hΦ1 : ∀ x, Φ x ≤ 1)
    (run : ∀ N, Ω → PCorr (N + 1) B d V × List (PCorr (N + 1) B d V) × Ω)
    (hrun : ∀ N ω, (FilterKind.apf.ops (bootstrapModel lo (threshold N) (multinomial2 lo (mult N)) (propagate N)
          (fun y x i b => fin (logg b y x.time (x.value i b))) (fun y x i b => fin (logp b y x.time (x.value i b)))
          missing)).filterAll opt fuel ys (initializeFilter lo (init N ω).1) (init N ω).2 = some (run N ω))
    (paths : ∀ N, Ω → Fin ((slots opt.observeEveryStep missing ys).length + 1) → Vals (N + 1) B d V)
    (hpaths : ∀ N ω, smoothFl (initializeFilter lo (init N ω).1 :: (run N ω).2.1) = .ok (List.ofFn (paths N ω)))
    (avg : ℕ → Ω → ℝ)
    (havg : ∀ N ω, ∑ i, (normalize2 lo (run N ω).1.w).2 i b * fin (Φ fun n => paths N ω n i b) = fin (avg N ω)) :
    Filter.Tendsto (fun N => ∫⁻ ω, ENNReal.ofReal ((avg N ω - (smoothingAvg (K b)
            (fun y t x => ENNReal.ofReal (Real.exp (logg b y t x))) (μ b)
            (slots opt.observeEveryStep missing ys) fun p => ENNReal.ofReal (Φ p)).toReal) ^ 2) ∂P)
      Filter.atTop (nhds 0) := by
  refine tendsto_of_tendsto_of_tendsto_of_le_of_le (g := fun _ => 0)
    (h := fun N : ℕ => ENNReal.ofReal (4 * ((2 * (slots opt.observeEveryStep missing ys).length + 1) *
            boundOf (fun y => (c y - c₀ y) + c₂ y) (slots opt.observeEveryStep missing ys) ^ 2 / ((N + 1 : ℕ) : ℝ) /
              (∫⁻ x, lik (K b) (fun y t x => ENNReal.ofReal (Real.exp (logg b y t x)))
                (slots opt.observeEveryStep missing ys) 0 x ∂(μ b)).toReal ^ 2)))
    tendsto_const_nhds ?_ (fun _ => zero_le) fun N => ?_
  · rw [← ENNReal.ofReal_zero]
    refine (ENNReal.continuous_ofReal.tendsto 0).comp ?_
    have h1 : Filter.Tendsto (fun N : ℕ => ((N + 1 : ℕ) : ℝ)) Filter.atTop Filter.atTop :=
      tendsto_natCast_atTop_atTop.comp (Filter.tendsto_add_atTop_nat 1)
    have h2 := ((h1.const_div_atTop ((2 * ((slots opt.observeEveryStep missing ys).length : ℝ) + 1) *
            boundOf (fun y => (c y - c₀ y) + c₂ y) (slots opt.observeEveryStep missing ys) ^ 2)).div_const
            ((∫⁻ x, lik (K b) (fun y t x => ENNReal.ofReal (Real.exp (logg b y t x)))
                (slots opt.observeEveryStep missing ys) 0 x ∂(μ b)).toReal ^ 2)).const_mul 4
    rw [zero_div, mul_zero] at h2
    exact h2
  · obtain ⟨run', paths', avg', h1, h2, h3, h4⟩ := C129_bootstrap_partial P (Nat.succ_pos N) hB lo (threshold N) (mult N)
      (hmult N) K μ logg hlogg logp hlogp c c₀ c₂ hc hc0 hc2 (init N) (hinit N) (propagate N) (hK N) missing opt hk hrec fuel
      hfuel ys b Φ hΦ hΦ0 hΦ1
    have e : run' = run N := funext fun ω => Option.some.inj ((h1 ω).symm.trans (hrun N ω))
    subst e
    have e1 : paths' = paths N := funext fun ω => List.ofFn_injective (Except.ok.inj ((h2 ω).symm.trans (hpaths N ω)))
    subst e1
    have e2 : avg' = avg N := funext fun ω => XF.fin.inj ((h3 ω).symm.trans (havg N ω))
    rw [← e2]
    exact h4

/-! ## The paths that are returned, without weights -/

/-- The claim in full: the averages over the paths that `smooth` returns converge to the smoothing distribution. -/
def C129_claim : Prop :=
  ∀ (B d : ℕ) (V Y Ω : Type) [MeasurableSpace V] [MeasurableSpace Ω] (P : Measure Ω) [IsProbabilityMeasure P] (_ : 0 < B)
    (lo : ℝ) (threshold : ℕ → ℝ)
    (mult : ∀ N, TorchMultinomial (N + 1) Ω) (_ : ∀ N, IndependentMultinomial P (mult N))
    (K : Fin B → ℕ → Kernel (Fin d → V) (Fin d → V)) (μ : Fin B → Measure (Fin d → V))
    (logg : Fin B → Y → ℕ → (Fin d → V) → ℝ) (_ : ∀ b y t, Measurable (logg b y t))
    (logp : Fin B → Y → ℕ → (Fin d → V) → ℝ) (_ : ∀ b y t, Measurable (logp b y t)) (c c₀ c₂ : Y → ℝ)
    (_ : ∀ b y t x, logg b y t x ≤ c y) (_ : ∀ b y t x, c₀ y ≤ logp b y t x) (_ : ∀ b y t x, logp b y t x ≤ c₂ y)
    (init : ∀ N, Ω → (Fin (N + 1) → Fin B → Fin d → V) × Ω) (_ : ∀ N, IndependentInitial P (init N) μ)
    (propagate : ∀ N, TS (N + 1) B d V → Ω → (Fin (N + 1) → Fin B → Fin d → V) × Ω)
    (_ : ∀ N, IndependentTransitions P (propagate N) K) (missing : Y → Bool)
    (opt : FilterOptions) (_ : 0 < opt.observeEveryStep)
    (_ : opt.recordIntermediary = true ∨ opt.observeEveryStep = 1) (fuel : ℕ) (_ : opt.observeEveryStep - 1 ≤ fuel)
    (ys : List Y) (b : Fin B) (Φ : (Fin ((slots opt.observeEveryStep missing ys).length + 1) → Fin d → V) → ℝ)
    (_ : Measurable Φ) (_ : ∀ x, 0 ≤ Φ x) (_ : ∀ x, Φ x ≤ 1)
    (run : ∀ N, Ω → PCorr (N + 1) B d V × List (PCorr (N + 1) B d V) × Ω)
    (_ : ∀ N ω, (FilterKind.apf.ops (bootstrapModel lo (threshold N) (multinomial2 lo (mult N)) (propagate N)
          (fun y x i b => fin (logg b y x.time (x.value i b))) (fun y x i b => fin (logp b y x.time (x.value i b)))
          missing)).filterAll opt fuel ys (initializeFilter lo (init N ω).1) (init N ω).2 = some (run N ω))
    (paths : ∀ N, Ω → Fin ((slots opt.observeEveryStep missing ys).length + 1) → Vals (N + 1) B d V)
    (_ : ∀ N ω, smoothFl (initializeFilter lo (init N ω).1 :: (run N ω).2.1) = .ok (List.ofFn (paths N ω))),
    Filter.Tendsto (fun N => ∫⁻ ω, ENNReal.ofReal (((∑ i, Φ fun n => paths N ω n i b) / ((N + 1 : ℕ) : ℝ) - (smoothingAvg (K b)
            (fun y t x => ENNReal.ofReal (Real.exp (logg b y t x))) (μ b)
            (slots opt.observeEveryStep missing ys) fun p => ENNReal.ofReal (Φ p)).toReal) ^ 2) ∂P)
      Filter.atTop (nhds 0)

/-- What fixed-lag smoothing returns does not depend on the weights of the states. -/
theorem C129_no_weights (states states' : List (PCorr N B d V))
    (h : states.map (fun s => (s.x.value, s.prev)) = states'.map fun s => (s.x.value, s.prev)) :
    smoothFl states = smoothFl states' := by
  have key : ∀ (l l' : List (PCorr N B d V)) (a a' : PCorr N B d V) (ix : Fin N → Fin B → Fin N), a.prev = a'.prev →
      l.map (fun s => (s.x.value, s.prev)) = l'.map (fun s => (s.x.value, s.prev)) → flLoop a ix l = flLoop a' ix l' := by
    intro l
    induction l with
    | nil => intro l' a a' ix _ h; cases l' with
      | nil => rfl
      | cons _ _ => cases h
    | cons s l ih => intro l' a a' ix ha h; cases l' with
      | nil => cases h
      | cons s' l' =>
        simp only [List.map_cons, List.cons.injEq, Prod.mk.injEq] at h
        simp only [flLoop, ha, h.1.1]
        rw [ih l' s s' _ h.1.2 h.2]
  have h' := congrArg List.reverse h
  rw [← List.map_reverse, ← List.map_reverse] at h'
  unfold smoothFl
  cases hs : states.reverse with
  | nil =>
    rw [hs] at h'
    cases hs' : states'.reverse with
    | nil => rfl
    | cons _ _ => rw [hs'] at h'; cases h'
  | cons s l =>
    rw [hs] at h'
    cases hs' : states'.reverse with
    | nil => rw [hs'] at h'; cases h'
    | cons s' l' =>
      rw [hs'] at h'
      simp only [List.map_cons, List.cons.injEq, Prod.mk.injEq] at h'
      simp only [h'.1.1, key l l' s s' _ h'.1.2 h'.2]

/-! ## The case that contradicts the claim -/

/-- The observation log-density of the case: higher below one half by `s`. -/
noncomputable def tiltedLog (s : ℝ) (x : Fin 1 → ℝ) : ℝ := if x 0 < 1 / 2 then 0 else -s

/-- The event of the case: the last value of the path is below one half. -/
noncomputable def lastLow (p : Fin 2 → Fin 1 → ℝ) : ℝ := if p 1 0 < 1 / 2 then 1 else 0

theorem measurable_tiltedLog (s : ℝ) : Measurable (tiltedLog s) := by
  unfold tiltedLog
  exact Measurable.ite (measurableSet_lt (measurable_pi_apply 0) measurable_const) measurable_const measurable_const

theorem measurable_lastLow : Measurable lastLow := by
  unfold lastLow
  exact Measurable.ite (measurableSet_lt (by fun_prop) measurable_const) measurable_const measurable_const

/-- Every state of the case is a new uniform number. -/
def freshMove (_ : Fin 1) (_ : ℕ) (q : (Fin 1 → ℝ) × ℝ) : Fin 1 → ℝ := fun _ => q.2

theorem measurable_freshMove (b : Fin 1) (t : ℕ) : Measurable (freshMove b t) := by
  unfold freshMove
  fun_prop

theorem freshMove_kernel (b : Fin 1) (t : ℕ) (x : Fin 1 → ℝ) :
    noiseKernel unif (freshMove b t) x = unif.map fun z (_ : Fin 1) => z := by
  rw [noiseKernel_apply _ (measurable_freshMove b t)]
  rfl

/-- The filter of the case with the log-density `tiltedLog s`. -/
noncomputable def tiltedModel (s : ℝ) (n : ℕ) : ParticleModel (n + 1) 1 1 ℝ Unit (ℕ → ℕ × ℕ → ℝ) :=
  bootstrapModel 0 0 (multinomial2 0 (multinomialBy (Nat.succ_pos n) next)) (noisePropagate next freshMove)
    (fun _ x i b => fin (tiltedLog s (x.value i b))) (fun _ _ _ _ => fin 0) fun _ => false

/-- Initial values of the case. -/
def freshInit (n : ℕ) (ω : ℕ → ℕ × ℕ → ℝ) : (Fin (n + 1) → Fin 1 → Fin 1 → ℝ) × (ℕ → ℕ × ℕ → ℝ) :=
  (fun i b => (fun z _ => z : ℝ → Fin 1 → ℝ) ((next ω).1 ((i : ℕ), (b : ℕ))), (next ω).2)

/-- One step of the case. -/
noncomputable def tiltedStep (s : ℝ) (n : ℕ) (ω : ℕ → ℕ × ℕ → ℝ) : PCorr (n + 1) 1 1 ℝ × (ℕ → ℕ × ℕ → ℝ) :=
  let p := (FilterKind.apf.ops (tiltedModel s n)).predict (initializeFilter 0 (freshInit n ω).1) (freshInit n ω).2
  (FilterKind.apf.ops (tiltedModel s n)).correct () p.1 p.2

theorem tilted_run (s : ℝ) (n : ℕ) (ω : ℕ → ℕ × ℕ → ℝ) :
    (FilterKind.apf.ops (tiltedModel s n)).filterAll ⟨1, true, .skip⟩ 0 [()] (initializeFilter 0 (freshInit n ω).1)
      (freshInit n ω).2 = some ((tiltedStep s n ω).1, [(tiltedStep s n ω).1], (tiltedStep s n ω).2) := by
  have hl : ∀ p ω, (FilterKind.apf.ops (tiltedModel s n)).loop 1 0 p ω = some (p, [], ω) := fun p ω => by
    unfold FilterOps.loop
    rw [if_pos (Nat.mod_one _)]
  unfold FilterOps.filterAll FilterOps.filter
  simp only [hl]
  rfl

theorem tilted_smooth (s s' : ℝ) (n : ℕ) (ω : ℕ → ℕ × ℕ → ℝ) :
    smoothFl [initializeFilter 0 (freshInit n ω).1, (tiltedStep s n ω).1]
      = smoothFl [initializeFilter 0 (freshInit n ω).1, (tiltedStep s' n ω).1] := rfl

theorem measurableSet_Iio' : MeasurableSet {z : ℝ | z < 1 / 2} := measurableSet_lt measurable_id measurable_const

theorem unif_low : unif {z | z < 1 / 2} = ENNReal.ofReal (1 / 2) := by
  unfold unif
  rw [Measure.restrict_apply measurableSet_Iio']
  have : {z : ℝ | z < 1 / 2} ∩ Set.Ico 0 1 = Set.Ico 0 (1 / 2) := by
    ext z
    simp only [Set.mem_inter_iff, Set.mem_ofPred_eq, Set.mem_Ico]
    constructor
    · rintro ⟨h1, h2, -⟩; exact ⟨h2, h1⟩
    · rintro ⟨h1, h2⟩; exact ⟨h2, h1, by linarith⟩
  rw [this, Real.volume_Ico, sub_zero]

theorem unif_high : unif {z | z < 1 / 2}ᶜ = ENNReal.ofReal (1 / 2) := by
  rw [prob_compl_eq_one_sub measurableSet_Iio', unif_low, ← ENNReal.ofReal_one,
    ← ENNReal.ofReal_sub _ (by norm_num)]
  norm_num

theorem lintegral_two (a c : ℝ≥0∞) : ∫⁻ z, (if z < 1 / 2 then a else c) ∂unif = (a + c) * ENNReal.ofReal (1 / 2) := by
  have hs := measurableSet_Iio'
  have e1 : Set.EqOn (fun z : ℝ => if z < 1 / 2 then a else c) (fun _ => a) {z : ℝ | z < 1 / 2} := fun z hz => if_pos hz
  have e2 : Set.EqOn (fun z : ℝ => if z < 1 / 2 then a else c) (fun _ => c) {z : ℝ | z < 1 / 2}ᶜ := fun z hz => if_neg hz
  rw [← lintegral_add_compl _ hs, setLIntegral_congr_fun hs e1, setLIntegral_congr_fun hs.compl e2, setLIntegral_const, setLIntegral_const, unif_low,
    unif_high, add_mul]

theorem exp_tilted (s z : ℝ) : ENNReal.ofReal (Real.exp (tiltedLog s fun _ => z))
      = if z < 1 / 2 then 1 else ENNReal.ofReal (Real.exp (-s)) := by
  unfold tiltedLog
  split_ifs <;> simp

theorem tilted_likelihood (s : ℝ) : ∫⁻ x, lik (fun t => noiseKernel unif (freshMove 0 t))
      (fun (_ : Unit) _ x => ENNReal.ofReal (Real.exp (tiltedLog s x))) [some ()] 0 x ∂(unif.map fun z (_ : Fin 1) => z)
      = ENNReal.ofReal ((1 + Real.exp (-s)) * (1 / 2)) := by
  have hm : Measurable fun (z : ℝ) (_ : Fin 1) => z := by fun_prop
  have hprob : IsProbabilityMeasure (unif.map fun z (_ : Fin 1) => z) := Measure.isProbabilityMeasure_map hm.aemeasurable
  have hg : Measurable fun x => ENNReal.ofReal (Real.exp (tiltedLog s x)) :=
    (Real.measurable_exp.comp (measurable_tiltedLog s)).ennreal_ofReal
  have hpos : (0 : ℝ) < 1 + Real.exp (-s) := by positivity
  simp only [lik, freshMove_kernel, mul_one]
  rw [lintegral_map hg hm]
  simp only [exp_tilted, lintegral_two, lintegral_const, measure_univ, mul_one]
  rw [ENNReal.ofReal_mul hpos.le, ENNReal.ofReal_add one_pos.le (Real.exp_pos _).le, ENNReal.ofReal_one]

theorem tilted_average (s : ℝ) :
    smoothingAvg (fun t => noiseKernel unif (freshMove 0 t)) (fun (_ : Unit) _ x => ENNReal.ofReal (Real.exp (tiltedLog s x)))
      (unif.map fun z (_ : Fin 1) => z) [some ()] (fun p => ENNReal.ofReal (lastLow p))
      = ENNReal.ofReal (1 / (1 + Real.exp (-s))) := by
  have hm : Measurable fun (z : ℝ) (_ : Fin 1) => z := by fun_prop
  have hprob : IsProbabilityMeasure (unif.map fun z (_ : Fin 1) => z) := Measure.isProbabilityMeasure_map hm.aemeasurable
  have hg : Measurable fun x => ENNReal.ofReal (Real.exp (tiltedLog s x)) :=
    (Real.measurable_exp.comp (measurable_tiltedLog s)).ennreal_ofReal
  have h2 := exp_tilted s
  have h3 : ∀ (x : Fin 1 → ℝ) (z : ℝ), lastLow (fun n => Function.update (fun _ => x) (0 + 1) (fun _ => z) (n : ℕ))
      = if z < 1 / 2 then 1 else 0 := by
    intro x z
    simp [lastLow]
  have hpos : (0 : ℝ) < 1 + Real.exp (-s) := by positivity
  have e1 : ∫⁻ x, pathAvg (fun t => noiseKernel unif (freshMove 0 t))
      (fun (_ : Unit) _ x => ENNReal.ofReal (Real.exp (tiltedLog s x)))
      (fun p => ENNReal.ofReal (lastLow fun n => p n)) [some ()] 0 (fun _ => x) ∂(unif.map fun z (_ : Fin 1) => z)
      = ENNReal.ofReal (1 / 2) := by
    simp only [pathAvg, freshMove_kernel]
    have : ∀ x : Fin 1 → ℝ, ∫⁻ v, ENNReal.ofReal (Real.exp (tiltedLog s v)) *
        ENNReal.ofReal (lastLow fun n => Function.update (fun _ => x) (0 + 1) v (n : ℕ)) ∂(unif.map fun z (_ : Fin 1) => z)
        = ENNReal.ofReal (1 / 2) := by
      intro x
      have hl : Measurable fun v : Fin 1 → ℝ => ENNReal.ofReal (lastLow fun n => Function.update (fun _ => x) (0 + 1) v (n : ℕ)) :=
        (measurable_lastLow.comp (measurable_pi_lambda _ fun n => by
          by_cases h : (n : ℕ) = 0 + 1
          · simp only [h, Function.update_self]; exact measurable_id
          · simp only [Function.update_of_ne h]; exact measurable_const)).ennreal_ofReal
      have hgl : Measurable fun v : Fin 1 → ℝ => ENNReal.ofReal (Real.exp (tiltedLog s v)) *
          ENNReal.ofReal (lastLow fun n => Function.update (fun _ => x) (0 + 1) v (n : ℕ)) := hg.mul hl
      rw [lintegral_map hgl hm]
      simp only [h2, h3]
      have : ∀ z : ℝ, ((if z < 1 / 2 then 1 else ENNReal.ofReal (Real.exp (-s))) * ENNReal.ofReal (if z < 1 / 2 then 1 else 0))
          = if z < 1 / 2 then 1 else 0 := by
        intro z
        split_ifs <;> simp
      simp only [this, lintegral_two, add_zero, one_mul]
    simp only [this, lintegral_const, measure_univ, mul_one]
  have e2 := tilted_likelihood s
  unfold smoothingAvg
  refine (congrArg₂ (· / ·) e1 e2).trans ?_
  rw [← ENNReal.ofReal_div_of_pos (by positivity)]
  congr 1
  field_simp

/-- The claim is false: with the same random numbers the case returns the same paths for every `s`, but the smoothing
distribution depends on `s`. -/
theorem C129_negation : ¬ C129_claim := by
  intro h
  have hd : Draws (streamLaw unifs2) next unifs2 := next_draws unifs2
  have key := fun s : ℝ => h 1 1 ℝ Unit (ℕ → ℕ × ℕ → ℝ) (streamLaw unifs2) one_pos 0 (fun _ => 0)
    (fun n => multinomialBy (Nat.succ_pos n) next) (fun n => multinomialBy_independent _ hd)
    (fun b t => noiseKernel unif (freshMove b t)) (fun _ => unif.map fun z _ => z)
    (fun _ _ _ x => tiltedLog s x) (fun _ _ _ => measurable_tiltedLog s) (fun _ _ _ _ => 0) (fun _ _ _ => measurable_const)
    (fun _ => |s|) (fun _ => 0) (fun _ => 0)
    (fun _ _ _ x => by
      unfold tiltedLog
      split_ifs
      · exact abs_nonneg s
      · exact neg_le_abs s) (fun _ _ _ _ => le_rfl) (fun _ _ _ _ => le_rfl)
    freshInit (fun n => noise_initial_independent unif hd (f := fun _ z _ => z) fun _ => by fun_prop)
    (fun n => noisePropagate next freshMove) (fun n => noise_independent unif hd measurable_freshMove) (fun _ => false)
    ⟨1, true, .skip⟩ one_pos (Or.inl rfl) 0 le_rfl [()] 0 lastLow measurable_lastLow
    (fun x => by unfold lastLow; split_ifs <;> norm_num) (fun x => by unfold lastLow; split_ifs <;> norm_num)
    _ (fun n ω => tilted_run s n ω)
  have hp : ∀ n ω, ∃ paths : Fin 2 → Vals (n + 1) 1 1 ℝ,
      smoothFl [initializeFilter 0 (freshInit n ω).1, (tiltedStep 0 n ω).1] = .ok (List.ofFn paths) ∧
      ∀ i, (lastLow fun m => paths m i 0) = if ω 2 ((i : ℕ), 0) < 1 / 2 then 1 else 0 := fun n ω =>
    ⟨![_, _], rfl, fun i => rfl⟩
  choose paths hpaths hlow using hp
  have hmeas : ∀ n, Measurable fun ω => (∑ i, lastLow fun m => paths n ω m i 0) / ((n + 1 : ℕ) : ℝ) := by
    intro n
    simp only [hlow]
    refine (Finset.measurable_sum _ fun i _ => ?_).div_const _
    exact Measurable.ite (measurableSet_lt (by fun_prop) measurable_const) measurable_const measurable_const
  have k0 := key 0 paths hpaths
  have k1 := key 1 paths fun n ω => (tilted_smooth 1 0 n ω).trans (hpaths n ω)
  have e : ∀ s : ℝ, (smoothingAvg (fun t => noiseKernel unif (freshMove 0 t))
      (fun (_ : Unit) _ x => ENNReal.ofReal (Real.exp (tiltedLog s x)))
      (unif.map fun z (_ : Fin 1) => z) [some ()] (fun p => ENNReal.ofReal (lastLow p))).toReal = 1 / (1 + Real.exp (-s)) := by
    intro s
    rw [tilted_average, ENNReal.toReal_ofReal (by positivity)]
  change Filter.Tendsto (fun n => ∫⁻ ω, ENNReal.ofReal (((∑ i, lastLow fun m => paths n ω m i 0) / ((n + 1 : ℕ) : ℝ) -
    (smoothingAvg (fun t => noiseKernel unif (freshMove 0 t))
      (fun (_ : Unit) _ x => ENNReal.ofReal (Real.exp (tiltedLog 0 x)))
      (unif.map fun z (_ : Fin 1) => z) [some ()] (fun p => ENNReal.ofReal (lastLow p))).toReal) ^ 2) ∂(streamLaw unifs2))
    Filter.atTop (nhds 0) at k0
  change Filter.Tendsto (fun n => ∫⁻ ω, ENNReal.ofReal (((∑ i, lastLow fun m => paths n ω m i 0) / ((n + 1 : ℕ) : ℝ) -
    (smoothingAvg (fun t => noiseKernel unif (freshMove 0 t))
      (fun (_ : Unit) _ x => ENNReal.ofReal (Real.exp (tiltedLog 1 x)))
      (unif.map fun z (_ : Fin 1) => z) [some ()] (fun p => ENNReal.ofReal (lastLow p))).toReal) ^ 2) ∂(streamLaw unifs2))
    Filter.atTop (nhds 0) at k1
  rw [e] at k0 k1
  have hsum := ENNReal.Tendsto.const_mul (a := 2) (k0.add k1) (Or.inr (by norm_num))
  simp only [add_zero, mul_zero] at hsum
  have hne : (1 : ℝ) / (1 + Real.exp (-0)) ≠ 1 / (1 + Real.exp (-1)) := by
    intro hh
    have h1 : (1 : ℝ) + Real.exp (-0) = 1 + Real.exp (-1) := by
      have a : (0 : ℝ) < 1 + Real.exp (-0) := by positivity
      have b : (0 : ℝ) < 1 + Real.exp (-1) := by positivity
      field_simp at hh
      linarith
    have h2 : Real.exp (-1) < Real.exp (-0) := Real.exp_lt_exp.2 (by norm_num)
    linarith
  have hpos : 0 < ENNReal.ofReal (((1 : ℝ) / (1 + Real.exp (-0)) - 1 / (1 + Real.exp (-1))) ^ 2) :=
    ENNReal.ofReal_pos.2 (by have := sub_ne_zero.2 hne; positivity)
  refine absurd (ge_of_tendsto' hsum fun n => ?_) (not_le.2 hpos)
  calc ENNReal.ofReal (((1 : ℝ) / (1 + Real.exp (-0)) - 1 / (1 + Real.exp (-1))) ^ 2)
      = ∫⁻ _, ENNReal.ofReal (((1 : ℝ) / (1 + Real.exp (-0)) - 1 / (1 + Real.exp (-1))) ^ 2) ∂(streamLaw unifs2) := by
        rw [lintegral_const, measure_univ, mul_one]
    _ ≤ ∫⁻ ω, 2 * (ENNReal.ofReal (((∑ i, lastLow fun m => paths n ω m i 0) / ((n + 1 : ℕ) : ℝ) - 1 / (1 + Real.exp (-0))) ^ 2)
        + ENNReal.ofReal (((∑ i, lastLow fun m => paths n ω m i 0) / ((n + 1 : ℕ) : ℝ) - 1 / (1 + Real.exp (-1))) ^ 2))
          ∂(streamLaw unifs2) := by
        refine lintegral_mono fun ω => ?_
        dsimp only
        generalize (∑ i, lastLow fun m => paths n ω m i 0) / ((n + 1 : ℕ) : ℝ) = a
        rw [← ENNReal.ofReal_add (sq_nonneg _) (sq_nonneg _), show (2 : ℝ≥0∞) = ENNReal.ofReal 2 by norm_num,
          ← ENNReal.ofReal_mul (by norm_num)]
        refine ENNReal.ofReal_le_ofReal ?_
        nlinarith [sq_nonneg (2 * a - (1 : ℝ) / (1 + Real.exp (-0)) - 1 / (1 + Real.exp (-1)))]
    _ = _ := by
        have m1 : ∀ a : ℝ, Measurable fun ω => ENNReal.ofReal
            (((∑ i, lastLow fun m => paths n ω m i 0) / ((n + 1 : ℕ) : ℝ) - a) ^ 2) :=
          fun a => (((hmeas n).sub_const a).pow_const 2).ennreal_ofReal
        have m2 : ∀ a c : ℝ, Measurable fun ω => ENNReal.ofReal
            (((∑ i, lastLow fun m => paths n ω m i 0) / ((n + 1 : ℕ) : ℝ) - a) ^ 2) + ENNReal.ofReal
            (((∑ i, lastLow fun m => paths n ω m i 0) / ((n + 1 : ℕ) : ℝ) - c) ^ 2) := fun a c => (m1 a).add (m1 c)
        rw [lintegral_const_mul _ (m2 _ _), lintegral_add_left (m1 _)]

/-- The case meets the hypotheses of `C129_bootstrap_partial`, with smoothing average `1 / (1 + exp (-1))` — with weights the
averages are close to it. -/
example (n : ℕ) : ∃ (run : (ℕ → ℕ × ℕ → ℝ) → PCorr (n + 1) 1 1 ℝ × List (PCorr (n + 1) 1 1 ℝ) × (ℕ → ℕ × ℕ → ℝ))
      (paths : (ℕ → ℕ × ℕ → ℝ) → Fin 2 → Vals (n + 1) 1 1 ℝ) (avg : (ℕ → ℕ × ℕ → ℝ) → ℝ),
      (∀ ω, (FilterKind.apf.ops (tiltedModel 1 n)).filterAll ⟨1, true, .skip⟩ 0 [()] (initializeFilter 0 (freshInit n ω).1)
        (freshInit n ω).2 = some (run ω)) ∧
      (∀ ω, smoothFl (initializeFilter 0 (freshInit n ω).1 :: (run ω).2.1) = .ok (List.ofFn (paths ω))) ∧
      (∀ ω, ∑ i, (normalize2 0 (run ω).1.w).2 i 0 * fin (lastLow fun m => paths ω m i 0) = fin (avg ω)) ∧
      ∫⁻ ω, ENNReal.ofReal ((avg ω - 1 / (1 + Real.exp (-1))) ^ 2) ∂(streamLaw unifs2) ≤ ENNReal.ofReal (48 / (n + 1 : ℕ)) := by
  have hd : Draws (streamLaw unifs2) next unifs2 := next_draws unifs2
  have hg : Measurable fun x => ENNReal.ofReal (Real.exp (tiltedLog 1 x)) :=
    (Real.measurable_exp.comp (measurable_tiltedLog 1)).ennreal_ofReal
  obtain ⟨run, paths, avg, h1, h2, h3, h4⟩ := C129_bootstrap_partial (streamLaw unifs2) (Nat.succ_pos n) one_pos 0 0
    (multinomialBy (Nat.succ_pos n) next) (multinomialBy_independent _ hd)
    (fun b t => noiseKernel unif (freshMove b t)) (fun _ => unif.map fun z _ => z)
    (fun _ (_ : Unit) _ x => tiltedLog 1 x) (fun _ _ _ => measurable_tiltedLog 1) (fun _ _ _ _ => 0)
    (fun _ _ _ => measurable_const) (fun _ => 0) (fun _ => 0) (fun _ => 0)
    (fun _ _ _ x => by unfold tiltedLog; split_ifs <;> norm_num) (fun _ _ _ _ => le_rfl) (fun _ _ _ _ => le_rfl)
    (freshInit n) (noise_initial_independent unif hd (f := fun _ z _ => z) fun _ => by fun_prop)
    (noisePropagate next freshMove) (noise_independent unif hd measurable_freshMove) (fun _ => false)
    ⟨1, true, .skip⟩ one_pos (Or.inl rfl) 0 le_rfl [()] 0 lastLow measurable_lastLow
    (fun x => by unfold lastLow; split_ifs <;> norm_num) (fun x => by unfold lastLow; split_ifs <;> norm_num)
  refine ⟨run, paths, avg, h1, h2, h3, ?_⟩
  have e : (smoothingAvg (fun t => noiseKernel unif (freshMove 0 t))
      (fun (_ : Unit) _ x => ENNReal.ofReal (Real.exp (tiltedLog 1 x)))
      (unif.map fun z (_ : Fin 1) => z) [some ()] (fun p => ENNReal.ofReal (lastLow p))).toReal = 1 / (1 + Real.exp (-1)) := by
    rw [tilted_average, ENNReal.toReal_ofReal (by positivity)]
  have e2 : ∫⁻ x, lik (fun t => noiseKernel unif (freshMove 0 t))
      (fun (_ : Unit) _ x => ENNReal.ofReal (Real.exp (tiltedLog 1 x))) [some ()] 0 x ∂(unif.map fun z (_ : Fin 1) => z)
      = ENNReal.ofReal ((1 + Real.exp (-1)) * (1 / 2)) := tilted_likelihood 1
  change ∫⁻ ω, ENNReal.ofReal ((avg ω - (smoothingAvg (fun t => noiseKernel unif (freshMove 0 t))
      (fun (_ : Unit) _ x => ENNReal.ofReal (Real.exp (tiltedLog 1 x)))
      (unif.map fun z (_ : Fin 1) => z) [some ()] (fun p => ENNReal.ofReal (lastLow p))).toReal) ^ 2) ∂(streamLaw unifs2)
    ≤ ENNReal.ofReal (4 * ((2 * ((1 : ℕ) : ℝ) + 1) * (Real.exp (0 - 0 + 0) * 1) ^ 2 / (n + 1 : ℕ) /
      (∫⁻ x, lik (fun t => noiseKernel unif (freshMove 0 t))
      (fun (_ : Unit) _ x => ENNReal.ofReal (Real.exp (tiltedLog 1 x))) [some ()] 0 x
        ∂(unif.map fun z (_ : Fin 1) => z)).toReal ^ 2)) at h4
  rw [e, e2, ENNReal.toReal_ofReal (by positivity)] at h4
  refine h4.trans (ENNReal.ofReal_le_ofReal ?_)
  have hx : 0 < Real.exp (-1) := Real.exp_pos _
  have hq : (1 / 4 : ℝ) ≤ ((1 + Real.exp (-1)) * (1 / 2)) ^ 2 := by nlinarith
  have hn : (0 : ℝ) < ((n + 1 : ℕ) : ℝ) := by positivity
  simp only [sub_zero, add_zero, Real.exp_zero, mul_one, one_pow, Nat.cast_one]
  rw [div_div, ← mul_div_assoc, div_le_div_iff₀ (by positivity) hn]
  nlinarith [mul_le_mul_of_nonneg_left hq hn.le]

/-- A case for `C129_sisr_partial`: the same draws with multinomial resampling and a threshold above the number of particles. -/
example (n : ℕ) : IndependentResampler (N := n + 1) (streamLaw unifs2)
      (multinomial2 0 (multinomialBy (Nat.succ_pos n) next)) ∧ (0 : ℝ) < n + 2 ∧ ((n + 1 : ℕ) : ℝ) < n + 2 ∧
    IndependentProposal (streamLaw unifs2) (bootstrapSample (noisePropagate (N := n + 1) next freshMove)
      fun (_ : Unit) x i b => fin (tiltedLog 1 (x.value i b))) (fun b t => noiseKernel unif (freshMove b t))
      (fun _ _ _ x => tiltedLog 1 x) fun _ => 0 := by
  have hd : Draws (streamLaw unifs2) next unifs2 := next_draws unifs2
  refine ⟨multinomial_independent 0 (multinomialBy_independent _ hd), by positivity, by push_cast; linarith, ?_⟩
  exact bootstrap_independent (noise_independent unif hd measurable_freshMove) (fun _ _ _ x => tiltedLog 1 x)
    (fun _ _ _ => measurable_tiltedLog 1) _ fun _ _ _ x => by unfold tiltedLog; split_ifs <;> norm_num

end Verif.Props
