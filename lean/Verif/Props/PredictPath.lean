import Verif.Lemmas.PredictPath
import Verif.Props.Consistency

/-!
# Property C138: predicted paths estimate the predictive distribution
-/

namespace Verif.Props

open Verif Verif.Spec Verif.Unbiased XF MeasureTheory ProbabilityTheory
open scoped ENNReal

variable {N B d : ℕ} {V Y Ω : Type}

/-- C138, the times: `predict_path` returns `n` states, of the `n` times after that of the state. -/
theorem C138_times (M : ParticleModel N B d V Y Ω) (c : PCorr N B d V) (n : ℕ) (ω : Ω) (k : Fin n) :
    ((M.predictPath c n ω).1 k).time = c.x.time + (k + 1) := by
  unfold ParticleModel.predictPath
  generalize c.x = x
  induction n generalizing x ω with
  | zero => exact k.elim0
  | succ n ih =>
    refine Fin.cases ?_ (fun k => ?_) k
    · rfl
    · show ((M.sampleStates n (M.propagateTS x ω).1 (M.propagateTS x ω).2).1 k).time = _
      rw [ih]
      show x.time + 1 + _ = _
      simp only [Fin.val_succ]
      omega

variable [MeasurableSpace V] [MeasurableSpace Ω]

/-- C138, the law: given the state, the path of every particle is a path of the latent process from that particle, and the paths
of two particles of one filter are independent. -/
theorem C138_law (P : Measure Ω) [IsProbabilityMeasure P] (M : ParticleModel N B d V Y Ω)
    (K : Fin B → ℕ → Kernel (Fin d → V) (Fin d → V)) (hK : IndependentTransitions P M.propagateValues K)
    (s : PCorr N B d V) (n : ℕ) (b : Fin B) (Φ Ψ : (Fin n → Fin d → V) → ℝ≥0∞) (hΦ : Measurable Φ) (hΨ : Measurable Ψ) (i j : Fin N) :
    ∫⁻ ω, Φ (fun k => ((M.predictPath s n ω).1 k).value i b) ∂P = futureAvg (K b) n Φ s.x.time (s.x.value i b) ∧
    (i ≠ j → ∫⁻ ω, Φ (fun k => ((M.predictPath s n ω).1 k).value i b) * Ψ (fun k => ((M.predictPath s n ω).1 k).value j b) ∂P
      = futureAvg (K b) n Φ s.x.time (s.x.value i b) * futureAvg (K b) n Ψ s.x.time (s.x.value j b)) :=
  ⟨sampleStates_one P i.pos hK i b n hΦ s.x.time s.x.value,
    fun hij => sampleStates_two P i.pos hK hij b n hΦ hΨ s.x.time s.x.value⟩

omit [MeasurableSpace V] [MeasurableSpace Ω] in
theorem predict_average (hN : 0 < N) (M : ParticleModel N B d V Y Ω) (w : Fin N → Fin B → ℝ) (b : Fin B) {n : ℕ}
    (xs : Fin n → TS N B d V) {φ : (Fin n → Fin d → V) → ℝ} (hφ0 : ∀ q, 0 ≤ φ q) (hφ1 : ∀ q, φ q ≤ 1) :
    (∑ i, (normalize2 M.lo fun i b => fin (w i b)).2 i b * fin (φ fun k => (xs k).value i b)
      = fin (∑ i, sm w b i * φ (pathOf xs i b))) ∧
    0 ≤ ∑ i, sm w b i * φ (pathOf xs i b) ∧ ∑ i, sm w b i * φ (pathOf xs i b) ≤ 1 ∧
    ENNReal.ofReal (∑ i, sm w b i * φ (pathOf xs i b))
      = ∑ i, ENNReal.ofReal (sm w b i) * ENNReal.ofReal (φ (pathOf xs i b)) := by
  refine ⟨?_, Finset.sum_nonneg fun i _ => mul_nonneg (sm_nonneg _ b i) (hφ0 _), ?_, ?_⟩
  · rw [normalize2_fin]
    simp only [fin_mul]
    exact sum_fin _ _
  · calc ∑ i, sm w b i * φ (pathOf xs i b) ≤ ∑ i, sm w b i * 1 :=
          Finset.sum_le_sum fun i _ => mul_le_mul_of_nonneg_left (hφ1 _) (sm_nonneg _ b i)
      _ = 1 := by simp only [mul_one]; exact (sm_isProb w b hN).2
  · rw [ENNReal.ofReal_sum_of_nonneg fun i _ => mul_nonneg (sm_nonneg _ b i) (hφ0 _)]
    exact Finset.sum_congr rfl fun i _ => ENNReal.ofReal_mul (sm_nonneg _ b i)

/-- C138, the error given the state: averages of a function `φ` (with values between 0 and 1) of the predicted paths, weighted by
the normalised weights of the state, differ from the averages over the future of its particles by at most one over the effective
sample size in mean square. -/
theorem C138_error_given_state (P : Measure Ω) [IsProbabilityMeasure P] (hN : 0 < N) (M : ParticleModel N B d V Y Ω)
    (K : Fin B → ℕ → Kernel (Fin d → V) (Fin d → V)) (hK : IndependentTransitions P M.propagateValues K)
    (s : PCorr N B d V) (w : Fin N → Fin B → ℝ) (hw : s.w = fun i b => fin (w i b)) (n : ℕ) (b : Fin B)
    (φ : (Fin n → Fin d → V) → ℝ) (hφ : Measurable φ) (hφ0 : ∀ q, 0 ≤ φ q) (hφ1 : ∀ q, φ q ≤ 1) :
    ∃ (avg : Ω → ℝ) (goal ess : ℝ),
      (∀ ω, ∑ i, (normalize2 M.lo s.w).2 i b * fin (φ fun k => ((M.predictPath s n ω).1 k).value i b) = fin (avg ω)) ∧
      ∑ i, (normalize2 M.lo s.w).2 i b * fin (futureAvg (K b) n (fun q => ENNReal.ofReal (φ q)) s.x.time (s.x.value i b)).toReal
        = fin goal ∧
      (getEss2 M.lo s.w false).2 b = fin ess ∧
      ∫⁻ ω, ENNReal.ofReal ((avg ω - goal) ^ 2) ∂P ≤ ENNReal.ofReal (1 / ess) := by
  have hk := fun t => transitions_markov P hN hK b t
  have hle : ∀ t x, futureAvg (K b) n (fun q => ENNReal.ofReal (φ q)) t x ≤ 1 := futureAvg_le n fun q => by
    rw [← ENNReal.ofReal_one]; exact ENNReal.ofReal_le_ofReal (hφ1 q)
  have hne : ∀ t x, futureAvg (K b) n (fun q => ENNReal.ofReal (φ q)) t x ≠ ⊤ := fun t x =>
    ne_top_of_le_ne_top ENNReal.one_ne_top (hle t x)
  have hmom := predict_moments P hN hK b n hφ.ennreal_ofReal (fun q => by
    rw [← ENNReal.ofReal_one]; exact ENNReal.ofReal_le_ofReal (hφ1 q)) s.x.time s.x.value fun i => ENNReal.ofReal (sm w b i)
  have hav := fun ω => predict_average hN M w b (M.predictPath s n ω).1 hφ0 hφ1
  refine ⟨fun ω => ∑ i, sm w b i * φ (pathOf (M.predictPath s n ω).1 i b),
    ∑ i, sm w b i * (futureAvg (K b) n (fun q => ENNReal.ofReal (φ q)) s.x.time (s.x.value i b)).toReal,
    essOf (sm w b), fun ω => ?_, ?_, ?_, ?_⟩
  · rw [hw]
    exact (hav ω).1
  · rw [hw, normalize2_fin]
    simp only [fin_mul]
    exact sum_fin _ _
  · rw [hw]
    have : (getEss2 M.lo (fun i b => fin (w i b)) false).2 b = (getEss2 M.lo (fun i b => fin (sm w b i)) true).2 b := by
      unfold getEss2
      simp only [normalize2_fin]
      rfl
    rw [this]
    exact getEss_value (sm_isProb w b hN)
  · have hm : Measurable fun ω => ENNReal.ofReal (∑ i, sm w b i * φ (pathOf (M.predictPath s n ω).1 i b)) := by
      refine (Finset.measurable_sum _ fun i _ => measurable_const.mul (hφ.comp ?_)).ennreal_ofReal
      have hx : Measurable fun ω : Ω => (s.x.value, ω) := measurable_const.prodMk measurable_id
      exact (measurable_samplePath P hK n s.x.time i b).comp hx
    have hgoal : ∑ i, ENNReal.ofReal (sm w b i) * futureAvg (K b) n (fun q => ENNReal.ofReal (φ q)) s.x.time (s.x.value i b)
        = ENNReal.ofReal (∑ i, sm w b i * (futureAvg (K b) n (fun q => ENNReal.ofReal (φ q)) s.x.time (s.x.value i b)).toReal) := by
      rw [ENNReal.ofReal_sum_of_nonneg fun i _ => mul_nonneg (sm_nonneg _ b i) ENNReal.toReal_nonneg]
      exact Finset.sum_congr rfl fun i _ => by rw [ENNReal.ofReal_mul (sm_nonneg _ b i), ENNReal.ofReal_toReal (hne _ _)]
    have hsq : ∑ i, ENNReal.ofReal (sm w b i) ^ 2 = ENNReal.ofReal (1 / essOf (sm w b)) := by
      unfold essOf
      rw [one_div_one_div, ENNReal.ofReal_sum_of_nonneg fun i _ => mul_self_nonneg _]
      exact Finset.sum_congr rfl fun i _ => by rw [← sq, ENNReal.ofReal_pow (sm_nonneg _ _ _)]
    rw [hsq, hgoal] at hmom
    have hu : ∀ ω, ∑ i, ENNReal.ofReal (sm w b i) * ENNReal.ofReal (φ (pathOf (M.sampleStates n ⟨s.x.value, s.x.time⟩ ω).1 i b))
        = ENNReal.ofReal (∑ i, sm w b i * φ (pathOf (M.predictPath s n ω).1 i b)) := fun ω => (hav ω).2.2.2.symm
    simp only [hu] at hmom
    have h := mse_of_moments P (fun ω => (hav ω).2.1) hm ENNReal.ofReal_ne_top hmom.1 hmom.2
    rwa [ENNReal.toReal_ofReal (Finset.sum_nonneg fun i _ => mul_nonneg (sm_nonneg _ b i) ENNReal.toReal_nonneg)] at h

/-- C138: averages of a function `φ` (with values between 0 and 1) of the paths predicted from the last state of a SISR run, weighted
by its normalised weights, differ from the average over the future of the latent process given the observations by at most
`(8 T + 6) (C / L)² / min threshold N` in mean square, where `T` is the number of time steps, `C` the product of the bounds and `L`
the likelihood; the bound does not depend on the number of predicted steps. -/
theorem C138_prediction_error (P : Measure Ω) [IsProbabilityMeasure P] (hN : 0 < N) (M : ParticleModel N B d V Y Ω)
    (hkind : M.kind.increment = 1) (hr : IndependentResampler P M.resampler) (hthr : 0 < M.threshold)
    (K : Fin B → ℕ → Kernel (Fin d → V) (Fin d → V)) (μ : Fin B → Measure (Fin d → V))
    (logg : Fin B → Y → ℕ → (Fin d → V) → ℝ) (hlogg : ∀ b y t, Measurable (logg b y t))
    (init : Ω → (Fin N → Fin B → Fin d → V) × Ω) (hinit : IndependentInitial P init μ)
    (hK : IndependentTransitions P M.propagateValues K) (c : Y → ℝ) (hM : IndependentProposal P M.sampleValues K logg c)
    (opt : FilterOptions) (hk : 0 < opt.observeEveryStep) (fuel : ℕ) (hfuel : opt.observeEveryStep - 1 ≤ fuel)
    (ys : List Y) (b : Fin B) (n : ℕ) (φ : (Fin n → Fin d → V) → ℝ) (hφ : Measurable φ) (hφ0 : ∀ q, 0 ≤ φ q) (hφ1 : ∀ q, φ q ≤ 1) :
    ∃ (run : Ω → PCorr N B d V × List (PCorr N B d V) × Ω) (avg : Ω → ℝ),
      (∀ ω, (FilterKind.sisr.ops M).filterAll opt fuel ys (initializeFilter M.lo (init ω).1) (init ω).2 = some (run ω)) ∧
      (∀ ω, ∑ i, (normalize2 M.lo (run ω).1.w).2 i b *
        fin (φ fun k => ((M.predictPath (run ω).1 n (run ω).2.2).1 k).value i b) = fin (avg ω)) ∧
      ∫⁻ ω, ENNReal.ofReal ((avg ω - (predictAvg (K b) (fun y t x => ENNReal.ofReal (Real.exp (logg b y t x))) (μ b)
            (slots opt.observeEveryStep M.allNan ys) n fun q => ENNReal.ofReal (φ q)).toReal) ^ 2) ∂P
        ≤ ENNReal.ofReal ((8 * (slots opt.observeEveryStep M.allNan ys).length + 6) *
            (boundOf c (slots opt.observeEveryStep M.allNan ys) /
              (∫⁻ x, lik (K b) (fun y t x => ENNReal.ofReal (Real.exp (logg b y t x)))
                (slots opt.observeEveryStep M.allNan ys) 0 x ∂(μ b)).toReal) ^ 2 / min M.threshold N) := by
  have hmk := fun t => transitions_markov P hN hK b t
  have hΦ1 : ∀ q, ENNReal.ofReal (φ q) ≤ 1 := fun q => by
    rw [← ENNReal.ofReal_one]; exact ENNReal.ofReal_le_ofReal (hφ1 q)
  have hhm : ∀ t, Measurable fun x => futureAvg (K b) n (fun q => ENNReal.ofReal (φ q)) t x := fun t => by
    have h1 := measurable_futureAvg (K := K b) n (A := Unit) (Φ := fun _ q => ENNReal.ofReal (φ q))
      (hφ.ennreal_ofReal.comp measurable_snd) t
    have h2 : Measurable fun x : Fin d → V => ((), x) := measurable_const.prodMk measurable_id
    exact h1.comp h2
  have hh1 : ∀ t x, futureAvg (K b) n (fun q => ENNReal.ofReal (φ q)) t x ≤ 1 := futureAvg_le n hΦ1
  obtain ⟨run, h1, h2, h3, h4, h5⟩ := sisr_moments P hN M hkind hr hthr hlogg hinit hK hM opt hk fuel hfuel ys b
    (hhm (slots opt.observeEveryStep M.allNan ys).length) (hh1 _)
  obtain ⟨run', g1, g2, g3⟩ := C109_likelihood_error P hN M hkind hr hthr K μ logg hlogg init hinit hK c hM opt hk fuel hfuel ys b
  have er : run' = run := funext fun ω => Option.some.inj ((g1 ω).symm.trans (h1 ω))
  subst er
  -- the run, its log-likelihood and the generator afterwards
  have hN' : (0 : ℝ) < N := by exact_mod_cast hN
  have hmin : 0 < min M.threshold (N : ℝ) := lt_min hthr hN'
  have hδN : ENNReal.ofReal (1 / (N : ℝ)) ≤ ENNReal.ofReal (1 / min M.threshold (N : ℝ)) :=
    ENNReal.ofReal_le_ofReal (one_div_le_one_div_of_le hmin (min_le_right _ _))
  have hδt : ENNReal.ofReal (1 / M.threshold) ≤ ENNReal.ofReal (1 / min M.threshold (N : ℝ)) :=
    ENNReal.ofReal_le_ofReal (one_div_le_one_div_of_le hmin (min_le_left _ _))
  obtain ⟨J, hJ, νJ, hνJ⟩ := initial_joint P hN hkind hr hthr hinit hK hM b hδN hδt (slots opt.observeEveryStep M.allNan ys)
  have hslots : (FilterKind.sisr.ops M).slotsFrom opt.observeEveryStep 0 ys = slots opt.observeEveryStep M.allNan ys :=
    FilterOps.slotsFrom_zero _ _ _
  have hrun : ∀ ω, ((run' ω).1.x = ⟨(J ω).1.1.1, (slots opt.observeEveryStep M.allNan ys).length⟩ ∧
      (run' ω).1.w = fun i b => fin ((J ω).1.1.2 i b)) ∧ (run' ω).2.2 = (J ω).2 ∧
      ((run' ω).2.1.map fun c => c.ll b).sum = fin (J ω).1.2 := by
    intro ω
    obtain ⟨r, hr1, hr2⟩ := FilterOps.filterAll_end (ticks .sisr M hkind) opt hk fuel hfuel ys 0
      (initializeFilter M.lo (init ω).1) (init ω).2 rfl
    obtain ⟨r', hr1', hr2'⟩ := FilterOps.filterAll_run (ticks .sisr M hkind) (fun c => c.ll b) (fun _ _ => rfl) opt hk
      fuel hfuel ys 0 (initializeFilter M.lo (init ω).1) (init ω).2 rfl
    have e : r = run' ω := Option.some.inj (hr1.symm.trans (h1 ω))
    have e' : r' = run' ω := Option.some.inj (hr1'.symm.trans (h1 ω))
    subst e
    rw [e', hslots] at hr2'
    rw [hslots] at hr2
    obtain ⟨ll', prev', j1, j2, -⟩ := hJ ω
    rw [j1] at hr2
    have k1 := congrArg Prod.fst hr2
    refine ⟨?_, congrArg Prod.snd hr2, (congrArg Prod.fst hr2').trans j2⟩
    dsimp only at k1
    rw [k1]
    exact ⟨rfl, rfl⟩
  have hp : IsProbabilityMeasure (μ b) := by
    obtain ⟨ν, hν, hm, -⟩ := hinit
    have := hν.prob
    rw [← hm ⟨0, hN⟩ b]
    exact Measure.isProbabilityMeasure_map ((measurable_pi_apply b).comp (measurable_pi_apply _)).aemeasurable
  have hlm := measurable_lik (K b) (fun y t x => ENNReal.ofReal (Real.exp (logg b y t x)))
    (fun y t => (Real.measurable_exp.comp (hlogg b y t)).ennreal_ofReal) (slots opt.observeEveryStep M.allNan ys) 0
  have hlp := lik_pos P hN hK hlogg b (slots opt.observeEveryStep M.allNan ys) 0
  have hle := likAvg_le P hN hK hlogg hM b (φ := fun _ => 1) measurable_const (fun _ => le_rfl)
    (slots opt.observeEveryStep M.allNan ys) 0
  have hle' := likAvg_le P hN hK hlogg hM b (hhm (slots opt.observeEveryStep M.allNan ys).length) (hh1 _)
    (slots opt.observeEveryStep M.allNan ys) 0
  simp only [likAvg_one] at hle
  unfold predictAvg
  generalize slots opt.observeEveryStep M.allNan ys = os at *
  have hL1 : ∫⁻ x, lik (K b) (fun y t x => ENNReal.ofReal (Real.exp (logg b y t x))) os 0 x ∂(μ b) ≠ ⊤ := by
    refine ne_top_of_le_ne_top ?_ (lintegral_mono hle)
    rw [lintegral_const, measure_univ, mul_one]
    exact ENNReal.ofReal_ne_top
  have hLφ : ∫⁻ x, likAvg (K b) (fun y t x => ENNReal.ofReal (Real.exp (logg b y t x)))
      (fun x => futureAvg (K b) n (fun q => ENNReal.ofReal (φ q)) os.length x) os 0 x ∂(μ b) ≠ ⊤ := by
    refine ne_top_of_le_ne_top ?_ (lintegral_mono hle')
    rw [lintegral_const, measure_univ, mul_one]
    exact ENNReal.ofReal_ne_top
  have hL0 : 0 < ∫⁻ x, lik (K b) (fun y t x => ENNReal.ofReal (Real.exp (logg b y t x))) os 0 x ∂(μ b) := by
    rw [lintegral_pos_iff_support hlm]
    have : Function.support (lik (K b) (fun y t x => ENNReal.ofReal (Real.exp (logg b y t x))) os 0) = Set.univ := by
      ext u
      simp [(hlp u).ne']
    rw [this, measure_univ]
    exact one_pos
  generalize hGdef : (∫⁻ x, lik (K b) (fun y t x => ENNReal.ofReal (Real.exp (logg b y t x))) os 0 x ∂(μ b)) = G1 at *
  generalize hGφdef : (∫⁻ x, likAvg (K b) (fun y t x => ENNReal.ofReal (Real.exp (logg b y t x)))
      (fun x => futureAvg (K b) n (fun q => ENNReal.ofReal (φ q)) os.length x) os 0 x ∂(μ b)) = Gφ at *
  have hb := boundOf_pos c os
  -- the average over the predicted paths
  let E : (((Fin N → Fin B → Fin d → V) × (Fin N → Fin B → ℝ)) × ℝ) × Ω → ℝ := fun q =>
    ∑ i, sm q.1.1.2 b i * φ (pathOf (M.sampleStates n ⟨q.1.1.1, os.length⟩ q.2).1 i b)
  have hE := fun q : (((Fin N → Fin B → Fin d → V) × (Fin N → Fin B → ℝ)) × ℝ) × Ω =>
    predict_average hN M q.1.1.2 b (M.sampleStates n ⟨q.1.1.1, os.length⟩ q.2).1 hφ0 hφ1
  have hEm : Measurable E := by
    refine Finset.measurable_sum _ fun i _ => Measurable.mul ?_ (hφ.comp ?_)
    · exact (measurable_sm b i).comp (measurable_snd.comp (measurable_fst.comp measurable_fst))
    · have hx : Measurable fun q : (((Fin N → Fin B → Fin d → V) × (Fin N → Fin B → ℝ)) × ℝ) × Ω => (q.1.1.1, q.2) := by fun_prop
      exact (measurable_samplePath P hK n os.length i b).comp hx
  have hpred : ∀ ω, M.predictPath (run' ω).1 n (run' ω).2.2 = M.sampleStates n ⟨(J ω).1.1.1, os.length⟩ (J ω).2 := by
    intro ω
    unfold ParticleModel.predictPath
    rw [(hrun ω).1.1, (hrun ω).2.1]
  refine ⟨run', fun ω => E (J ω), h1, fun ω => ?_, ?_⟩
  · rw [hpred, (hrun ω).1.2]
    exact (hE (J ω)).1
  · have hexp : ∀ ω, expOf ((run' ω).2.1.map fun c => c.ll b).sum = Real.exp (J ω).1.2 := fun ω => by rw [(hrun ω).2.2]; rfl
    have hst : ∀ ω, stateAvg M.lo b (fun x => futureAvg (K b) n (fun q => ENNReal.ofReal (φ q)) os.length x) (run' ω).1
        = avgE b (fun x => futureAvg (K b) n (fun q => ENNReal.ofReal (φ q)) os.length x) (J ω).1.1 := by
      intro ω
      unfold stateAvg avgE
      rw [(hrun ω).1.1, (hrun ω).1.2]
      rfl
    simp only [hexp, hst] at h3 h4 h5 g3
    have hνp := hνJ.prob
    have hexpm : Measurable fun a : ((Fin N → Fin B → Fin d → V) × (Fin N → Fin B → ℝ)) × ℝ => ENNReal.ofReal (Real.exp a.2) :=
      (Real.measurable_exp.comp measurable_snd).ennreal_ofReal
    have havm : Measurable fun a : ((Fin N → Fin B → Fin d → V) × (Fin N → Fin B → ℝ)) × ℝ =>
        ENNReal.ofReal (Real.exp a.2) * avgE b (fun x => futureAvg (K b) n (fun q => ENNReal.ofReal (φ q)) os.length x) a.1 :=
      hexpm.mul ((measurable_avgE b (hhm os.length)).comp measurable_fst)
    have q4 := draws_lintegral hνJ (havm.comp measurable_fst)
    have q5 := draws_lintegral hνJ ((havm.comp measurable_fst).pow_const 2)
    simp only [Function.comp, lintegral_const, measure_univ, mul_one] at q4 q5
    rw [q4] at h4
    rw [q5] at h5
    -- moments of the likelihood times the average
    have hFm : Measurable fun q : (((Fin N → Fin B → Fin d → V) × (Fin N → Fin B → ℝ)) × ℝ) × Ω =>
        ENNReal.ofReal (Real.exp q.1.2 * E q) :=
      ((Real.measurable_exp.comp (measurable_snd.comp measurable_fst)).mul hEm).ennreal_ofReal
    have hsplit : ∀ (a : ((Fin N → Fin B → Fin d → V) × (Fin N → Fin B → ℝ)) × ℝ) (ω : Ω),
        ENNReal.ofReal (Real.exp a.2 * E (a, ω)) = ENNReal.ofReal (Real.exp a.2) * ∑ i, ENNReal.ofReal (sm a.1.2 b i) *
          ENNReal.ofReal (φ (pathOf (M.sampleStates n ⟨a.1.1, os.length⟩ ω).1 i b)) := fun a ω => by
      rw [ENNReal.ofReal_mul (Real.exp_pos _).le]
      exact congrArg _ (hE (a, ω)).2.2.2
    have hin : ∀ a : ((Fin N → Fin B → Fin d → V) × (Fin N → Fin B → ℝ)) × ℝ, Measurable fun ω =>
        ∑ i, ENNReal.ofReal (sm a.1.2 b i) * ENNReal.ofReal (φ (pathOf (M.sampleStates n ⟨a.1.1, os.length⟩ ω).1 i b)) := fun a => by
      refine Finset.measurable_sum _ fun i _ => measurable_const.mul (hφ.comp ?_).ennreal_ofReal
      have hx : Measurable fun ω : Ω => (a.1.1, ω) := measurable_const.prodMk measurable_id
      exact (measurable_samplePath P hK n os.length i b).comp hx
    have hmom := fun a : ((Fin N → Fin B → Fin d → V) × (Fin N → Fin B → ℝ)) × ℝ =>
      predict_moments P hN hK b n hφ.ennreal_ofReal hΦ1 os.length a.1.1 fun i => ENNReal.ofReal (sm a.1.2 b i)
    have m1 : ∫⁻ ω, ENNReal.ofReal (Real.exp (J ω).1.2 * E (J ω)) ∂P = Gφ := by
      rw [draws_lintegral hνJ hFm, ← h4]
      refine lintegral_congr fun a => ?_
      simp only [hsplit]
      rw [lintegral_const_mul _ (hin a), (hmom a).1]
      rfl
    have hae : ∀ᵐ a ∂νJ, ENNReal.ofReal (Real.exp a.2) ^ 2 * ∑ i, ENNReal.ofReal (sm a.1.2 b i) ^ 2
        ≤ ENNReal.ofReal (boundOf c os) ^ 2 * ENNReal.ofReal (1 / min M.threshold (N : ℝ)) := by
      refine ae_of_draws hνJ (measurableSet_le ?_ measurable_const) fun ω => ?_
      · refine (hexpm.pow_const 2).mul (Finset.measurable_sum _ fun i _ => Measurable.pow_const ?_ 2)
        exact ((measurable_sm b i).comp (measurable_snd.comp measurable_fst)).ennreal_ofReal
      · obtain ⟨_, _, _, _, h⟩ := hJ ω
        exact h
    have m2 : ∫⁻ ω, ENNReal.ofReal (Real.exp (J ω).1.2 * E (J ω)) ^ 2 ∂P ≤ Gφ ^ 2 + (ENNReal.ofReal ((2 * os.length + 1) *
        boundOf c os ^ 2 / min M.threshold N) + ENNReal.ofReal (boundOf c os ^ 2 / min M.threshold N)) := by
      rw [draws_lintegral hνJ (hFm.pow_const 2)]
      calc ∫⁻ a, ∫⁻ ω, ENNReal.ofReal (Real.exp a.2 * E (a, ω)) ^ 2 ∂P ∂νJ
          ≤ ∫⁻ a, ((ENNReal.ofReal (Real.exp a.2) *
              avgE b (fun x => futureAvg (K b) n (fun q => ENNReal.ofReal (φ q)) os.length x) a.1) ^ 2
              + ENNReal.ofReal (boundOf c os) ^ 2 * ENNReal.ofReal (1 / min M.threshold (N : ℝ))) ∂νJ := by
            refine lintegral_mono_ae (hae.mono fun a ha => ?_)
            have e : ∀ ω, ENNReal.ofReal (Real.exp a.2 * E (a, ω)) ^ 2 = ENNReal.ofReal (Real.exp a.2) ^ 2 *
                (∑ i, ENNReal.ofReal (sm a.1.2 b i) *
                  ENNReal.ofReal (φ (pathOf (M.sampleStates n ⟨a.1.1, os.length⟩ ω).1 i b))) ^ 2 := fun ω => by
              rw [hsplit, mul_pow]
            simp only [e]
            rw [lintegral_const_mul _ ((hin a).pow_const 2)]
            refine (mul_le_mul' le_rfl (hmom a).2).trans ?_
            rw [mul_add, ← mul_pow]
            exact add_le_add le_rfl ha
        _ = (∫⁻ a, (ENNReal.ofReal (Real.exp a.2) *
              avgE b (fun x => futureAvg (K b) n (fun q => ENNReal.ofReal (φ q)) os.length x) a.1) ^ 2 ∂νJ)
              + ENNReal.ofReal (boundOf c os) ^ 2 * ENNReal.ofReal (1 / min M.threshold (N : ℝ)) := by
            rw [lintegral_add_right _ measurable_const, lintegral_const, measure_univ, mul_one]
        _ ≤ _ := by
            rw [← add_assoc]
            refine add_le_add h5 (le_of_eq ?_)
            rw [← ENNReal.ofReal_pow hb.le, ← ENNReal.ofReal_mul (by positivity), mul_one_div]
    have hJm : Measurable fun ω => Real.exp (J ω).1.2 * E (J ω) :=
      ((Real.measurable_exp.comp (measurable_snd.comp measurable_fst)).mul hEm).comp hνJ.measurable
    have q1 := mse_of_moments P (fun ω => mul_nonneg (Real.exp_pos (J ω).1.2).le (hE (J ω)).2.1) hJm.ennreal_ofReal hLφ m1 m2
    have hL : 0 < G1.toReal := ENNReal.toReal_pos hL0.ne' hL1
    have hpt : ∀ ω, ENNReal.ofReal ((E (J ω) - (Gφ / G1).toReal) ^ 2) ≤ ENNReal.ofReal (2 / G1.toReal ^ 2) *
        (ENNReal.ofReal ((Real.exp (J ω).1.2 * E (J ω) - Gφ.toReal) ^ 2) + ENNReal.ofReal ((Real.exp (J ω).1.2 - G1.toReal) ^ 2)) := by
      intro ω
      rw [← ENNReal.ofReal_add (sq_nonneg _) (sq_nonneg _), ← ENNReal.ofReal_mul (by positivity)]
      refine ENNReal.ofReal_le_ofReal ?_
      rw [ENNReal.toReal_div]
      generalize Real.exp (J ω).1.2 = u
      have h0 : 0 ≤ E (J ω) := (hE (J ω)).2.1
      have h1 : E (J ω) ≤ 1 := (hE (J ω)).2.2.1
      generalize E (J ω) = a at *
      generalize Gφ.toReal = v
      generalize G1.toReal = l at *
      have e1 : a - v / l = ((u * a - v) - a * (u - l)) / l := by field_simp; ring
      rw [e1, div_pow, div_mul_eq_mul_div]
      refine div_le_div_of_nonneg_right ?_ (by positivity)
      have e2 : (a * (u - l)) ^ 2 ≤ (u - l) ^ 2 := by
        rw [mul_pow]
        exact mul_le_of_le_one_left (sq_nonneg _) (pow_le_one₀ h0 h1)
      nlinarith [sq_nonneg ((u * a - v) + a * (u - l))]
    refine (lintegral_mono hpt).trans ?_
    have hm1 : Measurable fun ω => ENNReal.ofReal ((Real.exp (J ω).1.2 * E (J ω) - Gφ.toReal) ^ 2) :=
      ((hJm.sub_const _).pow_const 2).ennreal_ofReal
    rw [lintegral_const_mul' _ _ ENNReal.ofReal_ne_top, lintegral_add_left hm1]
    refine (mul_le_mul' le_rfl (add_le_add q1 g3)).trans ?_
    rw [← ENNReal.ofReal_add (by positivity) (by positivity), ← ENNReal.ofReal_add (by positivity) (by positivity),
      ← ENNReal.ofReal_mul (by positivity)]
    refine ENNReal.ofReal_le_ofReal (le_of_eq ?_)
    field_simp
    ring

/-- C138 with the bootstrap proposal, multinomial resampling and a relative threshold `τ`. -/
theorem C138_bootstrap (P : Measure Ω) [IsProbabilityMeasure P] (hN : 0 < N) (lo τ : ℝ) (hτ : 0 < τ) (hτ1 : τ ≤ 1)
    (mult : TorchMultinomial N Ω) (hmult : IndependentMultinomial P mult)
    (K : Fin B → ℕ → Kernel (Fin d → V) (Fin d → V)) (μ : Fin B → Measure (Fin d → V))
    (logg : Fin B → Y → ℕ → (Fin d → V) → ℝ) (hlogg : ∀ b y t, Measurable (logg b y t)) (c : Y → ℝ)
    (hc : ∀ b y t x, logg b y t x ≤ c y)
    (init : Ω → (Fin N → Fin B → Fin d → V) × Ω) (hinit : IndependentInitial P init μ)
    (propagate : TS N B d V → Ω → (Fin N → Fin B → Fin d → V) × Ω) (hK : IndependentTransitions P propagate K)
    (preWeight : Y → TS N B d V → Fin N → Fin B → XF) (missing : Y → Bool)
    (opt : FilterOptions) (hk : 0 < opt.observeEveryStep) (fuel : ℕ) (hfuel : opt.observeEveryStep - 1 ≤ fuel)
    (ys : List Y) (b : Fin B) (n : ℕ) (φ : (Fin n → Fin d → V) → ℝ) (hφ : Measurable φ) (hφ0 : ∀ q, 0 ≤ φ q) (hφ1 : ∀ q, φ q ≤ 1) :
    ∃ (run : Ω → PCorr N B d V × List (PCorr N B d V) × Ω) (avg : Ω → ℝ),
      (∀ ω, (FilterKind.sisr.ops (bootstrapModel lo (τ * N) (multinomial2 lo mult) propagate
          (fun y x i b => fin (logg b y x.time (x.value i b))) preWeight missing)).filterAll opt fuel ys
          (initializeFilter lo (init ω).1) (init ω).2 = some (run ω)) ∧
      (∀ ω, ∑ i, (normalize2 lo (run ω).1.w).2 i b *
        fin (φ fun k => (((bootstrapModel lo (τ * N) (multinomial2 lo mult) propagate
          (fun y x i b => fin (logg b y x.time (x.value i b))) preWeight missing).predictPath
            (run ω).1 n (run ω).2.2).1 k).value i b) = fin (avg ω)) ∧
      ∫⁻ ω, ENNReal.ofReal ((avg ω - (predictAvg (K b) (fun y t x => ENNReal.ofReal (Real.exp (logg b y t x))) (μ b)
            (slots opt.observeEveryStep missing ys) n fun q => ENNReal.ofReal (φ q)).toReal) ^ 2) ∂P
        ≤ ENNReal.ofReal ((8 * (slots opt.observeEveryStep missing ys).length + 6) *
            (boundOf c (slots opt.observeEveryStep missing ys) /
              (∫⁻ x, lik (K b) (fun y t x => ENNReal.ofReal (Real.exp (logg b y t x)))
                (slots opt.observeEveryStep missing ys) 0 x ∂(μ b)).toReal) ^ 2 / (τ * N)) := by
  have hN' : (0 : ℝ) < N := by exact_mod_cast hN
  have h := C138_prediction_error P hN (bootstrapModel lo (τ * N) (multinomial2 lo mult) propagate
    (fun y x i b => fin (logg b y x.time (x.value i b))) preWeight missing) rfl
    (multinomial_independent lo hmult) (mul_pos hτ hN') K μ logg hlogg init hinit hK c
    (bootstrap_independent hK logg hlogg c hc) opt hk fuel hfuel ys b n φ hφ hφ0 hφ1
  have e : min (τ * N) (N : ℝ) = τ * N := min_eq_left (mul_le_of_le_one_left hN'.le hτ1)
  have e2 : (bootstrapModel lo (τ * N) (multinomial2 lo mult) propagate
    (fun y x i b => fin (logg b y x.time (x.value i b))) preWeight missing).threshold = τ * N := rfl
  rw [e2, e] at h
  exact h

/-- C138, the limit: as the number of particles grows, the mean squared error of averages over predicted paths tends to zero, however
many steps are predicted. -/
theorem C138_consistent (P : Measure Ω) [IsProbabilityMeasure P] (lo τ : ℝ) (hτ : 0 < τ) (hτ1 : τ ≤ 1)
    (mult : ∀ N, TorchMultinomial (N + 1) Ω) (hmult : ∀ N, IndependentMultinomial P (mult N))
    (K : Fin B → ℕ → Kernel (Fin d → V) (Fin d → V)) (μ : Fin B → Measure (Fin d → V))
    (logg : Fin B → Y → ℕ → (Fin d → V) → ℝ) (hlogg : ∀ b y t, Measurable (logg b y t)) (c : Y → ℝ)
    (hc : ∀ b y t x, logg b y t x ≤ c y)
    (init : ∀ N, Ω → (Fin (N + 1) → Fin B → Fin d → V) × Ω) (hinit : ∀ N, IndependentInitial P (init N) μ)
    (propagate : ∀ N, TS (N + 1) B d V → Ω → (Fin (N + 1) → Fin B → Fin d → V) × Ω)
    (hK : ∀ N, IndependentTransitions P (propagate N) K)
    (preWeight : ∀ N, Y → TS (N + 1) B d V → Fin (N + 1) → Fin B → XF) (missing : Y → Bool)
    (opt : FilterOptions) (hk : 0 < opt.observeEveryStep) (fuel : ℕ) (hfuel : opt.observeEveryStep - 1 ≤ fuel)
    (ys : List Y) (b : Fin B) (n : ℕ) (φ : (Fin n → Fin d → V) → ℝ) (hφ : Measurable φ) (hφ0 : ∀ q, 0 ≤ φ q) (hφ1 : ∀ q, φ q ≤ 1)
    (run : ∀ N, Ω → PCorr (N + 1) B d V × List (PCorr (N + 1) B d V) × Ω)
    (hrun : ∀ N ω, (FilterKind.sisr.ops (bootstrapModel lo (τ * ((N + 1 : ℕ) : ℝ)) (multinomial2 lo (mult N)) (propagate N)
          (fun y x i b => fin (logg b y x.time (x.value i b))) (preWeight N) missing)).filterAll opt fuel ys
          (initializeFilter lo (init N ω).1) (init N ω).2 = some (run N ω))
    (avg : ℕ → Ω → ℝ)
    (havg : ∀ N ω, ∑ i, (normalize2 lo (run N ω).1.w).2 i b *
        fin (φ fun k => (((bootstrapModel lo (τ * ((N + 1 : ℕ) : ℝ)) (multinomial2 lo (mult N)) (propagate N)
          (fun y x i b => fin (logg b y x.time (x.value i b))) (preWeight N) missing).predictPath
            (run N ω).1 n (run N ω).2.2).1 k).value i b) = fin (avg N ω)) :
    Filter.Tendsto (fun N => ∫⁻ ω, ENNReal.ofReal ((avg N ω - (predictAvg (K b)
            (fun y t x => ENNReal.ofReal (Real.exp (logg b y t x))) (μ b)
            (slots opt.observeEveryStep missing ys) n fun q => ENNReal.ofReal (φ q)).toReal) ^ 2) ∂P)
      Filter.atTop (nhds 0) := by
  refine tendsto_of_tendsto_of_tendsto_of_le_of_le (g := fun _ => 0)
    (h := fun N : ℕ => ENNReal.ofReal ((8 * (slots opt.observeEveryStep missing ys).length + 6) *
            (boundOf c (slots opt.observeEveryStep missing ys) /
              (∫⁻ x, lik (K b) (fun y t x => ENNReal.ofReal (Real.exp (logg b y t x)))
                (slots opt.observeEveryStep missing ys) 0 x ∂(μ b)).toReal) ^ 2 / (τ * ((N + 1 : ℕ) : ℝ))))
    tendsto_const_nhds ?_ (fun _ => zero_le) fun N => ?_
  · rw [← ENNReal.ofReal_zero]
    refine (ENNReal.continuous_ofReal.tendsto 0).comp ?_
    have h1 : Filter.Tendsto (fun N : ℕ => τ * ((N + 1 : ℕ) : ℝ)) Filter.atTop Filter.atTop :=
      (tendsto_natCast_atTop_atTop.comp (Filter.tendsto_add_atTop_nat 1)).const_mul_atTop hτ
    exact h1.const_div_atTop _
  · obtain ⟨run', avg', h1, h2, h3⟩ := C138_bootstrap P (Nat.succ_pos N) lo τ hτ hτ1 (mult N) (hmult N) K μ logg hlogg c hc
      (init N) (hinit N) (propagate N) (hK N) (preWeight N) missing opt hk fuel hfuel ys b n φ hφ hφ0 hφ1
    have e : run' = run N := funext fun ω => Option.some.inj ((h1 ω).symm.trans (hrun N ω))
    subst e
    have e2 : avg' = avg N := funext fun ω => XF.fin.inj ((h2 ω).symm.trans (havg N ω))
    rw [← e2]
    exact h3

/-! ## Concrete cases -/

/-- A case for C138: the autoregressive processes of the cases for C109 and C110, and the event that the sum of the next three
states is positive. -/
example (n : ℕ) : IndependentMultinomial (streamLaw kernelEntryLaw)
      (multinomialBy (Nat.succ_pos n) fun ω => ((next ω).1.2.1, (next ω).2)) ∧
    IndependentInitial (N := n + 1) (streamLaw kernelEntryLaw)
      (fun ω => (fun i b => (fun z _ => z 0 : (Fin 2 → ℝ) → Fin 1 → ℝ) ((next ω).1.2.2.1 ((i : ℕ), (b : ℕ))), (next ω).2))
      (fun _ : Fin 2 => (Measure.pi fun _ : Fin 2 => gaussianReal 0 1).map fun z _ => z 0) ∧
    IndependentTransitions (streamLaw kernelEntryLaw)
      (noisePropagate (N := n + 1) (fun ω => ((next ω).1.2.2.1, (next ω).2)) kernelMove)
      (fun b t => noiseKernel (Measure.pi fun _ : Fin 2 => gaussianReal 0 1) (kernelMove b t)) ∧
    (∀ y : ℝ, Measurable fun x : Fin 1 → ℝ => -(y - x 0) ^ 2 / 2) ∧
    (∀ (y : ℝ) (x : Fin 1 → ℝ), -(y - x 0) ^ 2 / 2 ≤ 0) ∧
    Measurable (Set.indicator {q : Fin 3 → Fin 1 → ℝ | 0 ≤ ∑ k, q k 0} fun _ => (1 : ℝ)) :=
  ⟨multinomialBy_independent _ kernel_rand2,
    noise_initial_independent _ kernel_noise (f := fun _ z _ => z 0) fun _ => by fun_prop,
    noise_independent _ kernel_noise measurable_kernelMove, fun y => by fun_prop,
    fun y x => by nlinarith [sq_nonneg (y - x 0)],
    measurable_const.indicator (measurableSet_le measurable_const (by fun_prop))⟩

/-- A process that stays where it is. -/
noncomputable def stayModel : ParticleModel 2 1 1 ℝ Unit Unit :=
  ⟨0, 1, fun _ _ _ => (fun _ _ => 0, ()), fun x _ => (x.value, ()), .bootstrap, fun _ _ _ => ((fun _ _ _ => 0, fun _ _ => fin 0), ()),
    fun _ _ _ _ => fin 0, fun _ => false⟩

/-- The paths have to be weighted: from particles at 1 and 0 with weights 3/4 and 1/4, the plain mean of the predicted states is
1/2 and the weighted one, which is what C138 is about, 3/4. -/
example : ∃ s : PCorr 2 1 1 ℝ, s.w = (fun i _ => fin (if i = 0 then Real.log 3 else 0)) ∧
    (∀ k i, ((stayModel.predictPath s 5 ()).1 k).value i 0 0 = if i = 0 then 1 else 0) ∧
    (∀ i, (normalize2 0 s.w).2 i 0 = fin (if i = 0 then 3 / 4 else 1 / 4)) := by
  refine ⟨⟨⟨fun i _ _ => if i = 0 then 1 else 0, 0⟩, fun i _ => fin (if i = 0 then Real.log 3 else 0), fun _ => fin 0, fun i _ => i⟩,
    rfl, ?_, ?_⟩
  · have h : ∀ (n : ℕ) (x : TS 2 1 1 ℝ) (k : Fin n) i, ((stayModel.sampleStates n x ()).1 k).value i 0 0 = x.value i 0 0 := by
      intro n
      induction n with
      | zero => exact fun x k => k.elim0
      | succ n ih =>
        intro x k i
        refine Fin.cases rfl (fun k => ?_) k
        exact ih _ k i
    intro k i
    exact h 5 _ k i
  · intro i
    rw [normalize2_fin]
    show fin _ = _
    congr 1
    unfold sm
    rw [Fin.sum_univ_two]
    have h3 : Real.exp (Real.log 3) = 3 := Real.exp_log (by norm_num)
    fin_cases i <;> simp [h3] <;> norm_num

end Verif.Props
