import Verif.Lemmas.Stability
import Verif.Props.Consistency
import Mathlib.Analysis.Complex.ExponentialBounds

/-!
# Property C137: the error of filter averages of SISR does not grow with the number of observations
-/

namespace Verif.Props

open Verif Verif.Spec Verif.Unbiased XF MeasureTheory ProbabilityTheory
open scoped ENNReal

variable {N B d : ℕ} {V Y Ω : Type} [MeasurableSpace V] [MeasurableSpace Ω]

theorem mem_slots {k : ℕ} {missing : Y → Bool} {ys : List Y} {y : Y} (h : some y ∈ slots k missing ys) :
    y ∈ ys ∧ missing y = false := by
  have hif : ∀ {y' : Y}, some y = (if missing y' then none else some y') → y = y' ∧ missing y = false := by
    intro y' he
    by_cases hm : missing y' = true
    · simp [hm] at he
    · simp only [hm] at he
      have : y = y' := Option.some.inj he
      exact ⟨this, by rw [this]; exact Bool.eq_false_iff.2 hm⟩
  cases ys with
  | nil => simp [slots] at h
  | cons y₀ ys =>
    simp only [slots, List.mem_cons, List.mem_flatMap, List.mem_append, List.mem_replicate] at h
    rcases h with h | ⟨y', hy', h | h⟩
    · obtain ⟨rfl, hm⟩ := hif h
      exact ⟨List.mem_cons_self, hm⟩
    · exact absurd h.2 (by simp)
    · rcases h with h | h
      · obtain ⟨rfl, hm⟩ := hif h
        exact ⟨List.mem_cons_of_mem _ hy', hm⟩
      · cases h

/-- C137: let the state process be mixing (`ε K(x', ·) ≤ K(x, ·)`) and let no observation be unlikely compared with
the bound `exp (c y)` of the importance weights (`exp (c y) ≤ R ∫ g(y | x') K(x, dx')`). Then averages of `φ` over
the particles of the last state have a mean squared error of at most `8 R² / (ε⁶ min threshold N)`,
whatever the number of observations. -/
theorem C137_uniform_error (P : Measure Ω) [IsProbabilityMeasure P] (hN : 0 < N) (M : ParticleModel N B d V Y Ω)
    (hkind : M.kind.increment = 1) (hr : IndependentResampler P M.resampler) (hthr : 0 < M.threshold)
    (K : Fin B → ℕ → Kernel (Fin d → V) (Fin d → V)) (μ : Fin B → Measure (Fin d → V))
    (logg : Fin B → Y → ℕ → (Fin d → V) → ℝ) (hlogg : ∀ b y t, Measurable (logg b y t))
    (init : Ω → (Fin N → Fin B → Fin d → V) × Ω) (hinit : IndependentInitial P init μ)
    (hK : IndependentTransitions P M.propagateValues K) (c : Y → ℝ) (hM : IndependentProposal P M.sampleValues K logg c)
    (opt : FilterOptions) (hk : 0 < opt.observeEveryStep) (fuel : ℕ) (hfuel : opt.observeEveryStep - 1 ≤ fuel)
    (b : Fin B) (ε R : ℝ) (hε : 0 < ε) (hε1 : ε ≤ 1) (hmix : ∀ t x x', ENNReal.ofReal ε • K b t x' ≤ K b t x) (hR1 : 1 ≤ R)
    (ys : List Y) (hobs : ∀ y ∈ ys, M.allNan y = false → ∀ t x, ENNReal.ofReal (Real.exp (c y))
      ≤ ENNReal.ofReal R * ∫⁻ x', ENNReal.ofReal (Real.exp (logg b y (t + 1) x')) ∂(K b t x))
    (φ : (Fin d → V) → ℝ) (hφ : Measurable φ) (hφ0 : ∀ x, 0 ≤ φ x) (hφ1 : ∀ x, φ x ≤ 1) :
    ∃ (run : Ω → PCorr N B d V × List (PCorr N B d V) × Ω) (avg : Ω → ℝ),
      (∀ ω, (FilterKind.sisr.ops M).filterAll opt fuel ys (initializeFilter M.lo (init ω).1) (init ω).2 = some (run ω)) ∧
      (∀ ω, ∑ i, (normalize2 M.lo (run ω).1.w).2 i b * fin (φ ((run ω).1.x.value i b)) = fin (avg ω)) ∧
      ∫⁻ ω, ENNReal.ofReal ((avg ω - (filterAvg (K b) (fun y t x => ENNReal.ofReal (Real.exp (logg b y t x))) (μ b)
            (fun x => ENNReal.ofReal (φ x)) (slots opt.observeEveryStep M.allNan ys)).toReal) ^ 2) ∂P
        ≤ ENNReal.ofReal (8 * R ^ 2 / (ε ^ 6 * min M.threshold N)) := by
  have hφ' : Measurable fun x => ENNReal.ofReal (φ x) := hφ.ennreal_ofReal
  have hφ1' : ∀ x, ENNReal.ofReal (φ x) ≤ 1 := fun x => by
    rw [← ENNReal.ofReal_one]; exact ENNReal.ofReal_le_ofReal (hφ1 x)
  have hN' : (0 : ℝ) < N := by exact_mod_cast hN
  have hmin : 0 < min M.threshold (N : ℝ) := lt_min hthr hN'
  have hδN : ENNReal.ofReal (1 / (N : ℝ)) ≤ ENNReal.ofReal (1 / min M.threshold (N : ℝ)) :=
    ENNReal.ofReal_le_ofReal (one_div_le_one_div_of_le hmin (min_le_right _ _))
  have hδt : ENNReal.ofReal (1 / M.threshold) ≤ ENNReal.ofReal (1 / min M.threshold (N : ℝ)) :=
    ENNReal.ofReal_le_ofReal (one_div_le_one_div_of_le hmin (min_le_left _ _))
  have hrun := fun ω => FilterOps.filterAll_run (ticks .sisr M hkind) (fun c => c.ll b) (fun _ _ => rfl) opt hk
    fuel hfuel ys 0 (initializeFilter M.lo (init ω).1) (init ω).2 rfl
  have hslots : (FilterKind.sisr.ops M).slotsFrom opt.observeEveryStep 0 ys = slots opt.observeEveryStep M.allNan ys :=
    FilterOps.slotsFrom_zero _ _ _
  rw [hslots] at hrun
  choose run hrun hs using hrun
  have hlast : ∀ ω, (run ω).1 = ((FilterKind.sisr.ops M).runO (fun c => c.ll b) (slots opt.observeEveryStep M.allNan ys)
      (initializeFilter M.lo (init ω).1) (init ω).2).2 := fun ω => congrArg Prod.snd (hs ω)
  -- the observations are likely enough
  have hkp : ∀ t x, IsProbabilityMeasure (K b t x) := by
    intro t x
    obtain ⟨ν, hν, hm, -⟩ := hK.draws ⟨fun _ _ => x, t⟩
    have := hν.prob
    rw [← hm ⟨0, hN⟩ b]
    exact Measure.isProbabilityMeasure_map ((measurable_pi_apply b).comp (measurable_pi_apply _)).aemeasurable
  have hR : ∀ o ∈ slots opt.observeEveryStep M.allNan ys, ∀ t x, ENNReal.ofReal (boundOf c [o])
      ≤ ENNReal.ofReal R * lik (K b) (fun y t x => ENNReal.ofReal (Real.exp (logg b y t x))) [o] t x := by
    intro o ho t x
    cases o with
    | none =>
      have := hkp t x
      simp only [boundOf, lik, lintegral_const, measure_univ, mul_one]
      exact ENNReal.ofReal_le_ofReal hR1
    | some y =>
      obtain ⟨h1, h2⟩ := mem_slots ho
      simp only [boundOf, lik, mul_one]
      exact hobs y h1 h2 t x
  have hq0 : 0 ≤ 1 - ε ^ 2 := by nlinarith
  obtain ⟨a, ha, ha2⟩ : ∃ a : ℝ, 0 ≤ a ∧ a ^ 2 = 8 * (1 / min M.threshold (N : ℝ)) * (R / ε) ^ 2 := by
    refine ⟨Real.sqrt (8 * (1 / min M.threshold (N : ℝ)) * (R / ε) ^ 2), Real.sqrt_nonneg _, Real.sq_sqrt ?_⟩
    positivity
  have hloc : ∀ n : ℕ, 4 * (2 * ENNReal.ofReal (1 / min M.threshold (N : ℝ)) * (ENNReal.ofReal R / ENNReal.ofReal ε) ^ 2)
      * ((1 - ENNReal.ofReal ε ^ 2) ^ n) ^ 2 ≤ ENNReal.ofReal ((a * (1 - ε ^ 2) ^ n) ^ 2) := by
    intro n
    have e1 : (1 : ℝ≥0∞) - ENNReal.ofReal ε ^ 2 = ENNReal.ofReal (1 - ε ^ 2) := by
      rw [ENNReal.ofReal_sub _ (sq_nonneg _), ENNReal.ofReal_one, ENNReal.ofReal_pow hε.le]
    have e2 : ENNReal.ofReal ((a * (1 - ε ^ 2) ^ n) ^ 2) = ENNReal.ofReal 8 * ENNReal.ofReal (1 / min M.threshold (N : ℝ))
        * (ENNReal.ofReal R / ENNReal.ofReal ε) ^ 2 * ((1 - ENNReal.ofReal ε ^ 2) ^ n) ^ 2 := by
      rw [mul_pow, ha2, e1, ← ENNReal.ofReal_div_of_pos hε, ← ENNReal.ofReal_pow hq0, ← ENNReal.ofReal_pow (by positivity),
        ← ENNReal.ofReal_pow (by positivity), ← ENNReal.ofReal_mul (by positivity), ← ENNReal.ofReal_mul (by positivity),
        ← ENNReal.ofReal_mul (by positivity)]
    rw [e2, ENNReal.ofReal_ofNat]
    refine le_of_eq ?_
    ring
  obtain ⟨hw, herr⟩ := initial_mse P hN hkind hr hthr hK hlogg hM b hδN hδt hφ' hφ1' (ε := ENNReal.ofReal ε)
    (R := ENNReal.ofReal R) (ENNReal.ofReal_pos.2 hε).ne' (by rw [← ENNReal.ofReal_one]; exact ENNReal.ofReal_le_ofReal hε1)
    hmix ha hq0 (by rw [← ENNReal.ofReal_one]; exact ENNReal.ofReal_le_ofReal hR1) hloc hinit
    (slots opt.observeEveryStep M.allNan ys) hR
  simp only [← hlast] at hw herr
  choose w' hw' using hw
  have havg : ∀ ω, (stateAvg M.lo b (fun x => ENNReal.ofReal (φ x)) (run ω).1).toReal
      = ∑ i, sm (w' ω) b i * φ ((run ω).1.x.value i b) := by
    intro ω
    have e1 : stateAvg M.lo b (fun x => ENNReal.ofReal (φ x)) (run ω).1
        = ENNReal.ofReal (∑ i, sm (w' ω) b i * φ ((run ω).1.x.value i b)) := by
      unfold stateAvg
      simp only [hw', colProb_fin]
      rw [ENNReal.ofReal_sum_of_nonneg fun i _ => mul_nonneg (sm_nonneg _ b i) (hφ0 _)]
      exact Finset.sum_congr rfl fun i _ => (ENNReal.ofReal_mul (sm_nonneg _ b i)).symm
    rw [e1, ENNReal.toReal_ofReal (Finset.sum_nonneg fun i _ => mul_nonneg (sm_nonneg _ b i) (hφ0 _))]
  refine ⟨run, fun ω => ∑ i, sm (w' ω) b i * φ ((run ω).1.x.value i b), hrun, fun ω => ?_, ?_⟩
  · rw [hw', normalize2_fin]
    simp only [fin_mul]
    exact sum_fin _ _
  · simp only [← havg]
    refine herr.trans (ENNReal.ofReal_le_ofReal ?_)
    have hgeo := geom_sum_mul_neg (1 - ε ^ 2) ((slots opt.observeEveryStep M.allNan ys).length + 1)
    generalize (slots opt.observeEveryStep M.allNan ys).length + 1 = n at hgeo ⊢
    have hqn : 0 ≤ (1 - ε ^ 2) ^ n := pow_nonneg hq0 n
    have hS0 : 0 ≤ ∑ k ∈ Finset.range n, (1 - ε ^ 2) ^ k := Finset.sum_nonneg fun k _ => pow_nonneg hq0 k
    generalize (∑ k ∈ Finset.range n, (1 - ε ^ 2) ^ k) = S at hgeo hS0 ⊢
    have hS : S ≤ 1 / ε ^ 2 := by
      rw [le_div_iff₀ (by positivity)]
      nlinarith
    calc (a * S) ^ 2 = a ^ 2 * S ^ 2 := by ring
      _ ≤ a ^ 2 * (1 / ε ^ 2) ^ 2 := by gcongr
      _ = 8 * R ^ 2 / (ε ^ 6 * min M.threshold (N : ℝ)) := by
          rw [ha2]
          field_simp

/-- C137 for the bootstrap filter, multinomial resampling and the relative threshold `τ` of the code. -/
theorem C137_bootstrap (P : Measure Ω) [IsProbabilityMeasure P] (hN : 0 < N) (lo τ : ℝ) (hτ : 0 < τ) (hτ1 : τ ≤ 1)
    (mult : TorchMultinomial N Ω) (hmult : IndependentMultinomial P mult)
    (K : Fin B → ℕ → Kernel (Fin d → V) (Fin d → V)) (μ : Fin B → Measure (Fin d → V))
    (logg : Fin B → Y → ℕ → (Fin d → V) → ℝ) (hlogg : ∀ b y t, Measurable (logg b y t)) (c : Y → ℝ)
    (hc : ∀ b y t x, logg b y t x ≤ c y)
    (init : Ω → (Fin N → Fin B → Fin d → V) × Ω) (hinit : IndependentInitial P init μ)
    (propagate : TS N B d V → Ω → (Fin N → Fin B → Fin d → V) × Ω) (hK : IndependentTransitions P propagate K)
    (preWeight : Y → TS N B d V → Fin N → Fin B → XF) (missing : Y → Bool)
    (opt : FilterOptions) (hk : 0 < opt.observeEveryStep) (fuel : ℕ) (hfuel : opt.observeEveryStep - 1 ≤ fuel)
    (b : Fin B) (ε R : ℝ) (hε : 0 < ε) (hε1 : ε ≤ 1) (hmix : ∀ t x x', ENNReal.ofReal ε • K b t x' ≤ K b t x) (hR1 : 1 ≤ R)
    (ys : List Y) (hobs : ∀ y ∈ ys, missing y = false → ∀ t x, ENNReal.ofReal (Real.exp (c y))
      ≤ ENNReal.ofReal R * ∫⁻ x', ENNReal.ofReal (Real.exp (logg b y (t + 1) x')) ∂(K b t x))
    (φ : (Fin d → V) → ℝ) (hφ : Measurable φ) (hφ0 : ∀ x, 0 ≤ φ x) (hφ1 : ∀ x, φ x ≤ 1) :
    ∃ (run : Ω → PCorr N B d V × List (PCorr N B d V) × Ω) (avg : Ω → ℝ),
      (∀ ω, (FilterKind.sisr.ops (bootstrapModel lo (τ * N) (multinomial2 lo mult) propagate
          (fun y x i b => fin (logg b y x.time (x.value i b))) preWeight missing)).filterAll opt fuel ys
          (initializeFilter lo (init ω).1) (init ω).2 = some (run ω)) ∧
      (∀ ω, ∑ i, (normalize2 lo (run ω).1.w).2 i b * fin (φ ((run ω).1.x.value i b)) = fin (avg ω)) ∧
      ∫⁻ ω, ENNReal.ofReal ((avg ω - (filterAvg (K b) (fun y t x => ENNReal.ofReal (Real.exp (logg b y t x))) (μ b)
            (fun x => ENNReal.ofReal (φ x)) (slots opt.observeEveryStep missing ys)).toReal) ^ 2) ∂P
        ≤ ENNReal.ofReal (8 * R ^ 2 / (ε ^ 6 * (τ * N))) := by
  have hN' : (0 : ℝ) < N := by exact_mod_cast hN
  have h := C137_uniform_error P hN (bootstrapModel lo (τ * N) (multinomial2 lo mult) propagate
    (fun y x i b => fin (logg b y x.time (x.value i b))) preWeight missing) rfl
    (multinomial_independent lo hmult) (mul_pos hτ hN') K μ logg hlogg init hinit hK c
    (bootstrap_independent hK logg hlogg c hc) opt hk fuel hfuel b ε R hε hε1 hmix hR1 ys hobs φ hφ hφ0 hφ1
  have e : min (τ * N) (N : ℝ) = τ * N := min_eq_left (mul_le_of_le_one_left hN'.le hτ1)
  simpa only [bootstrapModel, e] using h

/-- C137, the limit: for every tolerance there is a number of particles from which on the mean squared error of the
average is below the tolerance for all sequences of observations, however long. -/
theorem C137_uniform_consistent (P : Measure Ω) [IsProbabilityMeasure P] (lo τ : ℝ) (hτ : 0 < τ) (hτ1 : τ ≤ 1)
    (mult : ∀ N, TorchMultinomial (N + 1) Ω) (hmult : ∀ N, IndependentMultinomial P (mult N))
    (K : Fin B → ℕ → Kernel (Fin d → V) (Fin d → V)) (μ : Fin B → Measure (Fin d → V))
    (logg : Fin B → Y → ℕ → (Fin d → V) → ℝ) (hlogg : ∀ b y t, Measurable (logg b y t)) (c : Y → ℝ)
    (hc : ∀ b y t x, logg b y t x ≤ c y)
    (init : ∀ N, Ω → (Fin (N + 1) → Fin B → Fin d → V) × Ω) (hinit : ∀ N, IndependentInitial P (init N) μ)
    (propagate : ∀ N, TS (N + 1) B d V → Ω → (Fin (N + 1) → Fin B → Fin d → V) × Ω)
    (hK : ∀ N, IndependentTransitions P (propagate N) K)
    (preWeight : ∀ N, Y → TS (N + 1) B d V → Fin (N + 1) → Fin B → XF) (missing : Y → Bool)
    (opt : FilterOptions) (hk : 0 < opt.observeEveryStep) (fuel : ℕ) (hfuel : opt.observeEveryStep - 1 ≤ fuel)
    (b : Fin B) (ε R : ℝ) (hε : 0 < ε) (hε1 : ε ≤ 1) (hmix : ∀ t x x', ENNReal.ofReal ε • K b t x' ≤ K b t x) (hR1 : 1 ≤ R)
    (φ : (Fin d → V) → ℝ) (hφ : Measurable φ) (hφ0 : ∀ x, 0 ≤ φ x) (hφ1 : ∀ x, φ x ≤ 1) (tol : ℝ) (htol : 0 < tol) :
    ∃ N₀ : ℕ, ∀ N ≥ N₀, ∀ ys : List Y, (∀ y ∈ ys, missing y = false → ∀ t x, ENNReal.ofReal (Real.exp (c y))
        ≤ ENNReal.ofReal R * ∫⁻ x', ENNReal.ofReal (Real.exp (logg b y (t + 1) x')) ∂(K b t x)) →
      ∃ (run : Ω → PCorr (N + 1) B d V × List (PCorr (N + 1) B d V) × Ω) (avg : Ω → ℝ),
        (∀ ω, (FilterKind.sisr.ops (bootstrapModel lo (τ * ((N + 1 : ℕ) : ℝ)) (multinomial2 lo (mult N)) (propagate N)
            (fun y x i b => fin (logg b y x.time (x.value i b))) (preWeight N) missing)).filterAll opt fuel ys
            (initializeFilter lo (init N ω).1) (init N ω).2 = some (run ω)) ∧
        (∀ ω, ∑ i, (normalize2 lo (run ω).1.w).2 i b * fin (φ ((run ω).1.x.value i b)) = fin (avg ω)) ∧
        ∫⁻ ω, ENNReal.ofReal ((avg ω - (filterAvg (K b) (fun y t x => ENNReal.ofReal (Real.exp (logg b y t x))) (μ b)
              (fun x => ENNReal.ofReal (φ x)) (slots opt.observeEveryStep missing ys)).toReal) ^ 2) ∂P
          ≤ ENNReal.ofReal tol := by
  obtain ⟨N₀, hN₀⟩ := exists_nat_gt (8 * R ^ 2 / (ε ^ 6 * τ * tol))
  refine ⟨N₀, fun N hN ys hobs => ?_⟩
  obtain ⟨run, avg, h1, h2, h3⟩ := C137_bootstrap P (Nat.succ_pos N) lo τ hτ hτ1 (mult N) (hmult N) K μ logg hlogg c hc
    (init N) (hinit N) (propagate N) (hK N) (preWeight N) missing opt hk fuel hfuel b ε R hε hε1 hmix hR1 ys hobs φ hφ hφ0 hφ1
  refine ⟨run, avg, h1, h2, h3.trans (ENNReal.ofReal_le_ofReal ?_)⟩
  have hle : (N₀ : ℝ) ≤ ((N + 1 : ℕ) : ℝ) := by exact_mod_cast hN.le.trans (Nat.le_succ N)
  have hlt := hN₀.trans_le hle
  rw [div_lt_iff₀ (by positivity)] at hlt
  rw [div_le_iff₀ (by positivity)]
  nlinarith

/-! ### A case: a hidden state that stays with probability 3/4 and switches otherwise -/

/-- A binary state that stays if the uniform number is below 3/4 and switches otherwise. -/
noncomputable def switchMove (q : (Fin 1 → Bool) × ℝ) : Fin 1 → Bool := if q.2 < 3 / 4 then q.1 else fun i => !q.1 i

theorem measurable_switchMove : Measurable switchMove :=
  Measurable.ite (measurableSet_lt measurable_snd measurable_const) measurable_fst
    ((measurable_of_finite fun x : Fin 1 → Bool => fun i => !x i).comp measurable_fst)

theorem measurableSet_stay : MeasurableSet {u : ℝ | u < 3 / 4} := measurableSet_lt measurable_id measurable_const

theorem unif_stay : unif {u | u < 3 / 4} = ENNReal.ofReal (3 / 4) := by
  unfold unif
  rw [Measure.restrict_apply measurableSet_stay]
  have : {z : ℝ | z < 3 / 4} ∩ Set.Ico 0 1 = Set.Ico 0 (3 / 4) := by
    ext z
    simp only [Set.mem_inter_iff, Set.mem_ofPred_eq, Set.mem_Ico]
    constructor
    · rintro ⟨h1, h2, -⟩
      exact ⟨h2, h1⟩
    · rintro ⟨h1, h2⟩
      exact ⟨h2, h1, by linarith⟩
  rw [this, Real.volume_Ico, sub_zero]

theorem unif_switch : unif {u | u < 3 / 4}ᶜ = ENNReal.ofReal (1 / 4) := by
  rw [prob_compl_eq_one_sub measurableSet_stay, unif_stay, ← ENNReal.ofReal_one, ← ENNReal.ofReal_sub _ (by norm_num)]
  norm_num

open Classical in
theorem switch_apply (x : Fin 1 → Bool) (s : Set (Fin 1 → Bool)) :
    noiseKernel unif switchMove x s
      = ENNReal.ofReal ((if x ∈ s then 3 / 4 else 0) + if (fun i => !x i) ∈ s then 1 / 4 else 0) := by
  have hs : MeasurableSet s := s.toFinite.measurableSet
  have hm : Measurable fun u => switchMove (x, u) := measurable_switchMove.comp (measurable_const.prodMk measurable_id)
  rw [noiseKernel_apply unif measurable_switchMove, Measure.map_apply hm hs]
  by_cases h1 : x ∈ s <;> by_cases h2 : (fun i => !x i) ∈ s
  · have : (fun u => switchMove (x, u)) ⁻¹' s = Set.univ := by
      ext u
      simp only [Set.mem_preimage, switchMove, Set.mem_univ, iff_true]
      split_ifs
      · exact h1
      · exact h2
    rw [this, measure_univ, if_pos h1, if_pos h2, ← ENNReal.ofReal_one]
    norm_num
  · have : (fun u => switchMove (x, u)) ⁻¹' s = {u | u < 3 / 4} := by
      ext u
      simp only [Set.mem_preimage, switchMove, Set.mem_ofPred_eq]
      split_ifs with h
      · exact ⟨fun _ => h, fun _ => h1⟩
      · exact ⟨fun h3 => absurd h3 h2, fun h3 => absurd h3 h⟩
    rw [this, unif_stay, if_pos h1, if_neg h2, add_zero]
  · have : (fun u => switchMove (x, u)) ⁻¹' s = {u | u < 3 / 4}ᶜ := by
      ext u
      simp only [Set.mem_preimage, switchMove, Set.mem_compl_iff, Set.mem_ofPred_eq]
      split_ifs with h
      · exact ⟨fun h3 => absurd h3 h1, fun h3 => absurd h h3⟩
      · exact ⟨fun _ => h, fun _ => h2⟩
    rw [this, unif_switch, if_neg h1, if_pos h2, zero_add]
  · have : (fun u => switchMove (x, u)) ⁻¹' s = ∅ := by
      ext u
      simp only [Set.mem_preimage, switchMove, Set.mem_empty_iff_false, iff_false]
      split_ifs
      · exact h1
      · exact h2
    rw [this, measure_empty, if_neg h1, if_neg h2]
    simp

/-- The state is mixing with constant 1/3. -/
theorem switch_mix (x x' : Fin 1 → Bool) :
    ENNReal.ofReal (1 / 3) • noiseKernel unif switchMove x' ≤ noiseKernel unif switchMove x := by
  classical
  refine Measure.le_iff.2 fun s hs => ?_
  rw [Measure.smul_apply, smul_eq_mul, switch_apply, switch_apply, ← ENNReal.ofReal_mul (by norm_num)]
  refine ENNReal.ofReal_le_ofReal ?_
  have hx : x' = x ∨ x' = fun i => !x i := by
    by_cases h : x' 0 = x 0
    · exact Or.inl (funext fun i => by rw [Subsingleton.elim i 0]; exact h)
    · refine Or.inr (funext fun i => ?_)
      rw [Subsingleton.elim i 0]
      revert h
      cases x' 0 <;> cases x 0 <;> simp
  rcases hx with rfl | rfl
  · split_ifs <;> norm_num
  · simp only [Bool.not_not]
    split_ifs <;> norm_num

/-- Observations of the state with standard normal noise, without the constant factor. -/
noncomputable def switchLog (y : ℝ) (x : Fin 1 → Bool) : ℝ := -(y - if x 0 then 1 else 0) ^ 2 / 2

theorem measurable_switchLog (y : ℝ) : Measurable (switchLog y) := measurable_of_finite _

theorem switchLog_le (y : ℝ) (x : Fin 1 → Bool) : switchLog y x ≤ 0 := by
  unfold switchLog
  nlinarith [sq_nonneg (y - if x 0 then 1 else 0)]

/-- Observations between 0 and 1 are likely enough. -/
theorem switch_obs (y : ℝ) (h0 : 0 ≤ y) (h1 : y ≤ 1) (x : Fin 1 → Bool) : ENNReal.ofReal (Real.exp 0)
    ≤ ENNReal.ofReal (Real.exp (1 / 2)) * ∫⁻ x', ENNReal.ofReal (Real.exp (switchLog y x')) ∂(noiseKernel unif switchMove x) := by
  have hp : IsProbabilityMeasure (noiseKernel unif switchMove x) := by
    rw [noiseKernel_apply unif measurable_switchMove]
    exact Measure.isProbabilityMeasure_map (measurable_switchMove.comp (measurable_const.prodMk measurable_id)).aemeasurable
  have hl : ENNReal.ofReal (Real.exp (-(1 / 2)))
      ≤ ∫⁻ x', ENNReal.ofReal (Real.exp (switchLog y x')) ∂(noiseKernel unif switchMove x) := by
    calc ENNReal.ofReal (Real.exp (-(1 / 2)))
        = ∫⁻ _, ENNReal.ofReal (Real.exp (-(1 / 2))) ∂(noiseKernel unif switchMove x) := by
          rw [lintegral_const, measure_univ, mul_one]
      _ ≤ _ := lintegral_mono fun x' => ENNReal.ofReal_le_ofReal (Real.exp_le_exp.2 (by
          unfold switchLog
          split_ifs <;> nlinarith))
  refine le_trans (le_of_eq ?_) (mul_le_mul' le_rfl hl)
  rw [← ENNReal.ofReal_mul (Real.exp_pos _).le, ← Real.exp_add]
  norm_num

/-- C137 at work: two filters of `n + 1` particles for the binary state, resampled when fewer than half of them are
effective, with every third time step observed and any number of observations between 0 and 1. The probability the
filter gives to the last state being `true` has a mean squared error of at most `34992 / (n + 1)`. -/
example (n : ℕ) (lo : ℝ) (ys : List ℝ) (hys : ∀ y ∈ ys, 0 ≤ y ∧ y ≤ 1) (b : Fin 2) :
    ∃ (run : (ℕ → KernelEntry) → PCorr (n + 1) 2 1 Bool × List (PCorr (n + 1) 2 1 Bool) × (ℕ → KernelEntry)) (avg : _ → ℝ),
      (∀ ω, (FilterKind.sisr.ops (bootstrapModel lo (1 / 2 * ((n + 1 : ℕ) : ℝ))
          (multinomial2 lo (multinomialBy (Nat.succ_pos n) fun ω : ℕ → KernelEntry => ((next ω).1.2.1, (next ω).2)))
          (noisePropagate (fun ω : ℕ → KernelEntry => ((next ω).1.2.1, (next ω).2)) fun _ _ => switchMove)
          (fun y x i b => fin (switchLog y (x.value i b))) (fun _ _ _ _ => fin 0) (fun _ => false))).filterAll
          ⟨3, false, .skip⟩ 2 ys
          (initializeFilter lo fun i b => (fun u _ => if u < 1 / 2 then true else false : ℝ → Fin 1 → Bool) ((next ω).1.2.1 (i, b))) (next ω).2
            = some (run ω)) ∧
      (∀ ω, ∑ i, (normalize2 lo (run ω).1.w).2 i b * fin (if (run ω).1.x.value i b 0 then 1 else 0) = fin (avg ω)) ∧
      ∫⁻ ω, ENNReal.ofReal ((avg ω - (filterAvg (fun _ => noiseKernel unif switchMove)
          (fun y _ x => ENNReal.ofReal (Real.exp (switchLog y x))) (unif.map fun u _ => if u < 1 / 2 then true else false)
          (fun x => ENNReal.ofReal (if x 0 then 1 else 0)) (slots 3 (fun _ => false) ys)).toReal) ^ 2) ∂(streamLaw kernelEntryLaw)
        ≤ ENNReal.ofReal (34992 / ((n + 1 : ℕ) : ℝ)) := by
  obtain ⟨run, avg, h1, h2, h3⟩ := C137_bootstrap (N := n + 1) (B := 2) (streamLaw kernelEntryLaw) (Nat.succ_pos n) lo (1 / 2)
    (by norm_num) (by norm_num) _ (multinomialBy_independent _ kernel_rand2)
    (fun _ _ => noiseKernel unif switchMove) (fun _ => unif.map fun u _ => if u < 1 / 2 then true else false)
    (fun _ y _ => switchLog y) (fun _ y _ => measurable_switchLog y) (fun _ => 0) (fun _ y _ => switchLog_le y) _
    (noise_initial_independent unif kernel_rand2 (f := fun _ u _ => if u < 1 / 2 then true else false) fun _ => by
      refine measurable_pi_iff.2 fun _ => ?_
      exact Measurable.ite (measurableSet_lt measurable_id measurable_const) measurable_const measurable_const) _
    (noise_independent unif kernel_rand2 (f := fun _ _ => switchMove) fun _ _ => measurable_switchMove)
    (fun _ _ _ _ => fin 0) (fun _ => false) ⟨3, false, .skip⟩ (by norm_num) 2 (by norm_num) b (1 / 3) (Real.exp (1 / 2))
    (by norm_num) (by norm_num) (fun _ x x' => switch_mix x x') (Real.one_le_exp (by norm_num)) ys
    (fun y hy _ _ x => switch_obs y (hys y hy).1 (hys y hy).2 x) (fun x => if x 0 then 1 else 0) (measurable_of_finite _)
    (fun x => by split_ifs <;> norm_num) (fun x => by split_ifs <;> norm_num)
  refine ⟨run, avg, h1, h2, h3.trans (ENNReal.ofReal_le_ofReal ?_)⟩
  have hn : (0 : ℝ) < ((n + 1 : ℕ) : ℝ) := by positivity
  have he : Real.exp (1 / 2) ^ 2 ≤ 3 := by
    rw [← Real.exp_nat_mul]
    have := Real.exp_one_lt_d9
    norm_num
    linarith
  rw [div_le_div_iff₀ (by positivity) hn]
  nlinarith

end Verif.Props
