import Verif.Lemmas.TrajectoryFfbs
import Verif.Lemmas.MutualCases
import Verif.Props.PathSmoothing
import Verif.Props.KernelProposals
import Mathlib.Probability.Distributions.Gaussian.Real

/-!
# Property C130: averages over the paths of backward simulation are consistent
-/

namespace Verif.Props

open Verif Verif.Spec Verif.Unbiased Verif.Lifted Verif.Trajectory XF MeasureTheory ProbabilityTheory
open scoped ENNReal

variable {N B d : ℕ} {V Y Ω : Type} [MeasurableSpace V] [MeasurableSpace Ω]

/-- C130: the paths that backward simulation returns after a run of SISR that resamples in every step have, averaged with equal
weights, a mean squared error of order `1 / N` against the smoothing distribution, for functions `Φ` of the whole path. -/
theorem C130_error (P : Measure Ω) [IsProbabilityMeasure P] (hN : 0 < N) (hB : 0 < B) (lo threshold : ℝ)
    (hthr : (N : ℝ) < threshold) (r : {b : ℕ} → (Fin N → Fin b → XF) → Bool → Ω → (Fin N → Fin b → Fin N) × Ω)
    (hr : MutualResampler P r) (hrl : IndependentLogResampler P r)
    (K : Fin B → ℕ → Kernel (Fin d → V) (Fin d → V)) (μ : Fin B → Measure (Fin d → V))
    (logg : Fin B → Y → ℕ → (Fin d → V) → ℝ) (hlogg : ∀ b y t, Measurable (logg b y t)) (c : Y → ℝ)
    (hc : ∀ b y t x, logg b y t x ≤ c y)
    (init : Ω → (Fin N → Fin B → Fin d → V) × Ω) (hinit : MutualInitial P init μ)
    (propagate : TS N B d V → Ω → (Fin N → Fin B → Fin d → V) × Ω) (hK : MutualTransitions P propagate K)
    (pre : Y → TS N B d V → Fin N → Fin B → XF) (missing : Y → Bool)
    (lam : Fin B → Measure (Fin d → V)) [∀ b, SigmaFinite (lam b)]
    (logf : Fin B → ℕ → (Fin d → V) → (Fin d → V) → ℝ)
    (hlogf : ∀ b t, Measurable fun q : (Fin d → V) × (Fin d → V) => logf b t q.1 q.2)
    (hdens : ∀ b t x, K b t x = (lam b).withDensity fun x' => ENNReal.ofReal (Real.exp (logf b t x x')))
    (KB : Backward N B d V Ω) (hKB : ∀ s j b x, KB.logDensity s j b x = fin (logf b s.time (s.value j b) x))
    (hcat : IndependentCategorical P KB.categorical)
    (opt : FilterOptions) (hk : 0 < opt.observeEveryStep)
    (hrec : opt.recordIntermediary = true ∨ opt.observeEveryStep = 1) (fuel : ℕ) (hfuel : opt.observeEveryStep - 1 ≤ fuel)
    (ys : List Y) (b : Fin B) (Φ : (Fin ((slots opt.observeEveryStep missing ys).length + 1) → Fin d → V) → ℝ)
    (hΦ : Measurable Φ) (hΦ0 : ∀ x, 0 ≤ Φ x) (hΦ1 : ∀ x, Φ x ≤ 1) :
    ∃ (run : Ω → PCorr N B d V × List (PCorr N B d V) × Ω)
      (paths : Ω → Fin ((slots opt.observeEveryStep missing ys).length + 1) → Vals N B d V),
      (∀ ω, (FilterKind.sisr.ops (bootstrapModel lo threshold r propagate (fun y x i b => fin (logg b y x.time (x.value i b)))
          pre missing)).filterAll opt fuel ys (initializeFilter lo (init ω).1) (init ω).2 = some (run ω)) ∧
      (∀ ω, (smoothFfbs (bootstrapModel lo threshold r propagate (fun y x i b => fin (logg b y x.time (x.value i b))) pre missing)
          KB (initializeFilter lo (init ω).1 :: (run ω).2.1) (run ω).2.2).map Prod.fst = .ok (List.ofFn (paths ω))) ∧
      ∫⁻ ω, ENNReal.ofReal (((∑ i, Φ fun n => paths ω n i b) / N - (smoothingAvg (K b)
            (fun y t x => ENNReal.ofReal (Real.exp (logg b y t x))) (μ b)
            (slots opt.observeEveryStep missing ys) fun p => ENNReal.ofReal (Φ p)).toReal) ^ 2) ∂P
        ≤ ENNReal.ofReal ((4 * ((2 * (slots opt.observeEveryStep missing ys).length + 1) *
            (boundOf c (slots opt.observeEveryStep missing ys) /
              (∫⁻ x, lik (K b) (fun y t x => ENNReal.ofReal (Real.exp (logg b y t x)))
                (slots opt.observeEveryStep missing ys) 0 x ∂(μ b)).toReal) ^ 2) + 1) / N) := by
  have hN' : (0 : ℝ) < N := by exact_mod_cast hN
  obtain ⟨run, fl, avg, h1, -, h3, h4, h5⟩ := C129_sisr_partial P hN hB
    (bootstrapModel lo threshold r propagate (fun y x i b => fin (logg b y x.time (x.value i b))) pre missing) rfl
    (Unbiased.MutualResampler.independent hr) (hN'.trans hthr) K μ logg hlogg init (Unbiased.MutualInitial.independent hinit) (Unbiased.MutualTransitions.independent hK) c
    (bootstrap_independent (Unbiased.MutualTransitions.independent hK) logg hlogg c hc) opt hk hrec fuel hfuel ys b Φ hΦ hΦ0 hΦ1
  have h3 := h3 hthr
  change ∀ ω, smoothFl (initializeFilter lo (init ω).1 :: (run ω).2.1) = .ok (List.ofFn (fl ω)) at h3
  change ∀ ω, ∑ i, (normalize2 lo (run ω).1.w).2 i b * fin (Φ fun n => fl ω n i b) = fin (avg ω) at h4
  -- the run as elementary steps
  have htr : ∀ ω, (run ω).2 = (FilterKind.sisr.ops (bootSisr logg lo threshold r propagate pre missing)).traceO
      (slots opt.observeEveryStep missing ys) (initializeFilter lo (init ω).1) (init ω).2 := by
    intro ω
    have h := h1 ω
    obtain ⟨k, rec, nan⟩ := opt
    rw [filterAll_one _ k rec nan fuel hrec] at h
    obtain ⟨q, h6, h7⟩ := FilterOps.filterAll_trace (ticks .sisr (bootSisr logg lo threshold r propagate pre missing) rfl) nan k
      hk fuel hfuel ys 0 (initializeFilter lo (init ω).1) (init ω).2 rfl
    rw [FilterOps.slotsFrom_zero] at h7
    have h8 : run ω = q := Option.some.inj (h.symm.trans h6)
    rw [h8]
    exact h7
  obtain ⟨T, hT⟩ : ∃ T, T = (slots opt.observeEveryStep missing ys).length := ⟨_, rfl⟩
  obtain ⟨Q, E, hQ, hE, hQE, hH, hgen⟩ := run_facts lo threshold pre missing hN b hthr hr hK (lam b) logf hlogf (hdens b) hlogg
    hinit (slots opt.observeEveryStep missing ys)
  have hst : ∀ ω, List.Forall₂ (StateAt logg (obsAt (slots opt.observeEveryStep missing ys)) (Q ω))
      (initializeFilter lo (init ω).1 :: (run ω).2.1).reverse
      ((slots opt.observeEveryStep missing ys).length :: (List.range (slots opt.observeEveryStep missing ys).length).reverse) := by
    intro ω
    have h := trace_states logg lo threshold r propagate pre missing hN b hthr
      (obsAt (slots opt.observeEveryStep missing ys)) (slots opt.observeEveryStep missing ys) 0 none
      (fun j _ => obsAt_eq _ j) (start (init ω).1) (init ω).1 (fun _ => fin 0) (fun i _ => i) (init ω).2
    rw [← initialize_eq logg, ← htr ω] at h
    have hq := (hQE ω).1
    rw [← htr ω] at hq
    rw [← hq] at h
    have h0 : StateAt logg (obsAt (slots opt.observeEveryStep missing ys)) (Q ω) (initializeFilter lo (init ω).1) 0 := by
      rw [initialize_eq logg]
      unfold StateAt
      rw [hq, extend_le _ _ _ _ le_rfl]
      exact ⟨rfl, rfl, rfl⟩
    have h2 : List.Forall₂ (StateAt logg (obsAt (slots opt.observeEveryStep missing ys)) (Q ω))
        (initializeFilter lo (init ω).1 :: (run ω).2.1) (List.range ((slots opt.observeEveryStep missing ys).length + 1)) := by
      rw [List.range_eq_range', List.range'_succ]
      exact .cons h0 h
    have h6 := List.forall₂_reverse_iff.2 h2
    rw [List.range_succ, List.reverse_append, List.reverse_singleton, List.singleton_append] at h6
    exact h6
  obtain ⟨ω₀⟩ := nonempty_of_isProbabilityMeasure P
  let x₀ : Fin B → Fin d → V := (init ω₀).1 ⟨0, hN⟩
  let Φ' : (ℕ → Fin d → V) → ℝ≥0∞ := fun p =>
    ENNReal.ofReal (Φ fun n : Fin ((slots opt.observeEveryStep missing ys).length + 1) => p n)
  have hΦ' : Measurable Φ' := (hΦ.comp (measurable_pi_iff.2 fun n => measurable_pi_apply _)).ennreal_ofReal
  have hΦ'1 : ∀ p, Φ' p ≤ 1 := fun p => by
    rw [← ENNReal.ofReal_one]
    exact ENNReal.ofReal_le_ofReal (hΦ1 _)
  have hcore := ffbs_core hN b hrl logf hlogf hlogg hcat (slots opt.observeEveryStep missing ys).length
    (obsAt (slots opt.observeEveryStep missing ys)) hQ hH hΦ' hΦ'1 (hgen Φ' hΦ') x₀ (smoothingAvg (K b)
            (fun y t x => ENNReal.ofReal (Real.exp (logg b y t x))) (μ b)
            (slots opt.observeEveryStep missing ys) fun p => ENNReal.ofReal (Φ p)).toReal
  refine ⟨run, fun ω n => simulateAll logg logf (obsAt (slots opt.observeEveryStep missing ys)) KB.categorical r (fun _ _ => x₀)
    (slots opt.observeEveryStep missing ys).length (Q ω) (E ω) n, h1, fun ω => ?_, ?_⟩
  · have h := hst ω
    have hE' : (run ω).2.2 = E ω := by rw [htr ω, (hQE ω).2]
    unfold smoothFfbs
    rw [hE']
    cases hl : (initializeFilter lo (init ω).1 :: (run ω).2.1).reverse with
    | nil => rw [hl] at h; cases h
    | cons latest rest =>
      rw [hl] at h
      cases h with
      | cons ha hb =>
        have e := ffbsLoop_simulate logg logf (obsAt (slots opt.observeEveryStep missing ys)) KB hKB
          (slots opt.observeEveryStep missing ys).length (Q ω)
          (Function.update (fun _ _ => x₀) (slots opt.observeEveryStep missing ys).length fun i b =>
            (Q ω (slots opt.observeEveryStep missing ys).length).2 ((r (fun i b => fin (weightsAt logg
              (obsAt (slots opt.observeEveryStep missing ys) (slots opt.observeEveryStep missing ys).length)
              (slots opt.observeEveryStep missing ys).length (Q ω (slots opt.observeEveryStep missing ys).length).2 i b))
                false (E ω)).1 i b) b) rest
          (r (fun i b => fin (weightsAt logg
              (obsAt (slots opt.observeEveryStep missing ys) (slots opt.observeEveryStep missing ys).length)
              (slots opt.observeEveryStep missing ys).length (Q ω (slots opt.observeEveryStep missing ys).length).2 i b))
                false (E ω)).2 hb
        rw [Function.update_self] at e
        show Except.ok _ = _
        refine congrArg _ ?_
        rw [ha.2.1, ha.1]
        show ((gatherVals (Q ω (slots opt.observeEveryStep missing ys).length).2 _ :: _).reverse) = _
        have hofn : ∀ (n : ℕ) (g : ℕ → Vals N B d V), (List.ofFn fun i : Fin (n + 1) => g i)
            = (g n :: (List.range n).reverse.map g).reverse := by
          intro n g
          rw [List.reverse_cons, ← List.map_reverse, List.reverse_reverse, ← List.map_singleton (f := g), ← List.map_append,
            ← List.range_succ]
          apply List.ext_getElem
          · simp
          · intro m h1 h2
            rw [List.getElem_ofFn, List.getElem_map, List.getElem_range]
        rw [hofn]
        unfold simulateAll
        dsimp only
        rw [← e, simulate_ge _ _ _ _ _ _ _ _ _ le_rfl, Function.update_self]
        rfl
  · -- the weighted average over ancestral paths
    have hav : ∀ ω, (genAvg (normWeight logg b (obsAt (slots opt.observeEveryStep missing ys))) Φ'
        (slots opt.observeEveryStep missing ys).length (fun _ => x₀ b) (column b (Q ω))).toReal = avg ω := by
      intro ω
      have h := hst ω
      have h6 := h3 ω
      have h7 := h4 ω
      obtain ⟨l, hl⟩ := filterAll_last _ _ _ ys _ _ _ (h1 ω)
      have hl' : (initializeFilter lo (init ω).1 :: (run ω).2.1).reverse = (run ω).1 :: l := by
        rw [List.reverse_cons]; exact hl
      unfold smoothFl at h6
      rw [hl'] at h6 h
      cases h with
      | cons ha hb =>
        have e := flLoop_gen (Q ω) (slots opt.observeEveryStep missing ys).length (run ω).1 (fun i _ => i) l
          (fun _ b _ => x₀ b) ha hb
        have h8 := Except.ok.inj h6
        have hp : ∀ (i : Fin N) (n : Fin ((slots opt.observeEveryStep missing ys).length + 1)),
            gen (slots opt.observeEveryStep missing ys).length (column b (Q ω)) i (fun _ => x₀ b) n = fl ω n i b := by
          intro i n
          have h9 : (List.ofFn (fl ω)) = (List.range ((slots opt.observeEveryStep missing ys).length + 1)).map fun m i b =>
              gen (slots opt.observeEveryStep missing ys).length (column b (Q ω)) i (fun _ => x₀ b) m := by
            rw [← h8, e, List.reverse_cons, ← List.map_reverse, List.reverse_reverse, List.range_succ, List.map_append,
              List.map_singleton, ha.1]
            congr 2
            funext i b
            rw [gen_self]
            rfl
          have h10 := List.getElem_of_eq h9 (i := n)
            (by rw [List.length_ofFn]; exact n.2)
          rw [List.getElem_ofFn, List.getElem_map, List.getElem_range] at h10
          exact (congrFun (congrFun h10 i) b).symm
        rw [ha.2.1, normalize2_fin] at h7
        have h11 : fin (∑ i, sm (weightsAt logg (obsAt (slots opt.observeEveryStep missing ys)
            (slots opt.observeEveryStep missing ys).length) (slots opt.observeEveryStep missing ys).length
            (Q ω (slots opt.observeEveryStep missing ys).length).2) b i * Φ fun n => fl ω n i b) = fin (avg ω) := by
          rw [← h7, ← sum_fin]
          exact Finset.sum_congr rfl fun i _ => (fin_mul _ _).symm
        rw [← XF.fin.inj h11]
        unfold genAvg
        rw [ENNReal.toReal_sum (f := fun k => normWeight logg b (obsAt (slots opt.observeEveryStep missing ys))
          (slots opt.observeEveryStep missing ys).length (column b (Q ω) (slots opt.observeEveryStep missing ys).length).2 k *
          Φ' (gen (slots opt.observeEveryStep missing ys).length (column b (Q ω)) k fun _ => x₀ b))
          fun k _ => ENNReal.mul_ne_top ENNReal.ofReal_ne_top ENNReal.ofReal_ne_top]
        refine Finset.sum_congr rfl fun k _ => ?_
        rw [ENNReal.toReal_mul]
        congr 1
        · exact ENNReal.toReal_ofReal ((sm_isProb (weightsAt logg _ _ _) b hN).1 k)
        · show (ENNReal.ofReal (Φ _)).toReal = _
          rw [ENNReal.toReal_ofReal (hΦ0 _)]
          congr 1
          funext n
          exact hp k n
    simp only [hav] at hcore
    have hΦr : ∀ p, (Φ' p).toReal = Φ fun n => p n := fun p => ENNReal.toReal_ofReal (hΦ0 _)
    simp only [hΦr] at hcore
    refine hcore.trans ((add_le_add h5 le_rfl).trans (le_of_eq ?_))
    show ENNReal.ofReal (4 * ((2 * ((slots opt.observeEveryStep missing ys).length : ℝ) + 1) * _ / min threshold N)) + _ = _
    rw [min_eq_right hthr.le, ← ENNReal.ofReal_add (by positivity) (by positivity)]
    congr 1
    show 4 * ((2 * ((slots opt.observeEveryStep missing ys).length : ℝ) + 1) * _ / N) + 1 / N = _
    rw [← mul_div_assoc, ← add_div]
    rfl

/-- C130, the limit: as the number of particles grows, the mean squared error of averages over the simulated paths tends to
zero. -/
theorem C130_consistent (P : Measure Ω) [IsProbabilityMeasure P] (hB : 0 < B) (lo τ : ℝ) (hτ : 1 < τ)
    (mult : ∀ N, TorchMultinomial (N + 1) Ω) (hmult : ∀ N, MutualMultinomial P (mult N))
    (K : Fin B → ℕ → Kernel (Fin d → V) (Fin d → V)) (μ : Fin B → Measure (Fin d → V))
    (logg : Fin B → Y → ℕ → (Fin d → V) → ℝ) (hlogg : ∀ b y t, Measurable (logg b y t)) (c : Y → ℝ)
    (hc : ∀ b y t x, logg b y t x ≤ c y)
    (init : ∀ N, Ω → (Fin (N + 1) → Fin B → Fin d → V) × Ω) (hinit : ∀ N, MutualInitial P (init N) μ)
    (propagate : ∀ N, TS (N + 1) B d V → Ω → (Fin (N + 1) → Fin B → Fin d → V) × Ω)
    (hK : ∀ N, MutualTransitions P (propagate N) K)
    (pre : ∀ N, Y → TS (N + 1) B d V → Fin (N + 1) → Fin B → XF) (missing : Y → Bool)
    (lam : Fin B → Measure (Fin d → V)) [∀ b, SigmaFinite (lam b)]
    (logf : Fin B → ℕ → (Fin d → V) → (Fin d → V) → ℝ)
    (hlogf : ∀ b t, Measurable fun q : (Fin d → V) × (Fin d → V) => logf b t q.1 q.2)
    (hdens : ∀ b t x, K b t x = (lam b).withDensity fun x' => ENNReal.ofReal (Real.exp (logf b t x x')))
    (KB : ∀ N, Backward (N + 1) B d V Ω)
    (hKB : ∀ N s j b x, (KB N).logDensity s j b x = fin (logf b s.time (s.value j b) x))
    (hcat : ∀ N, IndependentCategorical P (KB N).categorical)
    (opt : FilterOptions) (hk : 0 < opt.observeEveryStep)
    (hrec : opt.recordIntermediary = true ∨ opt.observeEveryStep = 1) (fuel : ℕ) (hfuel : opt.observeEveryStep - 1 ≤ fuel)
    (ys : List Y) (b : Fin B) (Φ : (Fin ((slots opt.observeEveryStep missing ys).length + 1) → Fin d → V) → ℝ)
    (hΦ : Measurable Φ) (hΦ0 : ∀ x, 0 ≤ Φ x) (hΦ1 : ∀ x, Φ x ≤ 1)
    (run : ∀ N, Ω → PCorr (N + 1) B d V × List (PCorr (N + 1) B d V) × Ω)
    (hrun : ∀ N ω, (FilterKind.sisr.ops (bootstrapModel lo (τ * (N + 1 : ℕ)) (multinomial2 lo (mult N)) (propagate N)
          (fun y x i b => fin (logg b y x.time (x.value i b))) (pre N) missing)).filterAll opt fuel ys
            (initializeFilter lo (init N ω).1) (init N ω).2 = some (run N ω))
    (paths : ∀ N, Ω → Fin ((slots opt.observeEveryStep missing ys).length + 1) → Vals (N + 1) B d V)
    (hpaths : ∀ N ω, (smoothFfbs (bootstrapModel lo (τ * (N + 1 : ℕ)) (multinomial2 lo (mult N)) (propagate N)
          (fun y x i b => fin (logg b y x.time (x.value i b))) (pre N) missing) (KB N)
            (initializeFilter lo (init N ω).1 :: (run N ω).2.1) (run N ω).2.2).map Prod.fst = .ok (List.ofFn (paths N ω))) :
    Filter.Tendsto (fun N => ∫⁻ ω, ENNReal.ofReal (((∑ i, Φ fun n => paths N ω n i b) / (N + 1 : ℕ) - (smoothingAvg (K b)
            (fun y t x => ENNReal.ofReal (Real.exp (logg b y t x))) (μ b)
            (slots opt.observeEveryStep missing ys) fun p => ENNReal.ofReal (Φ p)).toReal) ^ 2) ∂P)
      Filter.atTop (nhds 0) := by
  refine tendsto_of_tendsto_of_tendsto_of_le_of_le (g := fun _ => 0)
    (h := fun N : ℕ => ENNReal.ofReal ((4 * ((2 * (slots opt.observeEveryStep missing ys).length + 1) *
            (boundOf c (slots opt.observeEveryStep missing ys) /
              (∫⁻ x, lik (K b) (fun y t x => ENNReal.ofReal (Real.exp (logg b y t x)))
                (slots opt.observeEveryStep missing ys) 0 x ∂(μ b)).toReal) ^ 2) + 1) / ((N + 1 : ℕ) : ℝ)))
    tendsto_const_nhds ?_ (fun _ => zero_le) fun N => ?_
  · rw [← ENNReal.ofReal_zero]
    refine (ENNReal.continuous_ofReal.tendsto 0).comp ?_
    have h1 : Filter.Tendsto (fun N : ℕ => ((N + 1 : ℕ) : ℝ)) Filter.atTop Filter.atTop :=
      tendsto_natCast_atTop_atTop.comp (Filter.tendsto_add_atTop_nat 1)
    exact h1.const_div_atTop _
  · have hN' : (0 : ℝ) < (N + 1 : ℕ) := by positivity
    obtain ⟨run', paths', h1, h2, h3⟩ := C130_error P (Nat.succ_pos N) hB lo (τ * (N + 1 : ℕ))
      (lt_mul_of_one_lt_left hN' hτ) (multinomial2 lo (mult N)) (multinomial_mutual lo (hmult N))
      (multinomial_log_independent lo (Nat.succ_pos N) (Unbiased.MutualMultinomial.independent (hmult N)))
      K μ logg hlogg c hc (init N) (hinit N)
      (propagate N) (hK N) (pre N) missing lam logf hlogf hdens (KB N) (hKB N) (hcat N) opt hk hrec fuel hfuel ys b Φ hΦ hΦ0 hΦ1
    have e : run' = run N := funext fun ω => Option.some.inj ((h1 ω).symm.trans (hrun N ω))
    subst e
    have e1 : paths' = paths N := funext fun ω => List.ofFn_injective (Except.ok.inj ((h2 ω).symm.trans (hpaths N ω)))
    subst e1
    exact h3

/-! ## A case -/

/-- The logarithm of the transition density of the autoregressive processes of `kernelMove`. -/
noncomputable def kernelLog (b : Fin 2) (_t : ℕ) (x x' : Fin 1 → ℝ) : ℝ :=
  -(x' 0 - (if b = 0 then 1 / 2 else -1) * x 0) ^ 2 / 2 - Real.log (Real.sqrt (2 * Real.pi))

theorem measurable_kernelLog (b : Fin 2) (t : ℕ) :
    Measurable fun q : (Fin 1 → ℝ) × (Fin 1 → ℝ) => kernelLog b t q.1 q.2 := by
  unfold kernelLog
  fun_prop

theorem exp_kernelLog (b : Fin 2) (t : ℕ) (x x' : Fin 1 → ℝ) :
    Real.exp (kernelLog b t x x') = gaussianPDFReal ((if b = 0 then 1 / 2 else -1) * x 0) 1 (x' 0) := by
  have h : (0 : ℝ) < Real.sqrt (2 * Real.pi) := Real.sqrt_pos.2 (by positivity)
  unfold kernelLog gaussianPDFReal
  rw [Real.exp_sub, Real.exp_log h]
  simp only [NNReal.coe_one, mul_one]
  rw [div_eq_inv_mul]

/-- The transition kernel of `kernelMove` has this density. -/
theorem kernelMove_density (b : Fin 2) (t : ℕ) (x : Fin 1 → ℝ) :
    noiseKernel (Measure.pi fun _ : Fin 2 => gaussianReal 0 1) (kernelMove b t) x
      = ((volume : Measure ℝ).map fun z (_ : Fin 1) => z).withDensity
          fun x' => ENNReal.ofReal (Real.exp (kernelLog b t x x')) := by
  have hm : Measurable fun (z : ℝ) (_ : Fin 1) => z := by fun_prop
  have h1 : noiseKernel (Measure.pi fun _ : Fin 2 => gaussianReal 0 1) (kernelMove b t) x
      = (gaussianReal ((if b = 0 then 1 / 2 else -1) * x 0) 1).map fun z (_ : Fin 1) => z := by
    have h2 := gaussianReal_map_const_add (μ := 0) (v := 1) ((if b = 0 then 1 / 2 else -1) * x 0)
    rw [zero_add] at h2
    have h3 := (measurePreserving_eval (fun _ : Fin 2 => gaussianReal 0 1) 0).map_eq
    rw [noiseKernel_apply _ (measurable_kernelMove b t), ← h2, Measure.map_map hm (by fun_prop)]
    conv_rhs => rw [← h3]
    have h4 : Measurable fun (u : Fin 2 → ℝ) => Function.eval 0 u := measurable_pi_apply 0
    have h5 : Measurable ((fun (z : ℝ) (_ : Fin 1) => z) ∘ fun u => (if b = 0 then 1 / 2 else -1) * x 0 + u) :=
      hm.comp (by fun_prop)
    rw [Measure.map_map h5 h4]
    congr 1
    funext z i
    fin_cases i
    rfl
  rw [h1]
  ext s hs
  have hf : Measurable fun x' : Fin 1 → ℝ => ENNReal.ofReal (Real.exp (kernelLog b t x x')) := by
    unfold kernelLog
    fun_prop
  rw [Measure.map_apply hm hs, withDensity_apply _ hs, setLIntegral_map hs hf hm,
    gaussianReal_of_var_ne_zero _ one_ne_zero, withDensity_apply _ (hm hs)]
  refine setLIntegral_congr_fun (hm hs) fun z _ => ?_
  simp only [exp_kernelLog]
  rfl

/-- A case for C130: autoregressive processes with normal noise, observed with normal noise, where everything is drawn from
independent uniforms and normals. The transition density is positive and depends on where the particle comes from. -/
example (n : ℕ) (lo : ℝ) : MutualMultinomial (streamLaw kernelEntryLaw)
      (multinomialBy (Nat.succ_pos n) fun ω => ((next ω).1.2.1, (next ω).2)) ∧
    MutualResampler (N := n + 1) (streamLaw kernelEntryLaw)
      (multinomial2 lo (multinomialBy (Nat.succ_pos n) fun ω => ((next ω).1.2.1, (next ω).2))) ∧
    IndependentLogResampler (N := n + 1) (streamLaw kernelEntryLaw)
      (multinomial2 lo (multinomialBy (Nat.succ_pos n) fun ω => ((next ω).1.2.1, (next ω).2))) ∧
    MutualInitial (N := n + 1) (streamLaw kernelEntryLaw)
      (fun ω => (fun i (b : Fin 2) (_ : Fin 1) => (next ω).1.2.2.1 (i, b) 0, (next ω).2))
      (fun _ => (Measure.pi fun _ : Fin 2 => gaussianReal 0 1).map fun z _ => z 0) ∧
    MutualTransitions (streamLaw kernelEntryLaw)
      (noisePropagate (N := n + 1) (fun ω => ((next ω).1.2.2.1, (next ω).2)) kernelMove)
      (fun b t => noiseKernel (Measure.pi fun _ : Fin 2 => gaussianReal 0 1) (kernelMove b t)) ∧
    (∀ b t x, noiseKernel (Measure.pi fun _ : Fin 2 => gaussianReal 0 1) (kernelMove b t) x
      = ((volume : Measure ℝ).map fun z (_ : Fin 1) => z).withDensity
          fun x' => ENNReal.ofReal (Real.exp (kernelLog b t x x'))) ∧
    SigmaFinite ((volume : Measure ℝ).map fun z (_ : Fin 1) => z) ∧
    IndependentCategorical (N := n + 1) (B := 2) (streamLaw kernelEntryLaw)
      (categoricalBy fun ω => ((next ω).1.2.1, (next ω).2)) ∧
    (∀ y : ℝ, Measurable fun x : Fin 1 → ℝ => -(y - x 0) ^ 2 / 2) ∧
    (∀ (y : ℝ) (x : Fin 1 → ℝ), -(y - x 0) ^ 2 / 2 ≤ 0) ∧ (1 : ℝ) < 3 / 2 := by
  refine ⟨multinomialBy_mutual _ kernel_rand2, multinomial_mutual lo (multinomialBy_mutual _ kernel_rand2),
    multinomial_log_independent lo (Nat.succ_pos n) (multinomialBy_independent _ kernel_rand2), ?_,
    noise_mutual _ kernel_noise measurable_kernelMove, kernelMove_density, ?_, categoricalBy_independent kernel_rand2,
    fun y => by fun_prop, fun y x => by nlinarith [sq_nonneg (y - x 0)], by norm_num⟩
  · exact noise_initial_mutual _ kernel_noise (f := fun _ z _ => z 0) fun _ => by fun_prop
  · exact (MeasurableEquiv.funUnique (Fin 1) ℝ).symm.sigmaFinite_map

end Verif.Props
