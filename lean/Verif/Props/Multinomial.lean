import Verif.Lemmas.Multinomial
import Verif.Props.Unbiased
import Verif.Props.KernelProposals

/-!
# Properties C94 and C95: multinomial and residual resampling
-/

namespace Verif.Props

open Verif Verif.Spec Verif.Unbiased XF MeasureTheory ProbabilityTheory
open scoped ENNReal

variable {N B d : ℕ} {V Y Ω : Type} [MeasurableSpace V] [MeasurableSpace Ω]

/-! ## C94 -/

/-- C94: multinomial resampling of normalised weights draws every index of filter `j` from the weights of filter
`j`. -/
theorem C94_multinomial (P : Measure Ω) [SFinite P] (lo : ℝ) (mult : TorchMultinomial N Ω)
    (hm : DrawsMultinomial P mult) (b : ℕ) (p : Fin N → Fin b → ℝ) (hp : ∀ j, IsProb fun i => p i j) :
    ∃ ν, Draws P (multinomial2 lo mult (fun i j => fin (p i j)) true) ν ∧
      ∀ i j k, ν {a | a i j = k} = ENNReal.ofReal (p k j) :=
  multinomial_law lo hm hp

/-- C94: the same for a single filter without batch dimension. -/
theorem C94_multinomial_single (P : Measure Ω) [SFinite P] (lo : ℝ) (mult : TorchMultinomial N Ω)
    (hm : DrawsMultinomial P mult) (p : Fin N → ℝ) (hp : IsProb p) :
    ∃ ν, Draws P (multinomial1 lo mult (fun i => fin (p i)) true) ν ∧
      ∀ i k, ν {a | a i = k} = ENNReal.ofReal (p k) := by
  obtain ⟨ν, h1, h2⟩ := hm.draws 1 N (fun _ => p) fun _ => ⟨hp.1, hp.2 ▸ one_pos⟩
  have hg : Measurable fun a : Fin 1 → ℕ → Fin N => (fun i : Fin N => a 0 i) :=
    measurable_pi_lambda _ fun i => (measurable_pi_apply (i : ℕ)).comp (measurable_pi_apply 0)
  refine ⟨ν.map fun (a : Fin 1 → ℕ → Fin N) (i : Fin N) => a 0 i, draws_map h1 hg, fun i k => ?_⟩
  rw [Measure.map_apply hg (Set.toFinite _).measurableSet]
  have := h2 0 i i.2 k
  rw [hp.2, div_one] at this
  exact this

/-- C94: multinomial resampling is unbiased, for normalised weights and for log-weights: it can be used wherever an
unbiased resampler is asked for (C30, C31, C82, C93). -/
theorem C94_multinomial_unbiased (P : Measure Ω) [SFinite P] (hN : 0 < N) (lo : ℝ) (mult : TorchMultinomial N Ω)
    (hm : DrawsMultinomial P mult) :
    UnbiasedResampler P (N := N) (multinomial2 lo mult) ∧ UnbiasedLogResampler P (N := N) (multinomial2 lo mult) :=
  multinomial_unbiased lo hN hm

/-- C94: residual resampling of the normalised weights of a single filter always succeeds, and selects particle `k`
`N * p k` times on average. -/
theorem C94_residual (P : Measure Ω) [SFinite P] (hN : 0 < N) (lo : ℝ) (mult : TorchMultinomial N Ω)
    (hm : DrawsMultinomial P mult) (p : Fin N → ℝ) (hp : IsProb p) :
    ∃ (run : Ω → (Fin N → Fin N) × Ω) (ν : Measure (Fin N → Fin N)),
      (∀ ω, residualCall1 lo mult (fun i => fin (p i)) true ω = (.ok (List.ofFn (run ω).1), (run ω).2)) ∧
      Draws P run ν ∧ ∀ k, ∑ i, ν {a | a i = k} = N * ENNReal.ofReal (p k) := by
  classical
  obtain ⟨ν, h1, h2⟩ := residual_law lo hN hm (p := fun i _ => p i) hp
  have hg : Measurable fun a : Fin N → Fin 1 → Fin N => (fun i => a i 0 : Fin N → Fin N) := Measurable.of_discrete
  refine ⟨_, _, fun ω => ?_, draws_map h1 hg, fun k => ?_⟩
  · have hR := sum_floors_le hp
    have hR0 := sum_floors_pos hN hp
    have hlen := length_fixedPart (floors_nonneg hp)
    have hof : ∀ l : List (Fin N), l.length = N → List.ofFn (fun i : Fin N => l.getD i i) = l := by
      intro l hl
      refine List.ext_getElem (by simp [hl]) fun n h3 h4 => ?_
      simp [List.getElem?_eq_getElem h4]
    rw [residual_true]
    by_cases hfull : ∑ i, floors p i = N
    · rw [if_pos hfull]
      have hl : (fixedPart (floors p)).length = N := by
        have := hlen.trans hfull
        exact_mod_cast this
      have hfull' : ∑ i, ⌊(N : ℝ) * p i⌋ = N := hfull
      unfold residualCall1
      simp only [if_true, XF.toReal, if_pos hfull', residual1, fixedFn]
      rw [hof _ hl]
      rfl
    · rw [if_neg hfull]
      have hfull' : ¬ ∑ i, ⌊(N : ℝ) * p i⌋ = N := hfull
      have h0' : ¬ ∑ i, ⌊(N : ℝ) * p i⌋ = 0 := hR0.ne'
      have h0 : ¬ ∑ i, floors p i = 0 := hR0.ne'
      unfold residualCall1
      simp only [if_true, XF.toReal, if_neg hfull', residual1, if_neg h0']
      have e : (fun i : Fin N => filled (floors p) ((residualMult mult p ω).1 0) i 0) = fun i : Fin N =>
          (fixedPart (floors p) ++ (List.range (N - (∑ j, floors p j).toNat)).map
            ((residualMult mult p ω).1 0)).getD i i := funext fun i => if_neg h0
      have hl : (fixedPart (floors p) ++ (List.range (N - (∑ j, floors p j).toNat)).map
          ((residualMult mult p ω).1 0)).length = N := by
        simp only [List.length_append, List.length_map, List.length_range]
        omega
      rw [e, hof _ hl]
      rfl
  · have := h2 0 k
    rw [← this]
    refine Finset.sum_congr rfl fun i _ => ?_
    rw [Measure.map_apply hg (Set.toFinite _).measurableSet]
    rfl

/-- C94: the likelihood estimate of SISR with bootstrap proposal and multinomial resampling is unbiased. -/
theorem C94_sisr_multinomial (P : Measure Ω) [IsProbabilityMeasure P] (hN : 0 < N) (lo threshold : ℝ)
    (mult : TorchMultinomial N Ω) (hm : DrawsMultinomial P mult)
    (K : Fin B → ℕ → Kernel (Fin d → V) (Fin d → V)) (μ : Fin B → Measure (Fin d → V))
    (logg : Fin B → Y → ℕ → (Fin d → V) → ℝ) (hlogg : ∀ b y t, Measurable (logg b y t))
    (init : Ω → (Fin N → Fin B → Fin d → V) × Ω) (hinit : DrawsInitial P init μ)
    (propagate : TS N B d V → Ω → (Fin N → Fin B → Fin d → V) × Ω) (hK : DrawsTransitions P propagate K)
    (preWeight : Y → TS N B d V → Fin N → Fin B → XF) (missing : Y → Bool)
    (opt : FilterOptions) (hk : 0 < opt.observeEveryStep) (fuel : ℕ) (hfuel : opt.observeEveryStep - 1 ≤ fuel)
    (ys : List Y) (b : Fin B) :
    ∃ run : Ω → PCorr N B d V × List (PCorr N B d V) × Ω,
      (∀ ω, (FilterKind.sisr.ops (bootstrapModel lo threshold (multinomial2 lo mult) propagate
          (fun y x i b => fin (logg b y x.time (x.value i b))) preWeight missing)).filterAll opt fuel ys
          (initializeFilter lo (init ω).1) (init ω).2 = some (run ω)) ∧
      (∀ ω, ∃ r, ((run ω).2.1.map fun c => c.ll b).sum = fin r) ∧
      ∫⁻ ω, ENNReal.ofReal (expOf ((run ω).2.1.map fun c => c.ll b).sum) ∂P
        = ∫⁻ x, lik (K b) (fun y t x => ENNReal.ofReal (Real.exp (logg b y t x)))
            (slots opt.observeEveryStep missing ys) 0 x ∂(μ b) :=
  C30_sisr_unbiased P hN lo threshold _ (multinomial_unbiased lo hN hm).1 K μ logg hlogg init hinit propagate hK
    preWeight missing opt hk fuel hfuel ys b

/-- C94: the likelihood estimate of the APF with bootstrap proposal and multinomial resampling is unbiased. -/
theorem C94_apf_multinomial (P : Measure Ω) [IsProbabilityMeasure P] (hN : 0 < N) (lo threshold : ℝ)
    (mult : TorchMultinomial N Ω) (hm : DrawsMultinomial P mult)
    (K : Fin B → ℕ → Kernel (Fin d → V) (Fin d → V)) (μ : Fin B → Measure (Fin d → V))
    (logg : Fin B → Y → ℕ → (Fin d → V) → ℝ) (hlogg : ∀ b y t, Measurable (logg b y t))
    (init : Ω → (Fin N → Fin B → Fin d → V) × Ω) (hinit : DrawsInitial P init μ)
    (propagate : TS N B d V → Ω → (Fin N → Fin B → Fin d → V) × Ω) (hK : DrawsTransitions P propagate K)
    (pre : Y → ℕ → (Fin N → Fin B → Fin d → V) → Fin N → Fin B → ℝ) (hpre : ∀ y t, Measurable (pre y t))
    (missing : Y → Bool)
    (opt : FilterOptions) (hk : 0 < opt.observeEveryStep) (fuel : ℕ) (hfuel : opt.observeEveryStep - 1 ≤ fuel)
    (ys : List Y) (b : Fin B) :
    ∃ run : Ω → PCorr N B d V × List (PCorr N B d V) × Ω,
      (∀ ω, (FilterKind.apf.ops (bootstrapModel lo threshold (multinomial2 lo mult) propagate
          (fun y x i b => fin (logg b y x.time (x.value i b)))
          (fun y x i b => fin (pre y x.time x.value i b)) missing)).filterAll opt fuel ys
          (initializeFilter lo (init ω).1) (init ω).2 = some (run ω)) ∧
      (∀ ω, ∃ r, ((run ω).2.1.map fun c => c.ll b).sum = fin r) ∧
      ∫⁻ ω, ENNReal.ofReal (expOf ((run ω).2.1.map fun c => c.ll b).sum) ∂P
        = ∫⁻ x, lik (K b) (fun y t x => ENNReal.ofReal (Real.exp (logg b y t x)))
            (slots opt.observeEveryStep missing ys) 0 x ∂(μ b) :=
  C31_apf_unbiased P hN lo threshold _ (multinomial_unbiased lo hN hm).2 K μ logg hlogg init hinit propagate hK
    pre hpre missing opt hk fuel hfuel ys b

/-- C94: the likelihood estimate of a single APF with bootstrap proposal and residual resampling is unbiased. -/
theorem C94_apf_residual (P : Measure Ω) [IsProbabilityMeasure P] (hN : 0 < N) (lo threshold : ℝ)
    (mult : TorchMultinomial N Ω) (hm : DrawsMultinomial P mult)
    (K : ℕ → Kernel (Fin d → V) (Fin d → V)) (μ : Measure (Fin d → V))
    (logg : Y → ℕ → (Fin d → V) → ℝ) (hlogg : ∀ y t, Measurable (logg y t))
    (init : Ω → (Fin N → Fin 1 → Fin d → V) × Ω) (hinit : DrawsInitial P init fun _ => μ)
    (propagate : TS N 1 d V → Ω → (Fin N → Fin 1 → Fin d → V) × Ω)
    (hK : DrawsTransitions P propagate fun _ => K)
    (pre : Y → ℕ → (Fin N → Fin 1 → Fin d → V) → Fin N → Fin 1 → ℝ) (hpre : ∀ y t, Measurable (pre y t))
    (missing : Y → Bool)
    (opt : FilterOptions) (hk : 0 < opt.observeEveryStep) (fuel : ℕ) (hfuel : opt.observeEveryStep - 1 ≤ fuel)
    (ys : List Y) :
    ∃ run : Ω → PCorr N 1 d V × List (PCorr N 1 d V) × Ω,
      (∀ ω, (FilterKind.apf.ops (bootstrapModel lo threshold (residualResampler lo mult) propagate
          (fun y x i b => fin (logg y x.time (x.value i b)))
          (fun y x i b => fin (pre y x.time x.value i b)) missing)).filterAll opt fuel ys
          (initializeFilter lo (init ω).1) (init ω).2 = some (run ω)) ∧
      (∀ ω, ∃ r, ((run ω).2.1.map fun c => c.ll 0).sum = fin r) ∧
      ∫⁻ ω, ENNReal.ofReal (expOf ((run ω).2.1.map fun c => c.ll 0).sum) ∂P
        = ∫⁻ x, lik K (fun y t x => ENNReal.ofReal (Real.exp (logg y t x)))
            (slots opt.observeEveryStep missing ys) 0 x ∂μ := by
  have h := C31_apf_unbiased P hN lo threshold _ (residualOr_unbiased lo hN hm) (fun _ => K) (fun _ => μ)
    (fun _ => logg) (fun _ => hlogg) init hinit propagate hK pre hpre missing opt hk fuel hfuel ys 0
  have e : FilterKind.apf.ops (bootstrapModel lo threshold (residualOr lo mult) propagate
      (fun y x i b => fin (logg y x.time (x.value i b))) (fun y x i b => fin (pre y x.time x.value i b)) missing)
      = FilterKind.apf.ops (bootstrapModel lo threshold (residualResampler lo mult) propagate
      (fun y x i b => fin (logg y x.time (x.value i b))) (fun y x i b => fin (pre y x.time x.value i b)) missing) := by
    unfold FilterKind.ops
    congr 1
  rwa [e] at h

/-- A case for C94: `torch.multinomial` by inversion of independent uniforms. -/
example (n : ℕ) : DrawsMultinomial (streamLaw kernelEntryLaw)
    (multinomialBy (Nat.succ_pos n) fun ω => ((next ω).1.2.1, (next ω).2)) :=
  multinomialBy_draws _ kernel_rand2

/-- Weights 1/2, 1/3, 1/6 are a case for `C94_residual`: one index is random,
it is 0 with probability 1/2 (and 2 otherwise). -/
example : IsProb (![1 / 2, 1 / 3, 1 / 6] : Fin 3 → ℝ) ∧ residualDraws ![1 / 2, 1 / 3, 1 / 6] = 1 ∧
    residualProbs ![1 / 2, 1 / 3, 1 / 6] 0 / ∑ i, residualProbs ![1 / 2, 1 / 3, 1 / 6] i = 1 / 2 := by
  have f0 : ⌊(3 : ℝ) * 2⁻¹⌋ = 1 := by rw [Int.floor_eq_iff]; norm_num
  have f2 : ⌊(3 : ℝ) * 6⁻¹⌋ = 0 := by rw [Int.floor_eq_iff]; norm_num
  refine ⟨⟨?_, ?_⟩, ?_, ?_⟩
  · intro i; fin_cases i <;> norm_num
  · simp [Fin.sum_univ_succ]; norm_num
  · simp [residualDraws, Fin.sum_univ_three, f0, f2]
  · simp [residualProbs, Fin.sum_univ_three, f0, f2]; norm_num

/-! ## C95 -/

/-- The normalised weights of every filter are probabilities. -/
def ProbWeights : WeightTensor N → Prop
  | .vector w => ∃ p, IsProb p ∧ w = fun i => fin (p i)
  | .matrix _ w => ∃ p : Fin N → _ → ℝ, (∀ c, IsProb fun i => p i c) ∧ w = fun i c => fin (p i c)

/-- Full statement of C95: when SISR hands the weights of the degenerate filters to the resampling function it was
built with, it gets indices, one column for each of these filters. This is false for residual resampling, see
`C95_negation`. -/
def C95_claim : Prop :=
  ∀ (N : ℕ) (Ω : Type) (s : Scheme) (lo : ℝ) (rand : Ω → (ℕ → ℝ) × Ω) (mult : TorchMultinomial N Ω)
    (w : WeightTensor N) (mask : ℕ → Bool) (ω : Ω), ProbWeights w →
    ∃ r, s.call lo rand mult (w.select mask) ω = .ok r ∧
      r.1 = match w with
        | .vector _ => if mask 0 then 1 else 0
        | .matrix b _ => ((Finset.univ : Finset (Fin b)).filter fun (c : Fin b) => mask (c : ℕ)).card

theorem select_matrix {Ω : Type} (s : Scheme) (hs : s ≠ .residual) (lo : ℝ) (rand : Ω → (ℕ → ℝ) × Ω)
    (mult : TorchMultinomial N Ω) (b : ℕ) (w : Fin N → Fin b → XF) (ω : Ω) :
    ∃ r, s.call lo rand mult (.matrix b w) ω = .ok r ∧ r.1 = b := by
  cases s with
  | systematic => exact ⟨_, rfl, rfl⟩
  | multinomial => exact ⟨_, rfl, rfl⟩
  | residual => exact absurd rfl hs

/-- C95 for systematic and multinomial resampling. Missing: residual resampling, for which the claim is false. -/
theorem C95_schemes_partial {Ω : Type} (s : Scheme) (hs : s ≠ .residual) (lo : ℝ) (rand : Ω → (ℕ → ℝ) × Ω)
    (mult : TorchMultinomial N Ω) (w : WeightTensor N) (mask : ℕ → Bool) (ω : Ω) :
    ∃ r, s.call lo rand mult (w.select mask) ω = .ok r ∧
      r.1 = match w with
        | .vector _ => if mask 0 then 1 else 0
        | .matrix b _ => ((Finset.univ : Finset (Fin b)).filter fun (c : Fin b) => mask (c : ℕ)).card := by
  cases w with
  | vector w =>
    simp only [WeightTensor.select]
    split_ifs <;> exact select_matrix s hs lo rand mult _ _ ω
  | matrix b w =>
    obtain ⟨r, h1, h2⟩ := select_matrix s hs lo rand mult _
      (fun i j => w i (((List.finRange b).filter fun (c : Fin b) => mask (c : ℕ)).get j)) ω
    refine ⟨r, h1, h2.trans ?_⟩
    rw [← List.toFinset_card_of_nodup ((List.nodup_finRange b).filter _)]
    refine congrArg Finset.card (Finset.ext fun c => ?_)
    simp

/-- C95: residual resampling never works in SISR, not even for a single filter: selecting the degenerate filters
always leaves a tensor of two dimensions, which `residual` refuses. -/
theorem C95_residual_refused {Ω : Type} (lo : ℝ) (rand : Ω → (ℕ → ℝ) × Ω) (mult : TorchMultinomial N Ω)
    (w : WeightTensor N) (mask : ℕ → Bool) (ω : Ω) :
    Scheme.residual.call lo rand mult (w.select mask) ω = .error .notImplementedError := by
  cases w with
  | vector w => simp only [WeightTensor.select]; split_ifs <;> rfl
  | matrix b w => rfl

/-- C95: it does work on the one-dimensional weights that the APF hands to it. -/
theorem C95_residual_vector (P : Measure Ω) [SFinite P] (hN : 0 < N) (lo : ℝ) (rand : Ω → (ℕ → ℝ) × Ω)
    (mult : TorchMultinomial N Ω) (hm : DrawsMultinomial P mult) (w : Fin N → XF) (hw : ProbWeights (.vector w))
    (ω : Ω) : ∃ r, Scheme.residual.call lo rand mult (.vector w) ω = .ok r ∧ r.1 = 1 := by
  obtain ⟨p, hp, rfl⟩ := hw
  obtain ⟨run, ν, h1, _⟩ := C94_residual P hN lo mult hm p hp
  refine ⟨⟨1, fun i _ => (List.ofFn (run ω).1).getD i i⟩, ?_, rfl⟩
  simp only [Scheme.call, h1 ω]
  rfl

/-- C95 is false: a degenerate single filter with two particles and residual resampling raises. -/
theorem C95_negation : ¬ C95_claim := by
  intro h
  obtain ⟨r, h1, _⟩ := h 2 Unit .residual 0 (fun ω => (fun _ => 0, ω)) (fun _ _ ω => (fun _ _ => 0, ω))
    (.vector fun i => fin (if i = 0 then 1 else 0)) (fun _ => true) ()
    ⟨fun i => if i = 0 then 1 else 0, ⟨fun i => by positivity, by simp⟩, rfl⟩
  rw [C95_residual_refused] at h1
  cases h1

/-- A case for `C95_schemes_partial`: three parallel filters with two particles, of which filters 0 and 2 are
resampled. -/
example : ProbWeights (.matrix 3 fun (i : Fin 2) _ => fin (if i = 0 then 1 / 4 else 3 / 4)) ∧
    ((Finset.univ : Finset (Fin 3)).filter fun (c : Fin 3) => (c : ℕ) != 1).card = 2 := by
  refine ⟨⟨fun i _ => if i = 0 then 1 / 4 else 3 / 4, fun _ => ⟨fun i => ?_, ?_⟩, rfl⟩, by decide⟩
  · show (0 : ℝ) ≤ if i = 0 then 1 / 4 else 3 / 4
    split_ifs <;> norm_num
  · rw [Fin.sum_univ_two]; norm_num

end Verif.Props
