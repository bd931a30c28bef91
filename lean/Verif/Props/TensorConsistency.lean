import Verif.Props.TwoModels
import Verif.Props.Consistency
import Verif.Props.ConsistencyApf
import Verif.Lemmas.Residual

/-!
# Property C156: the errors of SISR and the APF on tensors vanish as the number of particles grows
-/

namespace Verif.Props

open Verif Verif.Torch MeasureTheory ProbabilityTheory
open Verif.Spec (IndependentResampler SteadyLogResampler IndependentInitial IndependentTransitions IndependentProposal lik slots filterAvg boundOf)

variable {N B : ℕ} {Y Ω : Type}

/-- Averages over tensors are those that the normalised weights of `Model/Weights` give. -/
theorem C156_average (ev : List ℕ) (lo : ℝ) (c : CorrectionT) (s : PCorr N B (dim ev) ℝ) (h : HoldsC ev c s) (b : Fin B)
    (φ : (Fin (dim ev) → ℝ) → ℝ) :
    ∑ i, (normalize2 lo s.w).2 i b * XF.fin (φ (s.x.value i b)) = .fin (tensorAverage N ev b.val φ c) := by
  have e : s.w = fun n b => .fin (c.w.val [b.val, n.val]) := funext fun n => funext fun b => h.w.2 n b
  rw [e, Unbiased.normalize2_fin]
  dsimp only
  simp only [XF.fin_mul]
  rw [XF.sum_fin]
  unfold tensorAverage
  rw [Finset.sum_div]
  refine congrArg XF.fin (Finset.sum_congr rfl fun n _ => ?_)
  rw [softmax_sm, show s.x.value n b = fun j => c.x.val (compIx ev j.val ++ [b.val, n.val]) from funext fun j => (h.x.2 n b j).symm]
  unfold softmaxOf
  ring

/-- `SISR` on tensors: the mean squared errors of the estimated likelihood and of averages over the particles at the end. -/
theorem C156_sisr [MeasurableSpace Ω] (P : Measure Ω) [IsProbabilityMeasure P] (hN : 0 < N) (ev : List ℕ) (hh : ev.length ≤ 1)
    (M : ParticleModel N B (dim ev) ℝ Y Ω) (T : Parts Y Ω) (hT : SameParts ev M T) (hkind : M.kind.increment = 1)
    (hr : IndependentResampler P M.resampler) (hthr : 0 < M.threshold)
    (K : Fin B → ℕ → Kernel (Fin (dim ev) → ℝ) (Fin (dim ev) → ℝ)) (μ : Fin B → Measure (Fin (dim ev) → ℝ))
    (logg : Fin B → Y → ℕ → (Fin (dim ev) → ℝ) → ℝ) (hlogg : ∀ b y t, Measurable (logg b y t))
    (init : Ω → (Fin N → Fin B → Fin (dim ev) → ℝ) × Ω) (hinit : IndependentInitial P init μ)
    (hK : IndependentTransitions P M.propagateValues K) (c : Y → ℝ) (hM : IndependentProposal P M.sampleValues K logg c)
    (start : Ω → CorrectionT) (hs : ∀ ω, HoldsC ev (start ω) (initializeFilter M.lo (init ω).1)) (opt : FilterOptions)
    (hk : 0 < opt.observeEveryStep) (fuel : ℕ) (hfuel : opt.observeEveryStep - 1 ≤ fuel) (ys : List Y) (b : Fin B)
    (φ : (Fin (dim ev) → ℝ) → ℝ) (hφ : Measurable φ) (hφ0 : ∀ x, 0 ≤ φ x) (hφ1 : ∀ x, φ x ≤ 1) :
    ∃ (last : Ω → CorrectionT) (total : Ω → Tensor),
      (∀ ω, runEveryT opt.recordIntermediary (everyOf ev .sisr M T opt.observeEveryStep fuel ys (initializeFilter M.lo (init ω).1)
        (init ω).2) (start ω) ⟨[B], fun _ => 0⟩ = .ok (last ω, total ω)) ∧
      ∫⁻ ω, ENNReal.ofReal ((Real.exp ((total ω).val [b.val]) - (∫⁻ x, lik (K b) (fun y t x => ENNReal.ofReal (Real.exp (logg b y t x)))
            (slots opt.observeEveryStep M.allNan ys) 0 x ∂(μ b)).toReal) ^ 2) ∂P
        ≤ ENNReal.ofReal ((2 * (slots opt.observeEveryStep M.allNan ys).length + 1) *
            boundOf c (slots opt.observeEveryStep M.allNan ys) ^ 2 / min M.threshold N) ∧
      ∫⁻ ω, ENNReal.ofReal ((tensorAverage N ev b.val φ (last ω) - (filterAvg (K b) (fun y t x => ENNReal.ofReal (Real.exp (logg b y t x)))
            (μ b) (fun x => ENNReal.ofReal (φ x)) (slots opt.observeEveryStep M.allNan ys)).toReal) ^ 2) ∂P
        ≤ ENNReal.ofReal (4 * ((2 * (slots opt.observeEveryStep M.allNan ys).length + 1) *
            (boundOf c (slots opt.observeEveryStep M.allNan ys) /
              (∫⁻ x, lik (K b) (fun y t x => ENNReal.ofReal (Real.exp (logg b y t x)))
                (slots opt.observeEveryStep M.allNan ys) 0 x ∂(μ b)).toReal) ^ 2 / min M.threshold N)) := by
  obtain ⟨run, r1, -, r3⟩ := C109_likelihood_error P hN M hkind hr hthr K μ logg hlogg init hinit hK c hM opt hk fuel hfuel ys b
  obtain ⟨run', avg, a1, a2, a3⟩ := C110_filter_error P hN M hkind hr hthr K μ logg hlogg init hinit hK c hM opt hk fuel hfuel ys b φ hφ hφ0
    hφ1
  have e : run' = run := funext fun ω => Option.some.inj ((a1 ω).symm.trans (r1 ω))
  subst e
  choose last total e1 e2 e3 e4 using fun ω => C155_run_every hN ev hh .sisr M T hT opt fuel ys (init ω).2 (start ω)
    ⟨[B], fun _ => 0⟩ (initializeFilter M.lo (init ω).1) (run' ω).1 (run' ω).2.1 (run' ω).2.2 (hs ω) rfl (r1 ω)
  have h1 (ω : Ω) : Spec.expOf ((run' ω).2.1.map fun c => c.ll b).sum = Real.exp ((total ω).val [b.val]) := by
    have h2 := e4 ω b
    rw [show XF.fin 0 = 0 from rfl, zero_add] at h2
    rw [h2]
    rfl
  have h2 (ω : Ω) : avg ω = tensorAverage N ev b.val φ (last ω) := XF.fin.inj ((a2 ω).symm.trans (C156_average ev M.lo _ _ (e2 ω) b φ))
  simp only [h1] at r3
  simp only [h2] at a3
  exact ⟨last, total, e1, r3, a3⟩

/-- The `APF` on tensors: the mean squared errors of the estimated likelihood and of averages over the particles at the end. -/
theorem C156_apf [MeasurableSpace Ω] (P : Measure Ω) [IsProbabilityMeasure P] (hN : 0 < N) (ev : List ℕ) (hh : ev.length ≤ 1)
    (M : ParticleModel N B (dim ev) ℝ Y Ω) (T : Parts Y Ω) (hT : SameParts ev M T) (hkind : M.kind.increment = 1)
    (hr : SteadyLogResampler P M.resampler)
    (K : Fin B → ℕ → Kernel (Fin (dim ev) → ℝ) (Fin (dim ev) → ℝ)) (μ : Fin B → Measure (Fin (dim ev) → ℝ))
    (logg : Fin B → Y → ℕ → (Fin (dim ev) → ℝ) → ℝ) (hlogg : ∀ b y t, Measurable (logg b y t))
    (init : Ω → (Fin N → Fin B → Fin (dim ev) → ℝ) × Ω) (hinit : IndependentInitial P init μ)
    (hK : IndependentTransitions P M.propagateValues K) (c₁ c₂ : Y → ℝ)
    (hM : IndependentProposal P M.sampleValues K logg fun y => c₁ y + c₂ y)
    (logp : Fin B → Y → ℕ → (Fin (dim ev) → ℝ) → ℝ) (hlogp : ∀ b y t, Measurable (logp b y t))
    (hpre : ∀ y x i b, M.preWeight y x i b = .fin (logp b y x.time (x.value i b)))
    (hc1 : ∀ y p ω i b, ∃ r, (M.sampleValues y p ω).1.2 i b = .fin r ∧ r ≤ logp b y p.prevX.time (p.prevX.value i b) + c₁ y)
    (hc2 : ∀ b y t x, logp b y t x ≤ c₂ y)
    (start : Ω → CorrectionT) (hs : ∀ ω, HoldsC ev (start ω) (initializeFilter M.lo (init ω).1)) (opt : FilterOptions)
    (hk : 0 < opt.observeEveryStep) (fuel : ℕ) (hfuel : opt.observeEveryStep - 1 ≤ fuel) (ys : List Y) (b : Fin B)
    (φ : (Fin (dim ev) → ℝ) → ℝ) (hφ : Measurable φ) (hφ0 : ∀ x, 0 ≤ φ x) (hφ1 : ∀ x, φ x ≤ 1) :
    ∃ (last : Ω → CorrectionT) (total : Ω → Tensor),
      (∀ ω, runEveryT opt.recordIntermediary (everyOf ev .apf M T opt.observeEveryStep fuel ys (initializeFilter M.lo (init ω).1)
        (init ω).2) (start ω) ⟨[B], fun _ => 0⟩ = .ok (last ω, total ω)) ∧
      ∫⁻ ω, ENNReal.ofReal ((Real.exp ((total ω).val [b.val]) - (∫⁻ x, lik (K b) (fun y t x => ENNReal.ofReal (Real.exp (logg b y t x)))
            (slots opt.observeEveryStep M.allNan ys) 0 x ∂(μ b)).toReal) ^ 2) ∂P
        ≤ ENNReal.ofReal ((2 * (slots opt.observeEveryStep M.allNan ys).length + 1) *
            boundOf (fun y => c₁ y + c₂ y) (slots opt.observeEveryStep M.allNan ys) ^ 2 / N) ∧
      ∫⁻ ω, ENNReal.ofReal ((tensorAverage N ev b.val φ (last ω) - (filterAvg (K b) (fun y t x => ENNReal.ofReal (Real.exp (logg b y t x)))
            (μ b) (fun x => ENNReal.ofReal (φ x)) (slots opt.observeEveryStep M.allNan ys)).toReal) ^ 2) ∂P
        ≤ ENNReal.ofReal (4 * ((2 * (slots opt.observeEveryStep M.allNan ys).length + 1) *
            boundOf (fun y => c₁ y + c₂ y) (slots opt.observeEveryStep M.allNan ys) ^ 2 / N /
              (∫⁻ x, lik (K b) (fun y t x => ENNReal.ofReal (Real.exp (logg b y t x)))
                (slots opt.observeEveryStep M.allNan ys) 0 x ∂(μ b)).toReal ^ 2)) := by
  obtain ⟨run, r1, -, r3⟩ := C111_likelihood_error P hN M hkind hr K μ logg hlogg init hinit hK c₁ c₂ hM logp hlogp hpre hc1 hc2 opt hk fuel
    hfuel ys b
  obtain ⟨run', avg, a1, a2, a3⟩ := C112_filter_error P hN M hkind hr K μ logg hlogg init hinit hK c₁ c₂ hM logp hlogp hpre hc1 hc2 opt hk
    fuel hfuel ys b φ hφ hφ0 hφ1
  have e : run' = run := funext fun ω => Option.some.inj ((a1 ω).symm.trans (r1 ω))
  subst e
  choose last total e1 e2 e3 e4 using fun ω => C155_run_every hN ev hh .apf M T hT opt fuel ys (init ω).2 (start ω)
    ⟨[B], fun _ => 0⟩ (initializeFilter M.lo (init ω).1) (run' ω).1 (run' ω).2.1 (run' ω).2.2 (hs ω) rfl (r1 ω)
  have h1 (ω : Ω) : Spec.expOf ((run' ω).2.1.map fun c => c.ll b).sum = Real.exp ((total ω).val [b.val]) := by
    have h2 := e4 ω b
    rw [show XF.fin 0 = 0 from rfl, zero_add] at h2
    rw [h2]
    rfl
  have h2 (ω : Ω) : avg ω = tensorAverage N ev b.val φ (last ω) := XF.fin.inj ((a2 ω).symm.trans (C156_average ev M.lo _ _ (e2 ω) b φ))
  simp only [h1] at r3
  simp only [h2] at a3
  exact ⟨last, total, e1, r3, a3⟩

/-- Multinomial resampling on tensors selects the particles that the one of `Model/Multinomial` selects, if the draws of a row depend on its
number and its weights. -/
theorem C156_multinomial (hN : 0 < N) (ev : List ℕ) (M : ParticleModel N B (dim ev) ℝ Y Ω) (mult : TorchMultinomial N Ω)
    (hM : ∀ {b : ℕ} (w : Fin N → Fin b → XF) n ω, M.resampler w n ω = multinomial2 M.lo mult w n ω) (ω : Ω)
    (draw : (n : ℕ) → ℕ → (Fin n → ℝ) → ℕ → ℕ)
    (hd : ∀ {b : ℕ} (p : Fin b → Fin N → ℝ) (j : Fin b) (l : ℕ), ((mult N (fun j i => XF.fin (p j i)) ω).1 j l).val = draw N j.val (p j) l) :
    SameColumns ev M ω (multinomialT draw true) ∧ SameScheme ev M ω (multinomialT draw false) := by
  set A : ℕ → (Fin N → ℝ) → Fin N → Fin N := fun k row n => (mult (b := k + 1) N (fun _ i => .fin (row i)) ω).1 ⟨k, k.lt_succ_self⟩ n with hA
  have hAv (k : ℕ) (row : Fin N → ℝ) (n : Fin N) : (A k row n).val = draw N k row n.val := hd (b := k + 1) (fun _ => row) ⟨k, k.lt_succ_self⟩ n.val
  refine ⟨⟨A, fun m t ht => ?_, fun m U n k => ?_⟩, ⟨fun b row => A (b.headD 0) (softmaxOf row), fun t W ht => ?_, fun W n b => ?_⟩⟩
  · refine ⟨⟨[m, N], fun i => draw N (i.headD 0) (fun j => t.val [i.headD 0, j.val]) (i.tail.headD 0)⟩, ?_, rfl, fun k hk n => ?_⟩
    · unfold multinomialT Tensor.moveaxis01 Index.moveaxis01 multinomialRows
      simp only [if_true]
      rw [show (pure t : Except PyErr Tensor) = .ok t from rfl, ok_bind, ht]
      rfl
    · exact (hAv k _ n).symm
  · rw [hM]
    refine Fin.ext ?_
    rw [hAv]
    exact hd (fun c i => U i c) k n.val
  · obtain ⟨v, v1, v2⟩ := normalizeT_ok hN ht
    have vs : v.shape = [B, N] := v2.1
    refine ⟨⟨[B, N], fun i => draw N (i.headD 0) (fun j => v.val [i.headD 0, j.val]) (i.tail.headD 0)⟩, ?_, rfl, fun n b hb => ?_⟩
    · unfold multinomialT Tensor.moveaxis01 Index.moveaxis01 multinomialRows
      simp only [Bool.false_eq_true, if_false, v1, ok_bind]
      rw [vs]
      rfl
    · obtain ⟨k, rfl, hk⟩ := inShape_one.1 hb
      dsimp only
      rw [hAv]
      exact congrArg (fun p => draw N k p n.val) (funext fun j => v2.2 j [k] hb)
  · rw [hM]
    refine Fin.ext ?_
    dsimp only
    rw [hAv]
    unfold multinomial2
    simp only [Bool.false_eq_true, if_false, Unbiased.normalize2_fin]
    exact hd (fun c i => Unbiased.sm W c i) b n.val

/-- Noise of the transitions. -/
def krNoise (ω : ℕ → KernelEntry) : (ℕ × ℕ → Fin 2 → ℝ) × (ℕ → KernelEntry) := ((Unbiased.next ω).1.2.2.1, (Unbiased.next ω).2)

/-- Uniforms of the resampling. -/
def krRand (ω : ℕ → KernelEntry) : (ℕ × ℕ → ℝ) × (ℕ → KernelEntry) := ((Unbiased.next ω).1.2.1, (Unbiased.next ω).2)

/-- The autoregressive processes of `kernelMove`, observed with normal noise and with gaps, filtered with multinomial resampling. -/
noncomputable def krFilter (n : ℕ) : ParticleModel (n + 1) 2 (dim []) ℝ (Option ℝ) (ℕ → KernelEntry) where
  lo := -100
  threshold := (n + 1) / 2
  resampler := multinomial2 (-100) (Unbiased.multinomialBy n.succ_pos krRand)
  propagateValues := Unbiased.noisePropagate krNoise kernelMove
  kind := .bootstrap
  sampleValues := bootstrapSample (Unbiased.noisePropagate krNoise kernelMove) fun y x n b => .fin (-(y.getD 0 - x.value n b ix0) ^ 2 / 2)
  preWeight y x n b := .fin (clippedPre (y.getD 0) (x.value n b))
  allNan y := y.isNone

/-- A transition of the processes on tensors. -/
noncomputable def krMove (ω : ℕ → KernelEntry) (z : Tensor) : Tensor :=
  ⟨z.shape, fun i => (if i.headD 0 = 0 then 1 / 2 else -1) * z.val i + (krNoise ω).1 (i.tail.headD 0, i.headD 0) 0⟩

/-- Multinomial draws by inversion. -/
noncomputable def krDraw (ω : ℕ → KernelEntry) (n k : ℕ) (p : Fin n → ℝ) (l : ℕ) : ℕ :=
  if h : 0 < n then (Unbiased.invCdf (fun i => p i / ∑ i, p i) ((krRand ω).1 (k, l)) ⟨0, h⟩).val else 0

/-- The parts of `krFilter` on tensors. -/
noncomputable def krParts : Parts (Option ℝ) (ℕ → KernelEntry) where
  columns ω := multinomialT (krDraw ω) true
  scheme ω := multinomialT (krDraw ω) false
  pre y _ z := .ok (z.map fun x => -(y.getD 0 - max (-1) (min 1 x)) ^ 2 / 2)
  proposal y _ ω z _ := .ok (krMove ω z, (krMove ω z).map fun x => -(y.getD 0 - x) ^ 2 / 2)
  propagate _ ω z := .ok (krMove ω z)

theorem krMove_part {N : ℕ} (ω : ℕ → KernelEntry) {z : Tensor} {G : Fin N → List ℕ → Fin (dim []) → ℝ} (h : PartG z [] [2] G) :
    PartG (krMove ω z) [] [2] fun n b j => (if b.headD 0 = 0 then 1 / 2 else -1) * G n b j + (krNoise ω).1 (n.val, b.headD 0) 0 := by
  refine ⟨h.1, fun n b hb j => ?_⟩
  obtain ⟨k, rfl, -⟩ := inShape_one.1 hb
  exact congrArg (fun x => (if k = 0 then 1 / 2 else -1) * x + (krNoise ω).1 (n.val, k) 0) (h.2 n [k] hb j)

theorem krDraw_same (n : ℕ) (ω : ℕ → KernelEntry) {b : ℕ} (p : Fin b → Fin (n + 1) → ℝ) (j : Fin b) (l : ℕ) :
    ((Unbiased.multinomialBy n.succ_pos krRand (n + 1) (fun j i => XF.fin (p j i)) ω).1 j l).val = krDraw ω (n + 1) j.val (p j) l := by
  unfold krDraw
  rw [dif_pos n.succ_pos]
  rfl

theorem krParts_same (n : ℕ) : SameParts [] (krFilter n) krParts where
  columns ω := (C156_multinomial n.succ_pos [] (krFilter n) _ (fun _ _ _ => rfl) ω (krDraw ω) (krDraw_same n ω)).1
  scheme ω := (C156_multinomial n.succ_pos [] (krFilter n) _ (fun _ _ _ => rfl) ω (krDraw ω) (krDraw_same n ω)).2
  pre y _ := ⟨fun n _ G => clippedPre (y.getD 0) (G n), fun z G h => ⟨_, rfl, h.1, fun n b hb =>
    congrArg (fun x => -(y.getD 0 - max (-1) (min 1 x)) ^ 2 / 2) (h.2 n b hb ix0)⟩, fun _ _ _ _ => rfl⟩
  proposal y _ ω := ⟨fun n b G _ j => (if b.headD 0 = 0 then 1 / 2 else -1) * G n j + (krNoise ω).1 (n.val, b.headD 0) 0,
    fun n b G _ => -(y.getD 0 - ((if b.headD 0 = 0 then 1 / 2 else -1) * G n ix0 + (krNoise ω).1 (n.val, b.headD 0) 0)) ^ 2 / 2,
    fun z _ _ _ hz _ => ⟨_, _, rfl, krMove_part ω hz, (krMove_part ω hz).1, fun n b hb =>
      congrArg (fun x => -(y.getD 0 - x) ^ 2 / 2) ((krMove_part ω hz).2 n b hb ix0)⟩, fun q U _ _ n b => by
      constructor
      · funext j
        simp [krFilter, bootstrapSample, Unbiased.noisePropagate, kernelMove]
      · simp [krFilter, bootstrapSample, Unbiased.noisePropagate, kernelMove]⟩
  propagate _ ω := ⟨fun n b g j => (if b.headD 0 = 0 then 1 / 2 else -1) * g j + (krNoise ω).1 (n.val, b.headD 0) 0, fun _ _ hz =>
    ⟨_, rfl, krMove_part ω hz⟩, fun x _ n b => by
      funext j
      simp [krFilter, Unbiased.noisePropagate, kernelMove]⟩

/-- The state on tensors before the first observation: particles drawn from the standard normal. -/
def krStart (n : ℕ) (ω : ℕ → KernelEntry) : CorrectionT :=
  ⟨⟨[2, n + 1], fun i => (krNoise ω).1 (i.tail.headD 0, i.headD 0) 0⟩, ⟨[2, n + 1], fun _ => 0⟩, ⟨[2], fun _ => 0⟩,
    ⟨[2, n + 1], fun i => i.tail.headD 0⟩⟩

theorem krStart_holds (n : ℕ) (ω : ℕ → KernelEntry) : HoldsC [] (krStart n ω)
    (initializeFilter (-100) fun (i : Fin (n + 1)) (b : Fin 2) (_ : Fin (dim [])) => (krNoise ω).1 (i.val, b.val) 0) := by
  refine ⟨⟨rfl, fun _ _ _ => rfl⟩, ⟨rfl, fun n b => ?_⟩, ⟨rfl, fun _ => rfl⟩, ⟨rfl, fun _ _ => rfl⟩⟩
  unfold initializeFilter PCorr.mk'
  rw [Unbiased.normalize2_fin]
  rfl

theorem clippedPre_ge (y : ℝ) (x : Fin 1 → ℝ) : -(|y| + 1) ^ 2 / 2 ≤ clippedPre y x := by
  unfold clippedPre
  have h1 : |max (-1 : ℝ) (min 1 (x 0))| ≤ 1 := abs_le.2 ⟨le_max_left _ _, max_le (by norm_num) (min_le_left _ _)⟩
  have h2 : |y - max (-1) (min 1 (x 0))| ≤ |y| + 1 := (abs_sub _ _).trans (by linarith)
  have h3 : (y - max (-1) (min 1 (x 0))) ^ 2 ≤ (|y| + 1) ^ 2 := by
    rw [← sq_abs (y - _)]
    exact pow_le_pow_left₀ (abs_nonneg _) h2 2
  linarith

/-- A case of `C156_sisr` and `C156_multinomial`: for every number of particles, the probability that the second process is positive, over an
observation, a gap and an observation of processes that are observed every second step. -/
example (n : ℕ) : ∃ last : (ℕ → KernelEntry) → CorrectionT,
    (∀ ω, ∃ total, runEveryT false (everyOf [] .sisr (krFilter n) krParts 2 1 [some 2, none, some 5]
      (initializeFilter (-100) fun i b _ => (krNoise ω).1 (i.val, b.val) 0) (krNoise ω).2) (krStart n ω) ⟨[2], fun _ => 0⟩
        = .ok (last ω, total)) ∧
    ∃ (p C : ℝ), C = boundOf (fun _ => 0) (slots 2 Option.isNone [some (2 : ℝ), none, some 5]) ∧
      ∫⁻ ω, ENNReal.ofReal ((tensorAverage (n + 1) [] 1 (Set.indicator {x | 0 ≤ x ix0} fun _ => 1) (last ω) - p) ^ 2)
        ∂(Unbiased.streamLaw kernelEntryLaw) ≤ ENNReal.ofReal (4 * ((2 * 5 + 1) * (C / (∫⁻ x, lik (fun t => Unbiased.noiseKernel
          (Measure.pi fun _ : Fin 2 => gaussianReal 0 1) (kernelMove 1 t)) (fun (y : Option ℝ) _ x =>
            ENNReal.ofReal (Real.exp (-(y.getD 0 - x 0) ^ 2 / 2))) (slots 2 Option.isNone [some 2, none, some 5]) 0 x
          ∂((Measure.pi fun _ : Fin 2 => gaussianReal 0 1).map fun z (_ : Fin 1) => z 0)).toReal) ^ 2 / min (((n : ℝ) + 1) / 2) ((n + 1 : ℕ) : ℝ))) := by
  have hK := Unbiased.noise_independent (N := n + 1) _ kernel_noise measurable_kernelMove
  have hi := Unbiased.noise_initial_independent (N := n + 1) (B := 2) _ kernel_noise (f := fun _ z (_ : Fin 1) => z 0) fun _ => by fun_prop
  have hp := Unbiased.bootstrap_independent hK (fun _ (y : Option ℝ) _ x => -(y.getD 0 - x 0) ^ 2 / 2) (fun _ _ _ => by fun_prop) (fun _ => 0)
    fun _ y _ x => by nlinarith [sq_nonneg (y.getD 0 - x 0)]
  obtain ⟨last, total, e1, -, e3⟩ := C156_sisr _ n.succ_pos [] (by simp) (krFilter n) krParts (krParts_same n) rfl
    (Unbiased.multinomial_independent _ (Unbiased.multinomialBy_independent _ kernel_rand2)) (by unfold krFilter; positivity)
    (fun b t => Unbiased.noiseKernel (Measure.pi fun _ : Fin 2 => gaussianReal 0 1) (kernelMove b t))
    (fun _ => (Measure.pi fun _ : Fin 2 => gaussianReal 0 1).map fun z _ => z 0) (fun _ y _ x => -(y.getD 0 - x ix0) ^ 2 / 2)
    (fun _ _ _ => by fun_prop) _ hi hK (fun _ => 0) hp (krStart n) (krStart_holds n) ⟨2, false, .skip⟩ (by norm_num) 1 le_rfl
    [some 2, none, some 5] 1 (Set.indicator {x | 0 ≤ x ix0} fun _ => 1)
    (measurable_const.indicator (measurableSet_le measurable_const (by fun_prop)))
    (fun x => Set.indicator_nonneg (fun _ _ => zero_le_one) x) (fun x => Set.indicator_le_self' (fun _ _ => zero_le_one) x)
  exact ⟨last, fun ω => ⟨_, e1 ω⟩, _, _, rfl, e3⟩

/-- A case of `C156_apf`, with pre-weights that vary with the particle: the same for the APF and the estimated likelihood of the first
process. -/
example (n : ℕ) : ∃ total : (ℕ → KernelEntry) → Tensor,
    (∀ ω, ∃ last, runEveryT true (everyOf [] .apf (krFilter n) krParts 2 1 [some 2, none, some 5]
      (initializeFilter (-100) fun i b _ => (krNoise ω).1 (i.val, b.val) 0) (krNoise ω).2) (krStart n ω) ⟨[2], fun _ => 0⟩
        = .ok (last, total ω)) ∧
    ∃ (L C : ℝ), ∫⁻ ω, ENNReal.ofReal ((Real.exp ((total ω).val [0]) - L) ^ 2) ∂(Unbiased.streamLaw kernelEntryLaw) ≤
      ENNReal.ofReal ((2 * 5 + 1) * C ^ 2 / (n + 1 : ℕ)) ∧
      C = boundOf (fun y : Option ℝ => (|y.getD 0| + 1) ^ 2 / 2 + 0) (slots 2 Option.isNone [some 2, none, some 5]) := by
  have hK := Unbiased.noise_independent (N := n + 1) _ kernel_noise measurable_kernelMove
  have hi := Unbiased.noise_initial_independent (N := n + 1) (B := 2) _ kernel_noise (f := fun _ z (_ : Fin 1) => z 0) fun _ => by fun_prop
  have hp := Unbiased.bootstrap_independent hK (fun _ (y : Option ℝ) _ x => -(y.getD 0 - x 0) ^ 2 / 2) (fun _ _ _ => by fun_prop)
    (fun y => (|y.getD 0| + 1) ^ 2 / 2 + 0) fun _ y _ x => by nlinarith [sq_nonneg (y.getD 0 - x 0), sq_nonneg (|y.getD 0| + 1)]
  obtain ⟨last, total, e1, e2, -⟩ := C156_apf _ n.succ_pos [] (by simp) (krFilter n) krParts (krParts_same n) rfl
    (Unbiased.IndependentLogResampler.steady (Unbiased.multinomial_log_independent _ n.succ_pos
      (Unbiased.multinomialBy_independent _ kernel_rand2)))
    (fun b t => Unbiased.noiseKernel (Measure.pi fun _ : Fin 2 => gaussianReal 0 1) (kernelMove b t))
    (fun _ => (Measure.pi fun _ : Fin 2 => gaussianReal 0 1).map fun z _ => z 0) (fun _ y _ x => -(y.getD 0 - x ix0) ^ 2 / 2)
    (fun _ _ _ => by fun_prop) _ hi hK (fun y => (|y.getD 0| + 1) ^ 2 / 2) (fun _ => 0) hp (fun _ y _ x => clippedPre (y.getD 0) x)
    (fun _ y _ => by unfold clippedPre; fun_prop) (fun _ _ _ _ => rfl)
    (fun y p ω i b => ⟨_, rfl, by
      have h := clippedPre_ge (y.getD 0) (p.prevX.value i b)
      nlinarith [sq_nonneg (y.getD 0 - (Unbiased.noisePropagate krNoise kernelMove p.prevX ω).1 i b ix0)]⟩)
    (fun _ y _ x => by unfold clippedPre; nlinarith [sq_nonneg (y.getD 0 - max (-1) (min 1 (x (0 : Fin 1))))])
    (krStart n) (krStart_holds n) ⟨2, true, .skip⟩ (by norm_num) 1 le_rfl
    [some 2, none, some 5] 0 (fun _ => 1) measurable_const (fun _ => zero_le_one) (fun _ => le_rfl)
  exact ⟨total, fun ω => ⟨_, e1 ω⟩, _, _, e2, rfl⟩

end Verif.Props
