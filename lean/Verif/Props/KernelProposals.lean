import Verif.Props.Unbiased
import Verif.Lemmas.Nested

/-!
# Property C82: unbiased likelihood estimates with the other proposals
-/

namespace Verif.Props

open Verif Verif.Spec Verif.Unbiased XF MeasureTheory ProbabilityTheory Matrix
open scoped ENNReal

variable {N B d m : ℕ} {V Y Ω : Type} [MeasurableSpace V] [MeasurableSpace Ω]

/-! ## `Linearized` -/

/-- C82 for SISR with `Linearized`: whatever normal kernel the mode finder returns for a particle (with invertible scale,
depending measurably on the particle), the weights `log g + log p - log q` make the likelihood estimate unbiased. -/
theorem C82_linearized_sisr (P : Measure Ω) [IsProbabilityMeasure P] (hN : 0 < N) (lo threshold : ℝ)
    (resampler : {b : ℕ} → (Fin N → Fin b → XF) → Bool → Ω → (Fin N → Fin b → Fin N) × Ω)
    (hr : UnbiasedResampler P resampler)
    (K : Fin B → ℕ → Kernel (Fin d → ℝ) (Fin d → ℝ)) (μ : Fin B → Measure (Fin d → ℝ))
    (logg : Fin B → Y → ℕ → (Fin d → ℝ) → ℝ) (hlogg : ∀ b y t, Measurable (logg b y t))
    (logp : Fin B → ℕ → (Fin d → ℝ) → (Fin d → ℝ) → ℝ) (hlogp : ∀ b t, Measurable fun q : _ × _ => logp b t q.1 q.2)
    (hp : ∀ b t x, K b t x = volume.withDensity fun x' => ENNReal.ofReal (Real.exp (logp b t x x')))
    (init : Ω → (Fin N → Fin B → Fin d → ℝ) × Ω) (hinit : DrawsInitial P init μ)
    (propagate : TS N B d ℝ → Ω → (Fin N → Fin B → Fin d → ℝ) × Ω) (hK : DrawsTransitions P propagate K)
    (noise : Ω → (ℕ × ℕ → Fin d → ℝ) × Ω)
    (hnoise : Draws P noise (Measure.infinitePi fun _ => Measure.pi fun _ => gaussianReal 0 1))
    (kernel : Y → Fin B → ℕ → (Fin d → ℝ) → GaussKernel d) (hkernel : ∀ y b t, KernelMeasurable (kernel y b t))
    (hdet : ∀ y b t x, (kernel y b t x).tril.det ≠ 0)
    (preWeight : Y → TS N B d ℝ → Fin N → Fin B → XF) (missing : Y → Bool)
    (opt : FilterOptions) (hk : 0 < opt.observeEveryStep) (fuel : ℕ) (hfuel : opt.observeEveryStep - 1 ≤ fuel)
    (ys : List Y) (b : Fin B) :
    ∃ run : Ω → PCorr N B d ℝ × List (PCorr N B d ℝ) × Ω,
      (∀ ω, (FilterKind.sisr.ops (linearizedModel lo threshold resampler propagate noise kernel logg logp preWeight
          missing)).filterAll opt fuel ys (initializeFilter lo (init ω).1) (init ω).2 = some (run ω)) ∧
      (∀ ω, ∃ r, ((run ω).2.1.map fun c => c.ll b).sum = fin r) ∧
      ∫⁻ ω, ENNReal.ofReal (expOf ((run ω).2.1.map fun c => c.ll b).sum) ∂P
        = ∫⁻ x, lik (K b) (fun y t x => ENNReal.ofReal (Real.exp (logg b y t x)))
            (slots opt.observeEveryStep missing ys) 0 x ∂(μ b) :=
  C30_proper_proposals P hN (linearizedModel lo threshold resampler propagate noise kernel logg logp preWeight missing) rfl
    hr K μ logg hlogg init hinit hK (gauss_proper hnoise kernel hkernel hdet logg hlogg logp hlogp hp) opt hk fuel hfuel ys b

/-- C82 for the APF with `Linearized`, for any finite pre-weights. -/
theorem C82_linearized_apf (P : Measure Ω) [IsProbabilityMeasure P] (hN : 0 < N) (lo threshold : ℝ)
    (resampler : {b : ℕ} → (Fin N → Fin b → XF) → Bool → Ω → (Fin N → Fin b → Fin N) × Ω)
    (hr : UnbiasedLogResampler P resampler)
    (K : Fin B → ℕ → Kernel (Fin d → ℝ) (Fin d → ℝ)) (μ : Fin B → Measure (Fin d → ℝ))
    (logg : Fin B → Y → ℕ → (Fin d → ℝ) → ℝ) (hlogg : ∀ b y t, Measurable (logg b y t))
    (logp : Fin B → ℕ → (Fin d → ℝ) → (Fin d → ℝ) → ℝ) (hlogp : ∀ b t, Measurable fun q : _ × _ => logp b t q.1 q.2)
    (hp : ∀ b t x, K b t x = volume.withDensity fun x' => ENNReal.ofReal (Real.exp (logp b t x x')))
    (init : Ω → (Fin N → Fin B → Fin d → ℝ) × Ω) (hinit : DrawsInitial P init μ)
    (propagate : TS N B d ℝ → Ω → (Fin N → Fin B → Fin d → ℝ) × Ω) (hK : DrawsTransitions P propagate K)
    (noise : Ω → (ℕ × ℕ → Fin d → ℝ) × Ω)
    (hnoise : Draws P noise (Measure.infinitePi fun _ => Measure.pi fun _ => gaussianReal 0 1))
    (kernel : Y → Fin B → ℕ → (Fin d → ℝ) → GaussKernel d) (hkernel : ∀ y b t, KernelMeasurable (kernel y b t))
    (hdet : ∀ y b t x, (kernel y b t x).tril.det ≠ 0)
    (pre : Y → ℕ → (Fin N → Fin B → Fin d → ℝ) → Fin N → Fin B → ℝ) (hpre : ∀ y t, Measurable (pre y t))
    (missing : Y → Bool)
    (opt : FilterOptions) (hk : 0 < opt.observeEveryStep) (fuel : ℕ) (hfuel : opt.observeEveryStep - 1 ≤ fuel)
    (ys : List Y) (b : Fin B) :
    ∃ run : Ω → PCorr N B d ℝ × List (PCorr N B d ℝ) × Ω,
      (∀ ω, (FilterKind.apf.ops (linearizedModel lo threshold resampler propagate noise kernel logg logp
          (fun y x i b => fin (pre y x.time x.value i b)) missing)).filterAll opt fuel ys
          (initializeFilter lo (init ω).1) (init ω).2 = some (run ω)) ∧
      (∀ ω, ∃ r, ((run ω).2.1.map fun c => c.ll b).sum = fin r) ∧
      ∫⁻ ω, ENNReal.ofReal (expOf ((run ω).2.1.map fun c => c.ll b).sum) ∂P
        = ∫⁻ x, lik (K b) (fun y t x => ENNReal.ofReal (Real.exp (logg b y t x)))
            (slots opt.observeEveryStep missing ys) 0 x ∂(μ b) :=
  C31_proper_proposals P hN (linearizedModel lo threshold resampler propagate noise kernel logg logp
      (fun y x i b => fin (pre y x.time x.value i b)) missing) rfl
    hr K μ logg hlogg init hinit hK (gauss_proper hnoise kernel hkernel hdet logg hlogg logp hlogp hp) pre hpre
    (fun _ _ _ _ => rfl) opt hk fuel hfuel ys b

/-! ## `LinearGaussianObservations` -/

theorem affine_eq {K : Fin B → ℕ → Kernel (Fin d → ℝ) (Fin d → ℝ)}
    {meanScale : Fin B → ℕ → (Fin d → ℝ) → (Fin d → ℝ) × (Fin d → ℝ)} (h : ∀ b t, Measurable (meanScale b t))
    (hK : ∀ b t x, K b t x = (Measure.pi fun _ => gaussianReal 0 1).map fun z e =>
      (meanScale b t x).1 e + (meanScale b t x).2 e * z e) : K = fun b t => affineKernel (meanScale b t) := by
  funext b t
  ext1 x
  rw [hK, affineKernel, noiseKernel_apply _ (measurable_affine (h b t))]
  rfl

/-- C82 for SISR with `LinearGaussianObservations`: for every latent process with normal increments and positive scales and
every linear observation with positive noise, the likelihood estimate is unbiased. `K` is the transition kernel of the
latent process, `mean + scale * z` with independent standard normal `z`. -/
theorem C82_linear_sisr (P : Measure Ω) [IsProbabilityMeasure P] (hN : 0 < N) (lo threshold : ℝ)
    (resampler : {b : ℕ} → (Fin N → Fin b → XF) → Bool → Ω → (Fin N → Fin b → Fin N) × Ω)
    (hr : UnbiasedResampler P resampler) (μ : Fin B → Measure (Fin d → ℝ))
    (L : Fin B → LinearModel d m) (hs : ∀ b j, 0 < (L b).s j)
    (meanScale : Fin B → ℕ → (Fin d → ℝ) → (Fin d → ℝ) × (Fin d → ℝ)) (hms : ∀ b t, Measurable (meanScale b t))
    (hpos : ∀ b t x e, 0 < (meanScale b t x).2 e)
    (K : Fin B → ℕ → Kernel (Fin d → ℝ) (Fin d → ℝ))
    (hK : ∀ b t x, K b t x = (Measure.pi fun _ => gaussianReal 0 1).map fun z e =>
      (meanScale b t x).1 e + (meanScale b t x).2 e * z e)
    (init : Ω → (Fin N → Fin B → Fin d → ℝ) × Ω) (hinit : DrawsInitial P init μ)
    (noise : Ω → (ℕ × ℕ → Fin d → ℝ) × Ω)
    (hnoise : Draws P noise (Measure.infinitePi fun _ => Measure.pi fun _ => gaussianReal 0 1))
    (chol : Matrix (Fin d) (Fin d) ℝ → Matrix (Fin d) (Fin d) ℝ) (hchol : IsCholesky chol) (hiddenIs1d : Bool)
    (preWeight : (Fin m → ℝ) → TS N B d ℝ → Fin N → Fin B → XF) (missing : (Fin m → ℝ) → Bool)
    (opt : FilterOptions) (hk : 0 < opt.observeEveryStep) (fuel : ℕ) (hfuel : opt.observeEveryStep - 1 ≤ fuel)
    (ys : List (Fin m → ℝ)) (b : Fin B) :
    ∃ run : Ω → PCorr N B d ℝ × List (PCorr N B d ℝ) × Ω,
      (∀ ω, (FilterKind.sisr.ops (linearModelFilter lo threshold resampler noise L meanScale chol hiddenIs1d preWeight
          missing)).filterAll opt fuel ys (initializeFilter lo (init ω).1) (init ω).2 = some (run ω)) ∧
      (∀ ω, ∃ r, ((run ω).2.1.map fun c => c.ll b).sum = fin r) ∧
      ∫⁻ ω, ENNReal.ofReal (expOf ((run ω).2.1.map fun c => c.ll b).sum) ∂P
        = ∫⁻ x, lik (K b) (fun y _ x => ENNReal.ofReal (Real.exp (∑ j,
              logNormal ((L b).b j + ∑ e, (L b).a j e * x e) ((L b).s j ^ 2) (y j))))
            (slots opt.observeEveryStep missing ys) 0 x ∂(μ b) := by
  have hobs : ∀ (y : Fin m → ℝ) (x : Fin d → ℝ), ∑ j, logNormal ((L b).b j + ∑ e, (L b).a j e * x e) ((L b).s j ^ 2) (y j)
      = (L b).obsLogProb x y := fun y x => Finset.sum_congr rfl fun j _ => by rw [normalLogProb_eq (hs b j)]; rfl
  obtain rfl := affine_eq hms hK
  simp only [hobs]
  exact C30_proper_proposals P hN (linearModelFilter lo threshold resampler noise L meanScale chol hiddenIs1d preWeight
    missing) rfl hr _ μ (fun b y _ x => (L b).obsLogProb x y) (fun b y _ => measurable_obsLogProb (L b) y) init hinit
    (affine_transitions hnoise hms) (linear_proper hnoise L hs hms hpos hchol hiddenIs1d) opt hk fuel hfuel ys b

/-- C82 for the APF with `LinearGaussianObservations`, for any finite pre-weights (C42 says which the code uses). -/
theorem C82_linear_apf (P : Measure Ω) [IsProbabilityMeasure P] (hN : 0 < N) (lo threshold : ℝ)
    (resampler : {b : ℕ} → (Fin N → Fin b → XF) → Bool → Ω → (Fin N → Fin b → Fin N) × Ω)
    (hr : UnbiasedLogResampler P resampler) (μ : Fin B → Measure (Fin d → ℝ))
    (L : Fin B → LinearModel d m) (hs : ∀ b j, 0 < (L b).s j)
    (meanScale : Fin B → ℕ → (Fin d → ℝ) → (Fin d → ℝ) × (Fin d → ℝ)) (hms : ∀ b t, Measurable (meanScale b t))
    (hpos : ∀ b t x e, 0 < (meanScale b t x).2 e)
    (K : Fin B → ℕ → Kernel (Fin d → ℝ) (Fin d → ℝ))
    (hK : ∀ b t x, K b t x = (Measure.pi fun _ => gaussianReal 0 1).map fun z e =>
      (meanScale b t x).1 e + (meanScale b t x).2 e * z e)
    (init : Ω → (Fin N → Fin B → Fin d → ℝ) × Ω) (hinit : DrawsInitial P init μ)
    (noise : Ω → (ℕ × ℕ → Fin d → ℝ) × Ω)
    (hnoise : Draws P noise (Measure.infinitePi fun _ => Measure.pi fun _ => gaussianReal 0 1))
    (chol : Matrix (Fin d) (Fin d) ℝ → Matrix (Fin d) (Fin d) ℝ) (hchol : IsCholesky chol) (hiddenIs1d : Bool)
    (pre : (Fin m → ℝ) → ℕ → (Fin N → Fin B → Fin d → ℝ) → Fin N → Fin B → ℝ) (hpre : ∀ y t, Measurable (pre y t))
    (missing : (Fin m → ℝ) → Bool)
    (opt : FilterOptions) (hk : 0 < opt.observeEveryStep) (fuel : ℕ) (hfuel : opt.observeEveryStep - 1 ≤ fuel)
    (ys : List (Fin m → ℝ)) (b : Fin B) :
    ∃ run : Ω → PCorr N B d ℝ × List (PCorr N B d ℝ) × Ω,
      (∀ ω, (FilterKind.apf.ops (linearModelFilter lo threshold resampler noise L meanScale chol hiddenIs1d
          (fun y x i b => fin (pre y x.time x.value i b)) missing)).filterAll opt fuel ys
          (initializeFilter lo (init ω).1) (init ω).2 = some (run ω)) ∧
      (∀ ω, ∃ r, ((run ω).2.1.map fun c => c.ll b).sum = fin r) ∧
      ∫⁻ ω, ENNReal.ofReal (expOf ((run ω).2.1.map fun c => c.ll b).sum) ∂P
        = ∫⁻ x, lik (K b) (fun y _ x => ENNReal.ofReal (Real.exp (∑ j,
              logNormal ((L b).b j + ∑ e, (L b).a j e * x e) ((L b).s j ^ 2) (y j))))
            (slots opt.observeEveryStep missing ys) 0 x ∂(μ b) := by
  have hobs : ∀ (y : Fin m → ℝ) (x : Fin d → ℝ), ∑ j, logNormal ((L b).b j + ∑ e, (L b).a j e * x e) ((L b).s j ^ 2) (y j)
      = (L b).obsLogProb x y := fun y x => Finset.sum_congr rfl fun j _ => by rw [normalLogProb_eq (hs b j)]; rfl
  obtain rfl := affine_eq hms hK
  simp only [hobs]
  exact C31_proper_proposals P hN (linearModelFilter lo threshold resampler noise L meanScale chol hiddenIs1d
    (fun y x i b => fin (pre y x.time x.value i b)) missing) rfl hr _ μ (fun b y _ x => (L b).obsLogProb x y)
    (fun b y _ => measurable_obsLogProb (L b) y) init hinit (affine_transitions hnoise hms)
    (linear_proper hnoise L hs hms hpos hchol hiddenIs1d) pre hpre (fun _ _ _ _ => rfl) opt hk fuel hfuel ys b

/-! ## `NestedProposal` -/

/-- C82 for SISR with `NestedProposal`, for every number of inner samples. -/
theorem C82_nested_sisr (P : Measure Ω) [IsProbabilityMeasure P] (hN : 0 < N) (lo threshold : ℝ)
    (resampler : {b : ℕ} → (Fin N → Fin b → XF) → Bool → Ω → (Fin N → Fin b → Fin N) × Ω)
    (hr : UnbiasedResampler P resampler)
    (K : Fin B → ℕ → Kernel (Fin d → V) (Fin d → V)) (μ : Fin B → Measure (Fin d → V))
    (logg : Fin B → Y → ℕ → (Fin d → V) → ℝ) (hlogg : ∀ b y t, Measurable (logg b y t))
    (init : Ω → (Fin N → Fin B → Fin d → V) × Ω) (hinit : DrawsInitial P init μ)
    (propagate : TS N B d V → Ω → (Fin N → Fin B → Fin d → V) × Ω) (hK : DrawsTransitions P propagate K)
    {M : ℕ} (hM : 0 < M) (inner : TS N B d V → Ω → (Fin M → Fin N → Fin B → Fin d → V) × Ω)
    (hinner : DrawsInner P inner K)
    (categorical : (Fin N → Fin B → Fin M → XF) → Ω → (Fin N → Fin B → Fin M) × Ω) (hcat : DrawsFrom P categorical)
    (preWeight : Y → TS N B d V → Fin N → Fin B → XF) (missing : Y → Bool)
    (opt : FilterOptions) (hk : 0 < opt.observeEveryStep) (fuel : ℕ) (hfuel : opt.observeEveryStep - 1 ≤ fuel)
    (ys : List Y) (b : Fin B) :
    ∃ run : Ω → PCorr N B d V × List (PCorr N B d V) × Ω,
      (∀ ω, (FilterKind.sisr.ops (nestedModel lo threshold resampler propagate inner
          (fun y x i b => fin (logg b y x.time (x.value i b))) categorical preWeight missing)).filterAll opt fuel ys
          (initializeFilter lo (init ω).1) (init ω).2 = some (run ω)) ∧
      (∀ ω, ∃ r, ((run ω).2.1.map fun c => c.ll b).sum = fin r) ∧
      ∫⁻ ω, ENNReal.ofReal (expOf ((run ω).2.1.map fun c => c.ll b).sum) ∂P
        = ∫⁻ x, lik (K b) (fun y t x => ENNReal.ofReal (Real.exp (logg b y t x)))
            (slots opt.observeEveryStep missing ys) 0 x ∂(μ b) :=
  C30_proper_proposals P hN (nestedModel lo threshold resampler propagate inner
      (fun y x i b => fin (logg b y x.time (x.value i b))) categorical preWeight missing) rfl hr K μ logg hlogg init hinit hK
    (nested_proper hM lo hinner hcat logg hlogg) opt hk fuel hfuel ys b

/-- C82 for the APF with `NestedProposal`, for any finite pre-weights. -/
theorem C82_nested_apf (P : Measure Ω) [IsProbabilityMeasure P] (hN : 0 < N) (lo threshold : ℝ)
    (resampler : {b : ℕ} → (Fin N → Fin b → XF) → Bool → Ω → (Fin N → Fin b → Fin N) × Ω)
    (hr : UnbiasedLogResampler P resampler)
    (K : Fin B → ℕ → Kernel (Fin d → V) (Fin d → V)) (μ : Fin B → Measure (Fin d → V))
    (logg : Fin B → Y → ℕ → (Fin d → V) → ℝ) (hlogg : ∀ b y t, Measurable (logg b y t))
    (init : Ω → (Fin N → Fin B → Fin d → V) × Ω) (hinit : DrawsInitial P init μ)
    (propagate : TS N B d V → Ω → (Fin N → Fin B → Fin d → V) × Ω) (hK : DrawsTransitions P propagate K)
    {M : ℕ} (hM : 0 < M) (inner : TS N B d V → Ω → (Fin M → Fin N → Fin B → Fin d → V) × Ω)
    (hinner : DrawsInner P inner K)
    (categorical : (Fin N → Fin B → Fin M → XF) → Ω → (Fin N → Fin B → Fin M) × Ω) (hcat : DrawsFrom P categorical)
    (pre : Y → ℕ → (Fin N → Fin B → Fin d → V) → Fin N → Fin B → ℝ) (hpre : ∀ y t, Measurable (pre y t))
    (missing : Y → Bool)
    (opt : FilterOptions) (hk : 0 < opt.observeEveryStep) (fuel : ℕ) (hfuel : opt.observeEveryStep - 1 ≤ fuel)
    (ys : List Y) (b : Fin B) :
    ∃ run : Ω → PCorr N B d V × List (PCorr N B d V) × Ω,
      (∀ ω, (FilterKind.apf.ops (nestedModel lo threshold resampler propagate inner
          (fun y x i b => fin (logg b y x.time (x.value i b))) categorical
          (fun y x i b => fin (pre y x.time x.value i b)) missing)).filterAll opt fuel ys
          (initializeFilter lo (init ω).1) (init ω).2 = some (run ω)) ∧
      (∀ ω, ∃ r, ((run ω).2.1.map fun c => c.ll b).sum = fin r) ∧
      ∫⁻ ω, ENNReal.ofReal (expOf ((run ω).2.1.map fun c => c.ll b).sum) ∂P
        = ∫⁻ x, lik (K b) (fun y t x => ENNReal.ofReal (Real.exp (logg b y t x)))
            (slots opt.observeEveryStep missing ys) 0 x ∂(μ b) :=
  C31_proper_proposals P hN (nestedModel lo threshold resampler propagate inner
      (fun y x i b => fin (logg b y x.time (x.value i b))) categorical (fun y x i b => fin (pre y x.time x.value i b))
      missing) rfl hr K μ logg hlogg init hinit hK
    (nested_proper hM lo hinner hcat logg hlogg) pre hpre (fun _ _ _ _ => rfl) opt hk fuel hfuel ys b

/-! ## Concrete cases -/

/-- One entry of the generator: uniforms for the resampler, uniforms for the categorical draws, normal vectors for the
particles and normal vectors for the inner samples. -/
abbrev KernelEntry := (ℕ → ℝ) × (ℕ × ℕ → ℝ) × (ℕ × ℕ → Fin 2 → ℝ) × (ℕ × ℕ × ℕ → Fin 2 → ℝ)

/-- Law of an entry. -/
noncomputable def kernelEntryLaw : Measure KernelEntry :=
  unifs.prod (unifs2.prod ((Measure.infinitePi fun _ => Measure.pi fun _ => gaussianReal 0 1).prod
    (Measure.infinitePi fun _ => Measure.pi fun _ => gaussianReal 0 1)))

instance : IsProbabilityMeasure kernelEntryLaw := by unfold kernelEntryLaw; infer_instance

theorem kernel_rand : Draws (streamLaw kernelEntryLaw) (fun ω => ((next ω).1.1, (next ω).2)) unifs := by
  have := draws_map (next_draws kernelEntryLaw) measurable_fst
  have h : kernelEntryLaw.map Prod.fst = unifs := by
    rw [kernelEntryLaw, Measure.map_fst_prod]; simp
  rwa [h] at this

theorem kernel_rand2 : Draws (streamLaw kernelEntryLaw) (fun ω => ((next ω).1.2.1, (next ω).2)) unifs2 := by
  have := draws_map (next_draws kernelEntryLaw) (measurable_fst.comp measurable_snd)
  have h : kernelEntryLaw.map (Prod.fst ∘ Prod.snd) = unifs2 := by
    rw [kernelEntryLaw, ← Measure.map_map measurable_fst measurable_snd, Measure.map_snd_prod]
    simp [Measure.map_fst_prod]
  rwa [h] at this

theorem kernel_noise : Draws (streamLaw kernelEntryLaw) (fun ω => ((next ω).1.2.2.1, (next ω).2))
    (Measure.infinitePi fun _ => Measure.pi fun _ => gaussianReal 0 1) := by
  have hm : Measurable fun e : KernelEntry => e.2.2.1 := by fun_prop
  have := draws_map (next_draws kernelEntryLaw) hm
  have h : kernelEntryLaw.map (fun e => e.2.2.1) = Measure.infinitePi fun _ => Measure.pi fun _ => gaussianReal 0 1 := by
    have : (fun e : KernelEntry => e.2.2.1) = Prod.fst ∘ Prod.snd ∘ Prod.snd := rfl
    rw [this, kernelEntryLaw, ← Measure.map_map measurable_fst (by fun_prop),
      ← Measure.map_map measurable_snd measurable_snd, Measure.map_snd_prod, measure_univ, one_smul,
      Measure.map_snd_prod, measure_univ, one_smul, Measure.map_fst_prod, measure_univ, one_smul]
  rwa [h] at this

theorem kernel_inner : Draws (streamLaw kernelEntryLaw) (fun ω => ((next ω).1.2.2.2, (next ω).2))
    (Measure.infinitePi fun _ => Measure.pi fun _ => gaussianReal 0 1) := by
  have hm : Measurable fun e : KernelEntry => e.2.2.2 := by fun_prop
  have := draws_map (next_draws kernelEntryLaw) hm
  have h : kernelEntryLaw.map (fun e => e.2.2.2) = Measure.infinitePi fun _ => Measure.pi fun _ => gaussianReal 0 1 := by
    have : (fun e : KernelEntry => e.2.2.2) = Prod.snd ∘ Prod.snd ∘ Prod.snd := rfl
    rw [this, kernelEntryLaw, ← Measure.map_map measurable_snd (by fun_prop),
      ← Measure.map_map measurable_snd measurable_snd, Measure.map_snd_prod, measure_univ, one_smul,
      Measure.map_snd_prod, measure_univ, one_smul, Measure.map_snd_prod, measure_univ, one_smul]
  rwa [h] at this

/-- The Cholesky factor of a matrix with two rows. -/
noncomputable def chol2 (S : Matrix (Fin 2) (Fin 2) ℝ) : Matrix (Fin 2) (Fin 2) ℝ :=
  !![Real.sqrt (S 0 0), 0; S 1 0 / Real.sqrt (S 0 0), Real.sqrt (S 1 1 - S 1 0 ^ 2 / S 0 0)]

theorem chol2_isCholesky : IsCholesky chol2 := by
  refine ⟨fun S hS => ?_, fun e f => ?_⟩
  · have h0 : 0 < S 0 0 := hS.diag_pos
    have hsym : S 0 1 = S 1 0 := by
      have := congrFun (congrFun hS.1 1) 0
      simpa [conjTranspose] using this
    have hdet := hS.det_pos
    rw [det_fin_two, hsym] at hdet
    have h1 : 0 ≤ S 1 1 - S 1 0 ^ 2 / S 0 0 := by
      rw [sub_nonneg, div_le_iff₀ h0]
      nlinarith
    have hs := Real.mul_self_sqrt h0.le
    have hs1 := Real.mul_self_sqrt h1
    have hne : Real.sqrt (S 0 0) ≠ 0 := (Real.sqrt_pos.2 h0).ne'
    ext e f
    fin_cases e <;> fin_cases f <;>
      simp [chol2, mul_apply, Fin.sum_univ_two, transpose_apply, hs, hsym]
    · field_simp
    · field_simp
    · have h2 : S 1 0 / Real.sqrt (S 0 0) * (S 1 0 / Real.sqrt (S 0 0)) = S 1 0 ^ 2 / S 0 0 := by
        rw [div_mul_div_comm, hs, sq]
      rw [h2, hs1]
      ring
  · unfold chol2
    fin_cases e <;> fin_cases f <;> simp <;> fun_prop

/-- A latent process in two dimensions whose scale depends on the state, different for two parallel filters. -/
noncomputable def kernelMeanScale (b : Fin 2) (t : ℕ) (x : Fin 2 → ℝ) : (Fin 2 → ℝ) × (Fin 2 → ℝ) :=
  (![x 0 + x 1, x 1 / 2 + t], ![1, Real.exp (if b = 0 then x 0 else 0)])

theorem kernelMeanScale_pos (b : Fin 2) (t : ℕ) (x : Fin 2 → ℝ) (e : Fin 2) : 0 < (kernelMeanScale b t x).2 e := by
  unfold kernelMeanScale
  fin_cases e <;> simp [Real.exp_pos]

theorem kernelMeanScale_measurable (b : Fin 2) (t : ℕ) : Measurable (kernelMeanScale b t) := by
  unfold kernelMeanScale
  refine Measurable.prodMk ?_ ?_
  · rw [measurable_pi_iff]
    intro e
    fin_cases e <;> simp <;> fun_prop
  · rw [measurable_pi_iff]
    intro e
    fin_cases e
    · simp
    · by_cases hb : b = 0
      · simp only [hb, if_true]
        exact Real.measurable_exp.comp (measurable_pi_apply 0)
      · simp [hb]

/-- The first component is observed with noise. -/
noncomputable def kernelLinear (_b : Fin 2) : LinearModel 2 1 := ⟨fun _ => (0, 0), !![1, 0], ![0], ![2]⟩

/-- A case for `C82_linear_sisr` and `C82_linear_apf`: a two-dimensional process with state-dependent scale. -/
example (N : ℕ) (lo : ℝ) : UnbiasedResampler (N := N) (streamLaw kernelEntryLaw)
      (systematicResampler lo fun ω => ((next ω).1.1, (next ω).2)) ∧
    UnbiasedLogResampler (N := N) (streamLaw kernelEntryLaw)
      (systematicResampler lo fun ω => ((next ω).1.1, (next ω).2)) ∧
    (∀ b j, 0 < (kernelLinear b).s j) ∧ (∀ b t, Measurable (kernelMeanScale b t)) ∧
    (∀ b t x e, 0 < (kernelMeanScale b t x).2 e) ∧ IsCholesky chol2 ∧
    (∀ b t x, affineKernel (kernelMeanScale b t) x = (Measure.pi fun _ => gaussianReal 0 1).map fun z e =>
      (kernelMeanScale b t x).1 e + (kernelMeanScale b t x).2 e * z e) ∧
    DrawsInitial (N := N) (streamLaw kernelEntryLaw)
      (fun ω => (fun i b => (next ω).1.2.2.1 ((i : ℕ), (b : ℕ)), (next ω).2))
      (fun _ : Fin 2 => (Measure.pi fun _ => gaussianReal 0 1).map fun z => z) ∧
    Draws (streamLaw kernelEntryLaw) (fun ω => ((next ω).1.2.2.1, (next ω).2))
      (Measure.infinitePi fun _ => Measure.pi fun _ => gaussianReal 0 1) :=
  ⟨(systematic_unbiased lo kernel_rand).1, (systematic_unbiased lo kernel_rand).2, fun _ j => by
      fin_cases j; simp [kernelLinear], kernelMeanScale_measurable, kernelMeanScale_pos, chol2_isCholesky,
    fun b t x => by
      rw [affineKernel, noiseKernel_apply _ (measurable_affine (kernelMeanScale_measurable b t))]; rfl,
    noise_initial _ kernel_noise (f := fun _ z => z) fun _ => measurable_id, kernel_noise⟩

/-- A case for `C82_linearized_sisr` and `C82_linearized_apf`: the same process, with kernels that look at the observation. -/
example (N : ℕ) : (∀ b t x, affineKernel (kernelMeanScale b t) x = volume.withDensity fun x' => ENNReal.ofReal (Real.exp
      (∑ e, normalLogProb ((kernelMeanScale b t x).1 e) ((kernelMeanScale b t x).2 e) (x' e)))) ∧
    DrawsTransitions (N := N) (streamLaw kernelEntryLaw)
      (affinePropagate (fun ω => ((next ω).1.2.2.1, (next ω).2)) kernelMeanScale)
      (fun b t => affineKernel (kernelMeanScale b t)) ∧
    (∀ y : ℝ, KernelMeasurable fun x : Fin 2 → ℝ => ⟨![x 0 + y, x 1], !![2, 0; x 1, 1]⟩) ∧
    ∀ x : Fin 2 → ℝ, (!![2, 0; x 1, 1] : Matrix (Fin 2) (Fin 2) ℝ).det ≠ 0 :=
  ⟨fun b t x => affine_density (kernelMeanScale_measurable b t) (kernelMeanScale_pos b t) x,
    affine_transitions kernel_noise kernelMeanScale_measurable,
    fun y => ⟨fun e => by
      fin_cases e <;> simp <;> fun_prop, fun e f => by
      fin_cases e <;> fin_cases f <;> simp <;> fun_prop⟩, fun x => by simp [det_fin_two]⟩

/-- A case for `C82_nested_sisr` and `C82_nested_apf`: the same process with ten inner samples. -/
example (N : ℕ) : DrawsInner (N := N) (M := 10) (streamLaw kernelEntryLaw)
      (noiseInner (fun ω => ((next ω).1.2.2.2, (next ω).2)) fun b t q e =>
        (kernelMeanScale b t q.1).1 e + (kernelMeanScale b t q.1).2 e * q.2 e)
      (fun b t => affineKernel (kernelMeanScale b t)) ∧
    DrawsFrom (N := N) (B := 2) (M := 10) (streamLaw kernelEntryLaw)
      (inversion (by norm_num) fun ω => ((next ω).1.2.1, (next ω).2)) :=
  ⟨noise_inner _ kernel_inner fun b t => measurable_affine (kernelMeanScale_measurable b t),
    inversion_draws _ kernel_rand2⟩

end Verif.Props
