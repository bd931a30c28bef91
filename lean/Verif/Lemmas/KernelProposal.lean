import Verif.Spec.KernelProposal
import Verif.Lemmas.Gaussian
import Verif.Lemmas.Unbiased
import Verif.Lemmas.Stream

/-!
# Kernel proposals are proper
-/

namespace Verif.Unbiased

open Verif Verif.Spec XF MeasureTheory ProbabilityTheory Matrix
open scoped ENNReal

variable {N B d m : ℕ} {V Y Ω : Type} [MeasurableSpace V] [MeasurableSpace Ω] {P : Measure Ω}

/-- Weighting by observation density times transition density over kernel density is proper. -/
theorem kernel_proper [IsProbabilityMeasure P] {base : Measure (Fin d → V)}
    {K : Fin B → ℕ → Kernel (Fin d → V) (Fin d → V)} {Q : Y → Fin B → ℕ → Kernel (Fin d → V) (Fin d → V)}
    {draw : Y → TS N B d V → Ω → (Fin N → Fin B → Fin d → V) × Ω} (hQ : ∀ y, DrawsTransitions P (draw y) (Q y))
    (logg : Fin B → Y → ℕ → (Fin d → V) → ℝ) (hlogg : ∀ b y t, Measurable (logg b y t))
    (logp : Fin B → ℕ → (Fin d → V) → (Fin d → V) → ℝ) (hlogp : ∀ b t, Measurable fun q : _ × _ => logp b t q.1 q.2)
    (logq : Y → Fin B → ℕ → (Fin d → V) → (Fin d → V) → ℝ)
    (hlogq : ∀ y b t, Measurable fun q : _ × _ => logq y b t q.1 q.2)
    (hKd : ∀ b t x, K b t x = base.withDensity fun x' => ENNReal.ofReal (Real.exp (logp b t x x')))
    (hQd : ∀ y b t x, Q y b t x = base.withDensity fun x' => ENNReal.ofReal (Real.exp (logq y b t x x'))) :
    ProperProposal P (kernelSample (fun y x i b => fin (logg b y x.time (x.value i b)))
      (fun x v i b => fin (logp b x.time (x.value i b) (v i b))) draw
      (fun y x v i b => fin (logq y b x.time (x.value i b) (v i b)))) K logg := by
  have hm : ∀ y t, Measurable fun q : (Fin N → Fin B → Fin d → V) × (Fin N → Fin B → Fin d → V) =>
      (q.2, (fun i b => logg b y (t + 1) (q.2 i b) + logp b t (q.1 i b) (q.2 i b) - logq y b t (q.1 i b) (q.2 i b) :
        Fin N → Fin B → ℝ)) := by
    intro y t
    refine measurable_snd.prodMk ?_
    rw [measurable_pi_iff]; intro i
    rw [measurable_pi_iff]; intro b
    have h1 : Measurable fun q : (Fin N → Fin B → Fin d → V) × (Fin N → Fin B → Fin d → V) => (q.1 i b, q.2 i b) := by
      fun_prop
    have h2 : Measurable fun q : (Fin N → Fin B → Fin d → V) × (Fin N → Fin B → Fin d → V) => q.2 i b := by fun_prop
    exact (((hlogg b y (t + 1)).comp h2).add ((hlogp b t).comp h1)).sub ((hlogq y b t).comp h1)
  refine ⟨fun y t => ⟨fun z => (((draw y ⟨z.1, t⟩ z.2).1,
    fun i b => logg b y (t + 1) ((draw y ⟨z.1, t⟩ z.2).1 i b) + logp b t (z.1 i b) ((draw y ⟨z.1, t⟩ z.2).1 i b)
      - logq y b t (z.1 i b) ((draw y ⟨z.1, t⟩ z.2).1 i b)), (draw y ⟨z.1, t⟩ z.2).2), ?_, ?_, ?_⟩⟩
  · have h1 := (hQ y).measurable t
    exact ((hm y t).comp (measurable_fst.prodMk (measurable_fst.comp h1))).prodMk (measurable_snd.comp h1)
  · intro p ω ht
    subst ht
    rfl
  · intro x
    obtain ⟨ν, hν, hmarg⟩ := (hQ y).draws ⟨x, t⟩
    have h2 : Measurable fun v : Fin N → Fin B → Fin d → V =>
        (v, (fun i b => logg b y (t + 1) (v i b) + logp b t (x i b) (v i b) - logq y b t (x i b) (v i b) :
          Fin N → Fin B → ℝ)) := (hm y t).comp (measurable_const.prodMk measurable_id)
    have := hν.prob
    refine ⟨ν.map fun v => (v, fun i b => logg b y (t + 1) (v i b) + logp b t (x i b) (v i b)
      - logq y b t (x i b) (v i b)), ⟨?_, ?_, ?_⟩, ?_⟩
    · exact (h2.comp (measurable_fst.comp hν.measurable)).prodMk (measurable_snd.comp hν.measurable)
    · exact Measure.isProbabilityMeasure_map h2.aemeasurable
    · have h3 : (ν.map fun v => (v, (fun i b => logg b y (t + 1) (v i b) + logp b t (x i b) (v i b)
          - logq y b t (x i b) (v i b) : Fin N → Fin B → ℝ))).prod (P.map id) = _ :=
        Measure.map_prod_map ν P h2 measurable_id
      rw [Measure.map_id] at h3
      rw [h3, ← hν.law, Measure.map_map (h2.prodMap measurable_id) hν.measurable]
      rfl
    · intro i b φ hφ
      have h4 : Measurable fun q : (Fin N → Fin B → Fin d → V) × (Fin N → Fin B → ℝ) =>
          ENNReal.ofReal (Real.exp (q.2 i b)) * φ (q.1 i b) := by
        have : Measurable fun q : (Fin N → Fin B → Fin d → V) × (Fin N → Fin B → ℝ) => q.1 i b := by fun_prop
        exact Measurable.mul (by fun_prop) (hφ.comp this)
      have hp : Measurable fun x' => logp b t (x i b) x' := (hlogp b t).comp (measurable_const.prodMk measurable_id)
      have hq : Measurable fun x' => logq y b t (x i b) x' := (hlogq y b t).comp (measurable_const.prodMk measurable_id)
      have h5 : Measurable fun x' : Fin d → V => ENNReal.ofReal (Real.exp (logg b y (t + 1) x' + logp b t (x i b) x'
          - logq y b t (x i b) x')) * φ x' :=
        (Real.measurable_exp.comp (((hlogg b y (t + 1)).add hp).sub hq)).ennreal_ofReal.mul hφ
      have h6 : Measurable fun x' : Fin d → V => ENNReal.ofReal (Real.exp (logg b y (t + 1) x')) * φ x' :=
        (Real.measurable_exp.comp (hlogg b y (t + 1))).ennreal_ofReal.mul hφ
      have e1 : ∫⁻ v, ENNReal.ofReal (Real.exp (logg b y (t + 1) (v i b) + logp b t (x i b) (v i b)
          - logq y b t (x i b) (v i b))) * φ (v i b) ∂ν
          = ∫⁻ x', ENNReal.ofReal (Real.exp (logg b y (t + 1) x' + logp b t (x i b) x'
          - logq y b t (x i b) x')) * φ x' ∂(ν.map fun v => v i b) := by
        rw [lintegral_map h5 (by fun_prop)]
      have hp' : Measurable fun x' => ENNReal.ofReal (Real.exp (logp b t (x i b) x')) :=
        (Real.measurable_exp.comp hp).ennreal_ofReal
      have hq' : Measurable fun x' => ENNReal.ofReal (Real.exp (logq y b t (x i b) x')) :=
        (Real.measurable_exp.comp hq).ennreal_ofReal
      rw [lintegral_map h4 h2, e1, hmarg i b, hQd, hKd]
      dsimp only
      rw [lintegral_withDensity_eq_lintegral_mul _ hq' h5, lintegral_withDensity_eq_lintegral_mul _ hp' h6]
      refine lintegral_congr fun x' => ?_
      simp only [Pi.mul_apply]
      rw [← mul_assoc, ← mul_assoc, ← ENNReal.ofReal_mul (Real.exp_pos _).le, ← ENNReal.ofReal_mul (Real.exp_pos _).le,
        ← Real.exp_add, ← Real.exp_add]
      congr 3
      ring

/-! ## Normal kernels -/

omit [MeasurableSpace V] [MeasurableSpace Ω] in
theorem kernelMeasurable_sample {X : Type} [MeasurableSpace X] {k : X → GaussKernel d} (h : KernelMeasurable k) :
    Measurable fun q : X × (Fin d → ℝ) => (k q.1).sample q.2 := by
  rw [measurable_pi_iff]
  intro e
  have h1 := h.loc e
  have h2 := h.tril e
  unfold GaussKernel.sample
  simp only [Pi.add_apply, mulVec, dotProduct]
  refine (h1.comp measurable_fst).add (Finset.measurable_sum _ fun f _ => ?_)
  exact ((h2 f).comp measurable_fst).mul (by fun_prop)

/-- Law of a sample of a normal kernel. -/
theorem gauss_law (k : GaussKernel d) (hk : k.tril.det ≠ 0) :
    (Gauss.stdNormal d).map k.sample = volume.withDensity fun x => ENNReal.ofReal (Real.exp (k.logProb x)) := by
  have := Gauss.map_affine_stdNormal k.loc hk
  simp only [GaussKernel.logProb, mvnLogProb_eq]
  exact this

/-- Continuous functions of matrices. -/
theorem measurable_inv_entry {X : Type} [MeasurableSpace X] {M : X → Matrix (Fin d) (Fin d) ℝ}
    (h : ∀ e f, Measurable fun x => M x e f) (e f : Fin d) : Measurable fun x => (M x)⁻¹ e f := by
  have hM : Measurable fun x => (fun e f => M x e f : Fin d → Fin d → ℝ) := by
    rw [measurable_pi_iff]; intro e
    rw [measurable_pi_iff]; intro f
    exact h e f
  have h1 : Continuous fun A : Fin d → Fin d → ℝ => (Matrix.of A).det :=
    Continuous.matrix_det (continuous_id (X := Matrix (Fin d) (Fin d) ℝ))
  have h2 : Continuous fun A : Fin d → Fin d → ℝ => (Matrix.of A).adjugate e f :=
    (Continuous.matrix_adjugate (continuous_id (X := Matrix (Fin d) (Fin d) ℝ))).matrix_elem e f
  have h3 : ∀ x, (M x)⁻¹ e f = (Matrix.of fun e f => M x e f).det⁻¹ * (Matrix.of fun e f => M x e f).adjugate e f := by
    intro x
    show (M x)⁻¹ e f = (M x).det⁻¹ * (M x).adjugate e f
    rw [inv_def, Matrix.smul_apply, smul_eq_mul, Ring.inverse_eq_inv']
  simp only [h3]
  exact ((h1.measurable.comp hM).inv).mul (h2.measurable.comp hM)

theorem measurable_det {X : Type} [MeasurableSpace X] {M : X → Matrix (Fin d) (Fin d) ℝ}
    (h : ∀ e f, Measurable fun x => M x e f) : Measurable fun x => (M x).det := by
  have hM : Measurable fun x => (fun e f => M x e f : Fin d → Fin d → ℝ) := by
    rw [measurable_pi_iff]; intro e
    rw [measurable_pi_iff]; intro f
    exact h e f
  have h1 : Continuous fun A : Fin d → Fin d → ℝ => (Matrix.of A).det :=
    Continuous.matrix_det (continuous_id (X := Matrix (Fin d) (Fin d) ℝ))
  exact h1.measurable.comp hM

theorem kernelMeasurable_logProb {X : Type} [MeasurableSpace X] {k : X → GaussKernel d} (h : KernelMeasurable k) :
    Measurable fun q : X × (Fin d → ℝ) => (k q.1).logProb q.2 := by
  have hcov : ∀ e f, Measurable fun q : X × (Fin d → ℝ) => ((k q.1).tril * (k q.1).trilᵀ) e f := by
    intro e f
    simp only [mul_apply, transpose_apply]
    exact Finset.measurable_sum _ fun g _ => ((h.tril e g).comp measurable_fst).mul ((h.tril f g).comp measurable_fst)
  have hdiff : ∀ e, Measurable fun q : X × (Fin d → ℝ) => q.2 e - (k q.1).loc e := fun e => by
    have : Measurable fun q : X × (Fin d → ℝ) => q.2 e := by fun_prop
    exact this.sub ((h.loc e).comp measurable_fst)
  have hinv := fun e f => measurable_inv_entry hcov e f
  have hdet := measurable_det hcov
  unfold GaussKernel.logProb mvnLogProb
  simp only [dotProduct, mulVec, Pi.sub_apply]
  refine Measurable.sub (Measurable.const_mul (measurable_const.add ?_) _) ((Real.measurable_log.comp hdet).const_mul _)
  exact Finset.measurable_sum _ fun e _ => (hdiff e).mul (Finset.measurable_sum _ fun f _ => (hinv e f).mul (hdiff f))

/-- Sampling from normal kernels and weighting is proper. -/
theorem gauss_proper [IsProbabilityMeasure P] {noise : Ω → (ℕ × ℕ → Fin d → ℝ) × Ω}
    (hnoise : Draws P noise (Measure.infinitePi fun _ => Gauss.stdNormal d))
    {K : Fin B → ℕ → Kernel (Fin d → ℝ) (Fin d → ℝ)}
    (kernel : Y → Fin B → ℕ → (Fin d → ℝ) → GaussKernel d) (hkernel : ∀ y b t, KernelMeasurable (kernel y b t))
    (hdet : ∀ y b t x, (kernel y b t x).tril.det ≠ 0)
    (logg : Fin B → Y → ℕ → (Fin d → ℝ) → ℝ) (hlogg : ∀ b y t, Measurable (logg b y t))
    (logp : Fin B → ℕ → (Fin d → ℝ) → (Fin d → ℝ) → ℝ) (hlogp : ∀ b t, Measurable fun q : _ × _ => logp b t q.1 q.2)
    (hKd : ∀ b t x, K b t x = volume.withDensity fun x' => ENNReal.ofReal (Real.exp (logp b t x x'))) :
    ProperProposal (N := N) P (gaussSample noise kernel logg logp) K logg := by
  refine kernel_proper (Q := fun y b t => noiseKernel (Gauss.stdNormal d) fun q => (kernel y b t q.1).sample q.2)
    (fun y => noise_transitions (Gauss.stdNormal d) hnoise fun b t => kernelMeasurable_sample (hkernel y b t)) logg hlogg logp hlogp
    (fun y b t x x' => (kernel y b t x).logProb x') (fun y b t => kernelMeasurable_logProb (hkernel y b t)) hKd fun y b t x => ?_
  rw [noiseKernel_apply _ (kernelMeasurable_sample (hkernel y b t))]
  exact gauss_law (kernel y b t x) (hdet y b t x)

/-! ## Affine processes and linear observations -/

theorem diag_logProb (loc scale x : Fin d → ℝ) (h : ∀ e, 0 < scale e) :
    logNormalVec loc (diagonal scale * (diagonal scale)ᵀ) x = ∑ e, normalLogProb (loc e) (scale e) (x e) := by
  have h1 : ∀ e, normalLogProb (loc e) (scale e) (x e) = logNormal (loc e) ((fun e => (scale e ^ 2)⁻¹) e)⁻¹ (x e) :=
    fun e => by rw [normalLogProb_eq (h e), inv_inv]
  have hp : ∀ e, 0 < (scale e ^ 2)⁻¹ := fun e => by have := h e; positivity
  have hpos : ∀ e, 0 < scale e * scale e := fun e => mul_pos (h e) (h e)
  simp only [h1]
  rw [sum_logNormal _ _ _ hp, diagonal_transpose, diagonal_mul_diagonal]
  unfold logNormalVec
  rw [inv_diag hpos, det_diagonal, det_diagonal]
  have h2 : (fun i => (scale i * scale i)⁻¹) = fun e => (scale e ^ 2)⁻¹ := funext fun e => by rw [sq]
  have h3 : (∏ e, (scale e ^ 2)⁻¹) = (∏ e, scale e * scale e)⁻¹ := by
    rw [← Finset.prod_inv_distrib]
    exact Finset.prod_congr rfl fun e _ => by rw [sq]
  rw [h2, h3, Real.log_inv]
  ring

/-- Transition kernel of a process with normal increments. -/
noncomputable def affineKernel (meanScale : (Fin d → ℝ) → (Fin d → ℝ) × (Fin d → ℝ)) : Kernel (Fin d → ℝ) (Fin d → ℝ) :=
  noiseKernel (Gauss.stdNormal d) fun q e => (meanScale q.1).1 e + (meanScale q.1).2 e * q.2 e

theorem measurable_affine {meanScale : (Fin d → ℝ) → (Fin d → ℝ) × (Fin d → ℝ)} (h : Measurable meanScale) :
    Measurable fun q : (Fin d → ℝ) × (Fin d → ℝ) =>
      (fun e => (meanScale q.1).1 e + (meanScale q.1).2 e * q.2 e : Fin d → ℝ) := by
  fun_prop

theorem affine_density {meanScale : (Fin d → ℝ) → (Fin d → ℝ) × (Fin d → ℝ)} (h : Measurable meanScale)
    (hpos : ∀ x e, 0 < (meanScale x).2 e) (x : Fin d → ℝ) :
    affineKernel meanScale x = volume.withDensity fun x' =>
      ENNReal.ofReal (Real.exp (∑ e, normalLogProb ((meanScale x).1 e) ((meanScale x).2 e) (x' e))) := by
  have hdet : (diagonal (meanScale x).2).det ≠ 0 := by
    rw [det_diagonal]
    exact (Finset.prod_pos fun e _ => hpos x e).ne'
  have h1 := Gauss.map_affine_stdNormal (meanScale x).1 hdet
  have h2 : (fun z : Fin d → ℝ => (meanScale x).1 + diagonal (meanScale x).2 *ᵥ z)
      = fun z e => (meanScale x).1 e + (meanScale x).2 e * z e := by
    funext z e
    simp [mulVec_diagonal]
  simp only [diag_logProb _ _ _ (hpos x)] at h1
  unfold affineKernel
  rw [noiseKernel_apply _ (measurable_affine h)]
  rw [h2] at h1
  exact h1

theorem affine_transitions [SFinite P] {noise : Ω → (ℕ × ℕ → Fin d → ℝ) × Ω}
    (hnoise : Draws P noise (Measure.infinitePi fun _ => Gauss.stdNormal d))
    {meanScale : Fin B → ℕ → (Fin d → ℝ) → (Fin d → ℝ) × (Fin d → ℝ)} (h : ∀ b t, Measurable (meanScale b t)) :
    DrawsTransitions P (affinePropagate (N := N) noise meanScale) fun b t => affineKernel (meanScale b t) :=
  noise_transitions (Gauss.stdNormal d) hnoise fun b t => measurable_affine (h b t)

theorem linear_posDef {L : LinearModel d m} (hs : ∀ j, 0 < L.s j) {x : Fin d → ℝ}
    (hpos : ∀ e, 0 < (L.meanScale x).2 e) :
    (optimalCov (fun e => ((L.meanScale x).2 e ^ 2)⁻¹) (fun j => (L.s j ^ 2)⁻¹) L.a).PosDef := by
  rw [optimalCov_eq]
  exact (precision_posDef L.a (fun e => by have := hpos e; positivity) (fun j => by have := hs j; positivity)).inv

theorem linear_det {L : LinearModel d m} (hs : ∀ j, 0 < L.s j) {x : Fin d → ℝ} (hpos : ∀ e, 0 < (L.meanScale x).2 e)
    {chol : Matrix (Fin d) (Fin d) ℝ → Matrix (Fin d) (Fin d) ℝ} (hchol : IsCholesky chol) (is1d : Bool) (y : Fin m → ℝ) :
    (L.kernel chol is1d y x).tril.det ≠ 0 := by
  have hpd := linear_posDef hs hpos
  have hf := hchol.factor _ hpd
  unfold LinearModel.kernel optimalKernel
  dsimp only
  split
  · rw [det_diagonal]
    exact (Finset.prod_pos fun e _ => Real.sqrt_pos.2 hpd.diag_pos).ne'
  · intro h0
    have : (optimalCov (fun e => ((L.meanScale x).2 e ^ 2)⁻¹) (fun j => (L.s j ^ 2)⁻¹) L.a).det = 0 := by
      rw [← hf, det_mul, h0, zero_mul]
    exact hpd.det_pos.ne' this

theorem linear_measurable {L : LinearModel d m} (h : Measurable L.meanScale)
    {chol : Matrix (Fin d) (Fin d) ℝ → Matrix (Fin d) (Fin d) ℝ} (hchol : IsCholesky chol) (is1d : Bool) (y : Fin m → ℝ) :
    KernelMeasurable (L.kernel chol is1d y) := by
  have hprec : ∀ e f, Measurable fun x => (diagonal (fun e => ((L.meanScale x).2 e ^ 2)⁻¹)
      + L.aᵀ * diagonal (fun j => (L.s j ^ 2)⁻¹) * L.a) e f := by
    intro e f
    simp only [Matrix.add_apply]
    refine Measurable.add ?_ measurable_const
    by_cases hef : e = f
    · subst hef
      simp only [diagonal_apply_eq]
      fun_prop
    · simp only [diagonal_apply_ne _ hef]
      exact measurable_const
  have hcov : ∀ e f, Measurable fun x =>
      optimalCov (fun e => ((L.meanScale x).2 e ^ 2)⁻¹) (fun j => (L.s j ^ 2)⁻¹) L.a e f := by
    simp only [optimalCov_eq]
    exact measurable_inv_entry hprec
  have hM : Measurable fun x => (fun e f => optimalCov (fun e => ((L.meanScale x).2 e ^ 2)⁻¹)
      (fun j => (L.s j ^ 2)⁻¹) L.a e f : Fin d → Fin d → ℝ) := by
    rw [measurable_pi_iff]; intro e
    rw [measurable_pi_iff]; intro f
    exact hcov e f
  have hloc : ∀ x, (L.kernel chol is1d y x).loc = optimalMean (y - L.b) (L.meanScale x).1
      (fun e => ((L.meanScale x).2 e ^ 2)⁻¹) (fun j => (L.s j ^ 2)⁻¹) L.a := by
    intro x
    unfold LinearModel.kernel optimalKernel
    dsimp only
    split <;> rfl
  refine ⟨fun e => ?_, fun e f => ?_⟩
  · simp only [hloc]
    unfold optimalMean
    simp only [mulVec, dotProduct, Pi.add_apply]
    refine Finset.measurable_sum _ fun f _ => (hcov e f).mul ?_
    refine Measurable.add (by fun_prop) measurable_const
  · unfold LinearModel.kernel optimalKernel
    dsimp only
    split
    · dsimp only
      by_cases hef : e = f
      · subst hef
        simp only [diagonal_apply_eq]
        exact Real.continuous_sqrt.measurable.comp (hcov e e)
      · simp only [diagonal_apply_ne _ hef]
        exact measurable_const
    · exact (hchol.measurable e f).comp hM

theorem measurable_obsLogProb (L : LinearModel d m) (y : Fin m → ℝ) : Measurable fun x => L.obsLogProb x y := by
  unfold LinearModel.obsLogProb normalLogProb
  simp only [mulVec, dotProduct]
  fun_prop

theorem measurable_transLogProb {L : LinearModel d m} (h : Measurable L.meanScale) :
    Measurable fun q : (Fin d → ℝ) × (Fin d → ℝ) => L.transLogProb q.1 q.2 := by
  unfold LinearModel.transLogProb normalLogProb
  fun_prop

/-- `LinearGaussianObservations` is proper. -/
theorem linear_proper [IsProbabilityMeasure P] {noise : Ω → (ℕ × ℕ → Fin d → ℝ) × Ω}
    (hnoise : Draws P noise (Measure.infinitePi fun _ => Gauss.stdNormal d)) (L : Fin B → LinearModel d m)
    (hs : ∀ b j, 0 < (L b).s j) {meanScale : Fin B → ℕ → (Fin d → ℝ) → (Fin d → ℝ) × (Fin d → ℝ)}
    (h : ∀ b t, Measurable (meanScale b t)) (hpos : ∀ b t x e, 0 < (meanScale b t x).2 e)
    {chol : Matrix (Fin d) (Fin d) ℝ → Matrix (Fin d) (Fin d) ℝ} (hchol : IsCholesky chol) (is1d : Bool) :
    ProperProposal (N := N) P (gaussSample noise
        (fun y b t x => ((L b).atTime (meanScale b) t).kernel chol is1d y x)
        (fun b y _ x => (L b).obsLogProb x y) (fun b t x x' => ((L b).atTime (meanScale b) t).transLogProb x x'))
      (fun b t => affineKernel (meanScale b t)) fun b y _ x => (L b).obsLogProb x y :=
  gauss_proper hnoise _ (fun y b t => linear_measurable (L := (L b).atTime (meanScale b) t) (h b t) hchol is1d y)
    (fun y b t x => linear_det (L := (L b).atTime (meanScale b) t) (hs b) (hpos b t x) hchol is1d y) _
    (fun b y _ => measurable_obsLogProb (L b) y) _
    (fun b t => measurable_transLogProb (L := (L b).atTime (meanScale b) t) (h b t))
    fun b t x => affine_density (h b t) (hpos b t) x

end Verif.Unbiased
