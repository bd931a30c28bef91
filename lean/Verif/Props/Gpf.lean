import Verif.Lemmas.GaussianProposal
import Verif.Lemmas.Spread
import Verif.Props.KernelProposals
import Verif.Props.Proposals
import Verif.Props.Symmetric

/-!
# The Gaussian particle filter: C86–C88
-/

namespace Verif.Props

open Verif Verif.Spec Verif.Unbiased XF MeasureTheory ProbabilityTheory Matrix
open scoped ENNReal

variable {N B d m : ℕ} {Y Ω : Type}

/-! ### C86: a move of the Gaussian particle filter -/

/-- The prediction of GPF. -/
noncomputable def gpfPred (lo : ℝ) (s : PCorr N B d ℝ) : PPred N B d ℝ :=
  ⟨s.x, (normalize2 lo s.w).1, (normalize2 lo s.w).2, s.prev⟩

theorem gpf_error {lo : ℝ} {kind : ProposalKind} {propagate : TS N B d ℝ → Ω → (Fin N → Fin B → Fin d → ℝ) × Ω}
    {allNan : Y → Bool} {sample : Y → PPred N B d ℝ → Ω → Sampled N B d Ω} {y : Y} {s : PCorr N B d ℝ} {ω : Ω} {e : PyErr}
    (h : sample y (gpfPred lo s) ω = .error e) : gpfMove lo kind propagate allNan sample y s ω = .error e := by
  unfold gpfMove ParticleModel.gpfPredict
  dsimp only [gpfModel]
  have h' : sample y ⟨s.x, (normalize2 lo s.w).1, (normalize2 lo s.w).2, s.prev⟩ ω = .error e := h
  rw [h']

theorem gpf_ok {lo : ℝ} {kind : ProposalKind} {propagate : TS N B d ℝ → Ω → (Fin N → Fin B → Fin d → ℝ) × Ω}
    {allNan : Y → Bool} {sample : Y → PPred N B d ℝ → Ω → Sampled N B d Ω} {y : Y} {s : PCorr N B d ℝ} {ω ω' : Ω}
    {v : Fin N → Fin B → Fin d → ℝ} {l : Fin N → Fin B → ℝ}
    (h : sample y (gpfPred lo s) ω = .ok ((v, fun i b => fin (l i b)), ω')) (hN : 0 < N) :
    gpfMove lo kind propagate allNan sample y s ω =
      .ok (⟨⟨v, s.x.time + kind.increment⟩, fun i b => fin (l i b),
        fun b => fin (Real.log (1 / N * ∑ i, Real.exp (l i b))), s.prev⟩, ω') := by
  unfold gpfMove ParticleModel.gpfPredict ParticleModel.gpfCorrect ParticleModel.sampleAndWeight
  dsimp only [gpfModel]
  have h' : sample y ⟨s.x, (normalize2 lo s.w).1, (normalize2 lo s.w).2, s.prev⟩ ω = .ok ((v, fun i b => fin (l i b)), ω') := h
  simp only [h']
  unfold PCorr.mk'
  rw [normalize2_fin]
  have : logLikelihood (fun i b => fin (l i b)) none = fun b => fin (Real.log (1 / N * ∑ i, Real.exp (l i b))) :=
    funext fun b => logLikelihood_mean hN l b
  rw [this]

theorem gpfPred_nw (lo : ℝ) (s : PCorr N B d ℝ) (hu : ∀ b, ∃ i, Usable (s.w i b)) (i : Fin N) (b : Fin B) :
    (gpfPred lo s).nw i b = fin (colProb lo s.w b i) := normalize2_usable lo s.w b (hu b) i

/-- The mean of the propagated particles of filter `b`, weighted by the probabilities of the particles. -/
noncomputable def propMean (lo : ℝ) (s : PCorr N B d ℝ) (v : Fin N → Fin B → Fin d → ℝ) (b : Fin B) : Fin d → ℝ :=
  fitMean (fun i => mass lo (s.w i b) / ∑ j, mass lo (s.w j b)) fun i => v i b

/-- The covariance of the propagated particles of filter `b`. -/
noncomputable def propCov (lo : ℝ) (s : PCorr N B d ℝ) (v : Fin N → Fin B → Fin d → ℝ) (b : Fin B) :
    Matrix (Fin d) (Fin d) ℝ :=
  fitCov (fun i => mass lo (s.w i b) / ∑ j, mass lo (s.w j b)) fun i => v i b

theorem gaussian_ok (hN : 0 < N) (lo : ℝ) {cholEx : Matrix (Fin d) (Fin d) ℝ → Matrix (Fin d) (Fin d) ℝ × Bool}
    (hc : IsCholEx cholEx) (propagate : TS N B d ℝ → Ω → (Fin N → Fin B → Fin d → ℝ) × Ω)
    (noise : Ω → (ℕ × ℕ → Fin d → ℝ) × Ω) (logg : Fin B → Y → ℕ → (Fin d → ℝ) → ℝ) (allNan : Y → Bool)
    (y : Y) (s : PCorr N B d ℝ) (hu : ∀ b, ∃ i, Usable (s.w i b)) (ω : Ω)
    (v : Fin N → Fin B → Fin d → ℝ) (ω₁ : Ω) (hv : propagate s.x ω = (v, ω₁))
    (hp : ∀ b, (propCov lo s v b).PosDef) :
    gpfMove lo .gaussian propagate allNan (gaussianSample cholEx propagate noise logg) y s ω =
      .ok (⟨⟨fun i b => (fitted cholEx (fun i b => colProb lo s.w b i) v b).sample ((noise ω₁).1 (i, b)), s.x.time⟩,
        fun i b => fin (logg b y s.x.time ((fitted cholEx (fun i b => colProb lo s.w b i) v b).sample ((noise ω₁).1 (i, b)))),
        fun b => fin (Real.log (1 / N * ∑ i : Fin N, Real.exp
          (logg b y s.x.time ((fitted cholEx (fun i b => colProb lo s.w b i) v b).sample ((noise ω₁).1 (i, b)))))),
        s.prev⟩, (noise ω₁).2) := by
  classical
  have hpred := predictive_eq hc propagate (gpfPred lo s) ω (q := fun i b => colProb lo s.w b i) (gpfPred_nw lo s hu)
  have hx : (gpfPred lo s).prevX = s.x := rfl
  have hp' : ∀ b, (fitCov (fun i => colProb lo s.w b i) fun i => v i b).PosDef := hp
  simp only [hx, hv] at hpred
  rw [if_pos hp'] at hpred
  exact gpf_ok (v := fun i b => (fitted cholEx (fun i b => colProb lo s.w b i) v b).sample ((noise ω₁).1 (i, b)))
      (l := fun i b => logg b y s.x.time ((fitted cholEx (fun i b => colProb lo s.w b i) v b).sample ((noise ω₁).1 (i, b))))
      (by unfold gaussianSample; rw [hpred]; rfl) hN

/-- C86 for `GaussianProposal`, the default of GPF: the particles `v` that the latent process propagates are replaced by draws
`mean + T z` from the normal distribution with their weighted mean and covariance, the new log-weights are the observation
log-densities and the log-likelihood is the logarithm of the average observation density. The move raises `ValueError` exactly
if one of the covariances is not positive definite. The time index is that of the old particles (see C34). -/
theorem C86_gaussian (hN : 0 < N) (lo : ℝ) (cholEx : Matrix (Fin d) (Fin d) ℝ → Matrix (Fin d) (Fin d) ℝ × Bool)
    (hc : IsCholEx cholEx) (propagate : TS N B d ℝ → Ω → (Fin N → Fin B → Fin d → ℝ) × Ω)
    (noise : Ω → (ℕ × ℕ → Fin d → ℝ) × Ω) (logg : Fin B → Y → ℕ → (Fin d → ℝ) → ℝ) (allNan : Y → Bool)
    (y : Y) (s : PCorr N B d ℝ) (hu : ∀ b, ∃ i, Usable (s.w i b)) (ω : Ω)
    (v : Fin N → Fin B → Fin d → ℝ) (ω₁ : Ω) (hv : propagate s.x ω = (v, ω₁)) :
    ((∃ b, ¬ (propCov lo s v b).PosDef) →
      gpfMove lo .gaussian propagate allNan (gaussianSample cholEx propagate noise logg) y s ω = .error .valueError) ∧
    ((∀ b, (propCov lo s v b).PosDef) → ∃ s',
      gpfMove lo .gaussian propagate allNan (gaussianSample cholEx propagate noise logg) y s ω = .ok (s', (noise ω₁).2) ∧
      s'.x.time = s.x.time ∧ s'.prev = s.prev ∧
      ∀ b, ∃ T : Matrix (Fin d) (Fin d) ℝ, T * Tᵀ = propCov lo s v b ∧
        (∀ i, s'.x.value i b = propMean lo s v b + T *ᵥ (noise ω₁).1 (i, b)) ∧
        (∀ i, s'.w i b = fin (logg b y s.x.time (s'.x.value i b))) ∧
        s'.ll b = fin (Real.log (1 / N * ∑ i, Real.exp (logg b y s.x.time (s'.x.value i b))))) := by
  classical
  have hpred := predictive_eq hc propagate (gpfPred lo s) ω (q := fun i b => colProb lo s.w b i) (gpfPred_nw lo s hu)
  have hx : (gpfPred lo s).prevX = s.x := rfl
  simp only [hx, hv] at hpred
  constructor
  · rintro ⟨b, hb⟩
    apply gpf_error
    unfold gaussianSample
    rw [hpred, if_neg fun h => hb (h b)]
  · intro hp
    refine ⟨_, gaussian_ok hN lo hc propagate noise logg allNan y s hu ω v ω₁ hv hp, rfl, rfl, fun b => ?_⟩
    exact ⟨(fitted cholEx (fun i b => colProb lo s.w b i) v b).tril, fitted_factor hc _ v b (hp b), fun i => rfl,
      fun i => rfl, rfl⟩

/-- The kernel of `GaussianLinearized` for a fitted distribution `f`. -/
noncomputable def modeKernel (lo : ℝ) (meanScale : Fin B → ℕ → (Fin d → ℝ) → (Fin d → ℝ) × (Fin d → ℝ))
    (findMode : Fin B → GaussKernel d → (Fin d → ℝ) → ℕ → (Fin d → ℝ) → Y → GaussKernel d) (y : Y) (s : PCorr N B d ℝ)
    (f : GaussKernel d) (b : Fin B) : GaussKernel d :=
  findMode b f (meanScale b s.x.time (propMean lo s s.x.value b)).1 (s.x.time + 1)
    (fun e => Real.sqrt (propCov lo s s.x.value b e e + (meanScale b s.x.time (propMean lo s s.x.value b)).2 e ^ 2)) y

/-- Log-weight with observation log-density `g`, fitted distribution `f` and kernel `k`. -/
noncomputable def kernelWeight (g : (Fin d → ℝ) → ℝ) (f k : GaussKernel d) (x : Fin d → ℝ) : ℝ :=
  g x + f.logProb x - k.logProb x

theorem linearized_ok (hN : 0 < N) (lo : ℝ) {cholEx : Matrix (Fin d) (Fin d) ℝ → Matrix (Fin d) (Fin d) ℝ × Bool}
    (hc : IsCholEx cholEx) (propagate : TS N B d ℝ → Ω → (Fin N → Fin B → Fin d → ℝ) × Ω)
    (noise : Ω → (ℕ × ℕ → Fin d → ℝ) × Ω) (meanScale : Fin B → ℕ → (Fin d → ℝ) → (Fin d → ℝ) × (Fin d → ℝ))
    (findMode : Fin B → GaussKernel d → (Fin d → ℝ) → ℕ → (Fin d → ℝ) → Y → GaussKernel d)
    (logg : Fin B → Y → ℕ → (Fin d → ℝ) → ℝ) (allNan : Y → Bool)
    (y : Y) (s : PCorr N B d ℝ) (hu : ∀ b, ∃ i, Usable (s.w i b)) (ω : Ω)
    (v : Fin N → Fin B → Fin d → ℝ) (ω₁ : Ω) (hv : propagate s.x ω = (v, ω₁)) (hp : ∀ b, (propCov lo s v b).PosDef)
    (f k : Fin B → GaussKernel d) (hf : f = fitted cholEx (fun i b => colProb lo s.w b i) v)
    (hk : k = fun b => modeKernel lo meanScale findMode y s (f b) b) :
    gpfMove lo .gaussianLinearized propagate allNan
        (gaussianLinearizedSample cholEx propagate noise meanScale findMode logg) y s ω =
      .ok (⟨⟨fun i b => (k b).sample ((noise ω₁).1 (i, b)), s.x.time⟩,
        fun i b => fin (kernelWeight (logg b y s.x.time) (f b) (k b) ((k b).sample ((noise ω₁).1 (i, b)))),
        fun b => fin (Real.log (1 / N * ∑ i : Fin N, Real.exp
          (kernelWeight (logg b y s.x.time) (f b) (k b) ((k b).sample ((noise ω₁).1 (i, b)))))),
        s.prev⟩, (noise ω₁).2) := by
  classical
  have hnw := gpfPred_nw lo s hu
  have hpred := predictive_eq hc propagate (gpfPred lo s) ω (q := fun i b => colProb lo s.w b i) hnw
  have hx : (gpfPred lo s).prevX = s.x := rfl
  have hmean : filterMean s.x.value (fun i b => weightVal ((gpfPred lo s).nw i b)) = propMean lo s s.x.value := by
    funext b e
    simp only [filterMean, hnw, weightVal, propMean, fitMean, colProb]
  have hvar : ∀ b e, filterVar s.x.value (fun i b => weightVal ((gpfPred lo s).nw i b)) b e
      = propCov lo s s.x.value b e e := by
    intro b e
    simp only [filterVar, hmean]
    simp only [hnw, weightVal, propMean, propCov, fitCov, of_apply, fitMean, colProb, sq]
  simp only [hx, hv] at hpred
  have hp' : ∀ b, (fitCov (fun i => colProb lo s.w b i) fun i => v i b).PosDef := hp
  rw [if_pos hp'] at hpred
  subst hf
  subst hk
  refine gpf_ok (v := fun i b => (modeKernel lo meanScale findMode y s
    (fitted cholEx (fun i b => colProb lo s.w b i) v b) b).sample ((noise ω₁).1 (i, b))) ?_ hN
  unfold gaussianLinearizedSample
  rw [hpred]
  simp only [hx, hmean, hvar]
  rfl

/-- C86 for `GaussianLinearized`: the particles are drawn from the kernel `k` that the mode finder returns for the fitted
normal distribution, and the log-weights are observation log-density plus fitted log-density minus kernel log-density. The
mode finder starts at the mean of the transition from the weighted mean of the old particles, with the scale of the
transition plus their spread. -/
theorem C86_linearized (hN : 0 < N) (lo : ℝ) (cholEx : Matrix (Fin d) (Fin d) ℝ → Matrix (Fin d) (Fin d) ℝ × Bool)
    (hc : IsCholEx cholEx) (propagate : TS N B d ℝ → Ω → (Fin N → Fin B → Fin d → ℝ) × Ω)
    (noise : Ω → (ℕ × ℕ → Fin d → ℝ) × Ω) (meanScale : Fin B → ℕ → (Fin d → ℝ) → (Fin d → ℝ) × (Fin d → ℝ))
    (findMode : Fin B → GaussKernel d → (Fin d → ℝ) → ℕ → (Fin d → ℝ) → Y → GaussKernel d)
    (logg : Fin B → Y → ℕ → (Fin d → ℝ) → ℝ) (allNan : Y → Bool)
    (y : Y) (s : PCorr N B d ℝ) (hu : ∀ b, ∃ i, Usable (s.w i b)) (ω : Ω)
    (v : Fin N → Fin B → Fin d → ℝ) (ω₁ : Ω) (hv : propagate s.x ω = (v, ω₁)) :
    ((∃ b, ¬ (propCov lo s v b).PosDef) →
      gpfMove lo .gaussianLinearized propagate allNan
        (gaussianLinearizedSample cholEx propagate noise meanScale findMode logg) y s ω = .error .valueError) ∧
    ((∀ b, (propCov lo s v b).PosDef) → ∃ s',
      gpfMove lo .gaussianLinearized propagate allNan
        (gaussianLinearizedSample cholEx propagate noise meanScale findMode logg) y s ω = .ok (s', (noise ω₁).2) ∧
      s'.x.time = s.x.time ∧ s'.prev = s.prev ∧
      ∀ b, ∃ (f k : GaussKernel d) (l : Fin N → ℝ), f.loc = propMean lo s v b ∧ f.tril * f.trilᵀ = propCov lo s v b ∧
        k = findMode b f (meanScale b s.x.time (propMean lo s s.x.value b)).1 (s.x.time + 1)
          (fun e => Real.sqrt (propCov lo s s.x.value b e e +
            (meanScale b s.x.time (propMean lo s s.x.value b)).2 e ^ 2)) y ∧
        (∀ i, s'.x.value i b = k.loc + k.tril *ᵥ (noise ω₁).1 (i, b)) ∧
        (∀ i, l i = logg b y s.x.time (s'.x.value i b) + logNormalVec (propMean lo s v b) (propCov lo s v b) (s'.x.value i b)
          - logNormalVec k.loc (k.tril * k.trilᵀ) (s'.x.value i b)) ∧
        (∀ i, s'.w i b = fin (l i)) ∧ s'.ll b = fin (Real.log (1 / N * ∑ i, Real.exp (l i)))) := by
  classical
  have hpred := predictive_eq hc propagate (gpfPred lo s) ω (q := fun i b => colProb lo s.w b i) (gpfPred_nw lo s hu)
  have hx : (gpfPred lo s).prevX = s.x := rfl
  simp only [hx, hv] at hpred
  constructor
  · rintro ⟨b, hb⟩
    apply gpf_error
    unfold gaussianLinearizedSample
    rw [hpred, if_neg fun h => hb (h b)]
  · intro hp
    refine ⟨_, linearized_ok hN lo hc propagate noise meanScale findMode logg allNan y s hu ω v ω₁ hv hp _ _ rfl rfl,
      rfl, rfl, fun b => ?_⟩
    refine ⟨fitted cholEx (fun i b => colProb lo s.w b i) v b, _, _, rfl, fitted_factor hc _ v b (hp b), rfl, fun i => rfl,
      fun i => ?_, fun i => rfl, rfl⟩
    dsimp only [kernelWeight]
    rw [fitted_logProb hc (fun i b => colProb lo s.w b i) v b (hp b)]
    simp only [GaussKernel.logProb, mvnLogProb_eq]
    rfl

/-- The linear model whose transition from any state is normal with mean `mu` and variance `var`. -/
noncomputable def frozen (L : LinearModel d m) (mu var : Fin d → ℝ) : LinearModel d m :=
  { L with meanScale := fun _ => (mu, fun e => Real.sqrt (var e)) }

theorem frozen_kernel (L : LinearModel d m) (mu : Fin d → ℝ) {var : Fin d → ℝ} (hvar : ∀ e, 0 < var e)
    (chol : Matrix (Fin d) (Fin d) ℝ → Matrix (Fin d) (Fin d) ℝ) (is1d : Bool) (y : Fin m → ℝ) (x : Fin d → ℝ) :
    (frozen L mu var).kernel chol is1d y x =
      optimalKernel chol is1d (y - L.b) mu (fun e => (var e)⁻¹) (fun j => (L.s j ^ 2)⁻¹) L.a := by
  unfold LinearModel.kernel frozen
  simp only [Real.sq_sqrt (hvar _).le]

theorem optimalKernel_loc (chol : Matrix (Fin d) (Fin d) ℝ → Matrix (Fin d) (Fin d) ℝ) (is1d : Bool) (y : Fin m → ℝ)
    (loc h : Fin d → ℝ) (o : Fin m → ℝ) (c : Matrix (Fin m) (Fin d) ℝ) :
    (optimalKernel chol is1d y loc h o c).loc = optimalMean y loc h o c := by
  unfold optimalKernel
  dsimp only
  split <;> rfl

theorem optimalCov_posDef {h : Fin d → ℝ} {o : Fin m → ℝ} (c : Matrix (Fin m) (Fin d) ℝ) (hh : ∀ e, 0 < h e)
    (ho : ∀ j, 0 < o j) : (optimalCov h o c).PosDef := by
  rw [optimalCov_eq]
  exact (precision_posDef c hh ho).inv

theorem optimalKernel_cov {chol : Matrix (Fin d) (Fin d) ℝ → Matrix (Fin d) (Fin d) ℝ}
    (hchol : ∀ S : Matrix (Fin d) (Fin d) ℝ, S.PosDef → chol S * (chol S)ᵀ = S) (y : Fin m → ℝ)
    (loc : Fin d → ℝ) {h : Fin d → ℝ} {o : Fin m → ℝ} (hh : ∀ e, 0 < h e) (ho : ∀ j, 0 < o j) (c : Matrix (Fin m) (Fin d) ℝ) :
    (optimalKernel chol (decide (d = 1)) y loc h o c).tril * (optimalKernel chol (decide (d = 1)) y loc h o c).trilᵀ
      = optimalCov h o c := by
  have hpd : (optimalCov h o c).PosDef := optimalCov_posDef c hh ho
  unfold optimalKernel
  dsimp only
  split
  · next h1 =>
    have hd : d = 1 := of_decide_eq_true h1
    have hm := matrix_one hd (optimalCov h o c)
    dsimp only
    rw [diagonal_transpose, diagonal_mul_diagonal]
    simp only [Real.mul_self_sqrt hpd.diag_pos.le]
    subst hd
    ext e f
    have he := Fin.eq_zero e
    have hf := Fin.eq_zero f
    subst he
    subst hf
    simp
  · exact hchol _ hpd

theorem kernel_logProb_optimal {chol : Matrix (Fin d) (Fin d) ℝ → Matrix (Fin d) (Fin d) ℝ}
    (hchol : ∀ S : Matrix (Fin d) (Fin d) ℝ, S.PosDef → chol S * (chol S)ᵀ = S) (L : LinearModel d m) (y : Fin m → ℝ)
    (mu : Fin d → ℝ) {var : Fin d → ℝ} (hvar : ∀ e, 0 < var e) (hs : ∀ j, 0 < L.s j) (x : Fin d → ℝ) :
    (optimalKernel chol (decide (d = 1)) (y - L.b) mu (fun e => (var e)⁻¹) (fun j => (L.s j ^ 2)⁻¹) L.a).logProb x
      = L.obsLogProb x y + (∑ e, logNormal (mu e) (var e) (x e))
        - logPredictive mu (fun e => Real.sqrt (var e)) L.a L.b L.s y := by
  have hh : ∀ e, 0 < (var e)⁻¹ := fun e => inv_pos.2 (hvar e)
  have ho : ∀ j, 0 < (L.s j ^ 2)⁻¹ := fun j => by have := hs j; positivity
  have h41 := (C41_weight_is_predictive (frozen L mu var) false (by simp) y 0 x hs
    fun e => Real.sqrt_pos.2 (hvar e)).2.1
  have e1 : (frozen L mu var).obsLogProb x y = L.obsLogProb x y := rfl
  have e2 : (frozen L mu var).transLogProb 0 x = ∑ e, logNormal (mu e) (var e) (x e) := by
    unfold LinearModel.transLogProb frozen
    refine Finset.sum_congr rfl fun e _ => ?_
    rw [normalLogProb_eq (Real.sqrt_pos.2 (hvar e)), Real.sq_sqrt (hvar e).le]
  rw [e1, e2] at h41
  refine Eq.trans ?_ h41
  unfold GaussKernel.logProb
  rw [optimalKernel_cov hchol _ _ hh ho, optimalKernel_loc]
  unfold LinearModel.kernelLogProb optimalLogProb frozen
  simp only [Real.sq_sqrt (hvar _).le]
  rfl

/-- C41: the kernel that `LinearGaussianObservations` samples from has the density of the state given previous
state and observation. -/
theorem C41_sampled_kernel {chol : Matrix (Fin d) (Fin d) ℝ → Matrix (Fin d) (Fin d) ℝ}
    (hchol : ∀ S : Matrix (Fin d) (Fin d) ℝ, S.PosDef → chol S * (chol S)ᵀ = S) (L : LinearModel d m) (y : Fin m → ℝ)
    (x x' : Fin d → ℝ) (hs : ∀ j, 0 < L.s j) (hg : ∀ e, 0 < (L.meanScale x).2 e) :
    (L.kernel chol (decide (d = 1)) y x).logProb x' = L.obsLogProb x' y + L.transLogProb x x' -
      logPredictive (L.meanScale x).1 (L.meanScale x).2 L.a L.b L.s y := by
  have h := kernel_logProb_optimal hchol L y (L.meanScale x).1 (var := fun e => (L.meanScale x).2 e ^ 2)
    (fun e => by have := hg e; positivity) hs x'
  simp only [Real.sqrt_sq (hg _).le] at h
  refine h.trans ?_
  congr 2
  unfold LinearModel.transLogProb
  exact Finset.sum_congr rfl fun e _ => (normalLogProb_eq (hg e) _).symm

/-- A random walk in two dimensions of which the first component is observed. -/
example (chol : Matrix (Fin 2) (Fin 2) ℝ → Matrix (Fin 2) (Fin 2) ℝ)
    (hchol : ∀ S : Matrix (Fin 2) (Fin 2) ℝ, S.PosDef → chol S * (chol S)ᵀ = S) (y : Fin 1 → ℝ) (x x' : Fin 2 → ℝ) :=
  C41_sampled_kernel hchol ⟨fun x => (x, fun _ => 2), !![1, 0], fun _ => 3, fun _ => 1 / 2⟩ y x x'
    (fun _ => one_half_pos) (fun _ => two_pos)

theorem spread_pos (lo : ℝ) (meanScale : Fin B → ℕ → (Fin d → ℝ) → (Fin d → ℝ) × (Fin d → ℝ))
    (hpos : ∀ b t x e, 0 < (meanScale b t x).2 e) (s : PCorr N B d ℝ) (b : Fin B) (e : Fin d) :
    0 < (meanScale b s.x.time (propMean lo s s.x.value b)).2 e ^ 2 + propCov lo s s.x.value b e e := by
  have h1 := hpos b s.x.time (propMean lo s s.x.value b) e
  have h2 : 0 ≤ propCov lo s s.x.value b e e := by
    simp only [propCov, fitCov, of_apply]
    refine Finset.sum_nonneg fun i _ => mul_nonneg ?_ (mul_self_nonneg _)
    exact div_nonneg (mass_nonneg _ _) (Finset.sum_nonneg fun _ _ => mass_nonneg _ _)
  positivity

/-- The kernel of `GaussianLinear`. -/
noncomputable def conditioned (lo : ℝ) (L : Fin B → LinearModel d m)
    (chol : Matrix (Fin d) (Fin d) ℝ → Matrix (Fin d) (Fin d) ℝ)
    (meanScale : Fin B → ℕ → (Fin d → ℝ) → (Fin d → ℝ) × (Fin d → ℝ)) (y : Fin m → ℝ) (s : PCorr N B d ℝ) (b : Fin B) :
    GaussKernel d :=
  optimalKernel chol (decide (d = 1)) (y - (L b).b) (meanScale b s.x.time (propMean lo s s.x.value b)).1
    (fun e => ((meanScale b s.x.time (propMean lo s s.x.value b)).2 e ^ 2 + propCov lo s s.x.value b e e)⁻¹)
    (fun j => ((L b).s j ^ 2)⁻¹) (L b).a

theorem linear_ok (hN : 0 < N) (lo : ℝ) {cholEx : Matrix (Fin d) (Fin d) ℝ → Matrix (Fin d) (Fin d) ℝ × Bool}
    (hc : IsCholEx cholEx) (propagate : TS N B d ℝ → Ω → (Fin N → Fin B → Fin d → ℝ) × Ω)
    (noise : Ω → (ℕ × ℕ → Fin d → ℝ) × Ω) (L : Fin B → LinearModel d m)
    (chol : Matrix (Fin d) (Fin d) ℝ → Matrix (Fin d) (Fin d) ℝ)
    (meanScale : Fin B → ℕ → (Fin d → ℝ) → (Fin d → ℝ) × (Fin d → ℝ))
    (allNan : (Fin m → ℝ) → Bool) (y : Fin m → ℝ) (s : PCorr N B d ℝ) (hu : ∀ b, ∃ i, Usable (s.w i b)) (ω ω₁ ω₂ : Ω)
    (eps : ℕ × ℕ → Fin d → ℝ) (v : Fin N → Fin B → Fin d → ℝ) (hn : noise ω = (eps, ω₁)) (hv : propagate s.x ω₁ = (v, ω₂))
    (hp : ∀ b, (propCov lo s v b).PosDef)
    (f k : Fin B → GaussKernel d) (hf : f = fitted cholEx (fun i b => colProb lo s.w b i) v)
    (hk : k = conditioned lo L chol meanScale y s) :
    gpfMove lo .gaussianLinear propagate allNan (gaussianLinearSample cholEx propagate noise L chol meanScale) y s ω =
      .ok (⟨⟨fun i b => (k b).sample (eps (i, b)), s.x.time + 1⟩,
        fun i b => fin (kernelWeight (fun x => (L b).obsLogProb x y) (f b) (k b) ((k b).sample (eps (i, b)))),
        fun b => fin (Real.log (1 / N * ∑ i : Fin N, Real.exp
          (kernelWeight (fun x => (L b).obsLogProb x y) (f b) (k b) ((k b).sample (eps (i, b)))))),
        s.prev⟩, ω₂) := by
  classical
  have hnw := gpfPred_nw lo s hu
  have hpred := predictive_eq hc propagate (gpfPred lo s) ω₁ (q := fun i b => colProb lo s.w b i) hnw
  have hx : (gpfPred lo s).prevX = s.x := rfl
  have hmean : filterMean s.x.value (fun i b => weightVal ((gpfPred lo s).nw i b)) = propMean lo s s.x.value := by
    funext b e
    simp only [filterMean, hnw, weightVal, propMean, fitMean, colProb]
  have hvar : ∀ b e, filterVar s.x.value (fun i b => weightVal ((gpfPred lo s).nw i b)) b e
      = propCov lo s s.x.value b e e := by
    intro b e
    simp only [filterVar, hmean]
    simp only [hnw, weightVal, propMean, propCov, fitCov, of_apply, fitMean, colProb, sq]
  simp only [hx, hv] at hpred
  have hp' : ∀ b, (fitCov (fun i => colProb lo s.w b i) fun i => v i b).PosDef := hp
  rw [if_pos hp'] at hpred
  subst hf
  subst hk
  refine gpf_ok (v := fun i b => (conditioned lo L chol meanScale y s b).sample (eps (i, b))) ?_ hN
  unfold gaussianLinearSample
  rw [hn]
  dsimp only
  rw [hpred]
  simp only [hx, hmean, hvar]
  rfl

/-- C86 for `GaussianLinear`: the particles are drawn from the normal distribution obtained by conditioning
`N(mu, var)` on the observation, where `mu` is the mean of the transition from the weighted mean of the old particles and
`var` the sum of its variance and their spread. The log-weight is the log predictive density of the observation under
`N(mu, var)`, corrected by the ratio of the fitted normal density of the propagated particles and `N(mu, var)`. -/
theorem C86_linear (hN : 0 < N) (lo : ℝ) (cholEx : Matrix (Fin d) (Fin d) ℝ → Matrix (Fin d) (Fin d) ℝ × Bool)
    (hc : IsCholEx cholEx) (propagate : TS N B d ℝ → Ω → (Fin N → Fin B → Fin d → ℝ) × Ω)
    (noise : Ω → (ℕ × ℕ → Fin d → ℝ) × Ω) (L : Fin B → LinearModel d m) (hs : ∀ b j, 0 < (L b).s j)
    (chol : Matrix (Fin d) (Fin d) ℝ → Matrix (Fin d) (Fin d) ℝ)
    (hchol : ∀ S : Matrix (Fin d) (Fin d) ℝ, S.PosDef → chol S * (chol S)ᵀ = S)
    (meanScale : Fin B → ℕ → (Fin d → ℝ) → (Fin d → ℝ) × (Fin d → ℝ)) (hpos : ∀ b t x e, 0 < (meanScale b t x).2 e)
    (allNan : (Fin m → ℝ) → Bool) (y : Fin m → ℝ) (s : PCorr N B d ℝ) (hu : ∀ b, ∃ i, Usable (s.w i b)) (ω ω₁ ω₂ : Ω)
    (eps : ℕ × ℕ → Fin d → ℝ) (v : Fin N → Fin B → Fin d → ℝ) (hn : noise ω = (eps, ω₁)) (hv : propagate s.x ω₁ = (v, ω₂)) :
    ((∃ b, ¬ (propCov lo s v b).PosDef) →
      gpfMove lo .gaussianLinear propagate allNan
        (gaussianLinearSample cholEx propagate noise L chol meanScale) y s ω = .error .valueError) ∧
    ((∀ b, (propCov lo s v b).PosDef) → ∃ s',
      gpfMove lo .gaussianLinear propagate allNan
        (gaussianLinearSample cholEx propagate noise L chol meanScale) y s ω = .ok (s', ω₂) ∧
      s'.x.time = s.x.time + 1 ∧ s'.prev = s.prev ∧
      ∀ b, ∃ (mu var : Fin d → ℝ) (S T : Matrix (Fin d) (Fin d) ℝ) (l : Fin N → ℝ),
        mu = (meanScale b s.x.time (propMean lo s s.x.value b)).1 ∧
        (∀ e, var e = (meanScale b s.x.time (propMean lo s s.x.value b)).2 e ^ 2 + propCov lo s s.x.value b e e) ∧
        S * (diagonal (fun e => (var e)⁻¹) + (L b).aᵀ * diagonal (fun j => ((L b).s j ^ 2)⁻¹) * (L b).a) = 1 ∧
        T * Tᵀ = S ∧
        (∀ i, s'.x.value i b = S *ᵥ (diagonal (fun e => (var e)⁻¹) *ᵥ mu +
          (L b).aᵀ *ᵥ diagonal (fun j => ((L b).s j ^ 2)⁻¹) *ᵥ (y - (L b).b)) + T *ᵥ eps (i, b)) ∧
        (∀ i, l i = logPredictive mu (fun e => Real.sqrt (var e)) (L b).a (L b).b (L b).s y
          + logNormalVec (propMean lo s v b) (propCov lo s v b) (s'.x.value i b)
          - ∑ e, logNormal (mu e) (var e) (s'.x.value i b e)) ∧
        (∀ i, s'.w i b = fin (l i)) ∧ s'.ll b = fin (Real.log (1 / N * ∑ i, Real.exp (l i)))) := by
  classical
  have hpred := predictive_eq hc propagate (gpfPred lo s) ω₁ (q := fun i b => colProb lo s.w b i) (gpfPred_nw lo s hu)
  have hx : (gpfPred lo s).prevX = s.x := rfl
  simp only [hx, hv] at hpred
  constructor
  · rintro ⟨b, hb⟩
    apply gpf_error
    unfold gaussianLinearSample
    rw [hn]
    dsimp only
    rw [hpred, if_neg fun h => hb (h b)]
  · intro hp
    refine ⟨_, linear_ok hN lo hc propagate noise L chol meanScale allNan y s hu ω ω₁ ω₂ eps v hn hv hp _ _ rfl rfl,
      rfl, rfl, fun b => ?_⟩
    set mu := (meanScale b s.x.time (propMean lo s s.x.value b)).1 with hmu
    set var := fun e => (meanScale b s.x.time (propMean lo s s.x.value b)).2 e ^ 2 + propCov lo s s.x.value b e e with hvr
    have hvarpos : ∀ e, 0 < var e := spread_pos lo meanScale hpos s b
    have hh : ∀ e, 0 < (var e)⁻¹ := fun e => inv_pos.2 (hvarpos e)
    have ho : ∀ j, 0 < ((L b).s j ^ 2)⁻¹ := fun j => by have := hs b j; positivity
    have hloc : (conditioned lo L chol meanScale y s b).loc = _ :=
      optimalKernel_loc chol (decide (d = 1)) (y - (L b).b) mu (fun e => (var e)⁻¹) (fun j => ((L b).s j ^ 2)⁻¹) (L b).a
    refine ⟨mu, var, optimalCov (fun e => (var e)⁻¹) (fun j => ((L b).s j ^ 2)⁻¹) (L b).a,
      (conditioned lo L chol meanScale y s b).tril, _, rfl,
      fun e => rfl, ?_, optimalKernel_cov hchol _ _ hh ho _, fun i => ?_, fun i => ?_, fun i => rfl, rfl⟩
    · rw [optimalCov_eq]
      exact nonsing_inv_mul _ (precision_posDef (L b).a hh ho).det_pos.ne'.isUnit
    · show (conditioned lo L chol meanScale y s b).loc + _ = _
      rw [hloc]
      congr 1
      rw [optimalMean_eq]
      congr 2
      funext e
      rw [mulVec_diagonal]
    · dsimp only [kernelWeight]
      have hkl : ∀ x, (conditioned lo L chol meanScale y s b).logProb x = _ :=
        fun x => kernel_logProb_optimal hchol (L b) y mu hvarpos (hs b) x
      rw [fitted_logProb hc (fun i b => colProb lo s.w b i) v b (hp b), hkl]
      simp only [propMean, propCov, colProb]
      ring

/-! ### C87: what the likelihood of the Gaussian particle filter estimates -/

section Likelihood

variable [MeasurableSpace Ω]

theorem fitted_measurable {cholEx : Matrix (Fin d) (Fin d) ℝ → Matrix (Fin d) (Fin d) ℝ × Bool}
    (hcm : CholExMeasurable cholEx) (q : Fin N → Fin B → ℝ) (b : Fin B) :
    KernelMeasurable fun v : Fin N → Fin B → Fin d → ℝ => fitted cholEx q v b := by
  have hmean : ∀ e, Measurable fun v : Fin N → Fin B → Fin d → ℝ => fitMean (fun i => q i b) (fun i => v i b) e := by
    intro e
    unfold fitMean
    fun_prop
  have hcov : ∀ e f, Measurable fun v : Fin N → Fin B → Fin d → ℝ => fitCov (fun i => q i b) (fun i => v i b) e f := by
    intro e f
    have h1 := hmean e
    have h2 := hmean f
    simp only [fitCov, of_apply]
    fun_prop
  refine ⟨hmean, fun e f => ?_⟩
  unfold fitted trilOf
  dsimp only
  by_cases hd : d = 1
  · simp only [dif_pos hd]
    by_cases hef : e = f
    · subst hef
      simp only [diagonal_apply_eq]
      exact Real.continuous_sqrt.measurable.comp (hcov _ _)
    · simp only [diagonal_apply_ne _ hef]
      exact measurable_const
  · simp only [dif_neg hd]
    have hM : Measurable fun v : Fin N → Fin B → Fin d → ℝ =>
        (fun e f => fitCov (fun i => q i b) (fun i => v i b) e f : Fin d → Fin d → ℝ) := by
      rw [measurable_pi_iff]; intro e
      rw [measurable_pi_iff]; intro f
      exact hcov e f
    exact (hcm.factor e f).comp hM

/-- The result of a move, where it returns one. -/
noncomputable def returned (r : Ω → Except PyErr (PCorr N B d ℝ × Ω)) (s : PCorr N B d ℝ) (ω : Ω) : PCorr N B d ℝ × Ω :=
  match r ω with
  | .ok a => a
  | .error _ => (s, ω)

theorem expOf_log_avg (hN : 0 < N) (l : Fin N → ℝ) :
    expOf (fin (Real.log (1 / N * ∑ i, Real.exp (l i)))) = 1 / N * ∑ i, Real.exp (l i) := by
  show Real.exp _ = _
  rw [Real.exp_log]
  have : Nonempty (Fin N) := ⟨⟨0, hN⟩⟩
  have h1 : 0 < ∑ i : Fin N, Real.exp (l i) := Finset.sum_pos (fun i _ => Real.exp_pos _) Finset.univ_nonempty
  have hN' : (0 : ℝ) < N := by exact_mod_cast hN
  positivity

/-- Draws of the propagated particles and of the noise, one after the other. -/
theorem draws_two {α β : Type} [MeasurableSpace α] [MeasurableSpace β] {P : Measure Ω} [IsProbabilityMeasure P]
    {f : Ω → α × Ω} {ν : Measure α} (hf : Draws P f ν) {g : Ω → β × Ω} {κ : Measure β} (hg : Draws P g κ)
    {G : α × β → ℝ≥0∞} (hG : Measurable G) :
    ∫⁻ ω, G ((f ω).1, (g (f ω).2).1) ∂P = ∫⁻ a, ∫⁻ z, G (a, z) ∂κ ∂ν := by
  have h1 : Measurable fun q : α × Ω => G (q.1, (g q.2).1) :=
    hG.comp (measurable_fst.prodMk (measurable_fst.comp (hg.measurable.comp measurable_snd)))
  rw [draws_lintegral hf h1]
  refine lintegral_congr fun a => ?_
  have h2 : Measurable fun q : β × Ω => G (a, q.1) := hG.comp (measurable_const.prodMk measurable_fst)
  have h3 := draws_lintegral hg h2
  rw [h3]
  refine lintegral_congr fun z => ?_
  simp

theorem ae_of_draws {α : Type} [MeasurableSpace α] {P : Measure Ω} [IsProbabilityMeasure P] {f : Ω → α × Ω} {ν : Measure α}
    (hf : Draws P f ν) {Q : α → Prop} (h : ∀ᵐ a ∂ν, Q a) : ∀ᵐ ω ∂P, Q (f ω).1 := by
  have := hf.prob
  have e : P.map (fun ω => (f ω).1) = ν := by
    have h1 : (fun ω => (f ω).1) = Prod.fst ∘ f := rfl
    rw [h1, ← Measure.map_map measurable_fst hf.measurable, hf.law, Measure.map_fst_prod, measure_univ, one_smul]
  rw [← e] at h
  exact ae_of_ae_map (measurable_fst.comp hf.measurable).aemeasurable h

/-- C87 for `GaussianProposal`: the mean of the likelihood estimate of a move is the observation density averaged over the
normal distribution that is fitted to the propagated particles, then averaged over the propagated particles. It is not the
average over the weighted propagated particles, for which SISR is unbiased (C30). -/
theorem C87_gaussian (P : Measure Ω) [IsProbabilityMeasure P] (hN : 0 < N) (lo : ℝ)
    (cholEx : Matrix (Fin d) (Fin d) ℝ → Matrix (Fin d) (Fin d) ℝ × Bool) (hc : IsCholEx cholEx)
    (hcm : CholExMeasurable cholEx) (propagate : TS N B d ℝ → Ω → (Fin N → Fin B → Fin d → ℝ) × Ω)
    (noise : Ω → (ℕ × ℕ → Fin d → ℝ) × Ω)
    (hnoise : Draws P noise (Measure.infinitePi fun _ => Measure.pi fun _ => gaussianReal 0 1))
    (logg : Fin B → Y → ℕ → (Fin d → ℝ) → ℝ) (allNan : Y → Bool) (y : Y)
    (s : PCorr N B d ℝ) (hu : ∀ b, ∃ i, Usable (s.w i b)) (hlogg : ∀ b, Measurable (logg b y s.x.time))
    (ν : Measure (Fin N → Fin B → Fin d → ℝ)) (hν : Draws P (propagate s.x) ν)
    (hpd : ∀ᵐ v ∂ν, ∀ b, (propCov lo s v b).PosDef) :
    ∃ run : Ω → PCorr N B d ℝ × Ω,
      (∀ᵐ ω ∂P, gpfMove lo .gaussian propagate allNan (gaussianSample cholEx propagate noise logg) y s ω = .ok (run ω)) ∧
      ∀ b, ∫⁻ ω, ENNReal.ofReal (expOf ((run ω).1.ll b)) ∂P =
        ∫⁻ v, ∫⁻ x, ENNReal.ofReal (Real.exp (logg b y s.x.time x))
          ∂(normalLaw (propMean lo s v b) (propCov lo s v b)) ∂ν := by
  have hae := ae_of_draws hν hpd
  refine ⟨returned (fun ω => gpfMove lo .gaussian propagate allNan (gaussianSample cholEx propagate noise logg) y s ω) s,
    ?_, fun b => ?_⟩
  · filter_upwards [hae] with ω hω
    unfold returned
    dsimp only
    rw [gaussian_ok hN lo hc propagate noise logg allNan y s hu ω _ _ rfl hω]
  · set f := fun v : Fin N → Fin B → Fin d → ℝ => fitted cholEx (fun i b => colProb lo s.w b i) v b with hf
    have hfm : KernelMeasurable f := fitted_measurable hcm _ b
    set G : (Fin N → Fin B → Fin d → ℝ) × (ℕ × ℕ → Fin d → ℝ) → ℝ≥0∞ := fun q =>
      ENNReal.ofReal (1 / N * ∑ i : Fin N, Real.exp (logg b y s.x.time ((f q.1).sample (q.2 (i, b))))) with hG
    have hGm : Measurable G := by
      refine (Measurable.const_mul (Finset.measurable_sum _ fun i _ => ?_) _).ennreal_ofReal
      refine Real.measurable_exp.comp ((hlogg b).comp ?_)
      have h2 : Measurable fun q : (Fin N → Fin B → Fin d → ℝ) × (ℕ × ℕ → Fin d → ℝ) =>
          (q.1, q.2 ((i : ℕ), (b : ℕ))) := by fun_prop
      exact (kernelMeasurable_sample hfm).comp h2
    have e1 : ∫⁻ ω, ENNReal.ofReal (expOf ((returned (fun ω => gpfMove lo .gaussian propagate allNan
        (gaussianSample cholEx propagate noise logg) y s ω) s ω).1.ll b)) ∂P
        = ∫⁻ ω, G ((propagate s.x ω).1, (noise (propagate s.x ω).2).1) ∂P := by
      refine lintegral_congr_ae ?_
      filter_upwards [hae] with ω hω
      unfold returned
      dsimp only
      rw [gaussian_ok hN lo hc propagate noise logg allNan y s hu ω _ _ rfl hω]
      dsimp only
      rw [expOf_log_avg hN]
    rw [e1, draws_two hν hnoise hGm]
    refine lintegral_congr_ae ?_
    filter_upwards [hpd] with v hv
    have h3 := lintegral_samples hN (f v) (fitted_det hc _ v b (hv b))
      (F := fun x => Real.exp (logg b y s.x.time x)) (Real.measurable_exp.comp (hlogg b)) (fun _ => (Real.exp_pos _).le) b
    refine Eq.trans h3 ?_
    have h4 : ∀ x, (f v).logProb x = _ := fun x => fitted_logProb hc (fun i b => colProb lo s.w b i) v b (hv b) x
    simp only [h4]
    rfl

/-- The importance weights of the other two proposals do not change the mean of the estimate. -/
theorem kernel_mean (hN : 0 < N) (g : (Fin d → ℝ) → ℝ) (hg : Measurable g) (f k : GaussKernel d) (hk : k.tril.det ≠ 0)
    (b : Fin B) :
    ∫⁻ eps : ℕ × ℕ → Fin d → ℝ, ENNReal.ofReal (1 / N * ∑ i : Fin N, Real.exp (kernelWeight g f k (k.sample (eps (i, b)))))
        ∂(Measure.infinitePi fun _ => Gauss.stdNormal d)
      = ∫⁻ x, ENNReal.ofReal (Real.exp (g x)) ∂(volume.withDensity fun x => ENNReal.ofReal (Real.exp (f.logProb x))) := by
  have hm : Measurable fun x => Real.exp (kernelWeight g f k x) := by
    unfold kernelWeight
    exact Real.measurable_exp.comp ((hg.add (measurable_logProb f)).sub (measurable_logProb k))
  rw [lintegral_samples hN k hk hm (fun _ => (Real.exp_pos _).le) b]
  exact lintegral_importance hg (measurable_logProb f) (measurable_logProb k)

/-- Measurability of the average weight in fitted distribution, kernel and noise. -/
theorem measurable_avg {X : Type} [MeasurableSpace X] {g : (Fin d → ℝ) → ℝ} (hg : Measurable g) {f k : X → GaussKernel d}
    (hf : KernelMeasurable f) (hk : KernelMeasurable k) (b : Fin B) :
    Measurable fun q : X × (ℕ × ℕ → Fin d → ℝ) => ENNReal.ofReal (1 / N * ∑ i : Fin N, Real.exp
      (kernelWeight g (f q.1) (k q.1) ((k q.1).sample (q.2 (i, b))))) := by
  refine (Measurable.const_mul (Finset.measurable_sum _ fun i _ => ?_) _).ennreal_ofReal
  refine Real.measurable_exp.comp ?_
  have h2 : Measurable fun q : X × (ℕ × ℕ → Fin d → ℝ) => (q.1, q.2 ((i : ℕ), (b : ℕ))) := by fun_prop
  have h3 : Measurable fun q : X × (ℕ × ℕ → Fin d → ℝ) => (k q.1).sample (q.2 (i, b)) := by
    have := (kernelMeasurable_sample hk).comp h2
    simp only [Function.comp_def] at this
    exact this
  have h4 : Measurable fun q : X × (ℕ × ℕ → Fin d → ℝ) => (q.1, (k q.1).sample (q.2 (i, b))) := measurable_fst.prodMk h3
  have h5 := (kernelMeasurable_logProb hf).comp h4
  have h6 := (kernelMeasurable_logProb hk).comp h4
  simp only [Function.comp_def] at h5 h6
  exact ((hg.comp h3).add h5).sub h6

/-- C87 for `GaussianLinearized`: the same mean, whatever kernel the mode finder returns for the fitted distribution, if its
scale is invertible and it depends measurably on the fitted distribution. -/
theorem C87_linearized (P : Measure Ω) [IsProbabilityMeasure P] (hN : 0 < N) (lo : ℝ)
    (cholEx : Matrix (Fin d) (Fin d) ℝ → Matrix (Fin d) (Fin d) ℝ × Bool) (hc : IsCholEx cholEx)
    (hcm : CholExMeasurable cholEx) (propagate : TS N B d ℝ → Ω → (Fin N → Fin B → Fin d → ℝ) × Ω)
    (noise : Ω → (ℕ × ℕ → Fin d → ℝ) × Ω)
    (hnoise : Draws P noise (Measure.infinitePi fun _ => Measure.pi fun _ => gaussianReal 0 1))
    (meanScale : Fin B → ℕ → (Fin d → ℝ) → (Fin d → ℝ) × (Fin d → ℝ))
    (findMode : Fin B → GaussKernel d → (Fin d → ℝ) → ℕ → (Fin d → ℝ) → Y → GaussKernel d)
    (hfm : ∀ b mean t std y, KernelMeasurable fun q : (Fin d → ℝ) × (Fin d → Fin d → ℝ) =>
      findMode b ⟨q.1, of q.2⟩ mean t std y)
    (hdet : ∀ b f mean t std y, (findMode b f mean t std y).tril.det ≠ 0)
    (logg : Fin B → Y → ℕ → (Fin d → ℝ) → ℝ) (allNan : Y → Bool) (y : Y)
    (s : PCorr N B d ℝ) (hu : ∀ b, ∃ i, Usable (s.w i b)) (hlogg : ∀ b, Measurable (logg b y s.x.time))
    (ν : Measure (Fin N → Fin B → Fin d → ℝ)) (hν : Draws P (propagate s.x) ν)
    (hpd : ∀ᵐ v ∂ν, ∀ b, (propCov lo s v b).PosDef) :
    ∃ run : Ω → PCorr N B d ℝ × Ω,
      (∀ᵐ ω ∂P, gpfMove lo .gaussianLinearized propagate allNan
        (gaussianLinearizedSample cholEx propagate noise meanScale findMode logg) y s ω = .ok (run ω)) ∧
      ∀ b, ∫⁻ ω, ENNReal.ofReal (expOf ((run ω).1.ll b)) ∂P =
        ∫⁻ v, ∫⁻ x, ENNReal.ofReal (Real.exp (logg b y s.x.time x))
          ∂(normalLaw (propMean lo s v b) (propCov lo s v b)) ∂ν := by
  have hae := ae_of_draws hν hpd
  refine ⟨returned (fun ω => gpfMove lo .gaussianLinearized propagate allNan
    (gaussianLinearizedSample cholEx propagate noise meanScale findMode logg) y s ω) s, ?_, fun b => ?_⟩
  · filter_upwards [hae] with ω hω
    unfold returned
    dsimp only
    rw [linearized_ok hN lo hc propagate noise meanScale findMode logg allNan y s hu ω _ _ rfl hω _ _ rfl rfl]
  · set f := fun v : Fin N → Fin B → Fin d → ℝ => fitted cholEx (fun i b => colProb lo s.w b i) v b with hf
    have hfm' : KernelMeasurable f := fitted_measurable hcm _ b
    set k := fun v : Fin N → Fin B → Fin d → ℝ => modeKernel lo meanScale findMode y s (f v) b with hk
    have hkm : KernelMeasurable k := by
      have h1 : Measurable fun v => ((f v).loc, fun e g => (f v).tril e g) := by
        refine Measurable.prodMk (measurable_pi_iff.2 hfm'.loc) ?_
        exact measurable_pi_iff.2 fun e => measurable_pi_iff.2 fun g => hfm'.tril e g
      have h2 := hfm b (meanScale b s.x.time (propMean lo s s.x.value b)).1 (s.x.time + 1)
        (fun e => Real.sqrt (propCov lo s s.x.value b e e + (meanScale b s.x.time (propMean lo s s.x.value b)).2 e ^ 2)) y
      exact ⟨fun e => (h2.loc e).comp h1, fun e g => (h2.tril e g).comp h1⟩
    set G : (Fin N → Fin B → Fin d → ℝ) × (ℕ × ℕ → Fin d → ℝ) → ℝ≥0∞ := fun q =>
      ENNReal.ofReal (1 / N * ∑ i : Fin N, Real.exp
        (kernelWeight (logg b y s.x.time) (f q.1) (k q.1) ((k q.1).sample (q.2 (i, b))))) with hG
    have hGm : Measurable G := measurable_avg (hlogg b) hfm' hkm b
    have e1 : ∫⁻ ω, ENNReal.ofReal (expOf ((returned (fun ω => gpfMove lo .gaussianLinearized propagate allNan
        (gaussianLinearizedSample cholEx propagate noise meanScale findMode logg) y s ω) s ω).1.ll b)) ∂P
        = ∫⁻ ω, G ((propagate s.x ω).1, (noise (propagate s.x ω).2).1) ∂P := by
      refine lintegral_congr_ae ?_
      filter_upwards [hae] with ω hω
      unfold returned
      dsimp only
      rw [linearized_ok hN lo hc propagate noise meanScale findMode logg allNan y s hu ω _ _ rfl hω _ _ rfl rfl]
      dsimp only
      rw [expOf_log_avg hN]
    rw [e1, draws_two hν hnoise hGm]
    refine lintegral_congr_ae ?_
    filter_upwards [hpd] with v hv
    refine Eq.trans (kernel_mean hN (logg b y s.x.time) (hlogg b) (f v) (k v) (hdet _ _ _ _ _ _) b) ?_
    have h4 : ∀ x, (f v).logProb x = _ := fun x => fitted_logProb hc (fun i b => colProb lo s.w b i) v b (hv b) x
    simp only [h4]
    rfl

/-- C87 for `GaussianLinear`: the same mean. Here the noise is drawn before the propagated particles. -/
theorem C87_linear (P : Measure Ω) [IsProbabilityMeasure P] (hN : 0 < N) (lo : ℝ)
    (cholEx : Matrix (Fin d) (Fin d) ℝ → Matrix (Fin d) (Fin d) ℝ × Bool) (hc : IsCholEx cholEx)
    (hcm : CholExMeasurable cholEx) (propagate : TS N B d ℝ → Ω → (Fin N → Fin B → Fin d → ℝ) × Ω)
    (noise : Ω → (ℕ × ℕ → Fin d → ℝ) × Ω)
    (hnoise : Draws P noise (Measure.infinitePi fun _ => Measure.pi fun _ => gaussianReal 0 1))
    (L : Fin B → LinearModel d m) (hs : ∀ b j, 0 < (L b).s j)
    (chol : Matrix (Fin d) (Fin d) ℝ → Matrix (Fin d) (Fin d) ℝ)
    (hchol : ∀ S : Matrix (Fin d) (Fin d) ℝ, S.PosDef → chol S * (chol S)ᵀ = S)
    (meanScale : Fin B → ℕ → (Fin d → ℝ) → (Fin d → ℝ) × (Fin d → ℝ)) (hpos : ∀ b t x e, 0 < (meanScale b t x).2 e)
    (allNan : (Fin m → ℝ) → Bool) (y : Fin m → ℝ) (s : PCorr N B d ℝ) (hu : ∀ b, ∃ i, Usable (s.w i b))
    (ν : Measure (Fin N → Fin B → Fin d → ℝ)) (hν : Draws P (propagate s.x) ν)
    (hpd : ∀ᵐ v ∂ν, ∀ b, (propCov lo s v b).PosDef) :
    ∃ run : Ω → PCorr N B d ℝ × Ω,
      (∀ᵐ ω ∂P, gpfMove lo .gaussianLinear propagate allNan
        (gaussianLinearSample cholEx propagate noise L chol meanScale) y s ω = .ok (run ω)) ∧
      ∀ b, ∫⁻ ω, ENNReal.ofReal (expOf ((run ω).1.ll b)) ∂P =
        ∫⁻ v, ∫⁻ x, ENNReal.ofReal (∏ j, Real.exp (logNormal ((L b).b j + ((L b).a *ᵥ x) j) ((L b).s j ^ 2) (y j)))
          ∂(normalLaw (propMean lo s v b) (propCov lo s v b)) ∂ν := by
  have := hν.prob
  have := hnoise.prob
  have hae : ∀ᵐ ω ∂P, ∀ b, (propCov lo s (propagate s.x (noise ω).2).1 b).PosDef := by
    have h1 : P.map (fun ω => (noise ω).2) = P := by
      have h2 : (fun ω => (noise ω).2) = Prod.snd ∘ noise := rfl
      rw [h2, ← Measure.map_map measurable_snd hnoise.measurable, hnoise.law, Measure.map_snd_prod, measure_univ, one_smul]
    have h3 := ae_of_draws hν hpd
    rw [← h1] at h3
    exact ae_of_ae_map (measurable_snd.comp hnoise.measurable).aemeasurable h3
  refine ⟨returned (fun ω => gpfMove lo .gaussianLinear propagate allNan
    (gaussianLinearSample cholEx propagate noise L chol meanScale) y s ω) s, ?_, fun b => ?_⟩
  · filter_upwards [hae] with ω hω
    unfold returned
    dsimp only
    rw [linear_ok hN lo hc propagate noise L chol meanScale allNan y s hu ω _ _ _ _ rfl rfl hω _ _ rfl rfl]
  · set f := fun v : Fin N → Fin B → Fin d → ℝ => fitted cholEx (fun i b => colProb lo s.w b i) v b with hf
    have hfm' : KernelMeasurable f := fitted_measurable hcm _ b
    set k := conditioned lo L chol meanScale y s b with hk
    have hkm : KernelMeasurable fun _ : Fin N → Fin B → Fin d → ℝ => k :=
      ⟨fun _ => measurable_const, fun _ _ => measurable_const⟩
    have hg : Measurable fun x => (L b).obsLogProb x y := measurable_obsLogProb (L b) y
    have hkdet : k.tril.det ≠ 0 := by
      intro h0
      have hh : ∀ e, 0 < ((meanScale b s.x.time (propMean lo s s.x.value b)).2 e ^ 2 + propCov lo s s.x.value b e e)⁻¹ :=
        fun e => inv_pos.2 (spread_pos lo meanScale hpos s b e)
      have ho : ∀ j, 0 < ((L b).s j ^ 2)⁻¹ := fun j => by have := hs b j; positivity
      have h1 : k.tril * k.trilᵀ = _ := optimalKernel_cov hchol _ _ hh ho _
      have h2 := optimalCov_posDef (L b).a hh ho
      have h3 := h2.det_pos
      rw [← h1, det_mul, h0, zero_mul] at h3
      exact h3.ne rfl
    set G : (Fin N → Fin B → Fin d → ℝ) × (ℕ × ℕ → Fin d → ℝ) → ℝ≥0∞ := fun q =>
      ENNReal.ofReal (1 / N * ∑ i : Fin N, Real.exp
        (kernelWeight (fun x => (L b).obsLogProb x y) (f q.1) k (k.sample (q.2 (i, b))))) with hG
    have hGm : Measurable G := measurable_avg hg hfm' hkm b
    have e1 : ∫⁻ ω, ENNReal.ofReal (expOf ((returned (fun ω => gpfMove lo .gaussianLinear propagate allNan
        (gaussianLinearSample cholEx propagate noise L chol meanScale) y s ω) s ω).1.ll b)) ∂P
        = ∫⁻ ω, G ((propagate s.x (noise ω).2).1, (noise ω).1) ∂P := by
      refine lintegral_congr_ae ?_
      filter_upwards [hae] with ω hω
      unfold returned
      dsimp only
      rw [linear_ok hN lo hc propagate noise L chol meanScale allNan y s hu ω _ _ _ _ rfl rfl hω _ _ rfl rfl]
      dsimp only
      rw [expOf_log_avg hN]
    have h5 : Measurable fun q : (ℕ × ℕ → Fin d → ℝ) × (Fin N → Fin B → Fin d → ℝ) => G (q.2, q.1) :=
      hGm.comp measurable_swap
    rw [e1, draws_two hnoise hν h5, lintegral_lintegral_swap h5.aemeasurable]
    refine lintegral_congr_ae ?_
    filter_upwards [hpd] with v hv
    refine Eq.trans (kernel_mean hN _ hg (f v) k hkdet b) ?_
    have h4 : ∀ x, (f v).logProb x = _ := fun x => fitted_logProb hc (fun i b => colProb lo s.w b i) v b (hv b) x
    have h6 : ∀ x, Real.exp ((L b).obsLogProb x y) =
        ∏ j, Real.exp (logNormal ((L b).b j + ((L b).a *ᵥ x) j) ((L b).s j ^ 2) (y j)) := by
      intro x
      unfold LinearModel.obsLogProb
      rw [Real.exp_sum]
      exact Finset.prod_congr rfl fun j _ => by rw [normalLogProb_eq (hs b j)]
    simp only [h4, h6]
    rfl

end Likelihood

/-! ### C88: how many particles the Gaussian particle filter needs -/

/-- C88, first half: with no more particles than the state has components, the covariance of the propagated particles is
singular and every move raises `ValueError`, for every proposal, model, observation and state of the generator. -/
theorem C88_too_few (hN : 0 < N) (hd : N ≤ d) (b₀ : Fin B) (lo : ℝ)
    (cholEx : Matrix (Fin d) (Fin d) ℝ → Matrix (Fin d) (Fin d) ℝ × Bool)
    (hc : IsCholEx cholEx) (propagate : TS N B d ℝ → Ω → (Fin N → Fin B → Fin d → ℝ) × Ω)
    (noise : Ω → (ℕ × ℕ → Fin d → ℝ) × Ω) (meanScale : Fin B → ℕ → (Fin d → ℝ) → (Fin d → ℝ) × (Fin d → ℝ))
    (findMode : Fin B → GaussKernel d → (Fin d → ℝ) → ℕ → (Fin d → ℝ) → Y → GaussKernel d)
    (logg : Fin B → Y → ℕ → (Fin d → ℝ) → ℝ) (allNan : Y → Bool) (y : Y)
    (L : Fin B → LinearModel d m) (chol : Matrix (Fin d) (Fin d) ℝ → Matrix (Fin d) (Fin d) ℝ)
    (allNan' : (Fin m → ℝ) → Bool) (y' : Fin m → ℝ)
    (s : PCorr N B d ℝ) (hu : ∀ b, ∃ i, Usable (s.w i b)) (ω : Ω) :
    gpfMove lo .gaussian propagate allNan (gaussianSample cholEx propagate noise logg) y s ω = .error .valueError ∧
    gpfMove lo .gaussianLinearized propagate allNan
      (gaussianLinearizedSample cholEx propagate noise meanScale findMode logg) y s ω = .error .valueError ∧
    gpfMove lo .gaussianLinear propagate allNan'
      (gaussianLinearSample cholEx propagate noise L chol meanScale) y' s ω = .error .valueError := by
  classical
  have hsing : ∀ v : Fin N → Fin B → Fin d → ℝ, ∃ b, ¬ (fitCov (fun i => colProb lo s.w b i) fun i => v i b).PosDef := by
    intro v
    refine ⟨b₀, Gauss.fitCov_singular hN hd _ ?_ _⟩
    simp only [colProb, ← Finset.sum_div]
    refine div_self ?_
    obtain ⟨i, hi⟩ := hu b₀
    refine (Finset.sum_pos' (fun j _ => mass_nonneg _ _) ⟨i, Finset.mem_univ i, ?_⟩).ne'
    exact mass_pos hi
  refine ⟨(C86_gaussian hN lo cholEx hc propagate noise logg allNan y s hu ω _ _ rfl).1 (hsing _),
    (C86_linearized hN lo cholEx hc propagate noise meanScale findMode logg allNan y s hu ω _ _ rfl).1 (hsing _), ?_⟩
  have hpred := predictive_eq hc propagate (gpfPred lo s) (noise ω).2 (q := fun i b => colProb lo s.w b i) (gpfPred_nw lo s hu)
  apply gpf_error
  unfold gaussianLinearSample
  dsimp only
  obtain ⟨b, hb⟩ := hsing (propagate s.x (noise ω).2).1
  rw [hpred, if_neg fun h => hb (h b)]

/-- C88, second half: with more particles than components, all of them usable, and a latent process that adds normal noise
with nowhere vanishing scale, almost every move returns. -/
theorem C88_enough [MeasurableSpace Ω] (P : Measure Ω) [IsProbabilityMeasure P] (hd : d < N) (lo : ℝ)
    (cholEx : Matrix (Fin d) (Fin d) ℝ → Matrix (Fin d) (Fin d) ℝ × Bool) (hc : IsCholEx cholEx)
    (noise noise' : Ω → (ℕ × ℕ → Fin d → ℝ) × Ω)
    (hnoise : Draws P noise (Measure.infinitePi fun _ => Measure.pi fun _ => gaussianReal 0 1))
    (hnoise' : Draws P noise' (Measure.infinitePi fun _ => Measure.pi fun _ => gaussianReal 0 1))
    (meanScale : Fin B → ℕ → (Fin d → ℝ) → (Fin d → ℝ) × (Fin d → ℝ)) (hpos : ∀ b t x e, (meanScale b t x).2 e ≠ 0)
    (findMode : Fin B → GaussKernel d → (Fin d → ℝ) → ℕ → (Fin d → ℝ) → Y → GaussKernel d)
    (logg : Fin B → Y → ℕ → (Fin d → ℝ) → ℝ) (allNan : Y → Bool) (y : Y)
    (L : Fin B → LinearModel d m) (chol : Matrix (Fin d) (Fin d) ℝ → Matrix (Fin d) (Fin d) ℝ)
    (allNan' : (Fin m → ℝ) → Bool) (y' : Fin m → ℝ)
    (s : PCorr N B d ℝ) (hu : ∀ i b, Usable (s.w i b)) :
    (∀ᵐ ω ∂P, ∃ r, gpfMove lo .gaussian (affinePropagate noise meanScale) allNan
      (gaussianSample cholEx (affinePropagate noise meanScale) noise' logg) y s ω = .ok r) ∧
    (∀ᵐ ω ∂P, ∃ r, gpfMove lo .gaussianLinearized (affinePropagate noise meanScale) allNan
      (gaussianLinearizedSample cholEx (affinePropagate noise meanScale) noise' meanScale findMode logg) y s ω = .ok r) ∧
    (∀ᵐ ω ∂P, ∃ r, gpfMove lo .gaussianLinear (affinePropagate noise meanScale) allNan'
      (gaussianLinearSample cholEx (affinePropagate noise meanScale) noise' L chol meanScale) y' s ω = .ok r) := by
  have hN : 0 < N := by omega
  have hu' : ∀ b, ∃ i, Usable (s.w i b) := fun b => ⟨⟨0, hN⟩, hu _ b⟩
  have := hnoise'.prob
  have hq : ∀ b i, 0 < mass lo (s.w i b) / ∑ j, mass lo (s.w j b) := fun b i =>
    div_pos (mass_pos (hu i b)) (Finset.sum_pos' (fun j _ => mass_nonneg _ _) ⟨i, Finset.mem_univ i, mass_pos (hu i b)⟩)
  have hpd : ∀ᵐ ω ∂P, ∀ b, (propCov lo s (affinePropagate noise meanScale s.x ω).1 b).PosDef := by
    rw [ae_all_iff]
    intro b
    exact ae_of_draws hnoise (Gauss.noise_posDef hd _ (hq b) (fun i e => (meanScale b s.x.time (s.x.value i b)).1 e)
      (fun i e => (meanScale b s.x.time (s.x.value i b)).2 e) (fun i e => hpos _ _ _ e) b)
  have hpd' : ∀ᵐ ω ∂P, ∀ b, (propCov lo s (affinePropagate noise meanScale s.x (noise' ω).2).1 b).PosDef := by
    have h1 : P.map (fun ω => (noise' ω).2) = P := by
      have h2 : (fun ω => (noise' ω).2) = Prod.snd ∘ noise' := rfl
      rw [h2, ← Measure.map_map measurable_snd hnoise'.measurable, hnoise'.law, Measure.map_snd_prod, measure_univ, one_smul]
    rw [← h1] at hpd
    exact ae_of_ae_map (measurable_snd.comp hnoise'.measurable).aemeasurable hpd
  refine ⟨?_, ?_, ?_⟩
  · filter_upwards [hpd] with ω hω
    exact ⟨_, gaussian_ok hN lo hc (affinePropagate noise meanScale) noise' logg allNan y s hu' ω _ _ rfl hω⟩
  · filter_upwards [hpd] with ω hω
    exact ⟨_, linearized_ok hN lo hc (affinePropagate noise meanScale) noise' meanScale findMode logg allNan y s hu' ω _ _ rfl hω
      _ _ rfl rfl⟩
  · filter_upwards [hpd'] with ω hω
    exact ⟨_, linear_ok hN lo hc (affinePropagate noise meanScale) noise' L chol meanScale allNan' y' s hu' ω _ _ _ _ rfl rfl hω
      _ _ rfl rfl⟩

theorem posDef_measurable (lo : ℝ) (s : PCorr N B d ℝ) (b : Fin B) :
    MeasurableSet {v : Fin N → Fin B → Fin d → ℝ | (propCov lo s v b).PosDef} := by
  have hcov : ∀ e f, Measurable fun v : Fin N → Fin B → Fin d → ℝ => propCov lo s v b e f := by
    intro e f
    simp only [propCov, fitCov, fitMean, of_apply]
    fun_prop
  have h : {v : Fin N → Fin B → Fin d → ℝ | (propCov lo s v b).PosDef} = {v | (propCov lo s v b).det ≠ 0} := by
    ext v
    exact Gauss.fitCov_posDef_iff _ (fun i => div_nonneg (mass_nonneg _ _) (Finset.sum_nonneg fun _ _ => mass_nonneg _ _)) _
  rw [h]
  exact (measurable_det hcov) (measurableSet_singleton (0 : ℝ)).compl

/-! ### Cases -/

theorem cholEx2_measurable : CholExMeasurable cholEx2 := ⟨chol2_isCholesky.measurable⟩

/-- Three particles in the plane with equal weights. -/
noncomputable def triangle : PCorr 3 2 2 ℝ :=
  ⟨⟨fun i _ => ![![0, 0], ![1, 0], ![0, 1]] i, 4⟩, fun _ _ => fin 0, fun _ => fin 0, fun _ _ => 0⟩

theorem triangle_posDef (lo : ℝ) (b : Fin 2) : (propCov lo triangle triangle.x.value b).PosDef := by
  refine Gauss.fitCov_posDef _ (fun i => ?_) _ 0 ![1, 2] ?_
  · simp only [triangle, mass, Real.exp_zero, Finset.sum_const, Finset.card_univ, Fintype.card_fin]
    norm_num
  · simp [triangle, det_fin_two]

/-- A case for C86: the particles of the triangle are propagated to themselves. -/
example : IsCholEx cholEx2 ∧ (∀ b, ∃ i, Usable (triangle.w i b)) ∧ (∀ b, (propCov 0 triangle triangle.x.value b).PosDef) ∧
    (∀ b j, 0 < (kernelLinear b).s j) ∧ (∀ S : Matrix (Fin 2) (Fin 2) ℝ, S.PosDef → chol2 S * (chol2 S)ᵀ = S) ∧
    ∀ b t x e, 0 < (kernelMeanScale b t x).2 e :=
  ⟨cholEx2_spec, fun _ => ⟨0, trivial⟩, triangle_posDef 0, fun b j => by fin_cases j; simp [kernelLinear],
    chol2_isCholesky.factor, kernelMeanScale_pos⟩

/-- A case for C86 where the move raises: three particles on a line. -/
example : ∃ b : Fin 2, ¬ (propCov 0 triangle (fun i _ => ![![0, 0], ![1, 1], ![2, 2]] i) b).PosDef := by
  refine ⟨0, fun h => ?_⟩
  have h1 := h.dotProduct_mulVec_pos (x := ![1, -1]) (by intro h; simpa using congrFun h 0)
  rw [star_trivial] at h1
  unfold propCov at h1
  rw [Gauss.fitCov_form, Gauss.fitMean_dot] at h1
  have h2 : ∀ i : Fin 3, ![1, -1] ⬝ᵥ (![![0, 0], ![1, 1], ![2, 2]] i : Fin 2 → ℝ) = 0 := by
    intro i
    fin_cases i <;> simp [dotProduct, Fin.sum_univ_two]
  simp [h2] at h1

/-- A case for C87: the particles of the triangle, moved by normal noise. -/
example : ∃ ν, Draws (streamLaw kernelEntryLaw)
      (affinePropagate (fun ω => ((next ω).1.2.2.1, (next ω).2)) kernelMeanScale triangle.x) ν ∧
    (∀ᵐ v ∂ν, ∀ b, (propCov 0 triangle v b).PosDef) ∧ CholExMeasurable cholEx2 ∧
    (∀ (b : Fin 2) (mean : Fin 2 → ℝ) (t : ℕ) (std : Fin 2 → ℝ) (y : ℝ),
      KernelMeasurable fun q : (Fin 2 → ℝ) × (Fin 2 → Fin 2 → ℝ) => (⟨q.1, !![2, 0; y, 1]⟩ : GaussKernel 2)) ∧
    ∀ y : ℝ, (!![2, 0; y, 1] : Matrix (Fin 2) (Fin 2) ℝ).det ≠ 0 := by
  have hm : Measurable fun eps : ℕ × ℕ → Fin 2 → ℝ => (fun (i : Fin 3) (b : Fin 2) (e : Fin 2) =>
      (kernelMeanScale b triangle.x.time (triangle.x.value i b)).1 e
        + (kernelMeanScale b triangle.x.time (triangle.x.value i b)).2 e * eps (i, b) e) := by fun_prop
  refine ⟨_, draws_map kernel_noise hm, ?_, cholEx2_measurable, fun _ _ _ _ y => ⟨fun e => by fun_prop, fun e f =>
    measurable_const⟩, fun y => by simp [det_fin_two]⟩
  rw [ae_all_iff]
  intro b
  rw [ae_map_iff hm.aemeasurable (posDef_measurable 0 triangle b)]
  refine Gauss.noise_posDef (by norm_num) _ (fun i => ?_) (fun i e => (kernelMeanScale b triangle.x.time (triangle.x.value i b)).1 e)
      (fun i e => (kernelMeanScale b triangle.x.time (triangle.x.value i b)).2 e)
      (fun i e => (kernelMeanScale_pos _ _ _ e).ne') b
  simp only [triangle, mass, Real.exp_zero, Finset.sum_const, Finset.card_univ, Fintype.card_fin]
  norm_num

/-- A case for `C88_enough`: three particles in the plane. For `C88_too_few`: two particles in the plane. -/
example : (2 : ℕ) < 3 ∧ (∀ i b, Usable (triangle.w i b)) ∧ (∀ b t x e, (kernelMeanScale b t x).2 e ≠ 0) ∧
    Draws (streamLaw kernelEntryLaw) (fun ω => ((next ω).1.2.2.1, (next ω).2))
      (Measure.infinitePi fun _ => Measure.pi fun _ => gaussianReal 0 1) ∧
    Draws (streamLaw kernelEntryLaw) (fun ω => ((next ω).1.2.2.2, (next ω).2))
      (Measure.infinitePi fun _ => Measure.pi fun _ => gaussianReal 0 1) :=
  ⟨by norm_num, fun _ _ => trivial, fun b t x e => (kernelMeanScale_pos b t x e).ne', kernel_noise, kernel_inner⟩

end Verif.Props
