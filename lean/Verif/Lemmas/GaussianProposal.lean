import Verif.Model.GaussianProposal
import Verif.Spec.GaussianProposal
import Verif.Lemmas.KernelProposal
import Verif.Lemmas.Nested

/-!
# Fitted normal distributions
-/

namespace Verif.Unbiased

open Verif Verif.Spec XF MeasureTheory ProbabilityTheory Matrix
open scoped ENNReal

variable {N B d m : ℕ} {Y Ω : Type}

/-- Covariances are symmetric. -/
theorem cov_symm (w : Fin N → ℝ) (x : Fin N → Fin d → ℝ) : (fitCov w x).IsHermitian := by
  ext e f
  simp only [conjTranspose_apply, fitCov, of_apply, star_trivial]
  exact Finset.sum_congr rfl fun i _ => by ring

/-- The factor that the constructor of the distribution uses. -/
noncomputable def trilOf (cholEx : Matrix (Fin d) (Fin d) ℝ → Matrix (Fin d) (Fin d) ℝ × Bool)
    (S : Matrix (Fin d) (Fin d) ℝ) : Matrix (Fin d) (Fin d) ℝ :=
  if h : d = 1 then diagonal fun _ => Real.sqrt (S ⟨0, by omega⟩ ⟨0, by omega⟩) else (cholEx S).1

theorem matrix_one (hd : d = 1) (S : Matrix (Fin d) (Fin d) ℝ) :
    S = diagonal fun _ => S ⟨0, by omega⟩ ⟨0, by omega⟩ := by
  subst hd
  ext e f
  have he := Fin.eq_zero e
  have hf := Fin.eq_zero f
  subst he
  subst hf
  simp

theorem normalOfCov_eq {cholEx : Matrix (Fin d) (Fin d) ℝ → Matrix (Fin d) (Fin d) ℝ × Bool} (hc : IsCholEx cholEx)
    (mean : Fin d → ℝ) {S : Matrix (Fin d) (Fin d) ℝ} (hS : S.IsHermitian) :
    (S.PosDef → normalOfCov cholEx mean S = .ok ⟨mean, trilOf cholEx S⟩ ∧ trilOf cholEx S * (trilOf cholEx S)ᵀ = S) ∧
    (¬ S.PosDef → normalOfCov cholEx mean S = .error .valueError) := by
  unfold normalOfCov trilOf
  by_cases hd : d = 1
  · have h1 := matrix_one hd S
    simp only [dif_pos hd]
    constructor
    · intro hp
      have hpos : 0 < S ⟨0, by omega⟩ ⟨0, by omega⟩ := hp.diag_pos
      rw [if_pos (Real.sqrt_pos.2 hpos)]
      refine ⟨rfl, ?_⟩
      rw [diagonal_transpose, diagonal_mul_diagonal]
      simp only [Real.mul_self_sqrt hpos.le]
      exact h1.symm
    · intro hp
      rw [if_neg]
      intro h0
      refine hp ?_
      rw [h1]
      exact PosDef.diagonal fun _ => Real.sqrt_pos.1 h0
  · simp only [dif_neg hd]
    constructor
    · intro hp
      obtain ⟨h1, h2, -, -⟩ := hc.ok S hp
      rw [h1]
      exact ⟨rfl, h2⟩
    · intro hp
      rw [hc.failed S hS hp]
      rfl

open Classical in
theorem normals_eq {cholEx : Matrix (Fin d) (Fin d) ℝ → Matrix (Fin d) (Fin d) ℝ × Bool} (hc : IsCholEx cholEx)
    (mean : Fin B → Fin d → ℝ) {S : Fin B → Matrix (Fin d) (Fin d) ℝ} (hS : ∀ b, (S b).IsHermitian) :
    normals cholEx mean S =
      if ∀ b, (S b).PosDef then .ok fun b => ⟨mean b, trilOf cholEx (S b)⟩ else .error .valueError := by
  have hiff : ∀ b, (∃ k, normalOfCov cholEx (mean b) (S b) = .ok k) ↔ (S b).PosDef := by
    intro b
    constructor
    · rintro ⟨k, hk⟩
      by_contra hp
      rw [(normalOfCov_eq hc (mean b) (hS b)).2 hp] at hk
      cases hk
    · exact fun hp => ⟨_, ((normalOfCov_eq hc (mean b) (hS b)).1 hp).1⟩
  unfold normals
  by_cases hp : ∀ b, (S b).PosDef
  · have h : ∀ b, ∃ k, normalOfCov cholEx (mean b) (S b) = .ok k := fun b => (hiff b).2 (hp b)
    rw [dif_pos h, if_pos hp]
    congr 1
    funext b
    exact Except.ok.inj ((h b).choose_spec.symm.trans ((normalOfCov_eq hc (mean b) (hS b)).1 (hp b)).1)
  · rw [dif_neg (fun h => hp fun b => (hiff b).1 (h b)), if_neg hp]

/-- The predictive density of one filter: the fitted normal. -/
noncomputable def fitted (cholEx : Matrix (Fin d) (Fin d) ℝ → Matrix (Fin d) (Fin d) ℝ × Bool) (q : Fin N → Fin B → ℝ)
    (v : Fin N → Fin B → Fin d → ℝ) (b : Fin B) : GaussKernel d :=
  ⟨fitMean (fun i => q i b) fun i => v i b, trilOf cholEx (fitCov (fun i => q i b) fun i => v i b)⟩

open Classical in
theorem predictive_eq {cholEx : Matrix (Fin d) (Fin d) ℝ → Matrix (Fin d) (Fin d) ℝ × Bool} (hc : IsCholEx cholEx)
    (propagate : TS N B d ℝ → Ω → (Fin N → Fin B → Fin d → ℝ) × Ω) (p : PPred N B d ℝ) (ω : Ω)
    {q : Fin N → Fin B → ℝ} (hq : ∀ i b, p.nw i b = fin (q i b)) :
    predictiveDensity cholEx propagate p ω =
      (if ∀ b, (fitCov (fun i => q i b) fun i => (propagate p.prevX ω).1 i b).PosDef
        then .ok (fitted cholEx q (propagate p.prevX ω).1) else .error .valueError, (propagate p.prevX ω).2) := by
  have h1 : ∀ b, (of (filterCov (propagate p.prevX ω).1 (fun i b => weightVal (p.nw i b)) b) : Matrix (Fin d) (Fin d) ℝ) =
      fitCov (fun i => q i b) fun i => (propagate p.prevX ω).1 i b := by
    intro b
    ext e f
    simp only [filterCov, filterMean, fitCov, fitMean, of_apply, hq, weightVal]
  have h2 : filterMean (propagate p.prevX ω).1 (fun i b => weightVal (p.nw i b)) =
      fun b => fitMean (fun i => q i b) fun i => (propagate p.prevX ω).1 i b := by
    funext b e
    simp only [filterMean, fitMean, hq, weightVal]
  unfold predictiveDensity
  simp only [h1, h2]
  rw [normals_eq hc _ fun b => cov_symm _ _]
  rfl

theorem fitted_factor {cholEx : Matrix (Fin d) (Fin d) ℝ → Matrix (Fin d) (Fin d) ℝ × Bool} (hc : IsCholEx cholEx)
    (q : Fin N → Fin B → ℝ) (v : Fin N → Fin B → Fin d → ℝ) (b : Fin B)
    (h : (fitCov (fun i => q i b) fun i => v i b).PosDef) :
    (fitted cholEx q v b).tril * (fitted cholEx q v b).trilᵀ = fitCov (fun i => q i b) fun i => v i b :=
  ((normalOfCov_eq hc 0 (cov_symm _ _)).1 h).2

theorem fitted_det {cholEx : Matrix (Fin d) (Fin d) ℝ → Matrix (Fin d) (Fin d) ℝ × Bool} (hc : IsCholEx cholEx)
    (q : Fin N → Fin B → ℝ) (v : Fin N → Fin B → Fin d → ℝ) (b : Fin B)
    (h : (fitCov (fun i => q i b) fun i => v i b).PosDef) : (fitted cholEx q v b).tril.det ≠ 0 := by
  intro h0
  have h1 := fitted_factor hc q v b h
  have : (fitCov (fun i => q i b) fun i => v i b).det = 0 := by rw [← h1, det_mul, h0, zero_mul]
  exact h.det_pos.ne' this

theorem fitted_logProb {cholEx : Matrix (Fin d) (Fin d) ℝ → Matrix (Fin d) (Fin d) ℝ × Bool} (hc : IsCholEx cholEx)
    (q : Fin N → Fin B → ℝ) (v : Fin N → Fin B → Fin d → ℝ) (b : Fin B)
    (h : (fitCov (fun i => q i b) fun i => v i b).PosDef) (x : Fin d → ℝ) :
    (fitted cholEx q v b).logProb x =
      logNormalVec (fitMean (fun i => q i b) fun i => v i b) (fitCov (fun i => q i b) fun i => v i b) x := by
  unfold GaussKernel.logProb
  rw [fitted_factor hc q v b h, mvnLogProb_eq]
  rfl

/-- Likelihood estimate of finite importance weights. -/
theorem logLikelihood_mean (hN : 0 < N) (l : Fin N → Fin B → ℝ) (b : Fin B) :
    logLikelihood (fun i b => fin (l i b)) none b = fin (Real.log (1 / N * ∑ i, Real.exp (l i b))) := by
  have hpos : ∑ i, 1 / (N : ℝ) * expOf (fin (l i b)) ≠ 0 := (uavg_pos hN b l).ne'
  rw [logLikelihood_none, logLikelihood_weighted _ _ b (fun _ => 1 / (N : ℝ)) (fun _ => rfl) (fun _ => by positivity)
    (fun i => Or.inr ⟨_, rfl⟩) ⟨⟨0, hN⟩, _, rfl⟩]
  rw [if_neg hpos, Finset.mul_sum]
  rfl

variable [MeasurableSpace Ω] {P : Measure Ω}

/-- Average over the particles of a function of samples of a normal kernel. -/
theorem lintegral_samples (hN : 0 < N) (k : GaussKernel d) (hk : k.tril.det ≠ 0) {F : (Fin d → ℝ) → ℝ}
    (hF : Measurable F) (h0 : ∀ x, 0 ≤ F x) (b : Fin B) :
    ∫⁻ eps : ℕ × ℕ → Fin d → ℝ, ENNReal.ofReal (1 / N * ∑ i : Fin N, F (k.sample (eps (i, b))))
        ∂(Measure.infinitePi fun _ => Gauss.stdNormal d)
      = ∫⁻ x, ENNReal.ofReal (F x) ∂(volume.withDensity fun x => ENNReal.ofReal (Real.exp (k.logProb x))) := by
  have hkm : KernelMeasurable fun _ : Unit => k := ⟨fun e => measurable_const, fun e f => measurable_const⟩
  have hks : Measurable k.sample :=
    (kernelMeasurable_sample hkm).comp ((measurable_const (a := ())).prodMk measurable_id)
  have hm : Measurable fun x => ENNReal.ofReal (F x) := hF.ennreal_ofReal
  have hms : ∀ i : Fin N, Measurable fun eps : ℕ × ℕ → Fin d → ℝ => k.sample (eps (i, b)) := fun i =>
    hks.comp (measurable_pi_apply _)
  have hone : ∀ i : Fin N, ∫⁻ eps : ℕ × ℕ → Fin d → ℝ, ENNReal.ofReal (F (k.sample (eps (i, b))))
        ∂(Measure.infinitePi fun _ => Gauss.stdNormal d)
      = ∫⁻ x, ENNReal.ofReal (F x) ∂(volume.withDensity fun x => ENNReal.ofReal (Real.exp (k.logProb x))) := by
    intro i
    have e1 : (Measure.infinitePi fun _ : ℕ × ℕ => Gauss.stdNormal d).map (fun eps => k.sample (eps (i, b)))
        = volume.withDensity fun x => ENNReal.ofReal (Real.exp (k.logProb x)) := by
      have : (fun eps : ℕ × ℕ → Fin d → ℝ => k.sample (eps (i, b))) = k.sample ∘ fun eps => eps ((i : ℕ), (b : ℕ)) := rfl
      rw [this, ← Measure.map_map hks (measurable_pi_apply _), Measure.infinitePi_map_eval]
      exact gauss_law k hk
    rw [← e1, lintegral_map hm (hms i)]
  have hmm : ∀ i : Fin N, Measurable fun eps : ℕ × ℕ → Fin d → ℝ => ENNReal.ofReal (F (k.sample (eps (i, b)))) :=
    fun i => hm.comp (hms i)
  have hN' : (0 : ℝ) < N := by exact_mod_cast hN
  have e3 : ∀ eps : ℕ × ℕ → Fin d → ℝ, ENNReal.ofReal (1 / N * ∑ i : Fin N, F (k.sample (eps (i, b))))
      = ENNReal.ofReal (1 / N) * ∑ i : Fin N, ENNReal.ofReal (F (k.sample (eps (i, b)))) := by
    intro eps
    rw [ENNReal.ofReal_mul (by positivity), ENNReal.ofReal_sum_of_nonneg fun i _ => h0 _]
  simp only [e3]
  rw [lintegral_const_mul _ (Finset.measurable_sum _ fun i _ => hmm i), lintegral_finsetSum _ fun i _ => hmm i]
  simp only [hone]
  rw [Finset.sum_const, Finset.card_univ, Fintype.card_fin, nsmul_eq_mul, ← mul_assoc]
  have : ENNReal.ofReal (1 / N) * (N : ℝ≥0∞) = 1 := by
    rw [one_div, ENNReal.ofReal_inv_of_pos hN', ENNReal.ofReal_natCast]
    exact ENNReal.inv_mul_cancel (by exact_mod_cast hN.ne') (ENNReal.natCast_ne_top N)
  rw [this, one_mul]

theorem measurable_logProb (k : GaussKernel d) : Measurable fun x => k.logProb x := by
  have hkm : KernelMeasurable fun _ : Unit => k := ⟨fun e => measurable_const, fun e f => measurable_const⟩
  have hu : Measurable fun x : Fin d → ℝ => (((), x) : Unit × (Fin d → ℝ)) := by fun_prop
  have h := (kernelMeasurable_logProb hkm).comp hu
  simp only [Function.comp_def] at h
  exact h

/-- Importance sampling: weighting by target density over kernel density. -/
theorem lintegral_importance {logg logp logq : (Fin d → ℝ) → ℝ} (hg : Measurable logg) (hp : Measurable logp)
    (hq : Measurable logq) :
    ∫⁻ x, ENNReal.ofReal (Real.exp (logg x + logp x - logq x))
        ∂(volume.withDensity fun x => ENNReal.ofReal (Real.exp (logq x)))
      = ∫⁻ x, ENNReal.ofReal (Real.exp (logg x)) ∂(volume.withDensity fun x => ENNReal.ofReal (Real.exp (logp x))) := by
  have hm : Measurable fun x => ENNReal.ofReal (Real.exp (logg x + logp x - logq x)) :=
    (Real.measurable_exp.comp ((hg.add hp).sub hq)).ennreal_ofReal
  have h1 : Measurable fun x => ENNReal.ofReal (Real.exp (logq x)) := (Real.measurable_exp.comp hq).ennreal_ofReal
  have h2 : Measurable fun x => ENNReal.ofReal (Real.exp (logp x)) := (Real.measurable_exp.comp hp).ennreal_ofReal
  have h3 : Measurable fun x => ENNReal.ofReal (Real.exp (logg x)) := (Real.measurable_exp.comp hg).ennreal_ofReal
  rw [lintegral_withDensity_eq_lintegral_mul _ h1 hm, lintegral_withDensity_eq_lintegral_mul _ h2 h3]
  refine lintegral_congr fun x => ?_
  simp only [Pi.mul_apply]
  rw [← ENNReal.ofReal_mul (Real.exp_pos _).le, ← ENNReal.ofReal_mul (Real.exp_pos _).le, ← Real.exp_add, ← Real.exp_add]
  congr 2
  ring

end Verif.Unbiased
