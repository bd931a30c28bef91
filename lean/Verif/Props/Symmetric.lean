import Verif.Model.Symmetric
import Mathlib.Analysis.SpecialFunctions.Log.Deriv
import Mathlib.Analysis.Complex.ExponentialBounds
import Verif.Spec.Symmetric
import Verif.Spec.Gauss
import Verif.Lemmas.Utils
import Verif.Props.KernelProposals

/-!
# The kernel of SMC2: C83–C85
-/

namespace Verif.Props

open Verif Verif.Mcmc Verif.Spec Matrix

variable {P d : ℕ}

/-! ### C83: the fitted kernel -/

theorem calc_mean (cholEx : Matrix (Fin d) (Fin d) ℝ → Matrix (Fin d) (Fin d) ℝ × Bool) (x : Fin P → Fin d → ℝ)
    (w : Fin P → ℝ) : (calcMeanChol cholEx (of x) w).mean = fitMean w x := by
  funext e
  simp [calcMeanChol, vecMul, dotProduct, fitMean]

theorem calc_cov (x : Fin P → Fin d → ℝ) (w : Fin P → ℝ) :
    (of fun e i => w i * (of fun i e => x i e - (w ᵥ* of x) e : Matrix (Fin P) (Fin d) ℝ)ᵀ e i : Matrix (Fin d) (Fin P) ℝ) *
      (of fun i e => x i e - (w ᵥ* of x) e : Matrix (Fin P) (Fin d) ℝ) = fitCov w x := by
  ext e f
  simp only [mul_apply, of_apply, transpose_apply, fitCov]
  refine Finset.sum_congr rfl fun i _ => ?_
  have : ∀ e, (w ᵥ* of x) e = fitMean w x e := fun e => by simp [vecMul, dotProduct, fitMean]
  rw [this, this]
  ring

theorem calc_chol (cholEx : Matrix (Fin d) (Fin d) ℝ → Matrix (Fin d) (Fin d) ℝ × Bool) (x : Fin P → Fin d → ℝ)
    (w : Fin P → ℝ) : (calcMeanChol cholEx (of x) w).chol =
      if (cholEx (fitCov w x)).2 then diagonal fun e => Real.sqrt (fitCov w x e e) else (cholEx (fitCov w x)).1 := by
  have := calc_cov x w
  simp only [calcMeanChol, of_apply] at this ⊢
  simp only [this]

theorem fitCov_symm (w : Fin P → ℝ) (x : Fin P → Fin d → ℝ) : (fitCov w x).IsHermitian := by
  ext e f
  simp only [conjTranspose_apply, fitCov, of_apply, star_trivial]
  exact Finset.sum_congr rfl fun i _ => by ring

theorem fitCov_diag_nonneg {w : Fin P → ℝ} (hw : ∀ i, 0 ≤ w i) (x : Fin P → Fin d → ℝ) (e : Fin d) :
    0 ≤ fitCov w x e e := by
  simp only [fitCov, of_apply]
  exact Finset.sum_nonneg fun i _ => mul_nonneg (hw i) (mul_self_nonneg _)

theorem val_normalize (lo : ℝ) (w : Fin P → XF) (h : ∃ i, Usable (w i)) (i : Fin P) :
    Seq.val ((normalize1 lo w).2 i) = mass lo (w i) / ∑ j, mass lo (w j) := by
  rw [normalize1_usable lo w h]
  rfl

/-- C83: if the weighted covariance of the parameters is positive definite, the kernel is the normal distribution with their
weighted mean and 1.21 times that covariance. For all particles, parameters and log-weights with a usable one. -/
theorem C83_fitted {Y Ω : Type} (lo : ℝ) (cholEx : Matrix (Fin d) (Fin d) ℝ → Matrix (Fin d) (Fin d) ℝ × Bool)
    (hc : IsCholEx cholEx) (params : Fin P → Row d) (res : Fin P → Slot d Y Ω) (w : Fin P → XF)
    (h : ∃ i, Usable (w i)) (p : Fin P → ℝ) (hp : ∀ i, p i = mass lo (w i) / ∑ j, mass lo (w j))
    (hS : (fitCov p params).PosDef) :
    ∃ k, (symmetricMh lo cholEx).build params res w = .ok k ∧ k.loc = fitMean p params ∧
      k.tril * k.trilᵀ = (11 / 10 : ℝ) ^ 2 • fitCov p params ∧
      ∀ i x, (symmetricMh (Y := Y) (Ω := Ω) (P := P) lo cholEx).logProb (.ok k) i x =
        .fin (logNormalVec (fitMean p params) ((11 / 10 : ℝ) ^ 2 • fitCov p params) x) := by
  have hval : (fun i => Seq.val ((normalize1 lo w).2 i)) = p := by
    funext i; rw [val_normalize lo w h, hp]
  obtain ⟨h1, h2, h3, h4⟩ := hc.ok _ hS
  have hchol : (calcMeanChol cholEx (of params) p).chol = (cholEx (fitCov p params)).1 := by
    rw [calc_chol, h1]; rfl
  have hmul : ((11 / 10 : ℝ) • (cholEx (fitCov p params)).1) * ((11 / 10 : ℝ) • (cholEx (fitCov p params)).1)ᵀ =
      (11 / 10 : ℝ) ^ 2 • fitCov p params := by
    rw [transpose_smul, Matrix.smul_mul, Matrix.mul_smul, h2, smul_smul, sq]
  refine ⟨⟨fitMean p params, (11 / 10 : ℝ) • (cholEx (fitCov p params)).1⟩, ?_, rfl, hmul, fun i x => ?_⟩
  · simp only [symmetricMh, hval, constructMvn, hchol, calc_mean]
    rw [if_pos]
    refine ⟨fun e => ?_, fun e f hef => ?_⟩
    · simp only [Matrix.smul_apply, smul_eq_mul]
      exact mul_pos (by norm_num) (h3 e)
    · simp only [Matrix.smul_apply, smul_eq_mul, h4 e f hef, mul_zero]
  · simp only [symmetricMh, GaussKernel.logProb, hmul]
    congr 1
    unfold mvnLogProb logNormalVec
    ring

/-- C83: otherwise the components are independent, with 1.21 times the weighted variances; if some variance is zero no
distribution can be constructed. -/
theorem C83_fallback {Y Ω : Type} (lo : ℝ) (cholEx : Matrix (Fin d) (Fin d) ℝ → Matrix (Fin d) (Fin d) ℝ × Bool)
    (hc : IsCholEx cholEx) (params : Fin P → Row d) (res : Fin P → Slot d Y Ω) (w : Fin P → XF)
    (h : ∃ i, Usable (w i)) (p : Fin P → ℝ) (hp : ∀ i, p i = mass lo (w i) / ∑ j, mass lo (w j))
    (hS : ¬ (fitCov p params).PosDef) :
    ((∃ e, fitCov p params e e = 0) → (symmetricMh lo cholEx).build params res w = .error .valueError) ∧
    ((∀ e, fitCov p params e e ≠ 0) →
      ∃ k, (symmetricMh lo cholEx).build params res w = .ok k ∧ k.loc = fitMean p params ∧
        k.tril * k.trilᵀ = (11 / 10 : ℝ) ^ 2 • diagonal (fun e => fitCov p params e e) ∧
        ∀ i x, (symmetricMh (Y := Y) (Ω := Ω) (P := P) lo cholEx).logProb (.ok k) i x =
          .fin (logNormalVec (fitMean p params) ((11 / 10 : ℝ) ^ 2 • diagonal fun e => fitCov p params e e) x)) := by
  have hval : (fun i => Seq.val ((normalize1 lo w).2 i)) = p := by
    funext i; rw [val_normalize lo w h, hp]
  have hp0 : ∀ i, 0 ≤ p i := fun i => by
    rw [hp]; exact div_nonneg (mass_nonneg _ _) (Finset.sum_nonneg fun j _ => mass_nonneg _ _)
  have h1 := hc.failed _ (fitCov_symm p params) hS
  have hchol : (calcMeanChol cholEx (of params) p).chol = diagonal fun e => Real.sqrt (fitCov p params e e) := by
    rw [calc_chol, h1]; rfl
  constructor
  · rintro ⟨e, he⟩
    simp only [symmetricMh, hval, constructMvn, hchol]
    rw [if_neg]
    rintro ⟨h2, -⟩
    have := h2 e
    simp [he] at this
  · intro hne
    have hmul : ((11 / 10 : ℝ) • diagonal fun e => Real.sqrt (fitCov p params e e)) *
        ((11 / 10 : ℝ) • diagonal fun e => Real.sqrt (fitCov p params e e))ᵀ =
        (11 / 10 : ℝ) ^ 2 • diagonal fun e => fitCov p params e e := by
      rw [transpose_smul, Matrix.smul_mul, Matrix.mul_smul, diagonal_transpose, diagonal_mul_diagonal, smul_smul, sq]
      congr 2
      funext e
      exact Real.mul_self_sqrt (fitCov_diag_nonneg hp0 params e)
    refine ⟨⟨fitMean p params, (11 / 10 : ℝ) • diagonal fun e => Real.sqrt (fitCov p params e e)⟩, ?_, rfl, hmul,
      fun i x => ?_⟩
    · simp only [symmetricMh, hval, constructMvn, hchol, calc_mean]
      rw [if_pos]
      refine ⟨fun e => ?_, fun e f hef => ?_⟩
      · simp only [Matrix.smul_apply, smul_eq_mul, diagonal_apply_eq]
        exact mul_pos (by norm_num) (Real.sqrt_pos.2 (lt_of_le_of_ne (fitCov_diag_nonneg hp0 params e) (hne e).symm))
      · simp only [Matrix.smul_apply, smul_eq_mul, diagonal_apply_ne _ hef.ne, mul_zero]
    · simp only [symmetricMh, GaussKernel.logProb, hmul]
      congr 1
      unfold mvnLogProb logNormalVec
      ring

open Classical in
/-- `cholesky_ex` for two components. -/
noncomputable def cholEx2 (S : Matrix (Fin 2) (Fin 2) ℝ) : Matrix (Fin 2) (Fin 2) ℝ × Bool :=
  (chol2 S, decide ¬ S.PosDef)

theorem cholEx2_spec : IsCholEx cholEx2 := by
  refine ⟨fun S hS => ⟨by simp [cholEx2, hS], chol2_isCholesky.factor S hS, fun e => ?_, fun e f hef => ?_⟩,
    fun S _ hS => by simp [cholEx2, hS]⟩
  · have h0 : 0 < S 0 0 := hS.diag_pos
    have hsym : S 0 1 = S 1 0 := by
      have := congrFun (congrFun hS.1 1) 0
      simpa [conjTranspose] using this
    have hdet := hS.det_pos
    rw [det_fin_two, hsym] at hdet
    fin_cases e
    · simpa [cholEx2, chol2] using h0
    · simp only [cholEx2, chol2]
      simp only [Fin.mk_one, of_apply, cons_val_one, cons_val_fin_one]
      rw [Real.sqrt_pos, sub_pos, div_lt_iff₀ h0]
      nlinarith
  · fin_cases e <;> fin_cases f <;> simp_all [cholEx2, chol2]

/-- A case for `C83_fitted`: three points with equal weights. -/
example : IsCholEx cholEx2 ∧ (∃ i, Usable ((fun _ : Fin 3 => XF.fin 0) i)) ∧
    (fitCov (fun _ => 1 / 3) ![![0, 0], ![1, 0], ![0, 1]] : Matrix (Fin 2) (Fin 2) ℝ).PosDef := by
  refine ⟨cholEx2_spec, ⟨0, trivial⟩, ?_⟩
  refine Matrix.PosDef.of_dotProduct_mulVec_pos (fitCov_symm _ _) fun x hx => ?_
  have hS : (fitCov (fun _ => 1 / 3) ![![0, 0], ![1, 0], ![0, 1]] : Matrix (Fin 2) (Fin 2) ℝ) =
      !![2 / 9, -1 / 9; -1 / 9, 2 / 9] := by
    ext e f
    fin_cases e <;> fin_cases f <;> simp [fitCov, fitMean, Fin.sum_univ_three] <;> norm_num
  rw [hS]
  have hne : x 0 ≠ 0 ∨ x 1 ≠ 0 := by
    by_contra hcon
    push_neg at hcon
    exact hx (by ext e; fin_cases e <;> simp [hcon.1, hcon.2])
  simp only [dotProduct, mulVec, Fin.sum_univ_two, star_trivial, of_apply, cons_val_zero, cons_val_one, cons_val_fin_one]
  rcases hne with h | h
  · have := sq_pos_of_ne_zero h
    nlinarith [sq_nonneg (x 0 - 2 * x 1)]
  · have := sq_pos_of_ne_zero h
    nlinarith [sq_nonneg (x 1 - 2 * x 0)]

/-- Cases for `C83_fallback`: two points on a line, and a single point. -/
example : ¬ (fitCov (fun _ => 1 / 2) ![![0, 0], ![1, 1]] : Matrix (Fin 2) (Fin 2) ℝ).PosDef ∧
    (∀ e, fitCov (fun _ => 1 / 2) (![![0, 0], ![1, 1]] : Fin 2 → Fin 2 → ℝ) e e ≠ 0) ∧
    (∃ e, fitCov (fun _ => 1) (fun _ : Fin 1 => ![3, 4] : Fin 1 → Fin 2 → ℝ) e e = 0) ∧
    ¬ (fitCov (fun _ => 1) (fun _ : Fin 1 => ![3, 4] : Fin 1 → Fin 2 → ℝ)).PosDef := by
  refine ⟨fun h => ?_, fun e => ?_, ⟨0, ?_⟩, fun h => ?_⟩
  · have := h.det_pos
    simp [det_fin_two, fitCov, fitMean, Fin.sum_univ_two] at this
  · fin_cases e <;> simp [fitCov, fitMean, Fin.sum_univ_two] <;> norm_num
  · simp [fitCov, fitMean]
  · have := h.det_pos
    simp [det_fin_two, fitCov, fitMean] at this

/-! ### C84: acceptance in the rejuvenation of SMC2 -/

/-- One PMMH step of the rejuvenation, when the acceptance rate cannot be too low. -/
theorem smcUpdate_one {Y Ω K : Type} (env : Env d Y Ω) (cfg : Seq.SmcCfg P d Y Ω K) (h1 : cfg.numSteps = 1)
    (h0 : cfg.accThresh ≤ 0) (increases : ℕ) (data : List Y) (sys : Seq.Sys P d) (obj : Seq.Obj P d Y Ω)
    (r : Seq.StepDraws P d Ω) :
    let chain : Chain P d Y Ω K := ⟨fun i => sys.params (r.inds i), fun i => obj.res (r.inds i),
      cfg.prop.build sys.params obj.res (normalize1 env.lo obj.w).1, r.subDrawn, r.subDrawn, sys.particles⟩
    (Seq.smcUpdate env cfg increases data sys obj r).2.1.params =
        (fun i => if accepted env cfg.prop chain data (r.pmmh 0) (fun _ => 0) i then (r.pmmh 0).rvs i
          else sys.params (r.inds i)) ∧
      (Seq.smcUpdate env cfg increases data sys obj r).2.2.2.2 = .updated := by
  intro chain
  have hrate : ¬ ((Seq.fraction (runPmmh env cfg.prop false (fun _ => 0) chain data (r.pmmh 0)).2 + ((0 : ℕ) : ℝ) * 0) /
      (((0 : ℕ) : ℝ) + 1) < cfg.accThresh) := by
    have : 0 ≤ Seq.fraction (runPmmh env cfg.prop false (fun _ => 0) chain data (r.pmmh 0)).2 := by
      unfold Seq.fraction
      refine div_nonneg (Finset.sum_nonneg fun i _ => ?_) (Nat.cast_nonneg _)
      split_ifs <;> norm_num
    rw [not_lt]
    refine h0.trans ?_
    simpa using this
  have hloop : Seq.pmmhLoop env cfg data (fun i => sys.params (r.inds i)) r.pmmh cfg.numSteps 0 chain 0 0 =
      ((runPmmh env cfg.prop false (fun _ => 0) chain data (r.pmmh 0)).1, false) := by
    rw [h1]
    unfold Seq.pmmhLoop
    rw [if_neg hrate]
    cases cfg.distThresh with
    | none => simp only [Seq.pmmhLoop]
    | some t => simp only [Seq.pmmhLoop, ite_self]
  have : Seq.smcUpdate env cfg increases data sys obj r = (increases,
      { sys with params := (runPmmh env cfg.prop false (fun _ => 0) chain data (r.pmmh 0)).1.params
                 built := (runPmmh env cfg.prop false (fun _ => 0) chain data (r.pmmh 0)).1.params },
      { obj with res := (runPmmh env cfg.prop false (fun _ => 0) chain data (r.pmmh 0)).1.res
                 w := fun _ => 0 }, .ok none, .updated) := by
    simp only [Seq.smcUpdate]
    rw [hloop]
    rfl
  rw [this]
  exact ⟨rfl, rfl⟩

/-- A rejuvenation of SMC2 with `SymmetricMH`: one step, no increase, finite log-weights `v`, with positive definite
covariances of the weighted parameters and of the candidates. -/
structure Rejuvenation {Y Ω : Type} (env : Env d Y Ω)
    (cholEx : Matrix (Fin d) (Fin d) ℝ → Matrix (Fin d) (Fin d) ℝ × Bool)
    (cfg : Seq.SmcCfg P d Y Ω (Except PyErr (GaussKernel d))) (sys : Seq.Sys P d) (obj : Seq.Obj P d Y Ω)
    (r : Seq.StepDraws P d Ω) (p : Fin P → ℝ) : Prop where
  chol : IsCholEx cholEx
  prop : cfg.prop = symmetricMh env.lo cholEx
  steps : cfg.numSteps = 1
  thresh : cfg.accThresh ≤ 0
  weights : ∃ v : Fin P → ℝ, (∀ i, obj.w i = .fin (v i)) ∧ ∀ i, p i = Real.exp (v i) / ∑ j, Real.exp (v j)
  cov : (fitCov p sys.params).PosDef
  candCov : (fitCov (fun _ => 1 / P) (r.pmmh 0).rvs).PosDef

/-- What the code does: the candidates are drawn from the normal distribution fitted to the weighted parameters, but the
reverse density is that of the normal distribution fitted to the candidates. -/
theorem C84_acceptance {Y Ω : Type} (env : Env d Y Ω)
    (cholEx : Matrix (Fin d) (Fin d) ℝ → Matrix (Fin d) (Fin d) ℝ × Bool)
    (cfg : Seq.SmcCfg P d Y Ω (Except PyErr (GaussKernel d))) (sys : Seq.Sys P d) (obj : Seq.Obj P d Y Ω)
    (r : Seq.StepDraws P d Ω) (p : Fin P → ℝ) (h : Rejuvenation env cholEx cfg sys obj r p) (increases : ℕ)
    (data : List Y) (i : Fin P) :
    open Classical in
    (Seq.smcUpdate env cfg increases data sys obj r).2.1.params i =
      if XF.lt (XF.log (.fin ((r.pmmh 0).u i)))
        ((.fin (logNormalVec (fitMean (fun _ => 1 / P) (r.pmmh 0).rvs)
              ((11 / 10 : ℝ) ^ 2 • fitCov (fun _ => 1 / P) (r.pmmh 0).rvs) (sys.params (r.inds i))) -
            .fin (logNormalVec (fitMean p sys.params) ((11 / 10 : ℝ) ^ 2 • fitCov p sys.params) ((r.pmmh 0).rvs i))) +
          (env.logPrior ((r.pmmh 0).rvs i) - env.logPrior (sys.params (r.inds i))) +
          (env.loglik (batchFilter sys.particles ⟨(r.pmmh 0).rvs i, (r.pmmh 0).rvs i⟩ data ((r.pmmh 0).noise i)) -
            env.loglik (obj.res (r.inds i))))
      then (r.pmmh 0).rvs i else sys.params (r.inds i) := by
  classical
  obtain ⟨v, hv, hp⟩ := h.weights
  have hclean : ∀ i, (normalize1 env.lo obj.w).1 i = .fin (v i) := fun i => by
    show nanToNum env.lo (obj.w i) = _
    rw [hv]
    rfl
  have hPpos : 0 < P := i.pos
  have hforward := C83_fitted env.lo cholEx h.chol sys.params obj.res (normalize1 env.lo obj.w).1
    ⟨i, by rw [hclean]; trivial⟩ p (fun i => by simp only [hclean, mass, hp]) h.cov
  have hreverse := C83_fitted env.lo cholEx h.chol (r.pmmh 0).rvs (candidates sys.particles data (r.pmmh 0))
    (fun _ => (0 : XF)) ⟨i, trivial⟩ (fun _ => 1 / P) (fun j => by
      have : mass env.lo (0 : XF) = 1 := Real.exp_zero
      simp [this]) h.candCov
  obtain ⟨k, hk, -, -, hkl⟩ := hforward
  obtain ⟨k', hk', -, -, hkl'⟩ := hreverse
  rw [congrFun (smcUpdate_one env cfg h.steps h.thresh increases data sys obj r).1 i]
  simp only [h.prop, hk, accepted, logAcc, hk', hkl, hkl', decide_eq_true_eq]
  rfl

/-- C84: a candidate replaces the current parameters of its slot with the Metropolis–Hastings probability of the
distribution from which the candidates are drawn. -/
def C84_claim : Prop :=
  ∀ (P d : ℕ) (Y Ω : Type) (env : Env d Y Ω) (cholEx : Matrix (Fin d) (Fin d) ℝ → Matrix (Fin d) (Fin d) ℝ × Bool)
    (cfg : Seq.SmcCfg P d Y Ω (Except PyErr (GaussKernel d))) (sys : Seq.Sys P d) (obj : Seq.Obj P d Y Ω)
    (r : Seq.StepDraws P d Ω) (p : Fin P → ℝ) (_ : Rejuvenation env cholEx cfg sys obj r p) (increases : ℕ)
    (data : List Y) (i : Fin P),
    open Classical in
    (Seq.smcUpdate env cfg increases data sys obj r).2.1.params i =
      if XF.lt (XF.log (.fin ((r.pmmh 0).u i)))
        ((.fin (logNormalVec (fitMean p sys.params) ((11 / 10 : ℝ) ^ 2 • fitCov p sys.params) (sys.params (r.inds i))) -
            .fin (logNormalVec (fitMean p sys.params) ((11 / 10 : ℝ) ^ 2 • fitCov p sys.params) ((r.pmmh 0).rvs i))) +
          (env.logPrior ((r.pmmh 0).rvs i) - env.logPrior (sys.params (r.inds i))) +
          (env.loglik (batchFilter sys.particles ⟨(r.pmmh 0).rvs i, (r.pmmh 0).rvs i⟩ data ((r.pmmh 0).noise i)) -
            env.loglik (obj.res (r.inds i))))
      then (r.pmmh 0).rvs i else sys.params (r.inds i)

/-- C84 for candidates that have exactly the mean and the covariance of the weighted parameters. Missing: all others. -/
theorem C84_same_moments_partial {Y Ω : Type} (env : Env d Y Ω)
    (cholEx : Matrix (Fin d) (Fin d) ℝ → Matrix (Fin d) (Fin d) ℝ × Bool)
    (cfg : Seq.SmcCfg P d Y Ω (Except PyErr (GaussKernel d))) (sys : Seq.Sys P d) (obj : Seq.Obj P d Y Ω)
    (r : Seq.StepDraws P d Ω) (p : Fin P → ℝ) (h : Rejuvenation env cholEx cfg sys obj r p)
    (hmean : fitMean (fun _ => 1 / P) (r.pmmh 0).rvs = fitMean p sys.params)
    (hcov : fitCov (fun _ => 1 / P) (r.pmmh 0).rvs = fitCov p sys.params) (increases : ℕ)
    (data : List Y) (i : Fin P) :
    open Classical in
    (Seq.smcUpdate env cfg increases data sys obj r).2.1.params i =
      if XF.lt (XF.log (.fin ((r.pmmh 0).u i)))
        ((.fin (logNormalVec (fitMean p sys.params) ((11 / 10 : ℝ) ^ 2 • fitCov p sys.params) (sys.params (r.inds i))) -
            .fin (logNormalVec (fitMean p sys.params) ((11 / 10 : ℝ) ^ 2 • fitCov p sys.params) ((r.pmmh 0).rvs i))) +
          (env.logPrior ((r.pmmh 0).rvs i) - env.logPrior (sys.params (r.inds i))) +
          (env.loglik (batchFilter sys.particles ⟨(r.pmmh 0).rvs i, (r.pmmh 0).rvs i⟩ data ((r.pmmh 0).noise i)) -
            env.loglik (obj.res (r.inds i))))
      then (r.pmmh 0).rvs i else sys.params (r.inds i) := by
  have := C84_acceptance env cholEx cfg sys obj r p h increases data i
  rw [hmean, hcov] at this
  exact this

open Classical in
/-- `cholesky_ex` for one component. -/
noncomputable def cholEx1 (S : Matrix (Fin 1) (Fin 1) ℝ) : Matrix (Fin 1) (Fin 1) ℝ × Bool :=
  (of fun _ _ => Real.sqrt (S 0 0), decide ¬ S.PosDef)

theorem cholEx1_spec : IsCholEx cholEx1 := by
  refine ⟨fun S hS => ⟨by simp [cholEx1, hS], ?_, fun e => ?_, fun e f hef => ?_⟩, fun S _ hS => by simp [cholEx1, hS]⟩
  · have h0 : 0 < S 0 0 := hS.diag_pos
    ext e f
    fin_cases e; fin_cases f
    simp [cholEx1, mul_apply, Real.mul_self_sqrt h0.le]
  · exact Real.sqrt_pos.2 hS.diag_pos
  · exact absurd hef (by fin_cases e; fin_cases f; simp)

/-- Two parameter particles at `2` and `-2` with flat prior and likelihood. -/
noncomputable def flatEnv : Env 1 ℝ ℝ := ⟨fun _ _ _ _ => .fin 0, fun _ => .fin 0, -1000, 1 / 1000⟩

/-- Its configuration. -/
noncomputable def flatCfg : Seq.SmcCfg 2 1 ℝ ℝ (Except PyErr (GaussKernel 1)) :=
  ⟨.constant (1 / 2), symmetricMh (-1000) cholEx1, 1, none, 0, 5⟩

/-- Its parameters. -/
def flatSys : Seq.Sys 2 1 := ⟨![fun _ => 2, fun _ => -2], ![fun _ => 2, fun _ => -2], 10⟩

/-- Its state. -/
def flatObj : Seq.Obj 2 1 ℝ ℝ := ⟨0, fun _ => .fin 0, fun _ => .start 10 ⟨fun _ => 2, fun _ => 2⟩ 0, 0⟩

/-- Draws with candidates at `±a`. -/
noncomputable def flatDraws (a u : ℝ) : Seq.StepDraws 2 1 ℝ :=
  ⟨fun _ => 0, id, fun _ _ => 0, fun _ => true, fun _ _ => 0, fun _ => ⟨![fun _ => a, fun _ => -a], fun _ _ => 0, fun _ => u⟩,
    fun _ _ => 0⟩

theorem flat_mean (a : ℝ) : fitMean (fun _ : Fin 2 => 1 / 2) (![fun _ => a, fun _ => -a] : Fin 2 → Fin 1 → ℝ) = fun _ => 0 := by
  funext e
  simp [fitMean]

theorem flat_cov (a : ℝ) : fitCov (fun _ : Fin 2 => 1 / 2) (![fun _ => a, fun _ => -a] : Fin 2 → Fin 1 → ℝ) =
    of fun _ _ => a ^ 2 := by
  ext e f
  have := flat_mean a
  simp only [one_div] at this
  simp [fitCov, this]
  ring

theorem flat_posDef {a : ℝ} (ha : a ≠ 0) : (of fun _ _ => a ^ 2 : Matrix (Fin 1) (Fin 1) ℝ).PosDef := by
  refine Matrix.PosDef.of_dotProduct_mulVec_pos (by ext e f; simp) fun x hx => ?_
  have h : x 0 ≠ 0 := fun h => hx (by ext e; fin_cases e; exact h)
  have h1 := sq_pos_of_ne_zero ha
  have h2 := sq_pos_of_ne_zero h
  simp [dotProduct, mulVec]
  nlinarith [mul_pos h1 h2]

theorem flat_rejuvenation {a : ℝ} (ha : a ≠ 0) (u : ℝ) :
    Rejuvenation flatEnv cholEx1 flatCfg flatSys flatObj (flatDraws a u) fun _ => 1 / 2 where
  chol := cholEx1_spec
  prop := rfl
  steps := rfl
  thresh := le_refl _
  weights := ⟨fun _ => 0, fun _ => rfl, fun _ => by norm_num⟩
  cov := by
    show (fitCov _ (![fun _ => 2, fun _ => -2] : Fin 2 → Fin 1 → ℝ)).PosDef
    rw [flat_cov]
    exact flat_posDef (by norm_num)
  candCov := by
    show (fitCov (fun _ => 1 / ((2 : ℕ) : ℝ)) (![fun _ => a, fun _ => -a] : Fin 2 → Fin 1 → ℝ)).PosDef
    rw [Nat.cast_ofNat, flat_cov]
    exact flat_posDef ha

/-- A case for `C84_acceptance` and `C84_same_moments_partial`. -/
example : Rejuvenation flatEnv cholEx1 flatCfg flatSys flatObj (flatDraws (-2) (1 / 2)) (fun _ => 1 / 2) ∧
    fitMean (fun _ => 1 / ((2 : ℕ) : ℝ)) ((flatDraws (-2) (1 / 2)).pmmh 0).rvs = fitMean (fun _ => 1 / 2) flatSys.params ∧
    fitCov (fun _ => 1 / ((2 : ℕ) : ℝ)) ((flatDraws (-2) (1 / 2)).pmmh 0).rvs = fitCov (fun _ => 1 / 2) flatSys.params := by
  refine ⟨flat_rejuvenation (by norm_num) _, ?_, ?_⟩
  · show fitMean _ (![fun _ => -2, fun _ => - -2] : Fin 2 → Fin 1 → ℝ) =
      fitMean _ (![fun _ => 2, fun _ => -2] : Fin 2 → Fin 1 → ℝ)
    rw [Nat.cast_ofNat, flat_mean, flat_mean]
  · show fitCov _ (![fun _ => -2, fun _ => - -2] : Fin 2 → Fin 1 → ℝ) =
      fitCov _ (![fun _ => 2, fun _ => -2] : Fin 2 → Fin 1 → ℝ)
    rw [Nat.cast_ofNat, flat_cov, flat_cov]
    norm_num

theorem logNormalVec_one (v x : ℝ) : logNormalVec (fun _ : Fin 1 => 0) ((11 / 10 : ℝ) ^ 2 • of fun _ _ => v) (fun _ => x) =
    -(x ^ 2 / (121 / 100 * v)) / 2 - (Real.log (121 / 100 * v) + Real.log (2 * Real.pi)) / 2 := by
  have hS : ((11 / 10 : ℝ) ^ 2 • of fun _ _ => v : Matrix (Fin 1) (Fin 1) ℝ) = of fun _ _ => 121 / 100 * v := by
    ext e f; simp; norm_num
  rw [hS]
  simp [logNormalVec, det_fin_one, dotProduct, mulVec, Matrix.inv_def]
  ring

/-- C84 is false: from `2` to `1`, with flat prior and likelihood, the Metropolis–Hastings ratio of the normal distribution
with variance 4.84 is `exp(-3/9.68) = 0.73`, but the code uses `0.42` since the candidates are less spread out than the
particles were. With the uniform draw `exp(-1/2) = 0.61` the candidate should be taken and is not. -/
theorem C84_negation : ¬ C84_claim := by
  classical
  intro h
  have h1 := h 2 1 ℝ ℝ flatEnv cholEx1 flatCfg flatSys flatObj (flatDraws 1 (Real.exp (-1 / 2))) (fun _ => 1 / 2)
    (flat_rejuvenation one_ne_zero _) 0 [] 0
  have h2 := C84_acceptance flatEnv cholEx1 flatCfg flatSys flatObj (flatDraws 1 (Real.exp (-1 / 2))) (fun _ => 1 / 2)
    (flat_rejuvenation one_ne_zero _) 0 [] 0
  rw [h1] at h2
  have hp : flatSys.params = (![fun _ => 2, fun _ => -2] : Fin 2 → Fin 1 → ℝ) := rfl
  have hr : ((flatDraws 1 (Real.exp (-1 / 2))).pmmh 0).rvs = (![fun _ => 1, fun _ => -1] : Fin 2 → Fin 1 → ℝ) := rfl
  have hlog : XF.log (.fin (((flatDraws 1 (Real.exp (-1 / 2))).pmmh 0).u 0)) = .fin (-1 / 2) := by
    show XF.log (.fin (Real.exp (-1 / 2))) = _
    rw [XF.log_fin (Real.exp_pos _), Real.log_exp]
  have h4 : Real.log (121 / 100 * 2 ^ 2) = Real.log (121 / 100) + 2 * Real.log 2 := by
    rw [Real.log_mul (by norm_num) (by norm_num), Real.log_pow]; norm_num
  have hl2 := Real.log_two_lt_d9
  have hl2' := Real.log_two_gt_d9
  rw [if_pos, if_neg] at h2
  · have := congrFun h2 0
    simp [hp, hr, flatDraws] at this
  · rw [hlog, hp, hr]
    simp only [Nat.cast_ofNat, flat_mean, flat_cov]
    show ¬ ((-1 / 2 : ℝ) < (_ + -_) + (0 + -0) + (0 + -0))
    simp only [flatDraws, id, cons_val_zero, logNormalVec_one, h4]
    norm_num
    linarith
  · rw [hlog, hp, hr]
    simp only [flat_mean, flat_cov]
    show ((-1 / 2 : ℝ) < (_ + -_) + (0 + -0) + (0 + -0))
    simp only [flatDraws, id, cons_val_zero, logNormalVec_one, h4]
    norm_num
    linarith

/-! ### C85: the random walk in the rejuvenation of SMC2 -/

theorem mcmcLogNormal_eq {s : ℝ} (hs : 0 < s) (μ x : ℝ) : Mcmc.logNormal μ s x = Spec.logNormal μ (s ^ 2) x := by
  have hπ := Real.pi_pos
  unfold Mcmc.logNormal Spec.logNormal
  rw [Real.log_mul (y := s ^ 2) (by positivity) (by positivity), Real.log_pow]
  push_cast
  ring

/-- What the code does: the kernel is built before the particles are resampled, so the candidate of a slot is drawn around
the parameters that the slot had before, and its density is taken there. -/
theorem C85_acceptance {Y Ω : Type} (env : Env d Y Ω) (scale : Row d) (hs : ∀ e, 0 < scale e)
    (cfg : Seq.SmcCfg P d Y Ω (Gauss P d)) (hprop : cfg.prop = randomWalk scale) (h1 : cfg.numSteps = 1)
    (h0 : cfg.accThresh ≤ 0) (increases : ℕ) (data : List Y) (sys : Seq.Sys P d) (obj : Seq.Obj P d Y Ω)
    (r : Seq.StepDraws P d Ω) (i : Fin P) :
    open Classical in
    (Seq.smcUpdate env cfg increases data sys obj r).2.1.params i =
      if XF.lt (XF.log (.fin ((r.pmmh 0).u i)))
        ((.fin (∑ e, Spec.logNormal ((r.pmmh 0).rvs i e) (scale e ^ 2) (sys.params (r.inds i) e)) -
            .fin (∑ e, Spec.logNormal (sys.params i e) (scale e ^ 2) ((r.pmmh 0).rvs i e))) +
          (env.logPrior ((r.pmmh 0).rvs i) - env.logPrior (sys.params (r.inds i))) +
          (env.loglik (batchFilter sys.particles ⟨(r.pmmh 0).rvs i, (r.pmmh 0).rvs i⟩ data ((r.pmmh 0).noise i)) -
            env.loglik (obj.res (r.inds i))))
      then (r.pmmh 0).rvs i else sys.params (r.inds i) := by
  classical
  rw [congrFun (smcUpdate_one env cfg h1 h0 increases data sys obj r).1 i]
  simp only [hprop, accepted, logAcc, randomWalk, Gauss.logProb, mcmcLogNormal_eq (hs _), decide_eq_true_eq]
  rfl

/-- C85: the kernel of a slot is the random walk at the current parameters of the slot; since the random walk is symmetric,
its densities cancel and the candidate is accepted with the ratio of prior times likelihood. -/
def C85_claim : Prop :=
  ∀ (P d : ℕ) (Y Ω : Type) (env : Env d Y Ω) (scale : Row d) (_ : ∀ e, 0 < scale e)
    (cfg : Seq.SmcCfg P d Y Ω (Gauss P d)) (_ : cfg.prop = randomWalk scale) (_ : cfg.numSteps = 1)
    (_ : cfg.accThresh ≤ 0) (increases : ℕ) (data : List Y) (sys : Seq.Sys P d) (obj : Seq.Obj P d Y Ω)
    (r : Seq.StepDraws P d Ω) (i : Fin P),
    open Classical in
    (Seq.smcUpdate env cfg increases data sys obj r).2.1.params i =
      if XF.lt (XF.log (.fin ((r.pmmh 0).u i)))
        ((env.logPrior ((r.pmmh 0).rvs i) - env.logPrior (sys.params (r.inds i))) +
          (env.loglik (batchFilter sys.particles ⟨(r.pmmh 0).rvs i, (r.pmmh 0).rvs i⟩ data ((r.pmmh 0).noise i)) -
            env.loglik (obj.res (r.inds i))))
      then (r.pmmh 0).rvs i else sys.params (r.inds i)

/-- C85 for a slot that was resampled to itself, or to a particle with the same parameters. Missing: the others. -/
theorem C85_unmoved_partial {Y Ω : Type} (env : Env d Y Ω) (scale : Row d) (hs : ∀ e, 0 < scale e)
    (cfg : Seq.SmcCfg P d Y Ω (Gauss P d)) (hprop : cfg.prop = randomWalk scale) (h1 : cfg.numSteps = 1)
    (h0 : cfg.accThresh ≤ 0) (increases : ℕ) (data : List Y) (sys : Seq.Sys P d) (obj : Seq.Obj P d Y Ω)
    (r : Seq.StepDraws P d Ω) (i : Fin P) (hi : sys.params (r.inds i) = sys.params i) :
    open Classical in
    (Seq.smcUpdate env cfg increases data sys obj r).2.1.params i =
      if XF.lt (XF.log (.fin ((r.pmmh 0).u i)))
        ((env.logPrior ((r.pmmh 0).rvs i) - env.logPrior (sys.params (r.inds i))) +
          (env.loglik (batchFilter sys.particles ⟨(r.pmmh 0).rvs i, (r.pmmh 0).rvs i⟩ data ((r.pmmh 0).noise i)) -
            env.loglik (obj.res (r.inds i))))
      then (r.pmmh 0).rvs i else sys.params (r.inds i) := by
  classical
  rw [C85_acceptance env scale hs cfg hprop h1 h0]
  have hsym : ∑ e, Spec.logNormal ((r.pmmh 0).rvs i e) (scale e ^ 2) (sys.params (r.inds i) e) =
      ∑ e, Spec.logNormal (sys.params i e) (scale e ^ 2) ((r.pmmh 0).rvs i e) := by
    rw [hi]
    refine Finset.sum_congr rfl fun e _ => ?_
    unfold Spec.logNormal
    congr 2
    ring
  have h0' : ∀ (a : ℝ) (x y : XF), (.fin a - .fin a) + x + y = x + y := by
    intro a x y
    have : (XF.fin a - XF.fin a) = 0 := by
      show XF.fin (a + -a) = 0
      rw [add_neg_cancel]; rfl
    rw [this, zero_add]
  simp only [hsym, h0']

/-- The configuration of the example. -/
noncomputable def walkCfg : Seq.SmcCfg 2 1 ℝ ℝ (Gauss 2 1) :=
  ⟨.constant (1 / 2), randomWalk fun _ => 1, 1, none, 0, 5⟩

/-- Resampling sends both slots to the first particle (at `2`); the candidate of the second slot is drawn around its former
parameter `-2`. -/
noncomputable def walkDraws (inds : Fin 2 → Fin 2) (u : ℝ) : Seq.StepDraws 2 1 ℝ :=
  ⟨fun _ => 0, inds, fun _ _ => 0, fun _ => true, fun _ _ => 0, fun _ => ⟨fun _ _ => -2, fun _ _ => 0, fun _ => u⟩,
    fun _ _ => 0⟩

/-- A case for `C85_acceptance` and `C85_unmoved_partial`. -/
example : walkCfg.prop = randomWalk (fun _ => 1) ∧ walkCfg.numSteps = 1 ∧ walkCfg.accThresh ≤ 0 ∧
    flatSys.params ((walkDraws ![1, 1] (1 / 2)).inds 1) = flatSys.params 1 := ⟨rfl, rfl, le_refl _, rfl⟩

/-- C85 is false: with flat prior and likelihood the candidate `-2` should always be accepted; in the second slot, now at
`2`, it is rejected with the uniform draw `exp(-1)`, since the two densities do not cancel. -/
theorem C85_negation : ¬ C85_claim := by
  classical
  intro h
  have h1 := h 2 1 ℝ ℝ flatEnv (fun _ => 1) (fun _ => one_pos) walkCfg rfl rfl (le_refl _) 0 [] flatSys flatObj
    (walkDraws ![0, 0] (Real.exp (-1))) 1
  rw [C85_acceptance flatEnv (fun _ => 1) (fun _ => one_pos) walkCfg rfl rfl (le_refl _) 0 [] flatSys flatObj
    (walkDraws ![0, 0] (Real.exp (-1))) 1] at h1
  have hlog : XF.log (.fin (((walkDraws ![0, 0] (Real.exp (-1))).pmmh 0).u 1)) = .fin (-1) := by
    show XF.log (.fin (Real.exp (-1))) = _
    rw [XF.log_fin (Real.exp_pos _), Real.log_exp]
  rw [if_neg, if_pos] at h1
  · have := congrFun h1 0
    norm_num [flatSys, walkDraws] at this
  · rw [hlog]
    show ((-1 : ℝ) < (0 + -0) + (0 + -0))
    norm_num
  · rw [hlog]
    show ¬ ((-1 : ℝ) < (_ + -_) + (0 + -0) + (0 + -0))
    simp [flatSys, walkDraws, Spec.logNormal]
    norm_num

end Verif.Props
