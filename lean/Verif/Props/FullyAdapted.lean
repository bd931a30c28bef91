import Verif.Lemmas.KernelProposal
import Verif.Props.Particle
import Verif.Props.Proposals

/-!
# C118: the auxiliary particle filter with the optimal proposal
-/

namespace Verif.Props

open Verif Verif.Spec XF Matrix Unbiased

variable {N B d m : ℕ} {Ω : Type}

/-- The log-density of the kernel that is drawn from. -/
theorem kernel_logProb {L : LinearModel d m} (hs : ∀ j, 0 < L.s j) {x : Fin d → ℝ} (hpos : ∀ e, 0 < (L.meanScale x).2 e)
    {chol : Matrix (Fin d) (Fin d) ℝ → Matrix (Fin d) (Fin d) ℝ} (hchol : IsCholesky chol) (is1d : Bool) (y : Fin m → ℝ)
    (x' : Fin d → ℝ) : (L.kernel chol is1d y x).logProb x' = L.kernelLogProb is1d y x x' := by
  have hpd := linear_posDef hs hpos
  unfold LinearModel.kernel LinearModel.kernelLogProb optimalKernel optimalLogProb GaussKernel.logProb
  dsimp only
  split
  · rw [mvnLogProb_eq]
    exact diag_logProb _ _ _ fun e => Real.sqrt_pos.2 hpd.diag_pos
  · dsimp only
    rw [hchol.factor _ hpd]

/-- The importance weight that the filter gets, whatever the random numbers. -/
theorem linear_sampled (lo threshold : ℝ)
    (resampler : {b : ℕ} → (Fin N → Fin b → XF) → Bool → Ω → (Fin N → Fin b → Fin N) × Ω)
    (noise : Ω → (ℕ × ℕ → Fin d → ℝ) × Ω) (L : Fin B → LinearModel d m) (hs : ∀ b j, 0 < (L b).s j)
    (meanScale : Fin B → ℕ → (Fin d → ℝ) → (Fin d → ℝ) × (Fin d → ℝ)) (hpos : ∀ b t x e, 0 < (meanScale b t x).2 e)
    (chol : Matrix (Fin d) (Fin d) ℝ → Matrix (Fin d) (Fin d) ℝ) (hchol : IsCholesky chol) (hiddenIs1d : Bool)
    (hn : hiddenIs1d = true → d = 1)
    (preWeight : (Fin m → ℝ) → TS N B d ℝ → Fin N → Fin B → XF) (missing : (Fin m → ℝ) → Bool) (y : Fin m → ℝ)
    (p : PPred N B d ℝ) (ω : Ω) (i : Fin N) (b : Fin B) :
    ((linearModelFilter lo threshold resampler noise L meanScale chol hiddenIs1d preWeight missing).sampleAndWeight
      y p ω).1.2 i b = fin (logPredictive (meanScale b p.prevX.time (p.prevX.value i b)).1
        (meanScale b p.prevX.time (p.prevX.value i b)).2 (L b).a (L b).b (L b).s y) := by
  set L' := (L b).atTime (meanScale b) p.prevX.time with hL
  set x := p.prevX.value i b with hx
  set x' := (L'.kernel chol hiddenIs1d y x).sample ((noise ω).1 (i, b)) with hx'
  show fin (L'.obsLogProb x' y) + fin (L'.transLogProb x x') - fin ((L'.kernel chol hiddenIs1d y x).logProb x') = _
  rw [kernel_logProb (L := L') (hs b) (hpos b _ x) hchol, fin_add, fin_sub]
  have := (C41_weight_is_predictive L' hiddenIs1d hn y x x' (hs b) (hpos b _ x)).1
  unfold LinearModel.linearWeight at this
  rw [this]
  rfl

/-- The APF with `LinearGaussianObservations`. -/
noncomputable def adaptedFilter (lo threshold : ℝ)
    (resampler : {b : ℕ} → (Fin N → Fin b → XF) → Bool → Ω → (Fin N → Fin b → Fin N) × Ω)
    (noise : Ω → (ℕ × ℕ → Fin d → ℝ) × Ω) (L : Fin B → LinearModel d m)
    (meanScale : Fin B → ℕ → (Fin d → ℝ) → (Fin d → ℝ) × (Fin d → ℝ))
    (chol : Matrix (Fin d) (Fin d) ℝ → Matrix (Fin d) (Fin d) ℝ) (hiddenIs1d obsIs1d : Bool)
    (missing : (Fin m → ℝ) → Bool) : FilterOps (PCorr N B d ℝ) (PPred N B d ℝ) (Fin m → ℝ) Ω :=
  FilterKind.apf.ops (linearModelFilter lo threshold resampler noise L meanScale chol hiddenIs1d
    (linearPreWeights L meanScale obsIs1d) missing)

/-- The claim: the filter is fully adapted, that is after an observation all particles have the same weight. -/
def C118_claim (lo : ℝ) : Prop :=
  ∀ (N B d m : ℕ) (Ω : Type) (threshold : ℝ)
    (resampler : {b : ℕ} → (Fin N → Fin b → XF) → Bool → Ω → (Fin N → Fin b → Fin N) × Ω)
    (noise : Ω → (ℕ × ℕ → Fin d → ℝ) × Ω) (L : Fin B → LinearModel d m)
    (meanScale : Fin B → ℕ → (Fin d → ℝ) → (Fin d → ℝ) × (Fin d → ℝ))
    (chol : Matrix (Fin d) (Fin d) ℝ → Matrix (Fin d) (Fin d) ℝ) (hiddenIs1d obsIs1d : Bool)
    (missing : (Fin m → ℝ) → Bool) (s : PCorr N B d ℝ) (y : Fin m → ℝ) (ω ω' : Ω),
    (∀ b j, 0 < (L b).s j) → (∀ b t x e, 0 < (meanScale b t x).2 e) → IsCholesky chol →
    (hiddenIs1d = true → d = 1) → (obsIs1d = true → m = 1 ∧ d = 1) → (∀ i b, Usable (s.w i b)) →
    let F := adaptedFilter lo threshold resampler noise L meanScale chol hiddenIs1d obsIs1d missing
    ∀ i j b, (F.correct y (F.predict s ω).1 ω').1.w i b = (F.correct y (F.predict s ω).1 ω').1.w j b

/-- **C118**, what holds: for latent processes whose next mean is the present value (random walks with any scale), after an
observation all particles have the same weight, and the log-likelihood of the step is the logarithm of the weighted
predictive density, whatever the random numbers of the step. Missing: other latent processes, for which it is false. -/
theorem C118_random_walk_partial (hN : 0 < N) (lo threshold : ℝ)
    (resampler : {b : ℕ} → (Fin N → Fin b → XF) → Bool → Ω → (Fin N → Fin b → Fin N) × Ω)
    (noise : Ω → (ℕ × ℕ → Fin d → ℝ) × Ω) (L : Fin B → LinearModel d m) (hs : ∀ b j, 0 < (L b).s j)
    (meanScale : Fin B → ℕ → (Fin d → ℝ) → (Fin d → ℝ) × (Fin d → ℝ)) (hpos : ∀ b t x e, 0 < (meanScale b t x).2 e)
    (hwalk : ∀ b t x, (meanScale b t x).1 = x)
    (chol : Matrix (Fin d) (Fin d) ℝ → Matrix (Fin d) (Fin d) ℝ) (hchol : IsCholesky chol) (hiddenIs1d obsIs1d : Bool)
    (hn : hiddenIs1d = true → d = 1) (hm : obsIs1d = true → m = 1 ∧ d = 1) (missing : (Fin m → ℝ) → Bool)
    (s : PCorr N B d ℝ) (hw : ∀ i b, Usable (s.w i b)) (y : Fin m → ℝ) (ω ω' : Ω) :
    let F := adaptedFilter lo threshold resampler noise L meanScale chol hiddenIs1d obsIs1d missing
    let c := (F.correct y (F.predict s ω).1 ω').1
    (∀ i b, c.w i b = fin 0) ∧ (∀ i b, (normalize2 lo c.w).2 i b = fin (1 / (N : ℝ))) ∧
    ∀ b, c.ll b = fin (Real.log (∑ i, colProb lo s.w b i *
      Real.exp (logPredictive (s.x.value i b) (meanScale b s.x.time (s.x.value i b)).2 (L b).a (L b).b (L b).s y))) := by
  intro F c
  set M := linearModelFilter lo threshold resampler noise L meanScale chol hiddenIs1d
    (linearPreWeights (N := N) L meanScale obsIs1d) missing with hM
  set p := (M.apfPredict s ω).1 with hp
  have hc : c = (M.apfCorrect y p ω').1 := rfl
  obtain ⟨h1, h2, h3⟩ := C29_apf_update M s ω ω' y hN hw p hp
    (M.resampler (fun i b => M.preWeight y p.prevX i b + p.w i b) false ω').1
    (M.resampler (fun i b => M.preWeight y p.prevX i b + p.w i b) false ω').2 rfl _ rfl
  set idx := (M.resampler (fun i b => M.preWeight y p.prevX i b + p.w i b) false ω').1 with hidx
  have hpre : ∀ i b, M.preWeight y s.x i b = fin (logPredictive (s.x.value i b)
      (meanScale b s.x.time (s.x.value i b)).2 (L b).a (L b).b (L b).s y) := by
    intro i b
    show linearPreWeights L meanScale obsIs1d y s.x i b = _
    have := C42_random_walk_partial ((L b).atTime (meanScale b) s.x.time) obsIs1d y (s.x.value i b) hm (hs b)
      (hpos b _ _) (hwalk b _ _)
    unfold linearPreWeights
    rw [this]
    show fin (logPredictive (meanScale b s.x.time (s.x.value i b)).1 _ _ _ _ _) = _
    rw [hwalk]
    rfl
  have hv : ∀ i b, (M.sampleAndWeight y ⟨⟨fun i b => s.x.value (idx i b) b, s.x.time⟩, fun _ _ => fin 0,
      fun _ _ => fin (1 / (N : ℝ)), idx⟩
      (M.resampler (fun i b => M.preWeight y p.prevX i b + p.w i b) false ω').2).1.2 i b
        = fin (logPredictive (s.x.value (idx i b) b) (meanScale b s.x.time (s.x.value (idx i b) b)).2 (L b).a (L b).b
          (L b).s y) := by
    intro i b
    rw [hM, linear_sampled lo threshold resampler noise L hs meanScale hpos chol hchol hiddenIs1d hn, hwalk]
  have hw0 : ∀ i b, c.w i b = fin 0 := by
    intro i b
    rw [hc, h2 i b _ _ (hv i b) (hpre (idx i b) b), sub_self]
  have hN' : (0 : ℝ) < N := by exact_mod_cast hN
  refine ⟨hw0, fun i b => ?_, fun b => ?_⟩
  · rw [normalize2_usable lo c.w b ⟨i, by rw [hw0]; simp [Usable]⟩ i]
    unfold colProb
    simp only [hw0]
    rw [Finset.sum_const, Finset.card_univ, Fintype.card_fin, nsmul_eq_mul]
    have : mass lo (fin 0) ≠ 0 := (mass_pos (lo := lo) (by simp [Usable])).ne'
    congr 1
    field_simp
  · rw [hc, h3 b _ _ (fun i => hv i b) (fun i => hpre i b)]
    simp only [sub_self, Real.exp_zero, Finset.sum_const, Finset.card_univ, Fintype.card_fin, nsmul_eq_mul, mul_one]
    rw [one_div, inv_mul_cancel₀ hN'.ne', Real.log_one, zero_add]
    rfl

/-- C118: with the sequential filter in place of the auxiliary one, the importance weight of a particle is the predictive
density given its ancestor, for every latent process and whatever the random numbers. -/
theorem C118_sisr_partial (lo threshold : ℝ)
    (resampler : {b : ℕ} → (Fin N → Fin b → XF) → Bool → Ω → (Fin N → Fin b → Fin N) × Ω)
    (noise : Ω → (ℕ × ℕ → Fin d → ℝ) × Ω) (L : Fin B → LinearModel d m) (hs : ∀ b j, 0 < (L b).s j)
    (meanScale : Fin B → ℕ → (Fin d → ℝ) → (Fin d → ℝ) × (Fin d → ℝ)) (hpos : ∀ b t x e, 0 < (meanScale b t x).2 e)
    (chol : Matrix (Fin d) (Fin d) ℝ → Matrix (Fin d) (Fin d) ℝ) (hchol : IsCholesky chol) (hiddenIs1d : Bool)
    (hn : hiddenIs1d = true → d = 1)
    (preWeight : (Fin m → ℝ) → TS N B d ℝ → Fin N → Fin B → XF) (missing : (Fin m → ℝ) → Bool)
    (p : PPred N B d ℝ) (y : Fin m → ℝ) (ω ω' : Ω) :
    let F := FilterKind.sisr.ops (linearModelFilter lo threshold resampler noise L meanScale chol hiddenIs1d preWeight
      missing)
    (F.correct y p ω).1.w = (F.correct y p ω').1.w ∧ (F.correct y p ω).1.ll = (F.correct y p ω').1.ll ∧
    ∀ i b r, p.w i b = fin r → (F.correct y p ω).1.w i b = fin (r + logPredictive
      (meanScale b p.prevX.time (p.prevX.value i b)).1 (meanScale b p.prevX.time (p.prevX.value i b)).2 (L b).a (L b).b
      (L b).s y) := by
  intro F
  set M := linearModelFilter lo threshold resampler noise L meanScale chol hiddenIs1d preWeight missing with hM
  have hv := fun ω i b => linear_sampled lo threshold resampler noise L hs meanScale hpos chol hchol hiddenIs1d hn
    preWeight missing y p ω i b
  have e : ∀ ω, (M.sampleAndWeight y p ω).1.2 = fun i b => fin (logPredictive
      (meanScale b p.prevX.time (p.prevX.value i b)).1 (meanScale b p.prevX.time (p.prevX.value i b)).2 (L b).a (L b).b
      (L b).s y) := fun ω => funext fun i => funext fun b => hv ω i b
  have hw : ∀ ω, (F.correct y p ω).1.w = fun i b => nanToNum lo ((M.sampleAndWeight y p ω).1.2 i b + p.w i b) :=
    fun ω => rfl
  have hl : ∀ ω, (F.correct y p ω).1.ll = logLikelihood (M.sampleAndWeight y p ω).1.2 (some p.nw) := fun ω => rfl
  refine ⟨by rw [hw, hw, e, e], by rw [hl, hl, e, e], fun i b r hr => ?_⟩
  rw [hw, e]
  dsimp only
  rw [hr, fin_add, add_comm]
  rfl

/-- C118: the log-weights of the code for any latent process: predictive density given the ancestor, minus the one that
takes the ancestor itself for the mean of the next state. -/
theorem C118_weights (hN : 0 < N) (lo threshold : ℝ)
    (resampler : {b : ℕ} → (Fin N → Fin b → XF) → Bool → Ω → (Fin N → Fin b → Fin N) × Ω)
    (noise : Ω → (ℕ × ℕ → Fin d → ℝ) × Ω) (L : Fin B → LinearModel d m) (hs : ∀ b j, 0 < (L b).s j)
    (meanScale : Fin B → ℕ → (Fin d → ℝ) → (Fin d → ℝ) × (Fin d → ℝ)) (hpos : ∀ b t x e, 0 < (meanScale b t x).2 e)
    (chol : Matrix (Fin d) (Fin d) ℝ → Matrix (Fin d) (Fin d) ℝ) (hchol : IsCholesky chol) (hiddenIs1d : Bool)
    (hn : hiddenIs1d = true → d = 1) (missing : (Fin m → ℝ) → Bool)
    (s : PCorr N B d ℝ) (hw : ∀ i b, Usable (s.w i b)) (y : Fin m → ℝ) (ω ω' : Ω) (i : Fin N) (b : Fin B) :
    let F := adaptedFilter lo threshold resampler noise L meanScale chol hiddenIs1d false missing
    let c := (F.correct y (F.predict s ω).1 ω').1
    let x := s.x.value (c.prev i b) b
    c.w i b = fin (logPredictive (meanScale b s.x.time x).1 (meanScale b s.x.time x).2 (L b).a (L b).b (L b).s y
      - logPredictive x (meanScale b s.x.time x).2 (L b).a (L b).b (L b).s y) := by
  intro F c
  set M := linearModelFilter lo threshold resampler noise L meanScale chol hiddenIs1d
    (linearPreWeights (N := N) L meanScale false) missing with hM
  set p := (M.apfPredict s ω).1 with hp
  have hc : c = (M.apfCorrect y p ω').1 := rfl
  obtain ⟨h1, h2, -⟩ := C29_apf_update M s ω ω' y hN hw p hp
    (M.resampler (fun i b => M.preWeight y p.prevX i b + p.w i b) false ω').1
    (M.resampler (fun i b => M.preWeight y p.prevX i b + p.w i b) false ω').2 rfl _ rfl
  set idx := (M.resampler (fun i b => M.preWeight y p.prevX i b + p.w i b) false ω').1 with hidx
  have hpre : ∀ i b, M.preWeight y s.x i b = fin (logPredictive (s.x.value i b)
      (meanScale b s.x.time (s.x.value i b)).2 (L b).a (L b).b (L b).s y) := by
    intro i b
    show linearPreWeights L meanScale false y s.x i b = _
    unfold linearPreWeights
    rw [C42_uses_previous_state]
    rfl
  have hv := linear_sampled lo threshold resampler noise L hs meanScale hpos chol hchol hiddenIs1d hn
    (linearPreWeights (N := N) L meanScale false) missing y ⟨⟨fun i b => s.x.value (idx i b) b, s.x.time⟩, fun _ _ => fin 0,
      fun _ _ => fin (1 / (N : ℝ)), idx⟩ (M.resampler (fun i b => M.preWeight y p.prevX i b + p.w i b) false ω').2 i b
  have hprev : c.prev i b = idx i b := by rw [hc, h1]
  rw [hprev, hc]
  exact h2 i b _ _ hv (hpre (idx i b) b)

/-- The square root in one dimension. -/
noncomputable def chol1 (A : Matrix (Fin 1) (Fin 1) ℝ) : Matrix (Fin 1) (Fin 1) ℝ := Matrix.of fun _ _ => Real.sqrt (A 0 0)

theorem chol1_isCholesky : IsCholesky chol1 where
  factor A hA := by
    ext i j
    obtain rfl : i = 0 := Subsingleton.elim _ _
    obtain rfl : j = 0 := Subsingleton.elim _ _
    simp [chol1, Matrix.mul_apply, Real.mul_self_sqrt hA.diag_pos.le]
  measurable i j := by
    unfold chol1
    fun_prop

/-- Two particles, at 0 and 2, with equal weights. -/
noncomputable def twoParticles : PCorr 2 1 1 ℝ := initializeFilter (-100) fun i _ _ => if i = 0 then 0 else 2

theorem logPredictive_scalar (μ : Fin 1 → ℝ) (y : Fin 1 → ℝ) :
    logPredictive μ (fun _ => 1) (Matrix.of fun _ _ => 1 : Matrix (Fin 1) (Fin 1) ℝ) (fun _ => 0) (fun _ => 1) y
      = logPredictive (fun _ => 0) (fun _ => 1) (Matrix.of fun _ _ => 1 : Matrix (Fin 1) (Fin 1) ℝ) (fun _ => 0)
        (fun _ => 1) (fun _ => 0) - (y 0 - μ 0) ^ 2 / 4 := by
  have hcov : ((diagonal (fun _ => (1 : ℝ) ^ 2) + (Matrix.of fun _ _ => 1 : Matrix (Fin 1) (Fin 1) ℝ) *
      diagonal (fun _ => (1 : ℝ) ^ 2) * (Matrix.of fun _ _ => 1 : Matrix (Fin 1) (Fin 1) ℝ)ᵀ)
      : Matrix (Fin 1) (Fin 1) ℝ) = diagonal fun _ => 2 := by
    ext i j
    obtain rfl : i = 0 := Subsingleton.elim _ _
    obtain rfl : j = 0 := Subsingleton.elim _ _
    simp [Matrix.mul_apply]
    norm_num
  have hinv : (diagonal (fun _ => 2) : Matrix (Fin 1) (Fin 1) ℝ)⁻¹ = diagonal fun _ => (2 : ℝ)⁻¹ :=
    inv_diag fun _ => by norm_num
  unfold logPredictive logNormalVec
  rw [hcov, hinv]
  simp [dotProduct, mulVec_diagonal, mulVec]
  ring

/-- C118: the claim is false, for `x' = x/2 + u`, `y = x' + v`. -/
theorem C118_negation : ¬ C118_claim (-100) := by
  intro h
  have hs : ∀ (b : Fin 1) j, 0 < ((fun _ => halfModel : Fin 1 → LinearModel 1 1) b).s j := fun b j => by simp [halfModel]
  have hpos : ∀ (b : Fin 1) (t : ℕ) x e, 0 < ((fun _ _ => halfModel.meanScale :
      Fin 1 → ℕ → (Fin 1 → ℝ) → (Fin 1 → ℝ) × (Fin 1 → ℝ)) b t x).2 e := fun b t x e => by simp [halfModel]
  have hw : ∀ i b, Usable (twoParticles.w i b) := fun i b => by
    show Usable (nanToNum (-100) (fin 0))
    simp [nanToNum, Usable]
  have h1 := h 2 1 1 1 Unit 0 (fun _ _ ω => (fun i _ => i, ω)) (fun ω => (fun _ _ => 0, ω)) (fun _ => halfModel)
    (fun _ _ => halfModel.meanScale) chol1 true false (fun _ => false) twoParticles (fun _ => 1) () () hs hpos
    chol1_isCholesky (fun _ => rfl) (fun h => nomatch h) hw 0 1 0
  have h2 := fun i => C118_weights (N := 2) (by norm_num) (-100) 0 (fun _ _ ω => (fun i _ => i, ω))
    (fun ω => (fun _ _ => 0, ω)) (fun _ => halfModel) hs (fun _ _ => halfModel.meanScale) hpos chol1 chol1_isCholesky true
    (fun _ => rfl) (fun _ => false) twoParticles hw (fun _ => 1) () () i 0
  dsimp only at h1 h2
  rw [h2 0, h2 1, fin.injEq] at h1
  have e : ∀ i : Fin 2, logPredictive (halfModel.meanScale (twoParticles.x.value i 0)).1
      (halfModel.meanScale (twoParticles.x.value i 0)).2 halfModel.a halfModel.b halfModel.s (fun _ => 1)
      - logPredictive (twoParticles.x.value i 0) (halfModel.meanScale (twoParticles.x.value i 0)).2 halfModel.a halfModel.b
        halfModel.s (fun _ => 1) = (1 - twoParticles.x.value i 0 0) ^ 2 / 4 - (1 - twoParticles.x.value i 0 0 / 2) ^ 2 / 4 := by
    intro i
    have e1 := logPredictive_scalar (fun _ => twoParticles.x.value i 0 0 / 2) (fun _ => 1)
    have e2 := logPredictive_scalar (twoParticles.x.value i 0) (fun _ => 1)
    show logPredictive (fun _ => twoParticles.x.value i 0 0 / 2) (fun _ => 1) (Matrix.of fun _ _ => 1) (fun _ => 0)
      (fun _ => 1) (fun _ => 1) - logPredictive (twoParticles.x.value i 0) (fun _ => 1) (Matrix.of fun _ _ => 1) (fun _ => 0)
      (fun _ => 1) (fun _ => 1) = _
    rw [e1, e2]
    ring
  have h3 : (1 - twoParticles.x.value 0 0 0) ^ 2 / 4 - (1 - twoParticles.x.value 0 0 0 / 2) ^ 2 / 4
      = (1 - twoParticles.x.value 1 0 0) ^ 2 / 4 - (1 - twoParticles.x.value 1 0 0 / 2) ^ 2 / 4 := by
    rw [← e 0, ← e 1]
    exact h1
  have v0 : twoParticles.x.value 0 0 0 = 0 := rfl
  have v1 : twoParticles.x.value 1 0 0 = 2 := rfl
  rw [v0, v1] at h3
  norm_num at h3

/-- A random walk with noise that depends on state and time. -/
example : (∀ (b : Fin 2) (t : ℕ) (x : Fin 1 → ℝ), ((fun _ t x => (x, fun _ => 1 + t + x 0 ^ 2) :
      Fin 2 → ℕ → (Fin 1 → ℝ) → (Fin 1 → ℝ) × (Fin 1 → ℝ)) b t x).1 = x) ∧
    (∀ (b : Fin 2) (t : ℕ) (x : Fin 1 → ℝ) (e : Fin 1), 0 < ((fun _ t x => (x, fun _ => 1 + t + x 0 ^ 2) :
      Fin 2 → ℕ → (Fin 1 → ℝ) → (Fin 1 → ℝ) × (Fin 1 → ℝ)) b t x).2 e) ∧ (∀ j, 0 < walkModel.s j) ∧ IsCholesky chol1 := by
  refine ⟨fun _ _ _ => rfl, fun _ t x _ => ?_, fun j => ?_, chol1_isCholesky⟩
  · show (0 : ℝ) < 1 + t + x 0 ^ 2
    positivity
  · fin_cases j
    simp [walkModel]

end Verif.Props
